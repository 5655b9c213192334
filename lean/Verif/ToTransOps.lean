import Verif.ToTrans
import Verif.SasActs

/-! # The operators of the translation as variable/value pairs -/

namespace Verif.Sas

open Verif.Htn

/-! ## Operators -/

theorem mkOp_res (p a : List (Nat × Nat)) (c : Nat) (σ : Val) : (mkOp p a c).res σ = assign σ a := by
  simp only [SOp.res, mkOp, assign, List.foldl_map]

theorem mkOp_app_of {p a : List (Nat × Nat)} {c : Nat} {σ : Val} (h : Holds σ p) : (mkOp p a c).App σ := by
  refine ⟨fun q hq => h q (List.mem_filter.1 hq).1, fun e he v hv => ?_⟩
  obtain ⟨q, hq, rfl⟩ := List.mem_map.1 he
  simp only [Option.map_eq_some_iff] at hv
  obtain ⟨x, hx, rfl⟩ := hv
  have := List.mem_filter.1 (List.mem_of_getLast? hx)
  have hh := h x this.1
  simp only [beq_iff_eq] at this
  simpa [← this.2] using hh

theorem mkOp_app_iff {p a : List (Nat × Nat)} {c : Nat} {σ : Val} (hf : ∀ x ∈ p, ∀ y ∈ p, x.1 = y.1 → x.2 = y.2) :
    (mkOp p a c).App σ ↔ Holds σ p := by
  refine ⟨fun h x hx => ?_, mkOp_app_of⟩
  by_cases hm : ∃ q ∈ a, q.1 = x.1
  · obtain ⟨q, hq, hqx⟩ := hm
    have hx' : x ∈ p.filter fun p => p.1 == q.1 := List.mem_filter.2 ⟨hx, by simp [hqx]⟩
    obtain ⟨y, hy⟩ := List.getLast?_eq_some_iff.1 (List.getLast?_eq_some_getLast (List.ne_nil_of_mem hx'))
    have hl := List.getLast?_eq_some_getLast (List.ne_nil_of_mem hx')
    set z := (p.filter fun p => p.1 == q.1).getLast (List.ne_nil_of_mem hx') with hz
    have hzm := List.mem_filter.1 (List.mem_of_getLast? hl)
    simp only [beq_iff_eq] at hzm
    have := h.2 _ (List.mem_map_of_mem (f := fun q : Nat × Nat =>
      (q.1, ((p.filter fun p => p.1 == q.1).getLast?).map Prod.snd, q.2)) hq) z.2 (by simp [hl])
    simp only at this
    rw [← hqx, this]
    exact hf z hzm.1 x hx (by rw [hzm.2, hqx])
  · refine h.1 x (List.mem_filter.2 ⟨hx, ?_⟩)
    simp only [Bool.not_eq_true', List.any_eq_false, beq_iff_eq]
    exact fun q hq e => hm ⟨q, hq, e⟩

/-! ## The variables of the translation -/

theorem contig_append {b n m : Nat} {l r : List (Nat × Nat)} (hl : Contig b l n) (hr : Contig n r m) : Contig b (l ++ r) m := by
  induction l generalizing b with
  | nil =>
    have hl : b = n := hl
    subst hl
    exact hr
  | cons v l ih => exact ⟨hl.1, hl.2.1, ih hl.2.2⟩

theorem contig_last {b n : Nat} {l : List (Nat × Nat)} (h : Contig b l n) (hne : l ≠ []) :
    (l.getLast?.map fun v => v.2 + 1).getD 0 = n := by
  induction l generalizing b with
  | nil => exact absurd rfl hne
  | cons v r ih =>
    cases r with
    | nil => exact h.2.2
    | cons w r =>
      have := ih h.2.2 (by simp)
      simpa using this

theorem slotVars_contig (nT : Nat) : ∀ n b, Contig b (slotVars nT n b) (b + n * (nT + 1)) := by
  intro n
  induction n with
  | zero => intro b; simp [slotVars, Contig]
  | succ n ih =>
    intro b
    refine ⟨rfl, by omega, ?_⟩
    have := ih (b + nT + 1)
    rwa [show b + nT + 1 + n * (nT + 1) = b + (n + 1) * (nT + 1) from by rw [Nat.succ_mul]; omega] at this

theorem slotVars_get (nT : Nat) : ∀ n b j, j < n → ∃ f, (slotVars nT n b)[j]? = some (f, f + nT) := by
  intro n
  induction n with
  | zero => intro b j h; omega
  | succ n ih =>
    intro b j h
    cases j with
    | zero => exact ⟨b, rfl⟩
    | succ j =>
      obtain ⟨f, hf⟩ := ih (b + nT + 1) j (by omega)
      exact ⟨f, by simpa [slotVars] using hf⟩

theorem slotVars_length (nT : Nat) : ∀ n b, (slotVars nT n b).length = n := by
  intro n
  induction n with
  | zero => intro b; rfl
  | succ n ih => intro b; simp [slotVars, ih]

section W

variable {S : SasP} {nT pgb : Nat}

theorem W_contig (hne : S.vars ≠ []) {n : Nat} (h : Contig 0 S.vars n) : ∃ m, Contig 0 (transVars S nT pgb) m := by
  refine ⟨n + pgb + 1 + pgb * (nT + 1), contig_append h ?_⟩
  rw [contig_last h hne]
  exact ⟨rfl, by omega, slotVars_contig nT pgb _⟩

theorem W_vars {i : Nat} (hi : i < S.vars.length) : (transVars S nT pgb)[i]? = S.vars[i]? := by
  rw [transVars, List.getElem?_append_left hi]

theorem W_head : ∃ f, (transVars S nT pgb)[S.vars.length]? = some (f, f + pgb) := by
  rw [transVars, List.getElem?_append_right (le_refl _)]
  simp

theorem W_slot {j : Nat} (hj : j < pgb) : ∃ f, (transVars S nT pgb)[S.vars.length + 1 + j]? = some (f, f + nT) := by
  rw [transVars, List.getElem?_append_right (by omega), show S.vars.length + 1 + j - S.vars.length = j + 1 from by omega,
    List.getElem?_cons_succ]
  exact slotVars_get nT pgb _ j hj

theorem W_length : (transVars S nT pgb).length = S.vars.length + 1 + pgb := by
  simp [transVars, slotVars_length]
  omega

theorem conv_W (hne : S.vars ≠ []) {n : Nat} (h : Contig 0 S.vars n) {b : Nat} {p : Nat × Nat} (hb : conv S.vars b = some p) :
    conv (transVars S nT pgb) b = some p := by
  obtain ⟨m, hm⟩ := W_contig (nT := nT) (pgb := pgb) hne h
  obtain ⟨i, v⟩ := p
  obtain ⟨f, l, h1, h2, h3, h4⟩ := conv_some hb
  have hi : i < S.vars.length := (List.getElem?_eq_some_iff.1 h1).1
  rw [conv_eq hm (by rw [W_vars hi]; exact h1) h2 h3]
  congr 2
  omega

theorem conv_bitOf {W : List (Nat × Nat)} {m : Nat} (hm : Contig 0 W m) {i v f l : Nat} (hi : W[i]? = some (f, l)) (hv : v ≤ l - f) :
    conv W (bitOf W i v) = some (i, v) := by
  have hfl := hm.get hi
  have : bitOf W i v = f + v := by simp [bitOf, hi]
  rw [this, conv_eq hm hi (by omega) (by omega)]
  congr 2
  omega

theorem conv_head (hne : S.vars ≠ []) {n : Nat} (h : Contig 0 S.vars n) {v : Nat} (hv : v ≤ pgb) :
    conv (transVars S nT pgb) (bitOf (transVars S nT pgb) S.vars.length v) = some (S.vars.length, v) := by
  obtain ⟨m, hm⟩ := W_contig (nT := nT) (pgb := pgb) hne h
  obtain ⟨f, hf⟩ := W_head (S := S) (nT := nT) (pgb := pgb)
  exact conv_bitOf hm hf (by omega)

theorem conv_slot (hne : S.vars ≠ []) {n : Nat} (h : Contig 0 S.vars n) {j v : Nat} (hj : j < pgb) (hv : v ≤ nT) :
    conv (transVars S nT pgb) (bitOf (transVars S nT pgb) (S.vars.length + 1 + j) v) = some (S.vars.length + 1 + j, v) := by
  obtain ⟨m, hm⟩ := W_contig (nT := nT) (pgb := pgb) hne h
  obtain ⟨f, hf⟩ := W_slot (S := S) (nT := nT) hj
  exact conv_bitOf hm hf (by omega)

end W

theorem mapM_some {α β : Type} {f : α → Option β} {l : List α} {r : List β} (h : l.map f = r.map some) : l.mapM f = some r := by
  induction l generalizing r with
  | nil =>
    cases r with
    | nil => rfl
    | cons y r => simp at h
  | cons x l ih =>
    cases r with
    | nil => simp at h
    | cons y r =>
      simp only [List.map_cons, List.cons.injEq] at h
      simp [h.1, ih h.2]

theorem map_W {S : SasP} {nT pgb : Nat} (hne : S.vars ≠ []) {n : Nat} (h : Contig 0 S.vars n) {l : List Nat}
    {r : List (Nat × Nat)} (hl : l.map (conv S.vars) = r.map some) :
    l.map (conv (transVars S nT pgb)) = r.map some := by
  induction l generalizing r with
  | nil =>
    cases r with
    | nil => rfl
    | cons y r => simp at hl
  | cons x l ih =>
    cases r with
    | nil => simp at hl
    | cons y r =>
      simp only [List.map_cons, List.cons.injEq] at hl ⊢
      exact ⟨conv_W hne h hl.1, ih hl.2⟩

theorem writeOp_eq {W : List (Nat × Nat)} {p a : List Nat} {c : Nat} {p' a' : List (Nat × Nat)} (hp : p.map (conv W) = p'.map some)
    (ha : a.map (conv W) = a'.map some) : writeOp W p a c = some (mkOp p' a' c) := by
  rw [writeOp, mapM_some hp, mapM_some ha]

/-! ## The operators of actions and methods -/

/-- The effects of a method on the stack, as variable/value pairs; `rest` are the remaining subtasks, the first one that is
executed last. -/
def stackEff (h j : Nat) (rest : List Nat) : List (Nat × Nat) :=
  match rest with
  | [] => [(h, j), (h + 1 + j, 0)]
  | [t] => [(h + 1 + j, 1 + t)]
  | _ => ((List.range rest.length).map fun x => (h + 1 + j + x, 1 + rest[x]?.getD 0)) ++ [(h, j + rest.length)]

theorem actOp_eq {P : Problem} {vars : List (Nat × Nat)} {S : SasP} (hS : SPok P vars S) (hne : S.vars ≠ []) {nT pgb a j : Nat}
    (hj : j < pgb) (ha : a < nT) :
    actOp P S (transVars S nT pgb) a j = some (.prim a j,
      mkOp (precV vars P a ++ [(S.vars.length + 1 + j, 1 + a), (S.vars.length, 1 + j)])
        (addV vars P a ++ [(S.vars.length + 1 + j, 0), (S.vars.length, j)]) (P.cost a)) := by
  obtain ⟨n, hn⟩ := hS.contig
  rw [actOp, writeOp_eq (p' := precV vars P a ++ [(S.vars.length + 1 + j, 1 + a), (S.vars.length, 1 + j)])
    (a' := addV vars P a ++ [(S.vars.length + 1 + j, 0), (S.vars.length, j)])]
  · rfl
  · simp only [actBits, List.map_append, map_W hne hn (hS.prec a), List.map_cons, List.map_nil,
      conv_slot hne hn hj (show 1 + a ≤ nT by omega), conv_head hne hn (show 1 + j ≤ pgb by omega)]
  · simp only [actBits, List.map_append, map_W hne hn (hS.add a), List.map_cons, List.map_nil,
      conv_slot hne hn hj (Nat.zero_le nT), conv_head hne hn (show j ≤ pgb by omega)]

theorem methBits_eq {P : Problem} {vars : List (Nat × Nat)} {S : SasP} (hS : SPok P vars S) (hne : S.vars ≠ []) {nT pgb t j n : Nat}
    {r : Reo} (hj : j < pgb) (ht : t < nT) (ho : r.order.length = n) (hr : ∀ x ∈ r.order, x < nT) (hfit : n - r.first + j ≤ pgb) :
    ((methBits S (transVars S nT pgb) r t n j).1.map (conv (transVars S nT pgb)) =
      [(S.vars.length, 1 + j), (S.vars.length + 1 + j, t + 1)].map some) ∧
    (methBits S (transVars S nT pgb) r t n j).2.map (conv (transVars S nT pgb)) =
      (stackEff S.vars.length j (r.order.take (n - r.first))).map some := by
  obtain ⟨n', hn⟩ := hS.contig
  constructor
  · simp only [methBits, List.map_cons, List.map_nil, conv_slot hne hn hj (show t + 1 ≤ nT by omega),
      conv_head hne hn (show 1 + j ≤ pgb by omega)]
  · simp only [methBits]
    have hlen : (r.order.take (n - r.first)).length = n - r.first := by
      rw [List.length_take]; omega
    split
    · rename_i h0
      rw [h0, List.take_zero]
      simp only [stackEff, List.map_cons, List.map_nil, conv_slot hne hn hj (Nat.zero_le nT),
        conv_head hne hn (show j ≤ pgb by omega)]
    · rename_i h1
      rw [h1]
      rw [h1] at hlen
      cases ho' : r.order with
      | nil => simp [ho'] at hlen
      | cons x l =>
        have hx := hr x (by simp [ho'])
        simp only [List.take_succ_cons, List.take_zero, stackEff, List.map_cons, List.map_nil, List.getElem?_cons_zero,
          Option.getD_some, conv_slot hne hn hj (show 1 + x ≤ nT by omega)]
    · rename_i k hk
      rw [hk] at hlen hfit
      rw [hk]
      have hse : stackEff S.vars.length j (r.order.take (k + 2)) =
          ((List.range (k + 2)).map fun x => (S.vars.length + 1 + j + x, 1 + (r.order.take (k + 2))[x]?.getD 0)) ++
            [(S.vars.length, j + (k + 2))] := by
        match hm : r.order.take (k + 2) with
        | [] => simp [hm] at hlen
        | [_] => simp [hm] at hlen
        | x :: y :: l =>
          rw [hm] at hlen
          simp only [stackEff, hlen]
      rw [hse, List.map_append, List.map_append, List.map_map, List.map_map]
      congr 1
      · refine List.map_congr_left fun x hx => ?_
        have hx : x < k + 2 := by simpa using hx
        simp only [Function.comp]
        have hox : r.order[x]?.getD 0 < nT := by
          rw [List.getElem?_eq_getElem (by omega)]
          exact hr _ (List.getElem_mem _)
        have := conv_slot (nT := nT) (pgb := pgb) hne hn (j := j + x) (v := 1 + r.order[x]?.getD 0) (by omega) (by omega)
        rw [show S.vars.length + 1 + (j + x) = S.vars.length + 1 + j + x from by omega] at this
        rw [this, List.getElem?_take_of_lt hx]
      · simp only [List.map_cons, List.map_nil, conv_head hne hn (show j + (k + 2) ≤ pgb by omega)]

end Verif.Sas
