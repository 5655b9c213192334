import Verif.PsTrans
import Verif.ToTransSim

/-! # The variables and operators of the translation of parallel sequences as variable/value pairs -/

namespace Verif.Sas

open Verif.Htn

/-! ## Numbering of the constraints and cells -/

theorem conIdx_eq (n a b : Nat) : conIdx n a b = a * (n - 1) + if a < b then b - 1 else b := by
  rw [conIdx]
  split <;> omega

theorem conIdx_lt {n a b : Nat} (ha : a < n) (hb : b < n) (hne : a ≠ b) : conIdx n a b < n * (n - 1) := by
  rw [conIdx_eq]
  have h1 : (a + 1) * (n - 1) ≤ n * (n - 1) := Nat.mul_le_mul_right _ ha
  rw [Nat.succ_mul] at h1
  split <;> omega

theorem mul_add_inj {d a a' r r' : Nat} (hr : r < d) (hr' : r' < d) (h : a * d + r = a' * d + r') : a = a' ∧ r = r' := by
  have key : ∀ x y u v : Nat, u < d → v < d → x * d + u = y * d + v → ¬ x < y := by
    intro x y u v hu hv e hlt
    have : (x + 1) * d ≤ y * d := Nat.mul_le_mul_right _ hlt
    rw [Nat.succ_mul] at this
    omega
  have h1 := key a a' r r' hr hr' h
  have h2 := key a' a r' r hr' hr h.symm
  obtain rfl : a = a' := by omega
  exact ⟨rfl, by omega⟩

theorem conIdx_inj {n a b a' b' : Nat} (ha : a < n) (hb : b < n) (hne : a ≠ b) (ha' : a' < n) (hb' : b' < n) (hne' : a' ≠ b')
    (h : conIdx n a b = conIdx n a' b') : a = a' ∧ b = b' := by
  rw [conIdx_eq, conIdx_eq] at h
  obtain ⟨rfl, h2⟩ := mul_add_inj (by split <;> omega) (by split <;> omega) h
  refine ⟨rfl, ?_⟩
  split at h2 <;> split at h2 <;> omega

theorem mem_conPrec {n k c : Nat} (hk : k < n) : c ∈ conPrec n k ↔ ∃ l < n, l ≠ k ∧ c = conIdx n l k := by
  simp only [conPrec, List.mem_map, List.mem_range]
  constructor
  · rintro ⟨l, hl, rfl⟩
    by_cases h : l ≥ k
    · refine ⟨l + 1, by omega, by omega, ?_⟩
      have h1 : 1 * (n - 1) ≤ (l + 1) * (n - 1) := Nat.mul_le_mul_right _ (by omega)
      rw [if_pos h, conIdx_eq, if_neg (by omega)]
      omega
    · refine ⟨l, by omega, by omega, ?_⟩
      rw [if_neg h, conIdx_eq, if_pos (by omega), Nat.add_zero, Nat.add_zero]
      omega
  · rintro ⟨l, hl, hne, rfl⟩
    rcases Nat.lt_or_ge l k with h | h
    · refine ⟨l, by omega, ?_⟩
      rw [if_neg (by omega), conIdx_eq, if_pos h, Nat.add_zero, Nat.add_zero]
      omega
    · refine ⟨l - 1, by omega, ?_⟩
      have h1 : 1 * (n - 1) ≤ l * (n - 1) := Nat.mul_le_mul_right _ (by omega)
      rw [if_pos (by omega), conIdx_eq, if_neg (by omega), show l - 1 + 1 = l from by omega]
      omega

theorem mem_conAdd {n k c : Nat} (hk : k < n) : c ∈ conAdd n k ↔ ∃ l < n, l ≠ k ∧ c = conIdx n k l := by
  simp only [conAdd, List.mem_map, List.mem_range]
  constructor
  · rintro ⟨l, hl, rfl⟩
    by_cases h : l ≥ k
    · refine ⟨l + 1, by omega, by omega, ?_⟩
      rw [conIdx_eq, if_pos (by omega), Nat.mul_comm]
      omega
    · refine ⟨l, by omega, by omega, ?_⟩
      rw [conIdx_eq, if_neg (by omega), Nat.mul_comm]
  · rintro ⟨l, hl, hne, rfl⟩
    rcases Nat.lt_or_ge k l with h | h
    · refine ⟨l - 1, by omega, ?_⟩
      rw [conIdx_eq, if_pos h, Nat.mul_comm]
    · refine ⟨l, by omega, ?_⟩
      rw [conIdx_eq, if_neg (by omega), Nat.mul_comm]

theorem sum_take_succ {h : List Nat} {k : Nat} (hk : k < h.length) : (h.take (k + 1)).sum = (h.take k).sum + hAt h k := by
  rw [List.take_add_one, List.getElem?_eq_getElem hk, List.sum_append, hAt, List.getElem?_eq_getElem hk]
  simp

theorem sum_take_mono (h : List Nat) {i j : Nat} (hij : i ≤ j) : (h.take i).sum ≤ (h.take j).sum := by
  obtain ⟨d, rfl⟩ : ∃ d, j = i + d := ⟨j - i, by omega⟩
  rw [List.take_add, List.sum_append]
  omega

theorem slot_lt {h : List Nat} {k j : Nat} (hk : k < h.length) (hj : j < hAt h k) : (h.take k).sum + j < h.sum := by
  have h1 := sum_take_succ hk
  have h2 := sum_take_mono h (show k + 1 ≤ h.length by omega)
  rw [List.take_length] at h2
  omega

theorem slot_inj {h : List Nat} {k j k' j' : Nat} (hk : k < h.length) (hj : j < hAt h k) (hk' : k' < h.length) (hj' : j' < hAt h k')
    (e : (h.take k).sum + j = (h.take k').sum + j') : k = k' ∧ j = j' := by
  have key : ∀ a b x y : Nat, a < h.length → x < hAt h a → (h.take a).sum + x = (h.take b).sum + y → ¬ a < b := by
    intro a b x y ha hx e hlt
    have h1 := sum_take_succ ha
    have h2 := sum_take_mono h (show a + 1 ≤ b by omega)
    omega
  have h1 := key k k' j j' hk hj e
  have h2 := key k' k j' j hk' hj' e.symm
  obtain rfl : k = k' := by omega
  exact ⟨rfl, by omega⟩

theorem hAt_le {h : List Nat} {k : Nat} : hAt h k ≤ hMax h := by
  have key : ∀ (l : List Nat) (a : Nat), a ≤ l.foldl (fun a b => if a < b then b else a) a ∧
      ∀ x ∈ l, x ≤ l.foldl (fun a b => if a < b then b else a) a := by
    intro l
    induction l with
    | nil => intro a; simp
    | cons y r ih =>
      intro a
      rw [List.foldl_cons]
      obtain ⟨h1, h2⟩ := ih (if a < y then y else a)
      refine ⟨le_trans (by split <;> omega) h1, fun x hx => ?_⟩
      rcases List.mem_cons.1 hx with rfl | hx
      · exact le_trans (by split <;> omega) h1
      · exact h2 x hx
  rw [hAt, hMax]
  rcases Nat.lt_or_ge k h.length with hk | hk
  · rw [List.getElem?_eq_getElem hk]
    exact (key h 0).2 _ (List.getElem_mem hk)
  · rw [List.getElem?_eq_none hk]
    exact Nat.zero_le _

theorem mem_psPoints {h : List Nat} {x : Nat × Nat} : x ∈ psPoints h ↔ x.1 < hMax h ∧ x.2 < h.length := by
  obtain ⟨j, k⟩ := x
  simp [psPoints]

/-! ## The variables -/

theorem chainVars_contig : ∀ (l : List Nat) (b : Nat), Contig b (chainVars b l) (b + (l.map (· + 1)).sum) := by
  intro l
  induction l with
  | nil => intro b; simp [chainVars, Contig]
  | cons s r ih =>
    intro b
    refine ⟨rfl, by omega, ?_⟩
    have := ih (b + s + 1)
    rwa [show b + s + 1 + (r.map (· + 1)).sum = b + ((s :: r).map (· + 1)).sum from by simp; omega] at this

theorem chainVars_length : ∀ (l : List Nat) (b : Nat), (chainVars b l).length = l.length := by
  intro l
  induction l with
  | nil => intro b; rfl
  | cons s r ih => intro b; simp [chainVars, ih]

theorem chainVars_get : ∀ (l : List Nat) (b i s : Nat), l[i]? = some s → ∃ f, (chainVars b l)[i]? = some (f, f + s) := by
  intro l
  induction l with
  | nil => intro b i s h; simp at h
  | cons y r ih =>
    intro b i s h
    cases i with
    | zero =>
      simp at h
      subst h
      exact ⟨b, rfl⟩
    | succ i =>
      obtain ⟨f, hf⟩ := ih (b + y + 1) i s (by simpa using h)
      exact ⟨f, by simpa [chainVars] using hf⟩

theorem flatMap_replicate (nT : Nat) (h : List Nat) : (h.flatMap fun p => List.replicate p nT) = List.replicate h.sum nT := by
  induction h with
  | nil => rfl
  | cons p r ih => rw [List.flatMap_cons, ih, List.sum_cons, List.replicate_add]

section sizes

variable {nT : Nat} {h : List Nat}

theorem psSizes_length : (psSizes nT h).length = 1 + h.length + h.length * (h.length - 1) + h.sum := by
  simp only [psSizes, flatMap_replicate, List.length_cons, List.length_append, List.length_replicate]
  omega

theorem psSizes_top : (psSizes nT h)[0]? = some 1 := rfl

theorem psSizes_head {k : Nat} (hk : k < h.length) : (psSizes nT h)[1 + k]? = some (hAt h k) := by
  rw [psSizes, Nat.add_comm, List.getElem?_cons_succ, List.append_assoc, List.getElem?_append_left hk, hAt, List.getElem?_eq_getElem hk]
  rfl

theorem psSizes_con {c : Nat} (hc : c < h.length * (h.length - 1)) : (psSizes nT h)[1 + h.length + c]? = some 1 := by
  rw [psSizes, show 1 + h.length + c = h.length + c + 1 from by omega, List.getElem?_cons_succ, List.append_assoc,
    List.getElem?_append_right (by omega), show h.length + c - h.length = c from by omega,
    List.getElem?_append_left (by simpa using hc), List.getElem?_replicate, if_pos hc]

theorem psSizes_slot {y : Nat} (hy : y < h.sum) :
    (psSizes nT h)[1 + h.length + h.length * (h.length - 1) + y]? = some nT := by
  rw [psSizes, show 1 + h.length + h.length * (h.length - 1) + y = h.length + h.length * (h.length - 1) + y + 1 from by omega,
    List.getElem?_cons_succ, List.getElem?_append_right (by simp), flatMap_replicate, List.getElem?_replicate, if_pos]
  simp
  omega

end sizes

section W

variable {S : SasP} {nT : Nat} {h : List Nat}

theorem PW_contig (hne : S.vars ≠ []) {n : Nat} (hc : Contig 0 S.vars n) : ∃ m, Contig 0 (psVars S nT h) m := by
  refine ⟨n + ((psSizes nT h).map (· + 1)).sum, contig_append hc ?_⟩
  rw [contig_last hc hne]
  exact chainVars_contig _ _

theorem PW_length : (psVars S nT h).length = S.vars.length + (psSizes nT h).length := by
  simp [psVars, chainVars_length]

theorem PW_vars {i : Nat} (hi : i < S.vars.length) : (psVars S nT h)[i]? = S.vars[i]? := by
  rw [psVars, List.getElem?_append_left hi]

theorem PW_new {i s : Nat} (hi : (psSizes nT h)[i]? = some s) : ∃ f, (psVars S nT h)[S.vars.length + i]? = some (f, f + s) := by
  rw [psVars, List.getElem?_append_right (by omega), show S.vars.length + i - S.vars.length = i from by omega]
  exact chainVars_get _ _ _ _ hi

theorem conv_PW (hne : S.vars ≠ []) {n : Nat} (hc : Contig 0 S.vars n) {b : Nat} {p : Nat × Nat} (hb : conv S.vars b = some p) :
    conv (psVars S nT h) b = some p := by
  obtain ⟨m, hm⟩ := PW_contig (nT := nT) (h := h) hne hc
  obtain ⟨i, v⟩ := p
  obtain ⟨f, l, h1, h2, h3, h4⟩ := conv_some hb
  have hi : i < S.vars.length := (List.getElem?_eq_some_iff.1 h1).1
  rw [conv_eq hm (by rw [PW_vars hi]; exact h1) h2 h3]
  congr 2
  omega

theorem map_PW (hne : S.vars ≠ []) {n : Nat} (hc : Contig 0 S.vars n) {l : List Nat} {r : List (Nat × Nat)}
    (hl : l.map (conv S.vars) = r.map some) : l.map (conv (psVars S nT h)) = r.map some := by
  induction l generalizing r with
  | nil =>
    cases r with
    | nil => rfl
    | cons y r => simp at hl
  | cons x l ih =>
    cases r with
    | nil => simp at hl
    | cons y r =>
      simp only [List.map_cons, List.cons.injEq] at hl ⊢
      exact ⟨conv_PW hne hc hl.1, ih hl.2⟩

theorem conv_new (hne : S.vars ≠ []) {n : Nat} (hc : Contig 0 S.vars n) {i s v : Nat} (hi : (psSizes nT h)[i]? = some s) (hv : v ≤ s) :
    conv (psVars S nT h) (bitOf (psVars S nT h) (S.vars.length + i) v) = some (S.vars.length + i, v) := by
  obtain ⟨m, hm⟩ := PW_contig (nT := nT) (h := h) hne hc
  obtain ⟨f, hf⟩ := PW_new (S := S) hi
  exact conv_bitOf hm hf (by omega)

theorem conv_ptop (hne : S.vars ≠ []) {n : Nat} (hc : Contig 0 S.vars n) {v : Nat} (hv : v ≤ 1) :
    conv (psVars S nT h) (bitOf (psVars S nT h) S.vars.length v) = some (S.vars.length, v) :=
  conv_new (i := 0) hne hc psSizes_top hv

theorem conv_phead (hne : S.vars ≠ []) {n : Nat} (hc : Contig 0 S.vars n) {k v : Nat} (hk : k < h.length) (hv : v ≤ hAt h k) :
    conv (psVars S nT h) (bitOf (psVars S nT h) (psHead S.vars.length k) v) = some (psHead S.vars.length k, v) := by
  have := conv_new (S := S) hne hc (psSizes_head (nT := nT) hk) hv
  rwa [show S.vars.length + (1 + k) = psHead S.vars.length k from by rw [psHead]; omega] at this

theorem conv_pcon (hne : S.vars ≠ []) {n : Nat} (hc : Contig 0 S.vars n) {c v : Nat} (hcc : c < h.length * (h.length - 1)) (hv : v ≤ 1) :
    conv (psVars S nT h) (bitOf (psVars S nT h) (psCon S.vars.length h c) v) = some (psCon S.vars.length h c, v) := by
  have := conv_new (S := S) hne hc (psSizes_con (nT := nT) hcc) hv
  rwa [show S.vars.length + (1 + h.length + c) = psCon S.vars.length h c from by rw [psCon]; omega] at this

theorem conv_pslot (hne : S.vars ≠ []) {n : Nat} (hc : Contig 0 S.vars n) {k j v : Nat} (hk : k < h.length) (hj : j < hAt h k)
    (hv : v ≤ nT) :
    conv (psVars S nT h) (bitOf (psVars S nT h) (psSlot S.vars.length h k j) v) = some (psSlot S.vars.length h k j, v) := by
  have := conv_new (S := S) hne hc (psSizes_slot (nT := nT) (slot_lt hk hj)) hv
  rwa [show S.vars.length + (1 + h.length + h.length * (h.length - 1) + ((h.take k).sum + j)) = psSlot S.vars.length h k j from by
    rw [psSlot]; omega] at this

end W

/-! ## The operators -/

/-- Task `t` is on top of the stack of sequence `k`, which is not constrained. -/
def psPre (nV : Nat) (h : List Nat) (k j t : Nat) : List (Nat × Nat) :=
  [(psHead nV k, 1 + j), (psSlot nV h k j, 1 + t)] ++ (conPrec h.length k).map fun c => (psCon nV h c, 0)

/-- The task on top is removed. -/
def psPop (nV : Nat) (h : List Nat) (k j : Nat) : List (Nat × Nat) :=
  [(psHead nV k, j), (psSlot nV h k j, 0)] ++ if j = 0 then (conAdd h.length k).map fun c => (psCon nV h c, 0) else []

/-- The task on top is replaced. -/
def psPush (nV : Nat) (h : List Nat) (k j : Nat) (R : List Nat) : List (Nat × Nat) :=
  match R with
  | [t] => [(psSlot nV h k j, 1 + t)]
  | _ => ((List.range R.length).map fun x => (psSlot nV h k j + x, 1 + R[x]?.getD 0)) ++ [(psHead nV k, j + R.length)]

/-- The sequences are started. -/
def psStart (nV : Nat) (h : List Nat) (R : List Nat) (ord : List (Nat × Nat)) : List (Nat × Nat) :=
  (nV, 0) :: (((List.range h.length).map fun l => (psHead nV l, 1)) ++
    ((List.range h.length).map fun l => (psSlot nV h l 0, R[l]?.getD 0 + 1)) ++
    (List.range (h.length * (h.length - 1))).map fun c =>
      (psCon nV h c, if (ord.map fun o => conIdx h.length o.1 o.2).contains c then 1 else 0))

/-- The operator of an action. -/
def psA (P : Problem) (vars : List (Nat × Nat)) (h : List Nat) (a j k : Nat) : Lab × SOp :=
  (.prim a (k * hMax h + j), mkOp (precV vars P a ++ psPre vars.length h k j a) (addV vars P a ++ psPop vars.length h k j) (P.cost a))

/-- The operator of a method. -/
def psM (P : Problem) (vars : List (Nat × Nat)) (h : List Nat) (m j k : Nat) : Lab × SOp :=
  (.meth m (k * hMax h + j), mkOp (psPre vars.length h k j (P.head m)) (psPush vars.length h k j (P.sub m).reverse) 0)

/-- The orderings between the sequences; sequence `k` is the subtask at position `n - 1 - k`. -/
def revOrd (n : Nat) (ord : List (Nat × Nat)) : List (Nat × Nat) := ord.map fun o => (n - 1 - o.1, n - 1 - o.2)

/-- The operator of a method of the initial task. -/
def psT (P : Problem) (vars : List (Nat × Nat)) (h : List Nat) (m : Nat) : Lab × SOp :=
  (.meth m 0, mkOp [(vars.length, 1)] (psStart vars.length h (P.sub m).reverse (revOrd (P.sub m).length (P.ord m))) 0)

section ops

variable {P : Problem} {vars : List (Nat × Nat)} {S : SasP} {nT : Nat} {h : List Nat}

theorem map_cons_con (hne : S.vars ≠ []) {n : Nat} (hc : Contig 0 S.vars n) {l : List Nat} (hl : ∀ c ∈ l, c < h.length * (h.length - 1)) :
    (l.map fun c => bitOf (psVars S nT h) (psCon S.vars.length h c) 0).map (conv (psVars S nT h)) =
      (l.map fun c => (psCon S.vars.length h c, 0)).map some := by
  rw [List.map_map, List.map_map]
  exact List.map_congr_left fun c hcl => conv_pcon hne hc (hl c hcl) (Nat.zero_le _)

theorem conPrec_lt {n k : Nat} (hk : k < n) : ∀ c ∈ conPrec n k, c < n * (n - 1) := by
  intro c hc
  obtain ⟨l, hl, hne, rfl⟩ := (mem_conPrec hk).1 hc
  exact conIdx_lt hl hk hne

theorem conAdd_lt {n k : Nat} (hk : k < n) : ∀ c ∈ conAdd n k, c < n * (n - 1) := by
  intro c hc
  obtain ⟨l, hl, hne, rfl⟩ := (mem_conAdd hk).1 hc
  exact conIdx_lt hk hl (Ne.symm hne)

theorem psActOp_eq (hS : SPok P vars S) (hne : S.vars ≠ []) {a j k : Nat} (hk : k < h.length) (hj : j < hAt h k) (ha : a < nT) :
    psActOp P S (psVars S nT h) h a j k = some (psA P vars h a j k) := by
  obtain ⟨n, hn⟩ := hS.contig
  rw [psActOp, writeOp_eq (p' := precV vars P a ++ psPre vars.length h k j a) (a' := addV vars P a ++ psPop vars.length h k j)]
  · rfl
  · rw [← hS.len]
    simp only [psActBits, psPre, List.map_append, map_PW hne hn (hS.prec a), List.map_cons, List.map_nil,
      conv_pslot hne hn hk hj (show 1 + a ≤ nT by omega), conv_phead hne hn hk (show 1 + j ≤ hAt h k by omega),
      map_cons_con hne hn (conPrec_lt hk), List.append_assoc]
  · rw [← hS.len]
    simp only [psActBits, psPop, List.map_append, map_PW hne hn (hS.add a), List.map_cons, List.map_nil,
      conv_pslot hne hn hk hj (Nat.zero_le nT), conv_phead hne hn hk (show j ≤ hAt h k by omega), List.append_assoc]
    congr 2
    split
    · rw [map_cons_con hne hn (conAdd_lt hk)]
    · rfl

theorem psMethOp_eq (hS : SPok P vars S) (hne : S.vars ≠ []) {m j k : Nat} (hm : P.head m ≠ P.init) (hk : k < h.length)
    (hs : P.sub m ≠ []) (hfit : (P.sub m).length + j ≤ hAt h k) (hhd : P.head m < nT) (hsub : ∀ t ∈ P.sub m, t < nT) {r : Reo}
    (hr : r.order = (P.sub m).reverse) (ord : List (Nat × Nat)) :
    psMethOp P S (psVars S nT h) h r ord m j k = some (psM P vars h m j k) := by
  obtain ⟨n, hn⟩ := hS.contig
  have hlen : 0 < (P.sub m).length := List.length_pos_iff.2 hs
  have hj : j < hAt h k := by omega
  have hol : r.order.length = (P.sub m).length := by rw [hr, List.length_reverse]
  have hot : ∀ x < (P.sub m).length, r.order[x]?.getD 0 < nT := by
    intro x hx
    rw [List.getElem?_eq_getElem (by omega), Option.getD_some]
    exact hsub _ (by rw [← List.mem_reverse, ← hr]; exact List.getElem_mem _)
  rw [psMethOp, if_neg hm]
  simp only
  rw [writeOp_eq (p' := psPre vars.length h k j (P.head m)) (a' := psPush vars.length h k j (P.sub m).reverse)]
  · rfl
  · rw [← hS.len]
    simp only [psMethBits, psPre, List.map_append, List.map_cons, List.map_nil,
      conv_pslot hne hn hk hj (show P.head m + 1 ≤ nT by omega), conv_phead hne hn hk (show 1 + j ≤ hAt h k by omega),
      map_cons_con hne hn (conPrec_lt hk), Nat.add_comm 1 (P.head m)]
  · rw [← hS.len]
    simp only [psMethBits, ← hr]
    split
    · omega
    · rename_i h1
      have ht := hot 0 (by omega)
      obtain ⟨t, ho⟩ : ∃ t, r.order = [t] := List.length_eq_one_iff.1 (by omega)
      rw [ho] at ht ⊢
      simp only [List.getElem?_cons_zero, Option.getD_some] at ht
      simp only [psPush, List.getElem?_cons_zero, Option.getD_some, List.map_cons, List.map_nil,
        conv_pslot hne hn hk hj (show 1 + t ≤ nT by omega)]
    · rename_i q hq
      have hse : psPush S.vars.length h k j r.order = ((List.range r.order.length).map fun x =>
          (psSlot S.vars.length h k j + x, 1 + r.order[x]?.getD 0)) ++ [(psHead S.vars.length k, j + r.order.length)] := by
        match ho : r.order with
        | [] => rfl
        | [_] => rw [ho] at hol; simp at hol; omega
        | x :: y :: l => rfl
      rw [hse, List.map_append, List.map_append, hol, hq, List.map_map, List.map_map]
      congr 1
      · refine List.map_congr_left fun x hx => ?_
        have hx : x < (P.sub m).length := by rw [hq]; simpa using hx
        have hxt := hot x hx
        simp only [Function.comp]
        have := conv_pslot (nT := nT) hne hn hk (j := j + x) (v := 1 + r.order[x]?.getD 0) (by omega) (by omega)
        rwa [show psSlot S.vars.length h k (j + x) = psSlot S.vars.length h k j + x from by simp only [psSlot]; omega] at this
      · simp only [List.map_cons, List.map_nil, conv_phead hne hn hk (show j + (q + 2) ≤ hAt h k by omega)]

theorem psTopOp_eq (hS : SPok P vars S) (hne : S.vars ≠ []) {m : Nat} (hm : P.head m = P.init) (hlen : (P.sub m).length = h.length)
    (h1 : ∀ k < h.length, 1 ≤ hAt h k) (hsub : ∀ t ∈ P.sub m, t < nT) {r : Reo} (hr : r.order = (P.sub m).reverse)
    (hord : ∀ o ∈ P.ord m, o.1 < h.length ∧ o.2 < h.length ∧ o.1 ≠ o.2) :
    psMethOp P S (psVars S nT h) h r (revOrd (P.sub m).length (P.ord m)) m 0 0 = some (psT P vars h m) := by
  obtain ⟨n, hn⟩ := hS.contig
  have hol : r.order.length = h.length := by rw [hr, List.length_reverse, hlen]
  have hlab : (0 * hMax h + 0) = 0 := by omega
  rw [psMethOp, if_pos hm, if_neg]
  · simp only [hlab]
    rw [writeOp_eq (p' := [(vars.length, 1)])
      (a' := psStart vars.length h (P.sub m).reverse (revOrd (P.sub m).length (P.ord m)))]
    · rfl
    · rw [← hS.len]
      simp only [psTopBits, List.map_cons, List.map_nil, conv_ptop hne hn (Nat.le_refl 1)]
    · rw [← hS.len, ← hr]
      simp only [psTopBits, psStart, List.map_cons, List.map_append, List.map_map, conv_ptop hne hn (Nat.zero_le 1)]
      congr 2
      · congr 1
        · refine List.map_congr_left fun l hl => ?_
          have hl : l < h.length := by simpa using hl
          exact conv_phead hne hn hl (h1 l hl)
        · refine List.map_congr_left fun l hl => ?_
          have hl : l < h.length := by simpa using hl
          refine conv_pslot hne hn hl (h1 l hl) ?_
          rw [List.getElem?_eq_getElem (by omega), Option.getD_some]
          exact hsub _ (by rw [← List.mem_reverse, ← hr]; exact List.getElem_mem _)
      · refine List.map_congr_left fun c hc => ?_
        have hc : c < h.length * (h.length - 1) := by simpa using hc
        refine conv_pcon hne hn hc ?_
        split <;> omega
  · rintro (hlt | ⟨o, ho, hle⟩)
    · omega
    · obtain ⟨o', ho', rfl⟩ := List.mem_map.1 ho
      obtain ⟨g1, g2, g3⟩ := hord o' ho'
      have := conIdx_lt (n := h.length) (a := (P.sub m).length - 1 - o'.1) (b := (P.sub m).length - 1 - o'.2) (by omega) (by omega)
        (by omega)
      simp only at hle
      omega

end ops

end Verif.Sas
