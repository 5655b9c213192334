import Verif.PsSim

/-! # Plans of the translation of parallel sequences and solutions -/

namespace Verif.Sas

open Verif.Htn

/-! ## Assignments -/

/-- No variable is assigned different values. -/
def Fun1 (E : List (Nat × Nat)) : Prop := ∀ x ∈ E, ∀ y ∈ E, x.1 = y.1 → x.2 = y.2

theorem assign_mem {E : List (Nat × Nat)} (hf : Fun1 E) {v w : Nat} (h : (v, w) ∈ E) (σ : Val) : assign σ E v = w := by
  rw [assign_eq, lastVal_fun hf h]
  rfl

theorem assign_not {E : List (Nat × Nat)} {v : Nat} (h : ∀ p ∈ E, p.1 ≠ v) (σ : Val) : assign σ E v = σ v := by
  rw [assign_eq, lastVal_none.2 h]
  rfl

/-! ## The new variables are different -/

section

variable {nV : Nat} {h : List Nat}

theorem psHead_ne_con {k c : Nat} (hk : k < h.length) : psHead nV k ≠ psCon nV h c := by
  simp only [psHead, psCon]
  omega

theorem psHead_ne_slot {k k' j : Nat} (hk : k < h.length) : psHead nV k ≠ psSlot nV h k' j := by
  simp only [psHead, psSlot]
  omega

theorem psCon_ne_slot {c k j : Nat} (hc : c < h.length * (h.length - 1)) : psCon nV h c ≠ psSlot nV h k j := by
  simp only [psCon, psSlot]
  omega

theorem psHead_inj {k k' : Nat} (e : psHead nV k = psHead nV k') : k = k' := by
  simp only [psHead] at e
  omega

theorem psCon_inj {c c' : Nat} (e : psCon nV h c = psCon nV h c') : c = c' := by
  simp only [psCon] at e
  omega

theorem psSlot_inj {k j k' j' : Nat} (hk : k < h.length) (hj : j < hAt h k) (hk' : k' < h.length) (hj' : j' < hAt h k')
    (e : psSlot nV h k j = psSlot nV h k' j') : k = k' ∧ j = j' := by
  simp only [psSlot] at e
  exact slot_inj hk hj hk' hj' (by omega)

theorem psSlot_add {k j x : Nat} : psSlot nV h k j + x = psSlot nV h k (j + x) := by
  simp only [psSlot]
  omega

theorem psHead_gt {k : Nat} : nV < psHead nV k := by
  simp only [psHead]
  omega

theorem psCon_gt {c : Nat} : nV < psCon nV h c := by
  simp only [psCon]
  omega

theorem psSlot_gt {k j : Nat} : nV < psSlot nV h k j := by
  simp only [psSlot]
  omega

theorem mem_psPre {k j t : Nat} (hk : k < h.length) {p : Nat × Nat} : p ∈ psPre nV h k j t ↔
    p = (psHead nV k, 1 + j) ∨ p = (psSlot nV h k j, 1 + t) ∨ ∃ l < h.length, l ≠ k ∧ p = (psCon nV h (conIdx h.length l k), 0) := by
  simp only [psPre, List.mem_append, List.mem_cons, List.not_mem_nil, or_false, List.mem_map, or_assoc]
  refine or_congr_right (or_congr_right ⟨?_, ?_⟩)
  · rintro ⟨c, hc, rfl⟩
    obtain ⟨l, h1, h2, rfl⟩ := (mem_conPrec hk).1 hc
    exact ⟨l, h1, h2, rfl⟩
  · rintro ⟨l, h1, h2, rfl⟩
    exact ⟨_, (mem_conPrec hk).2 ⟨l, h1, h2, rfl⟩, rfl⟩

theorem mem_psPop {k j : Nat} (hk : k < h.length) {p : Nat × Nat} : p ∈ psPop nV h k j ↔
    p = (psHead nV k, j) ∨ p = (psSlot nV h k j, 0) ∨ (j = 0 ∧ ∃ l < h.length, l ≠ k ∧ p = (psCon nV h (conIdx h.length k l), 0)) := by
  simp only [psPop, List.mem_append, List.mem_cons, List.not_mem_nil, or_false, or_assoc]
  refine or_congr_right (or_congr_right ?_)
  split
  · rename_i h0
    simp only [List.mem_map, h0, true_and]
    constructor
    · rintro ⟨c, hc, rfl⟩
      obtain ⟨l, h1, h2, rfl⟩ := (mem_conAdd hk).1 hc
      exact ⟨l, h1, h2, rfl⟩
    · rintro ⟨l, h1, h2, rfl⟩
      exact ⟨_, (mem_conAdd hk).2 ⟨l, h1, h2, rfl⟩, rfl⟩
  · rename_i h0
    simp [h0]

theorem mem_psPush {k j : Nat} {R : List Nat} {p : Nat × Nat} : p ∈ psPush nV h k j R ↔
    (∃ x < R.length, p = (psSlot nV h k (j + x), 1 + R[x]?.getD 0)) ∨ (R.length ≠ 1 ∧ p = (psHead nV k, j + R.length)) := by
  match R with
  | [] => simp [psPush]
  | [t] => simp [psPush]
  | t :: t' :: r =>
    have hse : psPush nV h k j (t :: t' :: r) = ((List.range (t :: t' :: r).length).map fun x =>
        (psSlot nV h k j + x, 1 + (t :: t' :: r)[x]?.getD 0)) ++ [(psHead nV k, j + (t :: t' :: r).length)] := rfl
    generalize hR : t :: t' :: r = R at hse ⊢
    have hlen : R.length ≠ 1 := by rw [← hR]; simp
    rw [hse]
    simp only [List.mem_append, List.mem_map, List.mem_range, List.mem_singleton, hlen, ne_eq, not_false_eq_true, true_and, psSlot_add]
    refine or_congr_left ⟨?_, ?_⟩
    · rintro ⟨x, hx, rfl⟩
      exact ⟨x, hx, rfl⟩
    · rintro ⟨x, hx, rfl⟩
      exact ⟨x, hx, rfl⟩

theorem mem_psStart {R : List Nat} {ord : List (Nat × Nat)} {p : Nat × Nat} : p ∈ psStart nV h R ord ↔
    p = (nV, 0) ∨ (∃ l < h.length, p = (psHead nV l, 1)) ∨ (∃ l < h.length, p = (psSlot nV h l 0, R[l]?.getD 0 + 1)) ∨
    ∃ c < h.length * (h.length - 1), p = (psCon nV h c, if (ord.map fun o => conIdx h.length o.1 o.2).contains c then 1 else 0) := by
  simp only [psStart, List.mem_cons, List.mem_append, List.mem_map, List.mem_range, or_assoc]
  refine or_congr_right (or_congr ?_ (or_congr ?_ ?_)) <;> exact exists_congr fun x => and_congr_right fun _ => eq_comm

theorem psPre_fun {k j t : Nat} (hk : k < h.length) : Fun1 (psPre nV h k j t) := by
  intro x hx y hy e
  rcases (mem_psPre hk).1 hx with rfl | rfl | ⟨l, h1, h2, rfl⟩ <;> rcases (mem_psPre hk).1 hy with rfl | rfl | ⟨l', h1', h2', rfl⟩ <;>
    simp only at e ⊢
  · exact absurd e (psHead_ne_slot hk)
  · exact absurd e (psHead_ne_con hk)
  · exact absurd e.symm (psHead_ne_slot hk)
  · exact absurd e.symm (psCon_ne_slot (conIdx_lt h1' hk h2'))
  · exact absurd e.symm (psHead_ne_con hk)
  · exact absurd e (psCon_ne_slot (conIdx_lt h1 hk h2))

theorem psPre_gt {k j t : Nat} (hk : k < h.length) : ∀ p ∈ psPre nV h k j t, nV < p.1 := by
  intro p hp
  rcases (mem_psPre hk).1 hp with rfl | rfl | ⟨l, h1, h2, rfl⟩
  · exact psHead_gt
  · exact psSlot_gt
  · exact psCon_gt

theorem psPop_fun {k j : Nat} (hk : k < h.length) : Fun1 (psPop nV h k j) := by
  intro x hx y hy e
  rcases (mem_psPop hk).1 hx with rfl | rfl | ⟨-, l, h1, h2, rfl⟩ <;> rcases (mem_psPop hk).1 hy with rfl | rfl | ⟨-, l', h1', h2', rfl⟩ <;>
    simp only at e ⊢
  · exact absurd e (psHead_ne_slot hk)
  · exact absurd e (psHead_ne_con hk)
  · exact absurd e.symm (psHead_ne_slot hk)
  · exact absurd e.symm (psHead_ne_con hk)

theorem psPop_gt {k j : Nat} (hk : k < h.length) : ∀ p ∈ psPop nV h k j, nV < p.1 := by
  intro p hp
  rcases (mem_psPop hk).1 hp with rfl | rfl | ⟨-, l, h1, h2, rfl⟩
  · exact psHead_gt
  · exact psSlot_gt
  · exact psCon_gt

theorem psPush_fun {k j : Nat} {R : List Nat} (hk : k < h.length) (hR : R.length + j ≤ hAt h k) : Fun1 (psPush nV h k j R) := by
  intro x hx y hy e
  rcases mem_psPush.1 hx with ⟨u, hu, rfl⟩ | ⟨-, rfl⟩ <;> rcases mem_psPush.1 hy with ⟨v, hv, rfl⟩ | ⟨-, rfl⟩ <;> simp only at e ⊢
  · obtain ⟨-, e2⟩ := psSlot_inj hk (by omega) hk (by omega) e
    obtain rfl : u = v := by omega
    rfl
  · exact absurd e.symm (psHead_ne_slot hk)
  · exact absurd e (psHead_ne_slot hk)

theorem psPush_gt {k j : Nat} {R : List Nat} : ∀ p ∈ psPush nV h k j R, nV < p.1 := by
  intro p hp
  rcases mem_psPush.1 hp with ⟨u, hu, rfl⟩ | ⟨-, rfl⟩
  · exact psSlot_gt
  · exact psHead_gt

theorem psStart_fun {R : List Nat} {ord : List (Nat × Nat)} (h1 : ∀ k < h.length, 1 ≤ hAt h k) : Fun1 (psStart nV h R ord) := by
  intro x hx y hy e
  rcases mem_psStart.1 hx with rfl | ⟨l, hl, rfl⟩ | ⟨l, hl, rfl⟩ | ⟨c, hc, rfl⟩ <;>
    rcases mem_psStart.1 hy with rfl | ⟨l', hl', rfl⟩ | ⟨l', hl', rfl⟩ | ⟨c', hc', rfl⟩ <;> simp only at e
  · rfl
  · exact absurd e (ne_of_lt psHead_gt)
  · exact absurd e (ne_of_lt psSlot_gt)
  · exact absurd e (ne_of_lt psCon_gt)
  · exact absurd e.symm (ne_of_lt psHead_gt)
  · rfl
  · exact absurd e (psHead_ne_slot hl)
  · exact absurd e (psHead_ne_con hl)
  · exact absurd e.symm (ne_of_lt psSlot_gt)
  · exact absurd e.symm (psHead_ne_slot hl')
  · obtain ⟨rfl, -⟩ := psSlot_inj hl (h1 l hl) hl' (h1 l' hl') e
    rfl
  · exact absurd e.symm (psCon_ne_slot hc')
  · exact absurd e.symm (ne_of_lt psCon_gt)
  · exact absurd e.symm (psHead_ne_con hl')
  · exact absurd e (psCon_ne_slot hc)
  · obtain rfl := psCon_inj e
    rfl

theorem psStart_ge {R : List Nat} {ord : List (Nat × Nat)} : ∀ p ∈ psStart nV h R ord, nV ≤ p.1 := by
  intro p hp
  rcases mem_psStart.1 hp with rfl | ⟨l, hl, rfl⟩ | ⟨l, hl, rfl⟩ | ⟨c, hc, rfl⟩
  · exact le_refl _
  · exact le_of_lt psHead_gt
  · exact le_of_lt psSlot_gt
  · exact le_of_lt psCon_gt

end

/-! ## Values of the new variables -/

/-- The values describe the state and the stacks (top first); a constraint is set iff the sequences are ordered and the first one is not
finished. -/
structure PEnc (vars : List (Nat × Nat)) (h : List Nat) (ord : Nat → Nat → Prop) (σ : Val) (s : State) (st : Nat → List Nat) : Prop where
  corr : Corr vars s σ
  top : σ vars.length = 0
  le : ∀ k < h.length, (st k).length ≤ hAt h k
  head : ∀ k < h.length, σ (psHead vars.length k) = (st k).length
  slot : ∀ k < h.length, ∀ y < hAt h k, σ (psSlot vars.length h k y) = ((st k).reverse[y]?).elim 0 (· + 1)
  con : ∀ a < h.length, ∀ b < h.length, a ≠ b → (σ (psCon vars.length h (conIdx h.length a b)) = 0 ↔ ¬ (ord a b ∧ st a ≠ []))

section

variable {P : Problem} {vars : List (Nat × Nat)} {h : List Nat} {ord : Nat → Nat → Prop} {nA nT : Nat}

theorem PEnc.pre {σ : Val} {s : State} {st : Nat → List Nat} (he : PEnc vars h ord σ s st) (hirr : ∀ k, ¬ ord k k) {k j t : Nat}
    (hk : k < h.length) (hj : j < hAt h k) : Holds σ (psPre vars.length h k j t) ↔
      (∃ r, st k = t :: r ∧ r.length = j) ∧ ∀ l < h.length, ord l k → st l = [] := by
  have h1 : (σ (psHead vars.length k) = 1 + j ∧ σ (psSlot vars.length h k j) = 1 + t) ↔ ∃ r, st k = t :: r ∧ r.length = j := by
    rw [he.head k hk, he.slot k hk j hj]
    constructor
    · rintro ⟨h1, h2⟩
      cases hs : st k with
      | nil =>
        rw [hs] at h1
        simp at h1
        omega
      | cons x r =>
        rw [hs] at h1 h2
        simp only [List.length_cons] at h1
        obtain rfl : r.length = j := by omega
        rw [List.reverse_cons, List.getElem?_append_right (by simp)] at h2
        simp only [List.length_reverse, Nat.sub_self, List.getElem?_cons_zero, Option.elim_some] at h2
        obtain rfl : x = t := by omega
        exact ⟨r, rfl, rfl⟩
    · rintro ⟨r, hs, rfl⟩
      rw [hs]
      refine ⟨by simp; omega, ?_⟩
      rw [List.reverse_cons, List.getElem?_append_right (by simp)]
      simp
      omega
  rw [← h1]
  constructor
  · intro hh
    refine ⟨⟨hh _ ((mem_psPre hk).2 (.inl rfl)), hh _ ((mem_psPre hk).2 (.inr (.inl rfl)))⟩, fun l hl ho => ?_⟩
    have hne : l ≠ k := fun e => hirr k (e ▸ ho)
    have := (he.con l hl k hk hne).1 (hh _ ((mem_psPre hk).2 (.inr (.inr ⟨l, hl, hne, rfl⟩))))
    by_contra hn
    exact this ⟨ho, hn⟩
  · rintro ⟨⟨g1, g2⟩, g3⟩ p hp
    rcases (mem_psPre hk).1 hp with rfl | rfl | ⟨l, hl, hne, rfl⟩
    · exact g1
    · exact g2
    · exact (he.con l hl k hk hne).2 fun hc => hc.2 (g3 l hl hc.1)

/-- Changing one stack. -/
theorem PEnc.update {σ σ' : Val} {s s' : State} {st : Nat → List Nat} (he : PEnc vars h ord σ s st) {k : Nat} (hk : k < h.length)
    {L : List Nat} (hle : L.length ≤ hAt h k) (hc : Corr vars s' σ') (hhead : σ' (psHead vars.length k) = L.length)
    (hslot : ∀ y < hAt h k, σ' (psSlot vars.length h k y) = (L.reverse[y]?).elim 0 (· + 1))
    (hcon : ∀ l < h.length, l ≠ k → (σ' (psCon vars.length h (conIdx h.length k l)) = 0 ↔ ¬ (ord k l ∧ L ≠ [])))
    (hoth : ∀ v, vars.length ≤ v → v ≠ psHead vars.length k → (∀ y < hAt h k, v ≠ psSlot vars.length h k y) →
      (∀ l < h.length, l ≠ k → v ≠ psCon vars.length h (conIdx h.length k l)) → σ' v = σ v) :
    PEnc vars h ord σ' s' (Function.update st k L) where
  corr := hc
  top := by
    rw [hoth _ (le_refl _) (ne_of_lt psHead_gt) (fun _ _ => ne_of_lt psSlot_gt) (fun _ _ _ => ne_of_lt psCon_gt)]
    exact he.top
  le k' hk' := by
    by_cases e : k' = k
    · subst e
      simpa using hle
    · rw [Function.update_of_ne e]
      exact he.le k' hk'
  head k' hk' := by
    by_cases e : k' = k
    · subst e
      simpa using hhead
    · rw [Function.update_of_ne e, hoth _ (le_of_lt psHead_gt) (fun e' => e (psHead_inj e')) (fun _ _ => psHead_ne_slot hk')
        (fun _ _ _ => psHead_ne_con hk')]
      exact he.head k' hk'
  slot k' hk' y hy := by
    by_cases e : k' = k
    · subst e
      simpa using hslot y hy
    · rw [Function.update_of_ne e, hoth _ (le_of_lt psSlot_gt) (fun e' => psHead_ne_slot hk e'.symm)
        (fun y' hy' e' => e (psSlot_inj hk' hy hk hy' e').1)
        (fun l hl hne e' => psCon_ne_slot (conIdx_lt hk hl (Ne.symm hne)) e'.symm)]
      exact he.slot k' hk' y hy
  con a ha b hb hne := by
    by_cases e : a = k
    · subst e
      simpa using hcon b hb (Ne.symm hne)
    · rw [Function.update_of_ne e, hoth _ (le_of_lt psCon_gt) (fun e' => psHead_ne_con hk e'.symm)
        (fun y _ => psCon_ne_slot (conIdx_lt ha hb hne))
        (fun l hl hl' e' => e (conIdx_inj ha hb hne hk hl (Ne.symm hl') (psCon_inj e')).1)]
      exact he.con a ha b hb hne

theorem psA_fun {a j k : Nat} (hf : PrecFun vars P a) (hk : k < h.length) : Fun1 (precV vars P a ++ psPre vars.length h k j a) := by
  intro x hx y hy e
  rcases List.mem_append.1 hx with hx | hx <;> rcases List.mem_append.1 hy with hy | hy
  · exact hf x hx y hy e
  · have := precV_lt hx
    have := psPre_gt hk y hy
    omega
  · have := precV_lt hy
    have := psPre_gt hk x hx
    omega
  · exact psPre_fun hk x hx y hy e

theorem holds_append {σ : Val} {l r : List (Nat × Nat)} : Holds σ (l ++ r) ↔ Holds σ l ∧ Holds σ r := by
  simp only [Holds, List.mem_append, or_imp, forall_and]

/-- The operator of an action is applicable only if the action is on top of a stack that may proceed and it is applicable. -/
theorem psA_app (hin : PsInput P vars nA nT h.length) (hf : ∀ a < nA, PrecFun vars P a) (hirr : ∀ k, ¬ ord k k) {σ : Val} {s : State}
    {st : Nat → List Nat} (he : PEnc vars h ord σ s st) {a j k : Nat} (ha : a < nA) (hk : k < h.length) (hj : j < hAt h k) :
    (psA P vars h a j k).2.App σ ↔ P.Applicable s a ∧ (∃ r, st k = a :: r ∧ r.length = j) ∧ ∀ l < h.length, ord l k → st l = [] := by
  rw [psA, mkOp_app_iff (psA_fun (hf a ha) hk), holds_append, he.corr.applicable hin.wf hin.sas.contig a, he.pre hirr hk hj]

/-- It executes the action and removes it. -/
theorem psA_step (hin : PsInput P vars nA nT h.length) {σ : Val} {s : State} {st : Nat → List Nat} (he : PEnc vars h ord σ s st)
    {a k : Nat} {r : List Nat} (hk : k < h.length) (hr : Reach P s) (hst : st k = a :: r) (happ : P.Applicable s a) :
    PEnc vars h ord ((psA P vars h a r.length k).2.res σ) (P.result s a) (Function.update st k r) := by
  have hlen : r.length < hAt h k := by
    have := he.le k hk
    rw [hst, List.length_cons] at this
    exact this
  obtain ⟨π, hπ⟩ := hr.step happ
  have hc := he.corr.result hin.wf hin.sas.contig hin.sas.noClash (hin.sas.inv π _ hπ)
  have hA : ∀ p ∈ addV vars P a, p.1 < vars.length := fun p hp => addV_lt hp
  have hpf := psPop_fun (nV := vars.length) (j := r.length) hk
  rw [psA]
  simp only [mkOp_res]
  have hi : ∀ v, vars.length ≤ v → assign σ (addV vars P a ++ psPop vars.length h k r.length) v =
      assign σ (psPop vars.length h k r.length) v := fun v hv => (assign_high hA hv σ).2
  refine he.update hk (by omega) ?_ ?_ ?_ ?_ ?_
  · exact hc.congr fun v hv => (assign_low (h := vars.length) (fun p hp => le_of_lt (psPop_gt hk p hp)) hv σ).2
  · rw [hi _ (le_of_lt psHead_gt)]
    exact assign_mem hpf ((mem_psPop hk).2 (.inl rfl)) σ
  · intro y hy
    rw [hi _ (le_of_lt psSlot_gt)]
    by_cases e : y = r.length
    · subst e
      rw [assign_mem hpf ((mem_psPop hk).2 (.inr (.inl rfl))) σ, List.getElem?_eq_none (by simp)]
      rfl
    · rw [assign_not, he.slot k hk y hy, hst, List.reverse_cons]
      · rcases Nat.lt_or_ge y r.length with hlt | hge
        · rw [List.getElem?_append_left (by simpa using hlt)]
        · rw [List.getElem?_eq_none (by simp; omega), List.getElem?_eq_none (by simpa using hge)]
      · intro p hp e'
        rcases (mem_psPop hk).1 hp with rfl | rfl | ⟨-, l, hl, hne, rfl⟩
        · exact psHead_ne_slot hk e'
        · exact e (psSlot_inj hk hlen hk hy e').2.symm
        · exact psCon_ne_slot (conIdx_lt hk hl (Ne.symm hne)) e'
  · intro l hl hne
    rw [hi _ (le_of_lt psCon_gt)]
    by_cases e : r = []
    · subst e
      rw [assign_mem hpf ((mem_psPop hk).2 (.inr (.inr ⟨rfl, l, hl, hne, rfl⟩))) σ]
      simp
    · rw [assign_not, he.con k hk l hl (Ne.symm hne), hst]
      · simp [e]
      · intro p hp e'
        rcases (mem_psPop hk).1 hp with rfl | rfl | ⟨h0, -⟩
        · exact psHead_ne_con hk e'
        · exact psCon_ne_slot (conIdx_lt hk hl (Ne.symm hne)) e'.symm
        · exact e (List.length_eq_zero_iff.1 h0)
  · intro v hv h1 h2 h3
    rw [hi v hv, assign_not]
    intro p hp e'
    rcases (mem_psPop hk).1 hp with rfl | rfl | ⟨-, l, hl, hne, rfl⟩
    · exact h1 e'.symm
    · exact h2 _ hlen e'.symm
    · exact h3 l hl hne e'.symm

/-- The operator of a method is applicable iff its task is on top of a stack that may proceed. -/
theorem psM_app (hirr : ∀ k, ¬ ord k k) {σ : Val} {s : State} {st : Nat → List Nat} (he : PEnc vars h ord σ s st) {m j k : Nat}
    (hk : k < h.length) (hj : j < hAt h k) :
    (psM P vars h m j k).2.App σ ↔ (∃ r, st k = P.head m :: r ∧ r.length = j) ∧ ∀ l < h.length, ord l k → st l = [] := by
  rw [psM, mkOp_app_iff (psPre_fun hk), he.pre hirr hk hj]

/-- It replaces the task by the subtasks. -/
theorem psM_step {σ : Val} {s : State} {st : Nat → List Nat} (he : PEnc vars h ord σ s st)
    {m k : Nat} {r : List Nat} (hk : k < h.length) (hst : st k = P.head m :: r) (hne : P.sub m ≠ [])
    (hfit : (P.sub m).length + r.length ≤ hAt h k) :
    PEnc vars h ord ((psM P vars h m r.length k).2.res σ) s (Function.update st k (P.sub m ++ r)) := by
  have hlen := List.length_pos_iff.2 hne
  have hpf := psPush_fun (nV := vars.length) (j := r.length) (R := (P.sub m).reverse) hk (by rw [List.length_reverse]; exact hfit)
  rw [psM]
  simp only [mkOp_res]
  refine he.update hk (by rw [List.length_append]; exact hfit) ?_ ?_ ?_ ?_ ?_
  · refine he.corr.congr fun v hv => ?_
    rw [assign_not]
    intro p hp
    have := psPush_gt p hp
    omega
  · by_cases h1 : (P.sub m).length = 1
    · rw [assign_not, he.head k hk, hst, List.length_append, h1]
      · simp only [List.length_cons]
        omega
      · intro p hp e'
        rcases mem_psPush.1 hp with ⟨x, hx, rfl⟩ | ⟨h2, rfl⟩
        · exact psHead_ne_slot hk e'.symm
        · exact h2 (by simpa using h1)
    · rw [assign_mem hpf (mem_psPush.2 (.inr ⟨by simpa using h1, rfl⟩)) σ, List.length_append, List.length_reverse]
      omega
  · intro y hy
    rw [List.reverse_append]
    by_cases hin : r.length ≤ y ∧ y < r.length + (P.sub m).length
    · obtain ⟨x, rfl⟩ : ∃ x, y = r.length + x := ⟨y - r.length, by omega⟩
      rw [assign_mem hpf (mem_psPush.2 (.inl ⟨x, by rw [List.length_reverse]; omega, rfl⟩)) σ,
        List.getElem?_append_right (by simp), List.length_reverse, show r.length + x - r.length = x from by omega,
        List.getElem?_eq_getElem (by rw [List.length_reverse]; omega)]
      simp only [Option.getD_some, Option.elim_some]
      omega
    · rw [assign_not, he.slot k hk y hy, hst, List.reverse_cons]
      · rcases Nat.lt_or_ge y r.length with hlt | hge
        · rw [List.getElem?_append_left (by simpa using hlt), List.getElem?_append_left (by simpa using hlt)]
        · rw [List.getElem?_eq_none (by simp; omega), List.getElem?_eq_none (by simp; omega)]
      · intro p hp e'
        rcases mem_psPush.1 hp with ⟨x, hx, rfl⟩ | ⟨h2, rfl⟩
        · rw [List.length_reverse] at hx
          have := (psSlot_inj hk (by omega) hk hy e').2
          omega
        · exact psHead_ne_slot hk e'
  · intro l hl hl'
    rw [assign_not, he.con k hk l hl (Ne.symm hl'), hst]
    · simp [hne]
    · intro p hp e'
      rcases mem_psPush.1 hp with ⟨x, hx, rfl⟩ | ⟨h2, rfl⟩
      · exact psCon_ne_slot (conIdx_lt hk hl (Ne.symm hl')) e'.symm
      · exact psHead_ne_con hk e'
  · intro v hv h1 h2 h3
    rw [assign_not]
    intro p hp e'
    rcases mem_psPush.1 hp with ⟨x, hx, rfl⟩ | ⟨-, rfl⟩
    · rw [List.length_reverse] at hx
      exact h2 _ (by omega) e'.symm
    · exact h1 e'.symm

/-- The orderings between the sequences of a method of the initial task. -/
def seqOrd (P : Problem) (m : Nat) (i j : Nat) : Prop := P.OrdRel m ((P.sub m).length - 1 - i) ((P.sub m).length - 1 - j)

/-- The operator of a method of the initial task starts the sequences. -/
theorem psT_step (hin : PsInput P vars nA nT h.length) (h1 : ∀ k < h.length, 1 ≤ hAt h k) {σ : Val} (hc : Corr vars P.initState σ)
    (hz : ∀ y, σ (vars.length + 1 + y) = 0) {m : Nat} (hm : m < P.numMethods) (e : P.head m = P.init) :
    PEnc vars h (seqOrd P m) ((psT P vars h m).2.res σ) P.initState (fun k => [(P.sub m)[(P.sub m).length - 1 - k]?.getD 0]) := by
  have hlen := hin.top_len m hm e
  have hord := hin.ord_lt hm e
  have hsf := psStart_fun (nV := vars.length) (h := h) (R := (P.sub m).reverse) (ord := revOrd (P.sub m).length (P.ord m)) h1
  rw [psT]
  simp only [mkOp_res]
  refine ⟨?_, ?_, fun k hk => by simpa using h1 k hk, fun k hk => ?_, fun k hk y hy => ?_, fun a ha b hb hne => ?_⟩
  · refine hc.congr fun v hv => ?_
    rw [assign_not]
    intro p hp
    have := psStart_ge p hp
    omega
  · exact assign_mem hsf (mem_psStart.2 (.inl rfl)) σ
  · exact assign_mem hsf (mem_psStart.2 (.inr (.inl ⟨k, hk, rfl⟩))) σ
  · cases y with
    | zero =>
      rw [assign_mem hsf (mem_psStart.2 (.inr (.inr (.inl ⟨k, hk, rfl⟩)))) σ, List.getElem?_reverse (by omega)]
      simp
    | succ y =>
      rw [assign_not]
      · have := hz (psSlot vars.length h k (y + 1) - (vars.length + 1))
        have hg : vars.length < psSlot vars.length h k (y + 1) := psSlot_gt
        rw [show vars.length + 1 + (psSlot vars.length h k (y + 1) - (vars.length + 1)) = psSlot vars.length h k (y + 1) from by omega] at this
        rw [this]
        simp
      · intro p hp e'
        rcases mem_psStart.1 hp with rfl | ⟨l, hl, rfl⟩ | ⟨l, hl, rfl⟩ | ⟨c, hc, rfl⟩
        · exact absurd e' (ne_of_lt psSlot_gt)
        · exact psHead_ne_slot hl e'
        · have := (psSlot_inj hl (h1 l hl) hk hy e').2
          omega
        · exact psCon_ne_slot hc e'
  · rw [assign_mem hsf (mem_psStart.2 (.inr (.inr (.inr ⟨_, conIdx_lt ha hb hne, rfl⟩)))) σ]
    have hiff : ((revOrd (P.sub m).length (P.ord m)).map fun o => conIdx h.length o.1 o.2).contains (conIdx h.length a b) = true ↔
        seqOrd P m a b := by
      rw [List.contains_iff_mem, List.mem_map, seqOrd, Problem.OrdRel]
      constructor
      · rintro ⟨o, ho, e1⟩
        obtain ⟨o', ho', rfl⟩ := List.mem_map.1 ho
        obtain ⟨g1, g2, g3⟩ := hord o' ho'
        obtain ⟨rfl, rfl⟩ := conIdx_inj (by omega) (by omega) (by omega) ha hb hne e1
        rw [show (P.sub m).length - 1 - ((P.sub m).length - 1 - o'.1) = o'.1 from by omega,
          show (P.sub m).length - 1 - ((P.sub m).length - 1 - o'.2) = o'.2 from by omega]
        exact ho'
      · intro ho
        refine ⟨(a, b), List.mem_map.2 ⟨_, ho, ?_⟩, rfl⟩
        simp only [Prod.mk.injEq]
        omega
    by_cases hs : seqOrd P m a b
    · rw [if_pos (hiff.2 hs)]
      simp [hs]
    · rw [if_neg (fun hh => hs (hiff.1 hh))]
      simp [hs]

/-! ## Plans -/

/-- The action that an operator executes. -/
def labAct : Lab → Option Nat
  | .prim a _ => some a
  | .meth _ _ => none

/-- The actions of a plan of the translated problem. -/
def psActs (ρ : List (Lab × SOp)) : List Nat := ρ.filterMap fun x => labAct x.1

variable {T : STask Lab}

/-- The operators of the task. -/
def PsOpsOK (P : Problem) (vars : List (Nat × Nat)) (nA : Nat) (h : List Nat) (T : STask Lab) : Prop :=
  ∀ x, x ∈ T.ops ↔ (∃ a j k, a < nA ∧ k < h.length ∧ j < hAt h k ∧ x = psA P vars h a j k) ∨
    (∃ m j k, m < P.numMethods ∧ P.head m ≠ P.init ∧ k < h.length ∧ (P.sub m).length + j ≤ hAt h k ∧ x = psM P vars h m j k) ∨
    ∃ m < P.numMethods, P.head m = P.init ∧ x = psT P vars h m

theorem psT_app {m : Nat} {σ : Val} : (psT P vars h m).2.App σ ↔ σ vars.length = 1 := by
  rw [psT, mkOp_app_iff]
  · simp [Holds]
  · intro x hx y hy _
    simp at hx hy
    rw [hx, hy]

theorem psCost (hops : PsOpsOK P vars nA h T) {ρ : List (Lab × SOp)} (hρ : ∀ x ∈ ρ, x ∈ T.ops) :
    planCost ρ = P.planCost (psActs ρ) := by
  induction ρ with
  | nil => rfl
  | cons x ρ ih =>
    have := ih fun y hy => hρ y (.tail _ hy)
    rcases (hops x).1 (hρ x (.head _)) with ⟨a, j, k, -, -, -, rfl⟩ | ⟨m, j, k, -, -, -, -, rfl⟩ | ⟨m, -, -, rfl⟩ <;>
      simp only [planCost, Problem.planCost, psActs, List.map_cons, List.sum_cons, List.filterMap_cons] at this ⊢ <;> rw [this] <;>
      simp [psA, psM, psT, labAct, mkOp]

theorem srun_mem {L : Type} {T : STask L} {σ σ' : Val} {ρ : List (L × SOp)} (hr : SRun T σ ρ σ') : ∀ x ∈ ρ, x ∈ T.ops := by
  induction hr with
  | nil => simp
  | cons hx _ _ ih =>
    intro y hy
    rcases List.mem_cons.1 hy with rfl | hy
    · exact hx
    · exact ih y hy

theorem psRun_sound (hin : PsInput P vars nA nT h.length) (hf : ∀ a < nA, PrecFun vars P a) (hops : PsOpsOK P vars nA h T)
    (hirr : ∀ k, ¬ ord k k) {b : Nat → Nat} (hb : ∀ k < h.length, b k = hAt h k) {σ σ' : Val} {ρ : List (Lab × SOp)} (hr : SRun T σ ρ σ')
    (hz : ∀ k < h.length, σ' (psHead vars.length k) = 0) : ∀ {s : State} {st : Nat → List Nat}, PEnc vars h ord σ s st → Reach P s →
    ∃ s', PStk P ord h.length b s st (psActs ρ) s' ∧ Corr vars s' σ' := by
  induction hr with
  | nil σ =>
    intro s st he _
    refine ⟨s, .nil fun k hk => ?_, he.corr⟩
    have := he.head k hk
    rw [hz k hk] at this
    exact List.length_eq_zero_iff.1 this.symm
  | @cons σ σ' x ρ hx happ hrun ih =>
    intro s st he hrs
    rcases (hops x).1 hx with ⟨a, j, k, ha, hk, hj, rfl⟩ | ⟨m, j, k, hm, e, hk, hfit, rfl⟩ | ⟨m, hm, e, rfl⟩
    · obtain ⟨hap, ⟨r, hst, rfl⟩, hfree⟩ := (psA_app hin hf hirr he ha hk hj).1 happ
      obtain ⟨s', h3, h4⟩ := ih hz (psA_step hin he hk hrs hst hap) (hrs.step hap)
      exact ⟨s', .act hk hfree hst (by rw [hin.prim]; simpa using ha) hap h3, h4⟩
    · have hpos := List.length_pos_iff.2 (hin.wf.sub_ne m hm)
      obtain ⟨⟨r, hst, rfl⟩, hfree⟩ := (psM_app hirr he hk (by omega)).1 happ
      obtain ⟨s', h3, h4⟩ := ih hz (psM_step he hk hst (hin.wf.sub_ne m hm) hfit) hrs
      exact ⟨s', .meth hk hfree hm e hst (by rw [hb k hk]; exact hfit) h3, h4⟩
    · have := psT_app.1 happ
      rw [he.top] at this
      cases this

theorem psRun_complete (hin : PsInput P vars nA nT h.length) (hf : ∀ a < nA, PrecFun vars P a) (hops : PsOpsOK P vars nA h T)
    (hirr : ∀ k, ¬ ord k k) {b : Nat → Nat} (hb : ∀ k < h.length, b k = hAt h k) {s s' : State} {st : Nat → List Nat} {π : List Nat}
    (hs : PStk P ord h.length b s st π s') : ∀ {σ : Val}, PEnc vars h ord σ s st → Reach P s →
    ∃ ρ σ', SRun T σ ρ σ' ∧ psActs ρ = π ∧ Corr vars s' σ' ∧ σ' vars.length = 0 ∧ ∀ k < h.length, σ' (psHead vars.length k) = 0 := by
  induction hs with
  | @nil s st hst =>
    intro σ he _
    exact ⟨[], σ, .nil _, rfl, he.corr, he.top, fun k hk => by rw [he.head k hk, hst k hk]; rfl⟩
  | @act s s' st k a r π hk hfree hst hp hap _ ih =>
    intro σ he hr
    have ha : a < nA := by rw [hin.prim] at hp; simpa using hp
    have hj : r.length < hAt h k := by
      have := he.le k hk
      rw [hst, List.length_cons] at this
      exact this
    obtain ⟨ρ, σ', k1, k2, k3⟩ := ih (psA_step hin he hk hr hst hap) (hr.step hap)
    refine ⟨psA P vars h a r.length k :: ρ, σ', .cons ((hops _).2 (.inl ⟨a, _, k, ha, hk, hj, rfl⟩))
      ((psA_app hin hf hirr he ha hk hj).2 ⟨hap, ⟨r, hst, rfl⟩, hfree⟩) k1, ?_, k3⟩
    rw [← k2]
    rfl
  | @meth s s' st k m r π hk hfree hm e hst hfit _ ih =>
    intro σ he hr
    rw [hb k hk] at hfit
    have hpos := List.length_pos_iff.2 (hin.wf.sub_ne m hm)
    obtain ⟨ρ, σ', k1, k2, k3⟩ := ih (psM_step he hk hst (hin.wf.sub_ne m hm) hfit) hr
    refine ⟨psM P vars h m r.length k :: ρ, σ', .cons ((hops _).2 (.inr (.inl ⟨m, _, k, hm, e, hk, hfit, rfl⟩)))
      ((psM_app hirr he hk (by omega)).2 ⟨⟨r, hst, rfl⟩, hfree⟩) k1, ?_, k3⟩
    rw [← k2]
    rfl

theorem psGoal_iff (hin : PsInput P vars nA nT h.length)
    (hgoal : T.goal = P.goal.filterMap (conv vars) ++ (vars.length, 0) :: (List.range h.length).map (fun k => (psHead vars.length k, 0)))
    {s : State} {σ : Val} (hcs : Corr vars s σ) :
    T.Goal σ ↔ P.GoalState s ∧ σ vars.length = 0 ∧ ∀ k < h.length, σ (psHead vars.length k) = 0 := by
  rw [STask.Goal, hgoal]
  have := hcs.holds hin.sas.contig (l := P.goal) hin.wf.goal_lt
  constructor
  · intro h
    refine ⟨this.1 fun p hp => h p (List.mem_append_left _ hp), h (vars.length, 0) (by simp), fun k hk => ?_⟩
    exact h (psHead vars.length k, 0) (List.mem_append_right _ (.tail _ (List.mem_map.2 ⟨k, by simpa using hk, rfl⟩)))
  · rintro ⟨h1, h2, h3⟩ g hg
    rcases List.mem_append.1 hg with hg | hg
    · exact this.2 h1 g hg
    · rcases List.mem_cons.1 hg with rfl | hg
      · exact h2
      · obtain ⟨k, hk, rfl⟩ := List.mem_map.1 hg
        exact h3 k (by simpa using hk)

theorem psIrr (hP : P.WF) {m : Nat} (hm : m < P.numMethods) (k : Nat) : ¬ seqOrd P m k k := by
  intro hk
  obtain ⟨rank, hr⟩ := hP.ord_acyclic m hm
  exact absurd (hr _ _ hk) (by omega)

/-- The bounds by the positions of the subtasks of a method of the initial task. -/
def posBound (h : List Nat) (i : Nat) : Nat := hAt h (h.length - 1 - i)

theorem hAt_pos {h : List Nat} (h1 : ∀ p ∈ h, 1 ≤ p) {k : Nat} (hk : k < h.length) : 1 ≤ hAt h k := by
  rw [hAt, List.getElem?_eq_getElem hk]
  exact h1 _ (List.getElem_mem hk)

/-- The plans of the translated problem are the solutions for which the stacks are large enough. -/
theorem psPlans (hin : PsInput P vars nA nT h.length) (hf : ∀ a < nA, PrecFun vars P a) (h1 : ∀ p ∈ h, 1 ≤ p)
    (hT : psTranslate P vars nA nT h = some T) :
    (∀ ρ, T.Plan ρ → ParSolution P (posBound h) (psActs ρ) ∧ planCost ρ = P.planCost (psActs ρ)) ∧
    ∀ π, ParSolution P (posBound h) π → ∃ ρ, T.Plan ρ ∧ psActs ρ = π := by
  obtain ⟨T', hT', hops, hgoal, -, -, -, -, hc, htop, hz⟩ := psTranslate_eq hin h1
  rw [hT] at hT'
  cases hT'
  have key : ∀ m < P.numMethods, P.head m = P.init → 0 < h.length ∧ (∀ k, 1 ≤ posBound h k) ∧ ∀ k < h.length,
      posBound h ((P.sub m).length - 1 - k) = hAt h k := by
    intro m hm e
    have hl := hin.top_len m hm e
    have h0 : 0 < h.length := by
      rw [← hl]
      exact List.length_pos_iff.2 (hin.wf.sub_ne m hm)
    refine ⟨h0, fun k => hAt_pos h1 (by omega), fun k hk => ?_⟩
    rw [posBound, hl]
    congr 1
    omega
  constructor
  · rintro ρ ⟨σ, hrun, hg⟩
    refine ⟨?_, psCost hops (srun_mem hrun)⟩
    have hg1 : σ vars.length = 0 := hg (vars.length, 0) (by rw [hgoal]; simp)
    have hg2 : ∀ k < h.length, σ (psHead vars.length k) = 0 := fun k hk =>
      hg (psHead vars.length k, 0) (by rw [hgoal]; exact List.mem_append_right _ (.tail _ (List.mem_map.2 ⟨k, by simpa using hk, rfl⟩)))
    cases hrun with
    | nil =>
      rw [htop] at hg1
      cases hg1
    | @cons _ _ x ρ hx happ hrun =>
      have hz' : ∀ v, vars.length < v → T.start v = 0 := by
        intro v hv
        have := hz (v - (vars.length + 1))
        rwa [show vars.length + 1 + (v - (vars.length + 1)) = v from by omega] at this
      rcases (hops x).1 hx with ⟨a, j, k, ha, hk, hj, rfl⟩ | ⟨m, j, k, hm, e, hk, hfit, rfl⟩ | ⟨m, hm, e, rfl⟩
      · rw [psA, mkOp_app_iff (psA_fun (hf a ha) hk), holds_append] at happ
        have := happ.2 _ ((mem_psPre hk).2 (.inl rfl))
        rw [hz' _ psHead_gt] at this
        simp only at this
        omega
      · rw [psM, mkOp_app_iff (psPre_fun hk)] at happ
        have := happ _ ((mem_psPre hk).2 (.inl rfl))
        rw [hz' _ psHead_gt] at this
        simp only at this
        omega
      · obtain ⟨h0, hb1, hb2⟩ := key m hm e
        have hl := hin.top_len m hm e
        obtain ⟨s', k1, k2⟩ := psRun_sound hin hf hops (psIrr hin.wf hm) (b := fun k => posBound h ((P.sub m).length - 1 - k)) hb2 hrun hg2
          (psT_step hin (fun k hk => hAt_pos h1 hk) hc hz hm e) ⟨[], .nil _⟩
        rw [← hl] at k1
        exact (parSolution_iff hin.wf hin.par hb1).2 ⟨m, hm, e, s', k1, ((psGoal_iff hin hgoal k2).1 hg).1⟩
  · intro π hs
    have hs' := hs
    have hne : ∃ m < P.numMethods, P.head m = P.init := by
      obtain ⟨m, cs, e, hv, -⟩ := hs
      generalize P.init = t at hv e
      obtain _ | ⟨hm, -⟩ := hv
      exact ⟨m, hm, e⟩
    obtain ⟨m0, hm0, e0⟩ := hne
    obtain ⟨m, hm, e, s', k1, k2⟩ := (parSolution_iff hin.wf hin.par (key m0 hm0 e0).2.1).1 hs'
    obtain ⟨h0, hb1, hb2⟩ := key m hm e
    rw [hin.top_len m hm e] at k1
    have hst := psT_step hin (fun k hk => hAt_pos h1 hk) hc hz hm e
    unfold seqOrd at hst
    rw [hin.top_len m hm e] at hst hb2
    have hirr := psIrr hin.wf hm
    unfold seqOrd at hirr
    rw [hin.top_len m hm e] at hirr
    obtain ⟨ρ, σ', g1, g2, g3, g4, g5⟩ := psRun_complete hin hf hops hirr hb2 k1 hst ⟨[], .nil _⟩
    refine ⟨psT P vars h m :: ρ, ⟨σ', .cons ((hops _).2 (.inr (.inr ⟨m, hm, e, rfl⟩))) (psT_app.2 htop) g1, ?_⟩, ?_⟩
    · exact (psGoal_iff hin hgoal g3).2 ⟨k2, g4, g5⟩
    · rw [← g2]
      rfl

end

end Verif.Sas
