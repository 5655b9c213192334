import Verif.Strips
import Mathlib.Tactic.SplitIfs

/-! # The h-max exploration of LM-cut

Model of `hsLmCut::getHMax` (src/heuristics/rcHeuristics/hsLmCut.cpp 253-318).  `U` is `UNREACHABLE`
(`INT_MAX`, src/flags.h 18).  Integers are unbounded here; that no sum reaches `U` is part of the
invariant (under the hypothesis that the costs of all actions together stay below `U`), so that no
overflow occurs. -/

namespace Verif.Strips

/-- The arrays `hVal`, `maxPrec` (`UNREACHABLE` is `none`), `unsatPrecs`, and the heap. -/
structure HM (Q : Type) where
  hVal : Nat → Nat
  maxPrec : Nat → Option Nat
  unsat : Nat → Int
  q : Q

section model

variable (M : Strips) (pq : PQ) (U : Nat) (c : Nat → Nat)

/-- One iteration of the loop over the state facts (hsLmCut.cpp 263-266). -/
def hmState (st : HM pq.Q) (f : Nat) : HM pq.Q :=
  { st with hVal := Function.update st.hVal f 0, q := pq.add st.q 0 f }

/-- One iteration of the loop over the effects of an action without preconditions (hsLmCut.cpp 270-274);
the original costs are read. -/
def hmPrecLess (o : Nat) (st : HM pq.Q) (f : Nat) : HM pq.Q :=
  { st with hVal := Function.update st.hVal f (M.cost o), q := pq.add st.q (M.cost o) f }

/-- The actions without preconditions. -/
def Strips.precLess : List Nat := (List.range M.numOps).filter fun o => (M.prec o).isEmpty

/-- The state before the main loop (hsLmCut.cpp 257-275); `s` are the elements of the bucket set. -/
def hmStart (s : List Nat) : HM pq.Q :=
  let st := s.foldl (hmState pq)
    { hVal := fun _ => U, maxPrec := fun _ => none, unsat := fun o => (M.prec o).length, q := pq.empty }
  M.precLess.foldl (fun st o => (M.add o).foldl (hmPrecLess M pq o) st) st

/-- One iteration of the loop over the add effects (hsLmCut.cpp 289-296); `mp` is `maxPrec[op]`. -/
def hmAdd (o mp : Nat) (st : HM pq.Q) (f : Nat) : HM pq.Q :=
  if st.hVal f = U ∨ st.hVal mp + c o < st.hVal f then
    { st with hVal := Function.update st.hVal f (st.hVal mp + c o), q := pq.add st.q (st.hVal mp + c o) f }
  else st

/-- The new `maxPrec[op]` (hsLmCut.cpp 284-287). -/
def hmMaxPrec (st : HM pq.Q) (p o : Nat) : Nat :=
  match st.maxPrec o with
  | none => p
  | some x => if st.hVal x < st.hVal p then p else x

/-- One iteration of the loop over the actions with precondition `p` (hsLmCut.cpp 282-298). -/
def hmOp (p : Nat) (st : HM pq.Q) (o : Nat) : HM pq.Q :=
  let mp := hmMaxPrec pq st p o
  let st := { st with maxPrec := Function.update st.maxPrec o (some mp),
                      unsat := Function.update st.unsat o (st.unsat o - 1) }
  if st.unsat o = 0 then (M.add o).foldl (hmAdd pq U c o mp) st else st

/-- The main loop (hsLmCut.cpp 276-299). -/
def hmLoop : Nat → HM pq.Q → Option (HM pq.Q)
  | 0, _ => none
  | fuel + 1, st =>
    match pq.pop st.q with
    | none => some st
    | some ((k, p), q) =>
      if st.hVal p < k then hmLoop fuel { st with q := q }
      else hmLoop fuel ((M.precToAction p).foldl (hmOp M pq U c p) { st with q := q })

/-- The loop over the goals (hsLmCut.cpp 301-312); `none` is `INT_MIN`.  The result is `res` and
`maxPrecG`. -/
def hmGoal (hVal : Nat → Nat) : List Nat → Option (Nat × Nat) → Option (Nat × Option Nat)
  | [], r => r.map fun r => (r.1, some r.2)
  | f :: g, r =>
    if hVal f = U then some (U, none)
    else hmGoal hVal g (match r with
      | none => some (hVal f, f)
      | some r => if r.1 < hVal f then some (hVal f, f) else some r)

/-- `getHMax` (hsLmCut.cpp 253-315): the result and, unless the goal is empty, `maxPrecG` and the arrays.
`none`: more iterations than `fuel`. -/
def getHMax (fuel : Nat) (s g : List Nat) : Option (Nat × Option (Option Nat × HM pq.Q)) :=
  if g.isEmpty then some (0, none)
  else do
    let st ← hmLoop M pq U c fuel (hmStart M pq U s)
    let r ← hmGoal U st.hVal g none
    return (r.1, some (r.2, st))

end model

/-! ## The invariant -/

variable {M : Strips} {pq : PQ} {U : Nat} {c : Nat → Nat} {s : List Nat}

open Classical in
/-- Costs of the actions whose preconditions are processed. -/
noncomputable def firedCost (M : Strips) (c : Nat → Nat) (D : Nat → Finset Nat) : Nat :=
  ∑ o ∈ (Finset.range M.numOps).filter (fun o => ∀ p ∈ M.prec o, p ∈ D o), c o

/-- Total costs. -/
def Strips.total (M : Strips) (c : Nat → Nat) : Nat := ∑ o ∈ Finset.range M.numOps, c o

/-- The invariant of the main loop: `done` are the processed facts, `D o` the ones already known to action
`o`, `b` a lower bound of the keys. -/
structure HInv (M : Strips) (pq : PQ) (U : Nat) (c : Nat → Nat) (s : List Nat) (st : HM pq.Q)
    (done : Finset Nat) (D : Nat → Finset Nat) (b : Nat) : Prop where
  nodup : (pq.items st.q).Nodup
  ent : ∀ x ∈ pq.items st.q, st.hVal x.2 ≤ x.1 ∧ x.1 < U ∧ b ≤ x.1
  pend : ∀ f, f ∉ done → st.hVal f ≠ U → (st.hVal f, f) ∈ pq.items st.q
  stale : ∀ f ∈ done, ∀ x ∈ pq.items st.q, x.2 = f → st.hVal f < x.1
  dle : ∀ f ∈ done, st.hVal f ≤ b ∧ st.hVal f < U
  sub : ∀ o, D o ⊆ done
  unsat : ∀ o < M.numOps, st.unsat o = (M.prec o).length - ((M.prec o).filter (fun p => p ∈ D o)).length
  mp : ∀ o < M.numOps, ∀ p ∈ M.prec o, p ∈ D o → ∃ x, st.maxPrec o = some x ∧ x ∈ M.prec o ∧ x ∈ D o ∧
    st.hVal p ≤ st.hVal x
  mpn : ∀ o < M.numOps, (∀ p ∈ M.prec o, p ∉ D o) → st.maxPrec o = none
  fired : ∀ o < M.numOps, (∀ p ∈ M.prec o, p ∈ D o) → ∀ f ∈ M.add o, ∃ x, st.maxPrec o = some x ∧
    st.hVal f ≤ st.hVal x + c o ∧ st.hVal f < U
  hle : ∀ f, st.hVal f ≠ U → HLe M c (· ∈ s) f (st.hVal f)
  s0 : ∀ f ∈ s, st.hVal f = 0
  bound : ∀ f, st.hVal f ≠ U → st.hVal f ≤ firedCost M c D
  leU : ∀ f, st.hVal f ≤ U

theorem hmAdd_fold (o mp v : Nat) (hv : v < U) : ∀ (l : List Nat) (st : HM pq.Q),
    st.hVal mp + c o = v →
    (∀ f, st.hVal f ≤ U) →
    let st' := l.foldl (hmAdd pq U c o mp) st
    st'.maxPrec = st.maxPrec ∧ st'.unsat = st.unsat ∧
    (∀ x, st'.hVal x = if x ∈ l then min (st.hVal x) v else st.hVal x) ∧
    ∃ new : List (Nat × Nat), (pq.items st'.q).Perm (new ++ pq.items st.q) ∧ new.length ≤ l.length ∧
      new.Nodup ∧ (∀ x ∈ new, x.1 = v ∧ x.2 ∈ l ∧ v < st.hVal x.2) ∧
      ∀ x ∈ l, v < st.hVal x → (v, x) ∈ new := by
  intro l
  induction l with
  | nil =>
    intro st _ _
    exact ⟨rfl, rfl, fun x => by simp, [], by simp, by simp, by simp, by simp, by simp⟩
  | cons f l ih =>
    intro st hst hU
    simp only [List.foldl_cons]
    by_cases hc : st.hVal f = U ∨ st.hVal mp + c o < st.hVal f
    · have hlt : v < st.hVal f := by omega
      have hne : mp ≠ f := by rintro rfl; omega
      have e : hmAdd pq U c o mp st f =
          { st with hVal := Function.update st.hVal f v, q := pq.add st.q v f } := by
        unfold hmAdd; rw [if_pos hc, hst]
      rw [e]
      obtain ⟨h1, h2, h3, new, h4, h5, h6, h7, h8⟩ := ih
        { st with hVal := Function.update st.hVal f v, q := pq.add st.q v f }
        (by simp only [Function.update_of_ne hne]; exact hst)
        (fun x => by
          by_cases hx : x = f
          · subst hx; simp only [Function.update_self]; omega
          · simp only [Function.update_of_ne hx]; exact hU x)
      refine ⟨h1, h2, ?_, (v, f) :: new, ?_, by simp; omega, ?_, ?_, ?_⟩
      · intro x
        rw [h3 x]
        by_cases hx : x = f
        · subst hx
          simp only [Function.update_self, List.mem_cons, true_or, if_true, min_self, ite_self]
          omega
        · simp only [Function.update_of_ne hx, List.mem_cons, hx, false_or]
      · refine h4.trans ?_
        refine ((pq.items_add st.q v f).append_left new).trans ?_
        exact List.perm_middle
      · refine List.nodup_cons.2 ⟨fun hm => ?_, h6⟩
        have := (h7 _ hm).2.2
        simp only [Function.update_self] at this
        omega
      · intro x hx
        rcases List.mem_cons.1 hx with rfl | hx
        · exact ⟨rfl, by simp, hlt⟩
        · obtain ⟨a1, a2, a3⟩ := h7 x hx
          refine ⟨a1, List.mem_cons_of_mem _ a2, ?_⟩
          by_cases hxf : x.2 = f
          · rw [hxf]; exact hlt
          · simpa only [Function.update_of_ne hxf] using a3
      · intro x hx hvx
        by_cases hxf : x = f
        · subst hxf; simp
        · rcases List.mem_cons.1 hx with rfl | hx
          · exact absurd rfl hxf
          · exact List.mem_cons_of_mem _ (h8 x hx (by simpa only [Function.update_of_ne hxf] using hvx))
    · have hge : ¬ v < st.hVal f := by omega
      have e : hmAdd pq U c o mp st f = st := by unfold hmAdd; rw [if_neg hc]
      rw [e]
      obtain ⟨h1, h2, h3, new, h4, h5, h6, h7, h8⟩ := ih st hst hU
      refine ⟨h1, h2, ?_, new, h4, by simp; omega, h6, ?_, ?_⟩
      · intro x
        rw [h3 x]
        by_cases hx : x = f
        · subst hx
          simp only [List.mem_cons, true_or, if_true]
          split_ifs
          · rfl
          · omega
        · simp only [List.mem_cons, hx, false_or]
      · intro x hx
        obtain ⟨a1, a2, a3⟩ := h7 x hx
        exact ⟨a1, List.mem_cons_of_mem _ a2, a3⟩
      · intro x hx hvx
        rcases List.mem_cons.1 hx with rfl | hx
        · exact absurd hvx hge
        · exact h8 x hx hvx

theorem filter_insert_length {l : List Nat} (hl : l.Nodup) {p : Nat} (hp : p ∈ l) {D : Finset Nat}
    (hD : p ∉ D) : (l.filter (fun x => x ∈ insert p D)).length = (l.filter (fun x => x ∈ D)).length + 1 := by
  have h1 : ∀ D : Finset Nat, (l.filter (fun x => decide (x ∈ D))).length = (l.toFinset ∩ D).card := by
    intro D
    rw [← List.toFinset_card_of_nodup (hl.filter _)]
    congr 1
    ext x; simp
  rw [h1, h1, Finset.inter_insert_of_mem (by simpa using hp), Finset.card_insert_of_notMem (by simp [hD])]

theorem filter_length_eq {l : List Nat} {D : Finset Nat} :
    (l.filter (fun x => x ∈ D)).length = l.length ↔ ∀ p ∈ l, p ∈ D := by
  rw [List.length_filter_eq_length_iff]
  simp

open Classical in
/-- Add effects of the actions that are not yet applied. -/
noncomputable def pot (M : Strips) (D : Nat → Finset Nat) : Nat :=
  ∑ o ∈ (Finset.range M.numOps).filter (fun o => ¬ ∀ p ∈ M.prec o, p ∈ D o), (M.add o).length

open Classical in
theorem firedCost_update {D : Nat → Finset Nat} {o : Nat} {E : Finset Nat} (hE : D o ⊆ E) :
    firedCost M c D ≤ firedCost M c (Function.update D o E) := by
  unfold firedCost
  refine Finset.sum_le_sum_of_subset fun x hx => ?_
  simp only [Finset.mem_filter] at hx ⊢
  refine ⟨hx.1, fun p hp => ?_⟩
  by_cases h : x = o
  · subst h; simp only [Function.update_self]; exact hE (hx.2 p hp)
  · simp only [Function.update_of_ne h]; exact hx.2 p hp

open Classical in
theorem firedCost_fire {D : Nat → Finset Nat} {o : Nat} {E : Finset Nat} (ho : o < M.numOps)
    (h1 : ¬ ∀ p ∈ M.prec o, p ∈ D o) (h2 : ∀ p ∈ M.prec o, p ∈ E) :
    firedCost M c (Function.update D o E) = firedCost M c D + c o ∧
      pot M (Function.update D o E) + (M.add o).length = pot M D := by
  have e1 : (Finset.range M.numOps).filter (fun x => ∀ p ∈ M.prec x, p ∈ Function.update D o E x) =
      insert o ((Finset.range M.numOps).filter (fun x => ∀ p ∈ M.prec x, p ∈ D x)) := by
    ext x
    simp only [Finset.mem_filter, Finset.mem_range, Finset.mem_insert]
    by_cases h : x = o
    · subst h; simp only [Function.update_self, ho, true_and, true_or, iff_true]; exact h2
    · simp [Function.update_of_ne h, h]
  have e2 : (Finset.range M.numOps).filter (fun x => ¬ ∀ p ∈ M.prec x, p ∈ D x) =
      insert o ((Finset.range M.numOps).filter (fun x => ¬ ∀ p ∈ M.prec x, p ∈ Function.update D o E x)) := by
    ext x
    simp only [Finset.mem_filter, Finset.mem_range, Finset.mem_insert]
    by_cases h : x = o
    · subst h; simp only [ho, h1, not_false_eq_true, and_self, true_or]
    · simp only [Function.update_of_ne h, h, false_or]
  unfold firedCost pot
  constructor
  · rw [e1, Finset.sum_insert (by simp only [Finset.mem_filter, h1, and_false, not_false_eq_true]), Nat.add_comm]
  · rw [e2, Finset.sum_insert, Nat.add_comm]
    simp only [Finset.mem_filter, Function.update_self, not_and, not_not]
    exact fun _ => h2

open Classical in
theorem pot_update {D : Nat → Finset Nat} {o : Nat} {E : Finset Nat} (hE : D o ⊆ E) :
    pot M (Function.update D o E) ≤ pot M D := by
  unfold pot
  refine Finset.sum_le_sum_of_subset fun x hx => ?_
  simp only [Finset.mem_filter] at hx ⊢
  refine ⟨hx.1, fun h => hx.2 fun p hp => ?_⟩
  by_cases hxo : x = o
  · subst hxo; simp only [Function.update_self]; exact hE (h p hp)
  · simp only [Function.update_of_ne hxo]; exact h p hp

open Classical in
theorem firedCost_le (D : Nat → Finset Nat) : firedCost M c D ≤ M.total c :=
  Finset.sum_le_sum_of_subset (Finset.filter_subset _ _)

theorem hmOp_inv (hM : M.WF) (htot : M.total c < U) {st : HM pq.Q} {done : Finset Nat}
    {D : Nat → Finset Nat} {p o : Nat} (I : HInv M pq U c s st done D (st.hVal p)) (ho : o < M.numOps)
    (hpo : p ∈ M.prec o) (hpd : p ∈ done) (hpD : p ∉ D o) :
    let st' := hmOp M pq U c p st o
    let D' := Function.update D o (insert p (D o))
    HInv M pq U c s st' done D' (st.hVal p) ∧ (∀ x ∈ done, st'.hVal x = st.hVal x) ∧
      (pq.items st'.q).length + pot M D' ≤ (pq.items st.q).length + pot M D := by
  intro st' D'
  have hD'o : D' o = insert p (D o) := Function.update_self ..
  have hD'n : ∀ x, x ≠ o → D' x = D x := fun x hx => Function.update_of_ne hx ..
  have hDsub : ∀ x, D x ⊆ D' x := by
    intro x
    by_cases hx : x = o
    · subst hx; rw [hD'o]; exact Finset.subset_insert _ _
    · rw [hD'n x hx]
  have hsub' : ∀ x, D' x ⊆ done := by
    intro x
    by_cases hx : x = o
    · subst hx; rw [hD'o]; exact Finset.insert_subset hpd (I.sub _)
    · rw [hD'n x hx]; exact I.sub x
  obtain ⟨mp, hmp⟩ : ∃ mp, mp = hmMaxPrec pq st p o := ⟨_, rfl⟩
  -- the new maximal precondition
  have hmpP : mp ∈ M.prec o ∧ mp ∈ D' o ∧ st.hVal mp = st.hVal p ∧
      ∀ p' ∈ M.prec o, p' ∈ D' o → st.hVal p' ≤ st.hVal mp := by
    have hle : ∀ x ∈ done, st.hVal x ≤ st.hVal p := fun x hx => (I.dle x hx).1
    have hpD' : p ∈ D' o := by rw [hD'o]; exact Finset.mem_insert_self _ _
    have heq : mp = p ∨ (mp ∈ M.prec o ∧ mp ∈ D o ∧ ¬ st.hVal mp < st.hVal p) := by
      rw [hmp]
      unfold hmMaxPrec
      cases hx : st.maxPrec o with
      | none => left; rfl
      | some x =>
        by_cases hlt : st.hVal x < st.hVal p
        · left; simp [hlt]
        · right
          simp only [hlt, if_false]
          by_cases hex : ∃ p' ∈ M.prec o, p' ∈ D o
          · obtain ⟨p', h1, h2⟩ := hex
            obtain ⟨y, e1, e2, e3, -⟩ := I.mp o ho p' h1 h2
            rw [hx] at e1
            obtain rfl := Option.some.inj e1
            exact ⟨e2, e3, id⟩
          · have := I.mpn o ho (fun p' h1 h2 => hex ⟨p', h1, h2⟩)
            rw [hx] at this; simp at this
    have hv : st.hVal mp = st.hVal p ∧ mp ∈ M.prec o ∧ mp ∈ D' o := by
      rcases heq with h | ⟨h1, h2, h3⟩
      · rw [h]; exact ⟨rfl, hpo, hpD'⟩
      · exact ⟨le_antisymm (hle mp (I.sub _ h2)) (not_lt.1 h3), h1, hDsub o h2⟩
    exact ⟨hv.2.1, hv.2.2, hv.1, fun p' _ h2 => by rw [hv.1]; exact hle p' (hsub' o h2)⟩
  obtain ⟨m1, m2, m3, m4⟩ := hmpP
  -- the counter
  have hcnt : st.unsat o - 1 = (M.prec o).length - ((M.prec o).filter (fun p => p ∈ D' o)).length := by
    rw [I.unsat o ho, hD'o, filter_insert_length (hM.prec_nodup o ho) hpo hpD]
    push_cast; omega
  obtain ⟨st1, hst1⟩ : ∃ st1 : HM pq.Q, st1 = { st with
      maxPrec := Function.update st.maxPrec o (some mp),
      unsat := Function.update st.unsat o (st.unsat o - 1) } := ⟨_, rfl⟩
  have hst' : st' = if st.unsat o - 1 = 0 then (M.add o).foldl (hmAdd pq U c o mp) st1 else st1 := by
    show hmOp M pq U c p st o = _
    subst hst1 hmp
    unfold hmOp
    simp only [Function.update_self]
  -- facts that hold with and without effects
  have common : ∀ st2 : HM pq.Q, st2.maxPrec = st1.maxPrec → st2.unsat = st1.unsat →
      (∀ x, st2.hVal x ≤ st.hVal x) → (∀ x ∈ done, st2.hVal x = st.hVal x) →
      (∀ x < M.numOps, st2.unsat x = (M.prec x).length - ((M.prec x).filter (fun p => p ∈ D' x)).length) ∧
      (∀ x < M.numOps, ∀ p' ∈ M.prec x, p' ∈ D' x → ∃ y, st2.maxPrec x = some y ∧ y ∈ M.prec x ∧ y ∈ D' x ∧
        st2.hVal p' ≤ st2.hVal y) ∧
      (∀ x < M.numOps, (∀ p ∈ M.prec x, p ∉ D' x) → st2.maxPrec x = none) := by
    intro st2 h1 h2 h3 h4
    refine ⟨?_, ?_, ?_⟩
    · intro x hx
      rw [h2, hst1]
      by_cases hxo : x = o
      · subst hxo; simp only [Function.update_self]; exact hcnt
      · simp only [Function.update_of_ne hxo]; rw [I.unsat x hx, hD'n x hxo]
    · intro x hx p' hp' hpx
      rw [h1, hst1]
      by_cases hxo : x = o
      · subst hxo
        refine ⟨mp, by simp, m1, m2, ?_⟩
        rw [h4 p' (hsub' x hpx), h4 mp (hsub' x m2)]
        exact m4 p' hp' hpx
      · simp only [Function.update_of_ne hxo]
        rw [hD'n x hxo] at hpx ⊢
        obtain ⟨y, e1, e2, e3, e4⟩ := I.mp x hx p' hp' hpx
        exact ⟨y, e1, e2, e3, by rw [h4 p' (I.sub x hpx), h4 y (I.sub x e3)]; exact e4⟩
    · intro x hx hno
      rw [h1, hst1]
      by_cases hxo : x = o
      · subst hxo
        exact absurd (by rw [hD'o]; exact Finset.mem_insert_self _ _) (hno p hpo)
      · simp only [Function.update_of_ne hxo]
        rw [hD'n x hxo] at hno
        exact I.mpn x hx hno
  -- maximal preconditions of applied actions stay
  have hkeep : ∀ x < M.numOps, (∀ p ∈ M.prec x, p ∈ D x) → st1.maxPrec x = st.maxPrec x ∧
      ∀ y, st.maxPrec x = some y → y ∈ done := by
    intro x hx hall
    have hxo : x ≠ o := by rintro rfl; exact hpD (hall p hpo)
    refine ⟨by rw [hst1]; exact Function.update_of_ne hxo .., fun y hy => ?_⟩
    obtain ⟨z, hz⟩ := List.exists_mem_of_ne_nil _ (hM.prec_ne x hx)
    obtain ⟨y', e1, -, e3, -⟩ := I.mp x hx z hz (hall z hz)
    rw [hy] at e1
    rw [Option.some.inj e1]
    exact I.sub x e3
  by_cases hz : st.unsat o - 1 = 0
  · -- the action is applied
    rw [if_pos hz] at hst'
    have hall : ∀ p' ∈ M.prec o, p' ∈ D' o := by
      rw [← filter_length_eq]
      have := List.length_filter_le (fun p' => decide (p' ∈ D' o)) (M.prec o)
      omega
    have hnot : ¬ ∀ p' ∈ M.prec o, p' ∈ D o := fun h => hpD (h p hpo)
    obtain ⟨fc, pt⟩ := firedCost_fire (c := c) (E := insert p (D o)) ho hnot (by rw [← hD'o]; exact hall)
    change firedCost M c D' = _ at fc
    change pot M D' + _ = _ at pt
    have hv : st.hVal mp + c o < U := by
      have h1 := I.bound mp (Nat.ne_of_lt (I.dle mp (hsub' o m2)).2)
      have h2 := firedCost_le (M := M) (c := c) D'
      omega
    have hfold := hmAdd_fold (pq := pq) (c := c) o mp (st.hVal mp + c o) hv (M.add o) st1
      (by rw [hst1]) (by rw [hst1]; exact I.leU)
    simp only [← hst'] at hfold
    obtain ⟨h1, h2, h3, new, h4, h5, h6, h7, h8⟩ := hfold
    have hv1 : st1.hVal = st.hVal := by rw [hst1]
    have hq1 : st1.q = st.q := by rw [hst1]
    rw [hv1] at h3 h7 h8
    rw [hq1] at h4
    have hvle : ∀ x, st'.hVal x ≤ st.hVal x := by
      intro x; rw [h3 x]; split_ifs <;> omega
    have hdone : ∀ x ∈ done, st'.hVal x = st.hVal x := by
      intro x hx
      have := (I.dle x hx).1
      rw [h3 x]; split_ifs <;> omega
    obtain ⟨c1, c2, c3⟩ := common st' h1 h2 hvle hdone
    have hmem : ∀ x, x ∈ pq.items st'.q ↔ x ∈ new ∨ x ∈ pq.items st.q := by
      intro x; rw [h4.mem_iff, List.mem_append]
    refine ⟨⟨?_, ?_, ?_, ?_, ?_, hsub', c1, c2, c3, ?_, ?_, ?_, ?_, ?_⟩, hdone, ?_⟩
    · refine h4.nodup_iff.2 (List.nodup_append.2 ⟨h6, I.nodup, ?_⟩)
      rintro x hx y hy rfl
      have := (h7 x hx).2.2
      have := (I.ent x hy).1
      have := (h7 x hx).1
      omega
    · intro x hx
      rcases (hmem x).1 hx with hx | hx
      · obtain ⟨a1, a2, a3⟩ := h7 x hx
        rw [h3 x.2, if_pos a2]
        omega
      · obtain ⟨a1, a2, a3⟩ := I.ent x hx
        exact ⟨Nat.le_trans (hvle _) a1, a2, a3⟩
    · intro f hf hfU
      rw [hmem]
      have h3f := h3 f
      by_cases hfm : f ∈ M.add o
      · rw [if_pos hfm] at h3f
        by_cases hlt : st.hVal mp + c o < st.hVal f
        · left
          have e : st'.hVal f = st.hVal mp + c o := by omega
          rw [e]
          exact h8 f hfm hlt
        · right
          have e : st'.hVal f = st.hVal f := by omega
          rw [e] at hfU ⊢
          exact I.pend f hf hfU
      · right
        rw [if_neg hfm] at h3f
        rw [h3f] at hfU ⊢
        exact I.pend f hf hfU
    · intro f hf x hx hxf
      rw [hdone f hf]
      rcases (hmem x).1 hx with hx | hx
      · have := (h7 x hx).2.2
        have := (I.dle f hf).1
        have := (h7 x hx).1
        rw [hxf] at *
        omega
      · exact I.stale f hf x hx hxf
    · intro f hf; rw [hdone f hf]; exact I.dle f hf
    · intro x hx hxall f hf
      by_cases hxo : x = o
      · subst hxo
        refine ⟨mp, by rw [h1, hst1]; simp, ?_⟩
        rw [h3 f, if_pos hf, hdone mp (hsub' x m2)]
        refine ⟨by omega, by omega⟩
      · rw [hD'n x hxo] at hxall
        obtain ⟨y, e1, e2⟩ := I.fired x hx hxall f hf
        obtain ⟨k1, k2⟩ := hkeep x hx hxall
        refine ⟨y, by rw [h1, k1]; exact e1, ?_⟩
        rw [hdone y (k2 y e1)]
        exact ⟨Nat.le_trans (hvle f) e2.1, Nat.lt_of_le_of_lt (hvle f) e2.2⟩
    · intro f hfU
      have h3f := h3 f
      by_cases hfm : f ∈ M.add o ∧ st.hVal mp + c o < st.hVal f
      · rw [if_pos hfm.1] at h3f
        have e : st'.hVal f = st.hVal mp + c o := by omega
        rw [e]
        refine .op ho hfm.1 (fun p' hp' => ?_) (Nat.le_refl _)
        have hd := I.dle p' (hsub' o (hall p' hp'))
        exact (I.hle p' (Nat.ne_of_lt hd.2)).mono (m4 p' hp' (hall p' hp'))
      · have e : st'.hVal f = st.hVal f := by
          rw [h3f]
          split_ifs with hfa
          · have : ¬ st.hVal mp + c o < st.hVal f := fun h => hfm ⟨hfa, h⟩
            omega
          · rfl
        rw [e] at hfU ⊢
        exact I.hle f hfU
    · intro f hf
      have := I.s0 f hf
      have := hvle f
      omega
    · intro f hfU
      have h3f := h3 f
      rw [fc]
      have hb := I.bound mp (Nat.ne_of_lt (I.dle mp (hsub' o m2)).2)
      by_cases hfm : f ∈ M.add o
      · rw [if_pos hfm] at h3f; omega
      · rw [if_neg hfm] at h3f
        rw [h3f] at hfU ⊢
        exact Nat.le_trans (I.bound f hfU) (Nat.le_add_right _ _)
    · intro f; exact Nat.le_trans (hvle f) (I.leU f)
    · have := h4.length_eq
      rw [List.length_append] at this
      omega
  · -- a precondition is missing
    rw [if_neg hz] at hst'
    have hv1 : st1.hVal = st.hVal := by rw [hst1]
    have hq1 : st1.q = st.q := by rw [hst1]
    obtain ⟨c1, c2, c3⟩ := common st1 rfl rfl (fun x => by rw [hv1]) (fun x _ => by rw [hv1])
    have hnall : ¬ ∀ p' ∈ M.prec o, p' ∈ D' o := by
      intro hall
      rw [← filter_length_eq] at hall
      omega
    have hfire : ∀ x, (∀ p ∈ M.prec x, p ∈ D' x) → ∀ p ∈ M.prec x, p ∈ D x := by
      intro x hx
      by_cases hxo : x = o
      · subst hxo; exact absurd hx hnall
      · rw [hD'n x hxo] at hx; exact hx
    rw [hst']
    refine ⟨⟨?_, ?_, ?_, ?_, ?_, hsub', c1, c2, c3, ?_, ?_, ?_, ?_, ?_⟩, fun x _ => by rw [hv1], ?_⟩
    · rw [hq1]; exact I.nodup
    · rw [hq1, hv1]; exact I.ent
    · rw [hq1, hv1]; exact I.pend
    · rw [hq1, hv1]; exact I.stale
    · rw [hv1]; exact I.dle
    · intro x hx hxall f hf
      obtain ⟨y, e1, e2⟩ := I.fired x hx (hfire x hxall) f hf
      exact ⟨y, by rw [(hkeep x hx (hfire x hxall)).1]; exact e1, by rw [hv1]; exact e2⟩
    · rw [hv1]; exact I.hle
    · rw [hv1]; exact I.s0
    · intro f hfU
      rw [hv1] at hfU ⊢
      refine Nat.le_trans (I.bound f hfU) (firedCost_update ?_)
      exact Finset.subset_insert _ _
    · rw [hv1]; exact I.leU
    · rw [hq1]
      exact Nat.add_le_add_left (pot_update (Finset.subset_insert _ _)) _

theorem hmOps_fold (hM : M.WF) (htot : M.total c < U) {done : Finset Nat} {p : Nat} (hpd : p ∈ done) :
    ∀ (l : List Nat) (st : HM pq.Q) (D : Nat → Finset Nat), HInv M pq U c s st done D (st.hVal p) →
      l.Nodup → (∀ o ∈ l, o < M.numOps ∧ p ∈ M.prec o ∧ p ∉ D o) →
      let st' := l.foldl (hmOp M pq U c p) st
      let D' := fun o => if o ∈ l then insert p (D o) else D o
      HInv M pq U c s st' done D' (st.hVal p) ∧
        (pq.items st'.q).length + pot M D' ≤ (pq.items st.q).length + pot M D := by
  intro l
  induction l with
  | nil => intro st D I _ _; simpa using I
  | cons o l ih =>
    intro st D I hnd hl
    obtain ⟨ho, hpo, hpD⟩ := hl o List.mem_cons_self
    obtain ⟨h1, h2, h3⟩ := hmOp_inv hM htot I ho hpo hpd hpD
    rw [List.nodup_cons] at hnd
    rw [← h2 p hpd] at h1
    obtain ⟨h4, h5⟩ := ih (hmOp M pq U c p st o) (Function.update D o (insert p (D o))) h1 hnd.2
      (fun x hx => by
        obtain ⟨a1, a2, a3⟩ := hl x (List.mem_cons_of_mem _ hx)
        refine ⟨a1, a2, ?_⟩
        rw [Function.update_of_ne (by rintro rfl; exact hnd.1 hx)]
        exact a3)
    have hD : (fun x => if x ∈ l then insert p (Function.update D o (insert p (D o)) x)
          else Function.update D o (insert p (D o)) x) =
        fun x => if x ∈ o :: l then insert p (D x) else D x := by
      funext x
      by_cases hx : x = o
      · subst hx; simp [hnd.1]
      · simp [hx]
    rw [hD, h2 p hpd] at h4
    rw [hD] at h5
    exact ⟨h4, h5.trans h3⟩

open Classical in
theorem firedCost_congr {D D' : Nat → Finset Nat}
    (h : ∀ o < M.numOps, ∀ p ∈ M.prec o, (p ∈ D o ↔ p ∈ D' o)) :
    firedCost M c D = firedCost M c D' ∧ pot M D = pot M D' := by
  have e : ∀ o < M.numOps, (∀ p ∈ M.prec o, p ∈ D o) ↔ ∀ p ∈ M.prec o, p ∈ D' o := fun o ho =>
    forall_congr' fun p => forall_congr' fun hp => h o ho p hp
  unfold firedCost pot
  constructor
  · refine Finset.sum_congr (Finset.filter_congr fun o ho => e o (Finset.mem_range.1 ho)) fun _ _ => rfl
  · refine Finset.sum_congr (Finset.filter_congr fun o ho => not_congr (e o (Finset.mem_range.1 ho))) fun _ _ => rfl

theorem HInv.congr {st : HM pq.Q} {done : Finset Nat} {D D' : Nat → Finset Nat} {b : Nat}
    (I : HInv M pq U c s st done D b) (hsub : ∀ o, D' o ⊆ done)
    (h : ∀ o < M.numOps, ∀ p ∈ M.prec o, (p ∈ D o ↔ p ∈ D' o)) : HInv M pq U c s st done D' b := by
  obtain ⟨h1, h2, h3, h4, h5, -, h7, h8, h9, h10, h11, h12, h13, h14⟩ := I
  refine ⟨h1, h2, h3, h4, h5, hsub, ?_, ?_, ?_, ?_, h11, h12, ?_, h14⟩
  · intro o ho
    rw [h7 o ho]
    congr 2
    exact congrArg List.length (List.filter_congr fun p hp => by simp [h o ho p hp])
  · intro o ho p hp hpD
    obtain ⟨x, e1, e2, e3, e4⟩ := h8 o ho p hp ((h o ho p hp).2 hpD)
    exact ⟨x, e1, e2, (h o ho x e2).1 e3, e4⟩
  · intro o ho hno
    exact h9 o ho fun p hp hpD => hno p hp ((h o ho p hp).1 hpD)
  · intro o ho hall
    exact h10 o ho fun p hp => (h o ho p hp).2 (hall p hp)
  · intro f hf
    rw [← (firedCost_congr h).1]
    exact h13 f hf

theorem hmLoop_inv (hM : M.WF) (htot : M.total c < U) : ∀ (fuel : Nat) (st : HM pq.Q) (done : Finset Nat) (b : Nat),
    HInv M pq U c s st done (fun _ => done) b →
    (pq.items st.q).length + pot M (fun _ => done) < fuel →
    ∃ st' done' b', hmLoop M pq U c fuel st = some st' ∧ HInv M pq U c s st' done' (fun _ => done') b' ∧
      pq.items st'.q = [] := by
  intro fuel
  induction fuel with
  | zero => intro st done b _ h; omega
  | succ fuel ih =>
    intro st done b I hf
    unfold hmLoop
    cases hpop : pq.pop st.q with
    | none => exact ⟨st, done, b, rfl, I, pq.pop_none _ hpop⟩
    | some r =>
      obtain ⟨⟨k, p⟩, q⟩ := r
      obtain ⟨hperm, hmin⟩ := pq.pop_some _ _ _ hpop
      have hlen := hperm.length_eq
      rw [List.length_cons] at hlen
      have hnd := hperm.nodup_iff.1 I.nodup
      rw [List.nodup_cons] at hnd
      have hmem : ∀ x, x ∈ pq.items q → x ∈ pq.items st.q := fun x hx =>
        hperm.mem_iff.2 (List.mem_cons_of_mem _ hx)
      have hkp := I.ent (k, p) (hperm.mem_iff.2 List.mem_cons_self)
      simp only at hkp
      by_cases hst : st.hVal p < k
      · simp only [hst, if_true]
        refine ih { st with q := q } done b ⟨hnd.2, fun x hx => I.ent x (hmem x hx), ?_,
          fun f hf x hx => I.stale f hf x (hmem x hx), I.dle, I.sub, I.unsat, I.mp, I.mpn, I.fired, I.hle,
          I.s0, I.bound, I.leU⟩ ?_
        · intro f hf hU
          rcases List.mem_cons.1 (hperm.mem_iff.1 (I.pend f hf hU)) with e | e
          · simp only [Prod.mk.injEq] at e
            obtain ⟨e1, rfl⟩ := e
            omega
          · exact e
        · show (pq.items q).length + _ < fuel
          omega
      · simp only [hst, if_false]
        have hk : st.hVal p = k := by omega
        have hpd : p ∉ done := fun h => hst (I.stale p h (k, p) (hperm.mem_iff.2 List.mem_cons_self) rfl)
        have I1 : HInv M pq U c s { st with q := q } (insert p done) (fun _ => done) (st.hVal p) := by
          refine ⟨hnd.2, ?_, ?_, ?_, ?_, fun _ => Finset.subset_insert _ _, I.unsat, I.mp, I.mpn, I.fired,
            I.hle, I.s0, I.bound, I.leU⟩
          · intro x hx
            obtain ⟨a1, a2, a3⟩ := I.ent x (hmem x hx)
            exact ⟨a1, a2, by rw [hk]; exact hmin x (hmem x hx)⟩
          · intro f hf hU
            rcases List.mem_cons.1 (hperm.mem_iff.1 (I.pend f (fun h => hf (Finset.mem_insert_of_mem h)) hU)) with e | e
            · simp only [Prod.mk.injEq] at e
              exact absurd (by rw [e.2]; exact Finset.mem_insert_self _ _) hf
            · exact e
          · intro f hf x hx hxf
            rcases Finset.mem_insert.1 hf with rfl | hf
            · have h1 := (I.ent x (hmem x hx)).1
              rw [hxf] at h1
              rcases Nat.lt_or_eq_of_le h1 with h | h
              · exact h
              · exfalso
                apply hnd.1
                have : x = (k, f) := by rw [← hk, h, ← hxf]
                rw [← this]; exact hx
            · exact I.stale f hf x (hmem x hx) hxf
          · intro f hf
            rcases Finset.mem_insert.1 hf with rfl | hf
            · exact ⟨Nat.le_refl _, by show st.hVal f < U; omega⟩
            · obtain ⟨a1, a2⟩ := I.dle f hf
              exact ⟨by show st.hVal f ≤ st.hVal p; omega, a2⟩
        obtain ⟨I2, hm⟩ := hmOps_fold hM htot (Finset.mem_insert_self p done) (M.precToAction p)
          { st with q := q } (fun _ => done) I1 (precToAction_nodup p)
          (fun o ho => ⟨(mem_precToAction.1 ho).1, (mem_precToAction.1 ho).2, hpd⟩)
        have hcong : ∀ o < M.numOps, ∀ p' ∈ M.prec o,
            (p' ∈ (if o ∈ M.precToAction p then insert p done else done) ↔ p' ∈ insert p done) := by
          intro o ho p' hp'
          by_cases hoo : o ∈ M.precToAction p
          · simp [hoo]
          · have : p' ≠ p := by
              rintro rfl
              exact hoo (mem_precToAction.2 ⟨ho, hp'⟩)
            simp [hoo, this]
        rw [(firedCost_congr (c := c) hcong).2] at hm
        refine ih _ (insert p done) _ (I2.congr (fun _ => Finset.Subset.refl _) hcong) ?_
        have : (pq.items ({ st with q := q } : HM pq.Q).q).length = (pq.items q).length := rfl
        omega

theorem hmState_fold : ∀ (s : List Nat) (st : HM pq.Q),
    let st' := s.foldl (hmState pq) st
    st'.maxPrec = st.maxPrec ∧ st'.unsat = st.unsat ∧ (∀ f, st'.hVal f = if f ∈ s then 0 else st.hVal f) ∧
      (pq.items st'.q).Perm (s.map (fun f => (0, f)) ++ pq.items st.q) := by
  intro s
  induction s with
  | nil => intro st; simp
  | cons f s ih =>
    intro st
    obtain ⟨h1, h2, h3, h4⟩ := ih (hmState pq st f)
    refine ⟨h1, h2, fun x => ?_, ?_⟩
    · rw [List.foldl_cons, h3 x]
      by_cases hx : x = f
      · subst hx; simp [hmState]
      · simp [hmState, hx]
    · rw [List.foldl_cons]
      refine h4.trans ?_
      refine ((pq.items_add st.q 0 f).append_left _).trans ?_
      exact List.perm_middle

theorem precLess_nil (hM : M.WF) : M.precLess = [] := by
  unfold Strips.precLess
  rw [List.filter_eq_nil_iff]
  intro o ho
  have := hM.prec_ne o (List.mem_range.1 ho)
  simpa using this

theorem hmStart_inv (hM : M.WF) (hU : 0 < U) (hs : s.Nodup) :
    HInv M pq U c s (hmStart M pq U s) ∅ (fun _ => ∅) 0 ∧
      (pq.items (hmStart M pq U s).q).length = s.length := by
  obtain ⟨h1, h2, h3, h4⟩ := hmState_fold (pq := pq) s
    { hVal := fun _ => U, maxPrec := fun _ => none, unsat := fun o => (M.prec o).length, q := pq.empty }
  have e : hmStart M pq U s = s.foldl (hmState pq)
      { hVal := fun _ => U, maxPrec := fun _ => none, unsat := fun o => (M.prec o).length, q := pq.empty } := by
    unfold hmStart
    rw [precLess_nil hM]
    rfl
  rw [← e] at h1 h2 h3 h4
  simp only [pq.items_empty, List.append_nil] at h3 h4
  have hnone : ∀ o < M.numOps, ¬ ∀ p ∈ M.prec o, p ∈ (∅ : Finset Nat) := by
    intro o ho h
    obtain ⟨z, hz⟩ := List.exists_mem_of_ne_nil _ (hM.prec_ne o ho)
    exact absurd (h z hz) (Finset.notMem_empty z)
  refine ⟨⟨?_, ?_, ?_, by simp, by simp, by simp, ?_, by simp, ?_, ?_, ?_, ?_, ?_, ?_⟩, ?_⟩
  · refine h4.nodup_iff.2 (hs.map fun a b e => ?_)
    simpa using e
  · intro x hx
    obtain ⟨f, hf, rfl⟩ := List.mem_map.1 (h4.mem_iff.1 hx)
    simp [h3, hf, hU]
  · intro f _ hfU
    rw [h3] at hfU ⊢
    split_ifs at hfU ⊢ with hf
    · exact h4.mem_iff.2 (List.mem_map.2 ⟨f, hf, rfl⟩)
    · exact absurd rfl hfU
  · intro o _; rw [h2]; simp
  · intro o _ _; rw [h1]
  · intro o ho h; exact absurd h (hnone o ho)
  · intro f hfU
    rw [h3] at hfU
    split_ifs at hfU with hf
    · exact .init hf
    · exact absurd rfl hfU
  · intro f hf; rw [h3, if_pos hf]
  · intro f hfU
    rw [h3] at hfU ⊢
    split_ifs at hfU ⊢ with hf
    · exact Nat.zero_le _
    · exact absurd rfl hfU
  · intro f; rw [h3]; split_ifs
    · exact Nat.zero_le _
    · exact Nat.le_refl _
  · simpa using h4.length_eq

/-- What the exploration computes. -/
structure HDone (M : Strips) (U : Nat) (c : Nat → Nat) (s : List Nat) (hVal : Nat → Nat)
    (maxPrec : Nat → Option Nat) (unsat : Nat → Int) : Prop where
  unr : ∀ f, hVal f = U ↔ ¬ Reach M (· ∈ s) f
  le : ∀ f, Reach M (· ∈ s) f → HLe M c (· ∈ s) f (hVal f) ∧ hVal f ≤ M.total c
  least : ∀ f k, HLe M c (· ∈ s) f k → hVal f ≤ k
  unsat : ∀ o < M.numOps, 0 ≤ unsat o ∧ (unsat o = 0 ↔ ∀ p ∈ M.prec o, Reach M (· ∈ s) p)
  mp : ∀ o < M.numOps, (∀ p ∈ M.prec o, Reach M (· ∈ s) p) → ∃ x, maxPrec o = some x ∧ x ∈ M.prec o ∧
    (∀ p ∈ M.prec o, hVal p ≤ hVal x) ∧ ∀ f ∈ M.add o, hVal f ≤ hVal x + c o
  s0 : ∀ f ∈ s, hVal f = 0

theorem hmax_spec (hM : M.WF) (htot : M.total c < U) (hs : s.Nodup) :
    ∃ F st, hmLoop M pq U c F (hmStart M pq U s) = some st ∧ HDone M U c s st.hVal st.maxPrec st.unsat := by
  obtain ⟨I0, -⟩ := hmStart_inv (pq := pq) (U := U) (c := c) hM (by omega) hs
  obtain ⟨st, done, b, h1, I, h2⟩ := hmLoop_inv hM htot _ _ ∅ 0 I0 (Nat.lt_succ_self _)
  have hdone : ∀ f, f ∈ done ↔ st.hVal f ≠ U := by
    intro f
    constructor
    · intro h; exact Nat.ne_of_lt (I.dle f h).2
    · intro h
      by_contra hf
      have := I.pend f hf h
      rw [h2] at this; simp at this
  have hfix : ∀ o < M.numOps, (∀ p ∈ M.prec o, p ∈ done) → ∃ x, st.maxPrec o = some x ∧ x ∈ M.prec o ∧
      (∀ p ∈ M.prec o, st.hVal p ≤ st.hVal x) ∧ ∀ f ∈ M.add o, st.hVal f ≤ st.hVal x + c o := by
    intro o ho hall
    obtain ⟨z, hz⟩ := List.exists_mem_of_ne_nil _ (hM.prec_ne o ho)
    obtain ⟨x, e1, e2, -, -⟩ := I.mp o ho z hz (hall z hz)
    refine ⟨x, e1, e2, fun p hp => ?_, fun f hf => ?_⟩
    · obtain ⟨x', e1', -, -, e4⟩ := I.mp o ho p hp (hall p hp)
      rw [e1] at e1'; rw [Option.some.inj e1']; exact e4
    · obtain ⟨x', e1', e2'⟩ := I.fired o ho hall f hf
      rw [e1] at e1'; rw [Option.some.inj e1']; exact e2'.1
  have hleast : ∀ f k, HLe M c (· ∈ s) f k → f ∈ done ∧ st.hVal f ≤ k := by
    intro f k h
    induction h with
    | init hf => rw [hdone, I.s0 _ hf]; omega
    | @op o f k k' ho hf hp hk ih =>
      obtain ⟨x, e1, e2, e3, e4⟩ := hfix o ho fun p hpp => (ih p hpp).1
      have h5 := e4 f hf
      have h6 := (ih x e2).2
      obtain ⟨x', -, -, e6⟩ := I.fired o ho (fun p hpp => (ih p hpp).1) f hf
      exact ⟨(hdone f).2 (Nat.ne_of_lt e6), by omega⟩
  have hreach : ∀ f, Reach M (· ∈ s) f ↔ f ∈ done := by
    intro f
    constructor
    · intro h
      induction h with
      | @init f hf => exact (hleast f 0 (.init hf)).1
      | @op o f ho hf _ ih =>
        obtain ⟨x', -, -, e6⟩ := I.fired o ho ih f hf
        exact (hdone f).2 (Nat.ne_of_lt e6)
    · intro h; exact (I.hle f ((hdone f).1 h)).reach
  refine ⟨_, st, h1, ?_, ?_, fun f k h => (hleast f k h).2, ?_, ?_, I.s0⟩
  · intro f; rw [hreach, hdone, not_not]
  · intro f hf
    have := (hdone f).1 ((hreach f).1 hf)
    exact ⟨I.hle f this, (I.bound f this).trans (firedCost_le _)⟩
  · intro o ho
    have hle := List.length_filter_le (fun p => decide (p ∈ done)) (M.prec o)
    have hiff := filter_length_eq (l := M.prec o) (D := done)
    rw [I.unsat o ho]
    simp only [hreach]
    rw [← hiff]
    omega
  · intro o ho hall
    exact hfix o ho fun p hp => (hreach p).1 (hall p hp)

theorem hmLoop_mono {f f' : Nat} (hf : f ≤ f') : ∀ {st : HM pq.Q} {r}, hmLoop M pq U c f st = some r →
    hmLoop M pq U c f' st = some r := by
  induction f generalizing f' with
  | zero => intro st r h; simp [hmLoop] at h
  | succ f ih =>
    intro st r h
    obtain ⟨f', rfl⟩ : ∃ g, f' = g + 1 := ⟨f' - 1, by omega⟩
    unfold hmLoop at h ⊢
    cases hp : pq.pop st.q with
    | none => rw [hp] at h; exact h
    | some x =>
      obtain ⟨⟨k, p⟩, q⟩ := x
      rw [hp] at h
      simp only at h ⊢
      split_ifs at h ⊢ with hc
      · exact ih (by omega) h
      · exact ih (by omega) h

/-- The loop over the goals. -/
theorem hmGoal_spec (hVal : Nat → Nat) : ∀ (g : List Nat) (r : Option (Nat × Nat)),
    (g ≠ [] ∨ r ≠ none) → (∀ x, r = some x → x.1 = hVal x.2 ∧ x.1 ≠ U) →
    ∃ res G, hmGoal U hVal g r = some (res, G) ∧
      ((∃ f ∈ g, hVal f = U) → res = U) ∧
      ((∀ f ∈ g, hVal f ≠ U) → ∃ x, G = some x ∧ res = hVal x ∧ res ≠ U ∧
        (x ∈ g ∨ ∃ y, r = some (y, x)) ∧ (∀ f ∈ g, hVal f ≤ res) ∧ ∀ y, r = some y → y.1 ≤ res) := by
  intro g
  induction g with
  | nil =>
    intro r hne hr
    cases r with
    | none => simp at hne
    | some x =>
      obtain ⟨h1, h2⟩ := hr x rfl
      refine ⟨x.1, some x.2, rfl, by simp, fun _ => ⟨x.2, rfl, h1, h2, .inr ⟨x.1, rfl⟩, by simp, ?_⟩⟩
      rintro y hy; rw [Option.some.inj hy]
  | cons f g ih =>
    intro r _ hr
    unfold hmGoal
    by_cases hf : hVal f = U
    · rw [if_pos hf]
      exact ⟨U, none, rfl, fun _ => rfl, fun h => absurd hf (h f List.mem_cons_self)⟩
    · rw [if_neg hf]
      obtain ⟨r', hr'⟩ : ∃ r', r' = (match r with
        | none => (hVal f, f)
        | some r => if r.1 < hVal f then (hVal f, f) else r) := ⟨_, rfl⟩
      have e : (match r with
          | none => some (hVal f, f)
          | some r => if r.1 < hVal f then some (hVal f, f) else some r) = some r' := by
        rw [hr']; cases r with
        | none => rfl
        | some r => simp only; split_ifs <;> rfl
      rw [e]
      have hr1 : r'.1 = hVal r'.2 ∧ r'.1 ≠ U ∧ hVal f ≤ r'.1 ∧ (∀ y, r = some y → y.1 ≤ r'.1) ∧
          (r' = (hVal f, f) ∨ r = some r') := by
        rw [hr']
        cases r with
        | none => exact ⟨rfl, hf, Nat.le_refl _, by simp, .inl rfl⟩
        | some r =>
          obtain ⟨a1, a2⟩ := hr r rfl
          simp only
          split_ifs with hlt
          · exact ⟨rfl, hf, Nat.le_refl _, fun y hy => by rw [← Option.some.inj hy]; exact Nat.le_of_lt hlt, .inl rfl⟩
          · exact ⟨a1, a2, Nat.le_of_not_lt hlt, fun y hy => by rw [Option.some.inj hy], .inr rfl⟩
      obtain ⟨b1, b2, b3, b4, b5⟩ := hr1
      obtain ⟨res, G, h1, h2, h3⟩ := ih (some r') (by simp) (fun x hx => by
        rw [← Option.some.inj hx]; exact ⟨b1, b2⟩)
      refine ⟨res, G, h1, ?_, ?_⟩
      · rintro ⟨x, hx, hxU⟩
        rcases List.mem_cons.1 hx with rfl | hx
        · exact absurd hxU hf
        · exact h2 ⟨x, hx, hxU⟩
      · intro hall
        obtain ⟨x, k1, k2, k3, k4, k5, k6⟩ := h3 fun y hy => hall y (List.mem_cons_of_mem _ hy)
        have k7 := k6 r' rfl
        refine ⟨x, k1, k2, k3, ?_, ?_, fun y hy => (b4 y hy).trans k7⟩
        · rcases k4 with k4 | ⟨y, hy⟩
          · exact .inl (List.mem_cons_of_mem _ k4)
          · have hy := Option.some.inj hy
            rcases b5 with b5 | b5
            · left
              rw [b5, Prod.mk.injEq] at hy
              rw [← hy.2]; exact List.mem_cons_self
            · right; exact ⟨y, by rw [b5, hy]⟩
        · intro y hy
          rcases List.mem_cons.1 hy with rfl | hy
          · exact b3.trans k7
          · exact k5 y hy

/-- `getHMax` for a non-empty goal. -/
theorem getHMax_spec (hM : M.WF) (htot : M.total c < U) (hs : s.Nodup) {g : List Nat} (hg : g ≠ []) :
    ∃ F res G st, (∀ fuel, F ≤ fuel → getHMax M pq U c fuel s g = some (res, some (G, st))) ∧
      HDone M U c s st.hVal st.maxPrec st.unsat ∧
      ((∃ f ∈ g, ¬ Reach M (· ∈ s) f) → res = U) ∧
      ((∀ f ∈ g, Reach M (· ∈ s) f) → ∃ x, G = some x ∧ x ∈ g ∧ res = st.hVal x ∧ res ≤ M.total c ∧
        ∀ f ∈ g, st.hVal f ≤ res) := by
  obtain ⟨F, st, h1, h2⟩ := hmax_spec (pq := pq) hM htot hs
  obtain ⟨res, G, h3, h4, h5⟩ := hmGoal_spec (U := U) st.hVal g none (.inl hg) (by simp)
  refine ⟨F, res, G, st, fun fuel hf => ?_, h2, ?_, ?_⟩
  · unfold getHMax
    rw [if_neg (by simpa using hg), hmLoop_mono hf h1]
    simp [h3]
  · rintro ⟨f, hf, hr⟩
    exact h4 ⟨f, hf, (h2.unr f).2 hr⟩
  · intro hall
    obtain ⟨x, k1, k2, k3, k4, k5, -⟩ := h5 fun f hf hU => (h2.unr f).1 hU (hall f hf)
    have hx : x ∈ g := by
      rcases k4 with k4 | ⟨y, hy⟩
      · exact k4
      · simp at hy
    exact ⟨x, k1, hx, k2, by rw [k2]; exact (h2.le x (hall x hx)).2, k5⟩

end Verif.Strips
