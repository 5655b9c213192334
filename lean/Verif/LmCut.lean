import Verif.HMax

/-! # LM-cut

Model of `hsLmCut` (src/heuristics/rcHeuristics/hsLmCut.cpp 93-251), as compiled without
`LMCINCHMAX`.  The sets `goalZone`, `cut`, `precsOfCutNodes`, `remove`, `visited` are finite sets (their
implementations are treated in `Verif.IntSets`, property C29), except that the loop in which elements of
`cut` are erased while the set is iterated follows the counters of `bucketSet`. -/

namespace Verif.Strips

section model

variable (M : Strips) (pq : PQ) (U : Nat) (c : Nat → Nat)

/-- The producers of a fact (hsLmCut.cpp 37-64); an action is listed once per occurrence in its add
list. -/
def Strips.addToTask (f : Nat) : List Nat :=
  (List.range M.numOps).flatMap fun o => ((M.add o).filter (· = f)).map fun _ => o

/-- The local state of `calcGoalZone`. -/
structure GZ where
  zone : Finset Nat
  cut : Finset Nat
  precs : Finset Nat
  stack : List Nat

/-- The loop over the producers of a fact in `calcGoalZone` (hsLmCut.cpp 192-208).  `none`: the set
`goalZone` is accessed with index `UNREACHABLE`, or the stack, which has the capacity `2 * numActions`
(line 36), is written out of bounds. -/
def gzOps (st : HM pq.Q) : List Nat → GZ → Option GZ
  | [], z => some z
  | o :: os, z =>
    if 0 < st.unsat o then gzOps st os z
    else
      match st.maxPrec o with
      | none => none
      | some x =>
        if x ∈ z.zone then gzOps st os z
        else if c o = 0 then
          if z.stack.length < 2 * M.numOps then
            gzOps st os { zone := insert x z.zone, cut := z.cut, precs := z.precs.erase x, stack := x :: z.stack }
          else none
        else gzOps st os { z with cut := insert o z.cut, precs := insert x z.precs }

/-- The loop of `calcGoalZone` (hsLmCut.cpp 189-209). -/
def gzLoop (st : HM pq.Q) : Nat → GZ → Option GZ
  | 0, _ => none
  | fuel + 1, z =>
    match z.stack with
    | [] => some z
    | f :: stack => do gzLoop st fuel (← gzOps M pq c st (M.addToTask f) { z with stack := stack })

/-- The loop over the producers in `forwardReachabilityDFS` (hsLmCut.cpp 228-242): `.inl` if the state is
reached, otherwise the new visited set and stack. -/
def dfsOps (s : List Nat) (st : HM pq.Q) (zone : Finset Nat) :
    List Nat → Finset Nat × List Nat → Option (Unit ⊕ (Finset Nat × List Nat))
  | [], v => some (.inr v)
  | o :: os, v =>
    if 0 < st.unsat o then dfsOps s st zone os v
    else
      match st.maxPrec o with
      | none => none
      | some x =>
        if x ∈ zone then dfsOps s st zone os v
        else if (M.prec o).isEmpty ∨ x ∈ s then some (.inl ())
        else if x ∈ v.1 then dfsOps s st zone os v
        else if v.2.length < 2 * M.numOps then dfsOps s st zone os (insert x v.1, x :: v.2)
        else none

/-- The reachability loop (hsLmCut.cpp 226-245). -/
def dfsLoop (s : List Nat) (st : HM pq.Q) (zone : Finset Nat) : Nat → Finset Nat × List Nat → Option Bool
  | 0, _ => none
  | fuel + 1, v =>
    match v.2 with
    | [] => some false
    | f :: stack =>
      match dfsOps M pq s st zone (M.addToTask f) (v.1, stack) with
      | none => none
      | some (.inl _) => some true
      | some (.inr v) => dfsLoop s st zone fuel v

/-- The outer loop of `forwardReachabilityDFS` (hsLmCut.cpp 217-248): the set `remove`. -/
def dfsAll (s : List Nat) (st : HM pq.Q) (zone : Finset Nat) (fuel : Nat) : List Nat → Option (Finset Nat)
  | [] => some ∅
  | f :: fs => do
    let rest ← dfsAll s st zone fuel fs
    if f ∈ s then return rest
    let r ← dfsLoop M pq s st zone fuel ({f}, [f])
    return if r then rest else insert f rest

/-- The loop that erases elements of `cut` while iterating it (hsLmCut.cpp 249-252, `getFirst`, `getNext`
and `erase` of src/intDataStructures/bucketSet.cpp 33-86): the elements still to come (ascending),
`numIterated` after visiting the next element, and `currentSize`. -/
def cutErase (rm : Nat → Bool) : List Nat → Nat → Nat → List Nat
  | [], _, _ => []
  | o :: os, it, sz =>
    let sz := if rm o then sz - 1 else sz
    let rest := if it = sz then os else cutErase rm os (it + 1) sz
    if rm o then rest else o :: rest

/-- `forwardReachabilityDFS` (hsLmCut.cpp 212-252): the remaining cut, ascending. -/
def forwardDFS (s : List Nat) (st : HM pq.Q) (fuel : Nat) (z : GZ) : Option (List Nat) := do
  let rm ← dfsAll M pq s st z.zone fuel ((List.range M.numFacts).filter (· ∈ z.precs))
  let cut := (List.range M.numOps).filter (· ∈ z.cut)
  return cutErase (fun o => decide (∃ x ∈ rm, st.maxPrec o = some x)) cut 1 cut.length

/-- The minimal costs in the cut (hsLmCut.cpp 155-170); `U` is `INT_MAX`. -/
def minCost (cut : List Nat) : Nat := cut.foldl (fun m o => if c o < m then c o else m) U

/-- The main loop (hsLmCut.cpp 139-183): current costs, `hMax`, `maxPrecG`, arrays; the result is the sum
of the costs and the list of cuts. -/
def lmLoop (s g : List Nat) : Nat → (Nat → Nat) → Nat → Option Nat → HM pq.Q → Nat → List (List Nat) →
    Option (Nat × List (List Nat))
  | 0, _, _, _, _, _, _ => none
  | fuel + 1, c, hMax, G, st, h, cuts =>
    if 0 < hMax then
      match G with
      | none => none
      | some G => do
        let z ← gzLoop M pq c st fuel ⟨∅, ∅, ∅, [G]⟩
        let cut ← forwardDFS M pq s st fuel z
        let m := minCost U c cut
        let c' := fun o => if o ∈ cut then c o - m else c o
        match ← getHMax M pq U c' fuel s g with
        | (_, none) => none
        | (hMax, some (G, st)) => lmLoop s g fuel c' hMax G st (h + m) (cuts ++ [cut])
    else some (h, cuts)

/-- `getHeuristicValue` (hsLmCut.cpp 93-187). -/
def lmCut (fuel : Nat) (s g : List Nat) : Option (Nat × List (List Nat)) := do
  match ← getHMax M pq U M.cost fuel s g with
  | (h, none) => some (h, [])
  | (h, some (G, st)) => if h = 0 ∨ h = U then some (h, []) else lmLoop M pq U s g fuel M.cost h G st 0 []

end model

variable {M : Strips} {pq : PQ} {U : Nat} {c : Nat → Nat} {s : List Nat}

theorem mem_addToTask {f o : Nat} : o ∈ M.addToTask f ↔ o < M.numOps ∧ f ∈ M.add o := by
  simp only [Strips.addToTask, List.mem_flatMap, List.mem_range, List.mem_map, List.mem_filter,
    decide_eq_true_eq]
  constructor
  · rintro ⟨a, ha, x, ⟨hx, rfl⟩, rfl⟩; exact ⟨ha, hx⟩
  · rintro ⟨h1, h2⟩; exact ⟨o, h1, f, ⟨h2, rfl⟩, rfl⟩

/-! ## The goal zone -/

/-- Applicable actions in the relaxed problem. -/
def Appl (M : Strips) (s : List Nat) (o : Nat) : Prop := ∀ p ∈ M.prec o, Reach M (· ∈ s) p

/-- The producer `o` is dealt with. -/
def Handled (c : Nat → Nat) (st : HM pq.Q) (z : GZ) (o : Nat) : Prop :=
  ∃ x, st.maxPrec o = some x ∧ (x ∈ z.zone ∨ (0 < c o ∧ o ∈ z.cut ∧ x ∈ z.precs))

/-- Invariant of `calcGoalZone`. -/
structure ZInv (M : Strips) (c : Nat → Nat) (s : List Nat) (st : HM pq.Q) (G : Nat) (z : GZ) : Prop where
  val : ∀ f, f ∈ z.zone ∨ f ∈ z.stack → st.hVal G ≤ st.hVal f
  lt : ∀ f ∈ z.zone, f < M.numFacts
  stk : ∀ f ∈ z.stack, f = G ∨ f ∈ z.zone
  cut : ∀ o ∈ z.cut, o < M.numOps ∧ Appl M s o ∧ 0 < c o ∧ ∃ f ∈ M.add o, st.hVal G ≤ st.hVal f
  precs : ∀ x ∈ z.precs, x ∉ z.zone ∧ x < M.numFacts
  len : z.stack.length ≤ z.zone.card + 1
  img : ∀ f ∈ z.zone, ∃ o < M.numOps, st.maxPrec o = some f

/-- At most one precondition per action. -/
theorem card_img {mp : Nat → Option Nat} {S : Finset Nat}
    (h : ∀ f ∈ S, ∃ o < M.numOps, mp o = some f) : S.card ≤ M.numOps := by
  have : S ⊆ (Finset.range M.numOps).image fun o => (mp o).getD 0 := by
    intro f hf
    obtain ⟨o, ho, e⟩ := h f hf
    exact Finset.mem_image.2 ⟨o, Finset.mem_range.2 ho, by rw [e]; rfl⟩
  have h2 := Finset.card_image_le (s := Finset.range M.numOps) (f := fun o => (mp o).getD 0)
  rw [Finset.card_range] at h2
  exact (Finset.card_le_card this).trans h2

theorem card_img' {mp : Nat → Option Nat} {f0 : Nat} {S : Finset Nat}
    (h : ∀ f ∈ S, f = f0 ∨ ∃ o < M.numOps, mp o = some f) : S.card ≤ M.numOps + 1 := by
  have h1 : (S.erase f0).card ≤ M.numOps := card_img (mp := mp) fun f hf => by
    obtain ⟨h1, h2⟩ := Finset.mem_erase.1 hf
    exact (h f h2).resolve_left h1
  have := Finset.pred_card_le_card_erase (s := S) (a := f0)
  omega

theorem Handled.mono {st : HM pq.Q} {z z' : GZ} {o : Nat} (h : Handled c st z o)
    (h1 : z.zone ⊆ z'.zone) (h2 : z.cut ⊆ z'.cut) (h3 : ∀ x ∈ z.precs, x ∈ z'.precs ∨ x ∈ z'.zone) :
    Handled c st z' o := by
  obtain ⟨x, e, h | ⟨h4, h5, h6⟩⟩ := h
  · exact ⟨x, e, .inl (h1 h)⟩
  · rcases h3 x h6 with h | h
    · exact ⟨x, e, .inr ⟨h4, h2 h5, h⟩⟩
    · exact ⟨x, e, .inl h⟩

theorem gzOps_spec (hM : M.WF) {st : HM pq.Q} (H : HDone M U c s st.hVal st.maxPrec st.unsat) {G f : Nat}
    (hf : st.hVal G ≤ st.hVal f) : ∀ (os : List Nat) (z : GZ), ZInv M c s st G z →
    (∀ o ∈ os, o < M.numOps ∧ f ∈ M.add o) →
    ∃ z', gzOps M pq c st os z = some z' ∧ ZInv M c s st G z' ∧ z.zone ⊆ z'.zone ∧ z.cut ⊆ z'.cut ∧
      (∀ x ∈ z.precs, x ∈ z'.precs ∨ x ∈ z'.zone) ∧
      (∀ x ∈ z.stack, x ∈ z'.stack) ∧ (∀ x ∈ z'.zone, x ∈ z.zone ∨ x ∈ z'.stack) ∧
      z'.stack.length + (M.numFacts - z'.zone.card) ≤ z.stack.length + (M.numFacts - z.zone.card) ∧
      ∀ o ∈ os, Appl M s o → Handled c st z' o := by
  intro os
  induction os with
  | nil =>
    intro z hz _
    exact ⟨z, rfl, hz, Finset.Subset.refl _, Finset.Subset.refl _, fun x h => .inl h, fun x h => h,
      fun x h => .inl h, Nat.le_refl _, by simp⟩
  | cons o os ih =>
    intro z hz hos
    obtain ⟨ho, hfo⟩ := hos o List.mem_cons_self
    have hos' := fun x hx => hos x (List.mem_cons_of_mem o hx)
    unfold gzOps
    obtain ⟨hu0, hu⟩ := H.unsat o ho
    by_cases hun : 0 < st.unsat o
    · rw [if_pos hun]
      obtain ⟨z', e, k1, k2, k3, k4, k5, k6, k7, k8⟩ := ih z hz hos'
      refine ⟨z', e, k1, k2, k3, k4, k5, k6, k7, fun x hx ha => ?_⟩
      rcases List.mem_cons.1 hx with rfl | hx
      · have := hu.2 ha; omega
      · exact k8 x hx ha
    · rw [if_neg hun]
      have happ : Appl M s o := hu.1 (by omega)
      obtain ⟨x, hx, hxp, hxmax, hxadd⟩ := H.mp o ho happ
      rw [hx]
      have hxlt : x < M.numFacts := hM.prec_lt o ho x hxp
      by_cases hxz : x ∈ z.zone
      · simp only [hxz, if_true]
        obtain ⟨z', e, k1, k2, k3, k4, k5, k6, k7, k8⟩ := ih z hz hos'
        refine ⟨z', e, k1, k2, k3, k4, k5, k6, k7, fun y hy ha => ?_⟩
        rcases List.mem_cons.1 hy with rfl | hy
        · exact ⟨x, hx, .inl (k2 hxz)⟩
        · exact k8 y hy ha
      · simp only [hxz, if_false]
        by_cases hc : c o = 0
        · rw [if_pos hc]
          have hcard : (insert x z.zone).card = z.zone.card + 1 := Finset.card_insert_of_notMem hxz
          have himg : ∀ f ∈ insert x z.zone, ∃ o < M.numOps, st.maxPrec o = some f := by
            intro y hy
            rcases Finset.mem_insert.1 hy with rfl | hy
            · exact ⟨o, ho, hx⟩
            · exact hz.img y hy
          rw [if_pos (by have := card_img himg; have := hz.len; omega)]
          obtain ⟨z', e, k1, k2, k3, k4, k5, k6, k7, k8⟩ := ih
            { zone := insert x z.zone, cut := z.cut, precs := z.precs.erase x, stack := x :: z.stack }
            (by
              refine ⟨?_, ?_, ?_, hz.cut, ?_, ?_, himg⟩
              · intro y hy
                have hv : st.hVal G ≤ st.hVal x := by
                  have := hxadd f hfo
                  omega
                rcases hy with hy | hy
                · rcases Finset.mem_insert.1 hy with rfl | hy
                  · exact hv
                  · exact hz.val y (.inl hy)
                · rcases List.mem_cons.1 hy with rfl | hy
                  · exact hv
                  · exact hz.val y (.inr hy)
              · intro y hy
                rcases Finset.mem_insert.1 hy with rfl | hy
                · exact hxlt
                · exact hz.lt y hy
              · intro y hy
                rcases List.mem_cons.1 hy with rfl | hy
                · exact .inr (Finset.mem_insert_self _ _)
                · exact (hz.stk y hy).imp id (Finset.mem_insert_of_mem ·)
              · intro y hy
                obtain ⟨h1, h2⟩ := Finset.mem_erase.1 hy
                refine ⟨fun h => ?_, (hz.precs y h2).2⟩
                rcases Finset.mem_insert.1 h with h | h
                · exact h1 h
                · exact (hz.precs y h2).1 h
              · have := hz.len
                simp only [List.length_cons]
                omega) hos'
          have hxz' : x ∈ z'.zone := k2 (Finset.mem_insert_self _ _)
          refine ⟨z', e, k1, fun y hy => k2 (Finset.mem_insert_of_mem hy), k3, ?_, ?_, ?_, ?_, ?_⟩
          · intro y hy
            by_cases hyx : y = x
            · subst hyx; exact .inr hxz'
            · exact k4 y (Finset.mem_erase.2 ⟨hyx, hy⟩)
          · intro y hy; exact k5 y (List.mem_cons_of_mem _ hy)
          · intro y hy
            rcases k6 y hy with h | h
            · rcases Finset.mem_insert.1 h with rfl | h
              · exact .inr (k5 _ List.mem_cons_self)
              · exact .inl h
            · exact .inr h
          · have hle : (insert x z.zone).card ≤ M.numFacts := by
              have : insert x z.zone ⊆ Finset.range M.numFacts := by
                intro y hy
                rcases Finset.mem_insert.1 hy with rfl | hy
                · exact Finset.mem_range.2 hxlt
                · exact Finset.mem_range.2 (hz.lt y hy)
              simpa using Finset.card_le_card this
            simp only [List.length_cons] at k7
            omega
          · intro y hy ha
            rcases List.mem_cons.1 hy with rfl | hy
            · exact ⟨x, hx, .inl hxz'⟩
            · exact k8 y hy ha
        · rw [if_neg hc]
          obtain ⟨z', e, k1, k2, k3, k4, k5, k6, k7, k8⟩ := ih
            { z with cut := insert o z.cut, precs := insert x z.precs }
            (by
              refine ⟨hz.val, hz.lt, hz.stk, ?_, ?_, hz.len, hz.img⟩
              · intro y hy
                rcases Finset.mem_insert.1 hy with rfl | hy
                · exact ⟨ho, happ, Nat.pos_of_ne_zero hc, f, hfo, hf⟩
                · exact hz.cut y hy
              · intro y hy
                rcases Finset.mem_insert.1 hy with rfl | hy
                · exact ⟨hxz, hxlt⟩
                · exact hz.precs y hy) hos'
          refine ⟨z', e, k1, k2, fun y hy => k3 (Finset.mem_insert_of_mem hy), fun y hy =>
            k4 y (Finset.mem_insert_of_mem hy), k5, k6, k7, ?_⟩
          intro y hy ha
          rcases List.mem_cons.1 hy with rfl | hy
          · rcases k4 x (Finset.mem_insert_self _ _) with h | h
            · exact ⟨x, hx, .inr ⟨Nat.pos_of_ne_zero hc, k3 (Finset.mem_insert_self _ _), h⟩⟩
            · exact ⟨x, hx, .inl h⟩
          · exact k8 y hy ha

theorem gzLoop_spec (hM : M.WF) {st : HM pq.Q} (H : HDone M U c s st.hVal st.maxPrec st.unsat) {G : Nat} :
    ∀ (fuel : Nat) (z : GZ), ZInv M c s st G z →
    (∀ f, f = G ∨ f ∈ z.zone → f ∈ z.stack ∨ ∀ o < M.numOps, f ∈ M.add o → Appl M s o → Handled c st z o) →
    z.stack.length + (M.numFacts - z.zone.card) < fuel →
    ∃ z', gzLoop M pq c st fuel z = some z' ∧ ZInv M c s st G z' ∧
      ∀ f, f = G ∨ f ∈ z'.zone → ∀ o < M.numOps, f ∈ M.add o → Appl M s o → Handled c st z' o := by
  intro fuel
  induction fuel with
  | zero => intro z _ _ h; omega
  | succ fuel ih =>
    intro z hz hcl hf
    unfold gzLoop
    cases hst : z.stack with
    | nil =>
      refine ⟨z, rfl, hz, fun f h => ?_⟩
      rcases hcl f h with h' | h'
      · rw [hst] at h'; simp at h'
      · exact h'
    | cons f stack =>
      simp only
      have hfs : f ∈ z.stack := by rw [hst]; exact List.mem_cons_self
      have hz0 : ZInv M c s st G { z with stack := stack } :=
        ⟨fun y hy => hz.val y (hy.imp id fun h => by rw [hst]; exact List.mem_cons_of_mem _ h), hz.lt,
          fun y hy => hz.stk y (by rw [hst]; exact List.mem_cons_of_mem _ hy), hz.cut, hz.precs,
          by have := hz.len; rw [hst] at this; simp only [List.length_cons] at this; simp only; omega, hz.img⟩
      obtain ⟨z', e, k1, k2, k3, k4, k5, k6, k7, k8⟩ := gzOps_spec hM H (hz.val f (.inr hfs))
        (M.addToTask f) _ hz0 (fun o ho => mem_addToTask.1 ho)
      have hgo : gzOps M pq c st (M.addToTask f) { z with stack := stack } = some z' := e
      obtain ⟨z'', e', j1, j2⟩ := ih z' k1 (by
        intro y hy
        by_cases hyf : y = f
        · right
          intro o ho hyo ha
          exact k8 o (mem_addToTask.2 ⟨ho, by rw [← hyf]; exact hyo⟩) ha
        · have hy' : y = G ∨ y ∈ z.zone ∨ y ∈ z'.stack := by
            rcases hy with hy | hy
            · exact .inl hy
            · exact .inr (k6 y hy)
          have hold : (y = G ∨ y ∈ z.zone) → y ∈ z'.stack ∨
              ∀ o < M.numOps, y ∈ M.add o → Appl M s o → Handled c st z' o := by
            intro h
            rcases hcl y h with h' | h'
            · left
              rw [hst] at h'
              rcases List.mem_cons.1 h' with h' | h'
              · exact absurd h' hyf
              · exact k5 y h'
            · right
              intro o ho hyo ha
              exact (h' o ho hyo ha).mono k2 k3 k4
          rcases hy' with h | h | h
          · exact hold (.inl h)
          · exact hold (.inr h)
          · exact .inl h) (by
        simp only [hst, List.length_cons] at hf
        simp only at k7
        omega)
      refine ⟨z'', ?_, j1, j2⟩
      rw [hgo]
      exact e'

/-! ## Forward reachability -/

/-- Reached from the state in the justification graph without using facts of the zone as
precondition. -/
inductive JR (M : Strips) (s : List Nat) (mp : Nat → Option Nat) (zone : Finset Nat) : Nat → Prop
  | init {f : Nat} : f ∈ s → JR M s mp zone f
  | op {o f x : Nat} : o < M.numOps → Appl M s o → f ∈ M.add o → mp o = some x → x ∉ zone →
      JR M s mp zone x → JR M s mp zone f

theorem dfsOps_spec (hM : M.WF) {st : HM pq.Q} (H : HDone M U c s st.hVal st.maxPrec st.unsat)
    {zone : Finset Nat} {f0 : Nat} : ∀ (os : List Nat) (v : Finset Nat × List Nat),
    (∀ o ∈ os, o < M.numOps) → (∀ x ∈ v.1, x < M.numFacts) →
    v.2.length ≤ v.1.card ∧ (∀ f ∈ v.1, f = f0 ∨ ∃ o < M.numOps, st.maxPrec o = some f) →
    ∃ r, dfsOps M pq s st zone os v = some r ∧ ∀ v', r = .inr v' →
      (v'.2.length ≤ v'.1.card ∧ (∀ f ∈ v'.1, f = f0 ∨ ∃ o < M.numOps, st.maxPrec o = some f)) ∧
      v.1 ⊆ v'.1 ∧ (∀ x ∈ v.2, x ∈ v'.2) ∧ (∀ x ∈ v'.1, x ∈ v.1 ∨ (x ∈ v'.2 ∧ x ∉ s)) ∧ (∀ x ∈ v'.1, x < M.numFacts) ∧
      v'.2.length + (M.numFacts - v'.1.card) ≤ v.2.length + (M.numFacts - v.1.card) ∧
      ∀ o ∈ os, Appl M s o → ∀ x, st.maxPrec o = some x → x ∉ zone → x ∈ v'.1 ∧ x ∉ s := by
  intro os
  induction os with
  | nil =>
    intro v _ hv hl
    refine ⟨.inr v, rfl, ?_⟩
    rintro v' h
    obtain rfl := Sum.inr.inj h
    exact ⟨hl, Finset.Subset.refl _, fun x h => h, fun x h => .inl h, hv, Nat.le_refl _, by simp⟩
  | cons o os ih =>
    intro v hos hv hl
    have ho := hos o List.mem_cons_self
    have hos' := fun x hx => hos x (List.mem_cons_of_mem o hx)
    obtain ⟨hu0, hu⟩ := H.unsat o ho
    unfold dfsOps
    by_cases hun : 0 < st.unsat o
    · rw [if_pos hun]
      obtain ⟨r, e, k⟩ := ih v hos' hv hl
      refine ⟨r, e, fun v' hv' => ?_⟩
      obtain ⟨k0, k1, k2, k3, k4, k5, k6⟩ := k v' hv'
      refine ⟨k0, k1, k2, k3, k4, k5, fun y hy ha => ?_⟩
      rcases List.mem_cons.1 hy with rfl | hy
      · have := hu.2 ha; omega
      · exact k6 y hy ha
    · rw [if_neg hun]
      have happ : Appl M s o := hu.1 (by omega)
      obtain ⟨x, hx, hxp, -⟩ := H.mp o ho happ
      rw [hx]
      have hxlt : x < M.numFacts := hM.prec_lt o ho x hxp
      simp only
      by_cases hxz : x ∈ zone
      · rw [if_pos hxz]
        obtain ⟨r, e, k⟩ := ih v hos' hv hl
        refine ⟨r, e, fun v' hv' => ?_⟩
        obtain ⟨k0, k1, k2, k3, k4, k5, k6⟩ := k v' hv'
        refine ⟨k0, k1, k2, k3, k4, k5, fun y hy ha => ?_⟩
        rcases List.mem_cons.1 hy with rfl | hy
        · intro x' hx' hn
          rw [hx] at hx'
          exact absurd (Option.some.inj hx' ▸ hxz) hn
        · exact k6 y hy ha
      · rw [if_neg hxz]
        by_cases hs : (M.prec o).isEmpty ∨ x ∈ s
        · rw [if_pos hs]
          exact ⟨_, rfl, fun v' h => by simp at h⟩
        · rw [if_neg hs]
          have hxs : x ∉ s := fun h => hs (.inr h)
          by_cases hxv : x ∈ v.1
          · rw [if_pos hxv]
            obtain ⟨r, e, k⟩ := ih v hos' hv hl
            refine ⟨r, e, fun v' hv' => ?_⟩
            obtain ⟨k0, k1, k2, k3, k4, k5, k6⟩ := k v' hv'
            refine ⟨k0, k1, k2, k3, k4, k5, fun y hy ha => ?_⟩
            rcases List.mem_cons.1 hy with rfl | hy
            · intro x' hx' hn
              rw [hx] at hx'
              rw [← Option.some.inj hx']
              exact ⟨k1 hxv, hxs⟩
            · exact k6 y hy ha
          · rw [if_neg hxv]
            have hins : ∀ y ∈ insert x v.1, y < M.numFacts := fun y hy => by
              rcases Finset.mem_insert.1 hy with rfl | hy
              · exact hxlt
              · exact hv y hy
            have hcard : (insert x v.1).card = v.1.card + 1 := Finset.card_insert_of_notMem hxv
            have himg : ∀ f ∈ insert x v.1, f = f0 ∨ ∃ o < M.numOps, st.maxPrec o = some f := by
              intro y hy
              rcases Finset.mem_insert.1 hy with rfl | hy
              · exact .inr ⟨o, ho, hx⟩
              · exact hl.2 y hy
            rw [if_pos (by have := card_img' himg; have := hl.1; omega)]
            obtain ⟨r, e, k⟩ := ih (insert x v.1, x :: v.2) hos' hins
              ⟨by have := hl.1; simp only [List.length_cons]; omega, himg⟩
            refine ⟨r, e, fun v' hv' => ?_⟩
            obtain ⟨k0, k1, k2, k3, k4, k5, k6⟩ := k v' hv'
            refine ⟨k0, fun y hy => k1 (Finset.mem_insert_of_mem hy), fun y hy => k2 y (List.mem_cons_of_mem _ hy),
              ?_, k4, ?_, ?_⟩
            · intro y hy
              rcases k3 y hy with h | h
              · rcases Finset.mem_insert.1 h with rfl | h
                · exact .inr ⟨k2 _ List.mem_cons_self, hxs⟩
                · exact .inl h
              · exact .inr h
            · have hle : (insert x v.1).card ≤ M.numFacts := by
                have : insert x v.1 ⊆ Finset.range M.numFacts := fun y hy => Finset.mem_range.2 (hins y hy)
                simpa using Finset.card_le_card this
              simp only [List.length_cons] at k5
              omega
            · intro y hy ha
              rcases List.mem_cons.1 hy with rfl | hy
              · intro x' hx' hn
                rw [hx] at hx'
                rw [← Option.some.inj hx']
                exact ⟨k1 (Finset.mem_insert_self _ _), hxs⟩
              · exact k6 y hy ha

/-- If the search from `f` does not reach the state, then `f` is not reached in the justification graph. -/
theorem dfsLoop_spec (hM : M.WF) {st : HM pq.Q} (H : HDone M U c s st.hVal st.maxPrec st.unsat)
    {zone : Finset Nat} {f0 : Nat} : ∀ (fuel : Nat) (v : Finset Nat × List Nat),
    (∀ x ∈ v.1, x < M.numFacts ∧ x ∉ s) →
    v.2.length ≤ v.1.card ∧ (∀ f ∈ v.1, f = f0 ∨ ∃ o < M.numOps, st.maxPrec o = some f) →
    (∀ f ∈ v.1, f ∈ v.2 ∨ ∀ o < M.numOps, f ∈ M.add o → Appl M s o → ∀ x, st.maxPrec o = some x → x ∉ zone →
      x ∈ v.1) →
    v.2.length + (M.numFacts - v.1.card) < fuel →
    ∃ r, dfsLoop M pq s st zone fuel v = some r ∧ (r = false → ∀ f ∈ v.1, ¬ JR M s st.maxPrec zone f) := by
  intro fuel
  induction fuel with
  | zero => intro v _ _ _ h; omega
  | succ fuel ih =>
    intro v hv hl hcl hf
    unfold dfsLoop
    cases hst : v.2 with
    | nil =>
      refine ⟨false, rfl, fun _ => ?_⟩
      have : ∀ f, JR M s st.maxPrec zone f → f ∉ v.1 := by
        intro f hj
        induction hj with
        | init h => exact fun h' => (hv _ h').2 h
        | @op o f x ho ha hfa hx hxz _ ih =>
          intro h'
          rcases hcl f h' with h | h
          · rw [hst] at h; simp at h
          · exact ih (h o ho hfa ha x hx hxz)
      exact fun f h h' => this f h' h
    | cons f stack =>
      simp only
      obtain ⟨r, e, k⟩ := dfsOps_spec hM H (zone := zone) (f0 := f0) (M.addToTask f) (v.1, stack)
        (fun o ho => (mem_addToTask.1 ho).1) (fun x hx => (hv x hx).1)
        ⟨by have := hl.1; rw [hst] at this; simp only [List.length_cons] at this; simp only; omega, hl.2⟩
      rw [e]
      cases r with
      | inl u => exact ⟨true, rfl, by simp⟩
      | inr v' =>
        obtain ⟨k0, k1, k2, k3, k4, k5, k6⟩ := k v' rfl
        simp only
        obtain ⟨r, e', j⟩ := ih v' (fun x hx => ⟨k4 x hx, by
            rcases k3 x hx with h | h
            · exact (hv x h).2
            · exact h.2⟩) k0 (by
          intro y hy
          by_cases hyf : y = f
          · right
            intro o ho hyo ha x hx hxz
            exact (k6 o (mem_addToTask.2 ⟨ho, by rw [← hyf]; exact hyo⟩) ha x hx hxz).1
          · rcases k3 y hy with h | h
            · rcases hcl y h with h' | h'
              · left
                rw [hst] at h'
                rcases List.mem_cons.1 h' with h' | h'
                · exact absurd h' hyf
                · exact k2 y h'
              · exact .inr fun o ho hyo ha x hx hxz => k1 (h' o ho hyo ha x hx hxz)
            · exact .inl h.1) (by
          simp only [hst, List.length_cons] at hf
          simp only at k5
          omega)
        exact ⟨r, e', fun hr y hy => j hr y (k1 hy)⟩

theorem dfsAll_spec (hM : M.WF) {st : HM pq.Q} (H : HDone M U c s st.hVal st.maxPrec st.unsat)
    {zone : Finset Nat} {fuel : Nat} (hfuel : M.numFacts < fuel) : ∀ fs : List Nat, (∀ f ∈ fs, f < M.numFacts) →
    ∃ rm, dfsAll M pq s st zone fuel fs = some rm ∧ ∀ x ∈ rm, ¬ JR M s st.maxPrec zone x := by
  intro fs
  induction fs with
  | nil => intro _; exact ⟨∅, rfl, by simp⟩
  | cons f fs ih =>
    intro hfs
    obtain ⟨rest, e, k⟩ := ih fun x hx => hfs x (List.mem_cons_of_mem _ hx)
    unfold dfsAll
    rw [e]
    by_cases hf : f ∈ s
    · exact ⟨rest, by simp [hf], k⟩
    · have hlt := hfs f List.mem_cons_self
      obtain ⟨r, e', j⟩ := dfsLoop_spec hM H (zone := zone) (f0 := f) fuel ({f}, [f])
        (fun x hx => by rw [Finset.mem_singleton.1 hx]; exact ⟨hlt, hf⟩)
        ⟨by simp, fun x hx => .inl (Finset.mem_singleton.1 hx)⟩
        (fun x hx => .inl (by rw [Finset.mem_singleton.1 hx]; simp)) (by simp; omega)
      refine ⟨if r then rest else insert f rest, by simp [hf, e'], fun x hx => ?_⟩
      cases r with
      | true => exact k x hx
      | false =>
        rcases Finset.mem_insert.1 hx with rfl | hx
        · exact j rfl _ (Finset.mem_singleton_self _)
        · exact k x hx

theorem cutErase_spec (rm : Nat → Bool) : ∀ (l : List Nat) (it sz : Nat),
    (cutErase rm l it sz).Sublist l ∧ ∀ o ∈ l, rm o = false → o ∈ cutErase rm l it sz := by
  intro l
  induction l with
  | nil => intro it sz; simp [cutErase]
  | cons o l ih =>
    intro it sz
    unfold cutErase
    obtain ⟨rest, hrest⟩ : ∃ rest, rest = (if it = (if rm o then sz - 1 else sz) then l
      else cutErase rm l (it + 1) (if rm o then sz - 1 else sz)) := ⟨_, rfl⟩
    have hr : rest.Sublist l ∧ ∀ x ∈ l, rm x = false → x ∈ rest := by
      rw [hrest]
      split_ifs with h
      all_goals first
        | exact ⟨List.Sublist.refl _, fun x h _ => h⟩
        | exact ih _ _
    simp only [← hrest]
    cases hro : rm o with
    | true =>
      simp only [if_true]
      refine ⟨hr.1.cons _, fun x hx hrx => ?_⟩
      rcases List.mem_cons.1 hx with rfl | hx
      · rw [hro] at hrx; simp at hrx
      · exact hr.2 x hx hrx
    | false =>
      refine ⟨hr.1.cons_cons _, fun x hx hrx => ?_⟩
      rcases List.mem_cons.1 hx with rfl | hx
      · exact List.mem_cons_self
      · exact List.mem_cons_of_mem _ (hr.2 x hx hrx)

/-! ## The cut is a landmark -/

theorem cut_spec (hM : M.WF) {st : HM pq.Q} (H : HDone M U c s st.hVal st.maxPrec st.unsat) {G : Nat}
    (hG : 0 < st.hVal G) {fuel : Nat} (hfuel : M.numFacts + 1 < fuel) :
    ∃ z cut, gzLoop M pq c st fuel ⟨∅, ∅, ∅, [G]⟩ = some z ∧ forwardDFS M pq s st fuel z = some cut ∧
      cut.Nodup ∧ (∀ o ∈ cut, o < M.numOps ∧ 0 < c o ∧ Appl M s o ∧ ∃ f ∈ M.add o, st.hVal G ≤ st.hVal f) ∧
      ∀ π t, RelPlan M (· ∈ s) π t → t G → ∃ o ∈ cut, o ∈ π := by
  obtain ⟨z, e1, hz, hcl⟩ := gzLoop_spec hM H (G := G) fuel ⟨∅, ∅, ∅, [G]⟩
    ⟨by simp, by simp, by simp, by simp, by simp, by simp, by simp⟩
    (by intro f hf; simp only [Finset.notMem_empty, or_false] at hf; left; simp [hf])
    (by simp; omega)
  obtain ⟨rm, e2, hrm⟩ := dfsAll_spec hM H (zone := z.zone) (fuel := fuel) (by omega)
    ((List.range M.numFacts).filter (· ∈ z.precs)) (fun f hf => List.mem_range.1 (List.mem_of_mem_filter hf))
  obtain ⟨j1, j2⟩ := cutErase_spec (fun o => decide (∃ x ∈ rm, st.maxPrec o = some x))
    ((List.range M.numOps).filter (· ∈ z.cut)) 1 ((List.range M.numOps).filter (· ∈ z.cut)).length
  refine ⟨z, _, e1, by unfold forwardDFS; rw [e2]; rfl, ?_, ?_, ?_⟩
  · exact j1.nodup (List.nodup_range.filter _)
  · intro o ho
    have := j1.subset ho
    simp only [List.mem_filter, decide_eq_true_eq] at this
    obtain ⟨h1, h2, h3, h4⟩ := hz.cut o this.2
    exact ⟨h1, h3, h2, h4⟩
  · intro π t hπ hGt
    by_contra hno
    have hno : ∀ o ∈ π, o ∉ cutErase (fun o => decide (∃ x ∈ rm, st.maxPrec o = some x))
        ((List.range M.numOps).filter (· ∈ z.cut)) 1 ((List.range M.numOps).filter (· ∈ z.cut)).length :=
      fun o h1 h2 => hno ⟨o, h2, h1⟩
    have key : ∀ (s' : Nat → Prop) π t, RelPlan M s' π t →
        (∀ f, s' f → Reach M (· ∈ s) f ∧ JR M s st.maxPrec z.zone f ∧ f ≠ G ∧ f ∉ z.zone) →
        (∀ o ∈ π, o ∉ cutErase (fun o => decide (∃ x ∈ rm, st.maxPrec o = some x))
        ((List.range M.numOps).filter (· ∈ z.cut)) 1 ((List.range M.numOps).filter (· ∈ z.cut)).length) →
        ∀ f, t f → f ≠ G := by
      intro s' π t hπ
      induction hπ with
      | nil => intro hs _ f hf; exact (hs f hf).2.2.1
      | @cons s' t o π ho hp _ ih =>
        intro hs hno
        refine ih (fun f hf => ?_) (fun x hx => hno x (List.mem_cons_of_mem _ hx))
        rcases hf with hf | hf
        · exact hs f hf
        · have happ : Appl M s o := fun p hpp => (hs p (hp p hpp)).1
          obtain ⟨x, hx, hxp, -, -⟩ := H.mp o ho happ
          obtain ⟨-, hx2, -, hx4⟩ := hs x (hp x hxp)
          have hnz : ¬ (f = G ∨ f ∈ z.zone) := by
            intro hfz
            obtain ⟨x', hx', h⟩ := hcl f hfz o ho hf happ
            rw [hx] at hx'
            obtain rfl := Option.some.inj hx'
            rcases h with h | ⟨-, h, -⟩
            · exact hx4 h
            · refine hno o List.mem_cons_self (j2 o ?_ ?_)
              · simp only [List.mem_filter, List.mem_range, decide_eq_true_eq]; exact ⟨ho, h⟩
              · simp only [decide_eq_false_iff_not]
                rintro ⟨y, hy, hy'⟩
                rw [hx] at hy'
                obtain rfl := Option.some.inj hy'
                exact hrm x hy hx2
          exact ⟨.op ho hf happ, .op ho happ hf hx hx4 hx2, fun h => hnz (.inl h), fun h => hnz (.inr h)⟩
    refine key _ π t hπ (fun f hf => ?_) hno G hGt rfl
    have h0 := H.s0 f hf
    refine ⟨.init hf, .init hf, ?_, ?_⟩
    · rintro rfl; omega
    · intro h
      have := hz.val f (.inl h)
      omega

/-! ## The main loop -/

theorem gzLoop_mono {st : HM pq.Q} : ∀ {f f' : Nat}, f ≤ f' → ∀ {z r : GZ}, gzLoop M pq c st f z = some r →
    gzLoop M pq c st f' z = some r := by
  intro f
  induction f with
  | zero => intro f' _ z r h; simp [gzLoop] at h
  | succ f ih =>
    intro f' hf z r h
    obtain ⟨f', rfl⟩ : ∃ k, f' = k + 1 := ⟨f' - 1, by omega⟩
    unfold gzLoop at h ⊢
    cases hst : z.stack with
    | nil => rw [hst] at h; exact h
    | cons a stack =>
      rw [hst] at h
      simp only [Option.bind_eq_bind, Option.bind_eq_some_iff] at h ⊢
      obtain ⟨z', h1, h2⟩ := h
      exact ⟨z', h1, ih (by omega) h2⟩

theorem dfsLoop_mono {st : HM pq.Q} {zone : Finset Nat} : ∀ {f f' : Nat}, f ≤ f' → ∀ {v r},
    dfsLoop M pq s st zone f v = some r → dfsLoop M pq s st zone f' v = some r := by
  intro f
  induction f with
  | zero => intro f' _ v r h; simp [dfsLoop] at h
  | succ f ih =>
    intro f' hf v r h
    obtain ⟨f', rfl⟩ : ∃ k, f' = k + 1 := ⟨f' - 1, by omega⟩
    unfold dfsLoop at h ⊢
    cases hst : v.2 with
    | nil => rw [hst] at h; exact h
    | cons a stack =>
      rw [hst] at h
      simp only at h ⊢
      cases hd : dfsOps M pq s st zone (M.addToTask a) (v.1, stack) with
      | none => rw [hd] at h; simp at h
      | some x =>
        rw [hd] at h
        cases x with
        | inl u => exact h
        | inr v' => exact ih (by omega) h

theorem dfsAll_mono {st : HM pq.Q} {zone : Finset Nat} {f f' : Nat} (hf : f ≤ f') : ∀ {fs : List Nat} {r},
    dfsAll M pq s st zone f fs = some r → dfsAll M pq s st zone f' fs = some r := by
  intro fs
  induction fs with
  | nil => intro r h; exact h
  | cons a fs ih =>
    intro r h
    unfold dfsAll at h ⊢
    simp only [Option.bind_eq_bind, Option.bind_eq_some_iff] at h ⊢
    obtain ⟨rest, h1, h2⟩ := h
    refine ⟨rest, ih h1, ?_⟩
    by_cases ha : a ∈ s
    · simp only [ha, if_true] at h2 ⊢
      exact h2
    · simp only [ha, if_false, Option.pure_def, Option.bind_some, Option.bind_eq_some_iff] at h2 ⊢
      obtain ⟨b, h3, h4⟩ := h2
      exact ⟨b, dfsLoop_mono hf h3, h4⟩

theorem forwardDFS_mono {st : HM pq.Q} {f f' : Nat} (hf : f ≤ f') {z : GZ} {r}
    (h : forwardDFS M pq s st f z = some r) : forwardDFS M pq s st f' z = some r := by
  unfold forwardDFS at h ⊢
  simp only [Option.bind_eq_bind, Option.bind_eq_some_iff] at h ⊢
  obtain ⟨rm, h1, h2⟩ := h
  exact ⟨rm, dfsAll_mono hf h1, h2⟩

theorem minCost_spec (c : Nat → Nat) : ∀ (cut : List Nat) (U : Nat), minCost U c cut ≤ U ∧
    (∀ o ∈ cut, minCost U c cut ≤ c o) ∧ (minCost U c cut = U ∨ ∃ o ∈ cut, minCost U c cut = c o) := by
  intro cut
  induction cut with
  | nil => intro U; simp [minCost]
  | cons a cut ih =>
    intro U
    have e : minCost U c (a :: cut) = minCost (if c a < U then c a else U) c cut := rfl
    rw [e]
    obtain ⟨h1, h2, h3⟩ := ih (if c a < U then c a else U)
    by_cases h : c a < U
    · rw [if_pos h] at h1 h2 h3 ⊢
      refine ⟨by omega, fun o ho => ?_, ?_⟩
      · rcases List.mem_cons.1 ho with rfl | ho
        · exact h1
        · exact h2 o ho
      · rcases h3 with h3 | ⟨o, ho, h3⟩
        · exact .inr ⟨a, List.mem_cons_self, h3⟩
        · exact .inr ⟨o, List.mem_cons_of_mem _ ho, h3⟩
    · rw [if_neg h] at h1 h2 h3 ⊢
      refine ⟨h1, fun o ho => ?_, ?_⟩
      · rcases List.mem_cons.1 ho with rfl | ho
        · omega
        · exact h2 o ho
      · rcases h3 with h3 | ⟨o, ho, h3⟩
        · exact .inl h3
        · exact .inr ⟨o, List.mem_cons_of_mem _ ho, h3⟩

/-- Reduced costs. -/
def reduce (c : Nat → Nat) (cut : List Nat) (m : Nat) : Nat → Nat := fun o => if o ∈ cut then c o - m else c o

theorem reduce_le (c : Nat → Nat) (cut : List Nat) (m o : Nat) : reduce c cut m o ≤ c o := by
  unfold reduce; split_ifs <;> omega

theorem total_reduce_lt {cut : List Nat} {m o : Nat} (hm : 0 < m) (ho : o ∈ cut) (hlt : o < M.numOps)
    (hc : 0 < c o) : M.total (reduce c cut m) < M.total c := by
  refine Finset.sum_lt_sum (fun x _ => reduce_le c cut m x) ⟨o, Finset.mem_range.2 hlt, ?_⟩
  unfold reduce
  rw [if_pos ho]
  omega

theorem total_ge {o : Nat} (ho : o < M.numOps) : c o ≤ M.total c :=
  Finset.single_le_sum (f := c) (fun _ _ => Nat.zero_le _) (Finset.mem_range.2 ho)

theorem costOf_reduce_le (cut : List Nat) (m : Nat) : ∀ π : List Nat,
    costOf (reduce c cut m) π ≤ costOf c π := by
  intro π
  induction π with
  | nil => simp [costOf]
  | cons a π ih =>
    rw [costOf_cons, costOf_cons]
    have := reduce_le c cut m a
    omega

/-- A plan that uses an action of the cut becomes cheaper by at least the minimal cost of the cut. -/
theorem costOf_reduce {cut : List Nat} {m o : Nat} (hm : ∀ o ∈ cut, m ≤ c o) (ho : o ∈ cut) :
    ∀ π : List Nat, o ∈ π → m + costOf (reduce c cut m) π ≤ costOf c π := by
  intro π
  induction π with
  | nil => simp
  | cons a π ih =>
    intro h
    rw [costOf_cons, costOf_cons]
    rcases List.mem_cons.1 h with rfl | h
    · have h1 : reduce c cut m o = c o - m := by unfold reduce; rw [if_pos ho]
      have := costOf_reduce_le (c := c) cut m π
      have := hm o ho
      omega
    · have := reduce_le c cut m a
      have := ih h
      omega

/-- The h-max value of the goal decreases by at most the minimal cost of the cut. -/
theorem hle_reduce (hM : M.WF) {hVal : Nat → Nat} {mp : Nat → Option Nat} {un : Nat → Int}
    (H : HDone M U c s hVal mp un)
    {cut : List Nat} {m G : Nat} (hm : ∀ o ∈ cut, m ≤ c o)
    (hcut : ∀ o ∈ cut, o < M.numOps ∧ 0 < c o ∧ Appl M s o ∧ ∃ f ∈ M.add o, hVal G ≤ hVal f) {f k : Nat}
    (h : HLe M (reduce c cut m) (· ∈ s) f k) : min (hVal f) (hVal G - m) ≤ k := by
  induction h with
  | @init f k h => rw [H.s0 f h]; omega
  | @op o f k k' ho hf hp hk ih =>
    have happ : Appl M s o := fun p hpm => (hp p hpm).reach
    obtain ⟨x, -, hxp, -, hxadd⟩ := H.mp o ho happ
    have h1 := ih x hxp
    have h2 := hxadd f hf
    by_cases hoc : o ∈ cut
    · obtain ⟨-, -, -, f', hf', hG⟩ := hcut o hoc
      have h3 := hxadd f' hf'
      have h4 : reduce c cut m o = c o - m := by unfold reduce; rw [if_pos hoc]
      have h5 := hm o hoc
      omega
    · have h4 : reduce c cut m o = c o := by unfold reduce; rw [if_neg hoc]
      omega

/-- What is true of the sum and the cuts collected so far. -/
structure LInv (M : Strips) (s g : List Nat) (c : Nat → Nat) (h : Nat) (cuts : List (List Nat)) : Prop where
  adm : ∀ π, SolvesRel M s g π → h + costOf c π ≤ costOf M.cost π
  lm : ∀ cut ∈ cuts, cut.Nodup ∧ (∀ o ∈ cut, o < M.numOps) ∧ ∀ π, SolvesRel M s g π → ∃ o ∈ cut, o ∈ π

theorem lmLoop_spec (hM : M.WF) (hs : s.Nodup) {g : List Nat} (hg : g ≠ [])
    (hr : ∀ f ∈ g, Reach M (· ∈ s) f) : ∀ (n : Nat) (c : Nat → Nat) (hMax G : Nat) (st : HM pq.Q) (h : Nat)
    (cuts : List (List Nat)), M.total c ≤ n → M.total c < U → HDone M U c s st.hVal st.maxPrec st.unsat →
    G ∈ g → hMax = st.hVal G → (∀ f ∈ g, st.hVal f ≤ hMax) → LInv M s g c h cuts →
    ∃ F h' cuts', (∀ fuel, F ≤ fuel → lmLoop M pq U s g fuel c hMax (some G) st h cuts = some (h', cuts')) ∧
      (∃ c', LInv M s g c' h' cuts') ∧ h + hMax ≤ h' ∧
      ∃ more, cuts' = cuts ++ more ∧ more.length ≤ h' - h ∧ (0 < hMax → more ≠ []) := by
  intro n
  induction n with
  | zero =>
    intro c hMax G st h cuts hn hU H hGg hG hmax hI
    have := (H.le G (hr G hGg)).2
    have h0 : hMax = 0 := by omega
    refine ⟨1, h, cuts, ?_, ⟨c, hI⟩, by omega, [], by simp, by simp, by omega⟩
    intro fuel hf
    obtain ⟨fuel, rfl⟩ : ∃ k, fuel = k + 1 := ⟨fuel - 1, by omega⟩
    unfold lmLoop
    rw [if_neg (by omega)]
  | succ n ih =>
    intro c hMax G st h cuts hn hU H hGg hG hmax hI
    by_cases h0 : 0 < hMax
    · obtain ⟨π, t, hπ, ht⟩ := reach_iff.1 hr
      obtain ⟨z0, cut, c1, c2, hnd, hcut, hlm⟩ := cut_spec hM H (G := G) (by omega)
        (fuel := M.numFacts + 2) (by omega)
      have hmono : ∀ fuel, M.numFacts + 2 ≤ fuel → ∃ z, gzLoop M pq c st fuel ⟨∅, ∅, ∅, [G]⟩ = some z ∧
          forwardDFS M pq s st fuel z = some cut :=
        fun fuel hf => ⟨z0, gzLoop_mono hf c1, forwardDFS_mono hf c2⟩
      obtain ⟨o, hoc, -⟩ := hlm π t hπ (ht G hGg)
      obtain ⟨ho, hco, -⟩ := hcut o hoc
      obtain ⟨m1, m2, m3⟩ := minCost_spec c cut U
      obtain ⟨m, hm⟩ : ∃ m, m = minCost U c cut := ⟨_, rfl⟩
      rw [← hm] at m1 m2 m3
      have hmpos : 0 < m := by
        rcases m3 with m3 | ⟨o', ho', m3⟩
        · omega
        · have := (hcut o' ho').2.1
          omega
      have htot := total_reduce_lt (M := M) (c := c) hmpos hoc ho hco
      obtain ⟨F1, hMax', G', st', e1, H', -, k2⟩ := getHMax_spec (pq := pq) (U := U)
        (c := reduce c cut m) hM (by omega) hs hg
      obtain ⟨x, rfl, hxg, hx, -, hxmax⟩ := k2 hr
      have hI' : LInv M s g (reduce c cut m) (h + m) (cuts ++ [cut]) := by
        refine ⟨fun π hπ => ?_, fun cut' hc' => ?_⟩
        · obtain ⟨t, h1, h2⟩ := hπ
          obtain ⟨o', ho', hoπ⟩ := hlm π t h1 (h2 G hGg)
          have h3 := costOf_reduce m2 ho' π hoπ
          have h4 := hI.adm π ⟨t, h1, h2⟩
          omega
        · rcases List.mem_append.1 hc' with hc' | hc'
          · exact hI.lm cut' hc'
          · obtain rfl := List.mem_singleton.1 hc'
            refine ⟨hnd, fun o ho => (hcut o ho).1, fun π hπ => ?_⟩
            obtain ⟨t, h1, h2⟩ := hπ
            exact hlm π t h1 (h2 G hGg)
      have hdom : hMax ≤ m + hMax' := by
        have h1 := (H'.le G (hr G hGg)).1
        have h2 := hle_reduce hM H m2 hcut h1
        have h3 := hxmax G hGg
        omega
      obtain ⟨F2, h', cuts', e2, j1, j2, more, j3, j4, j5⟩ := ih (reduce c cut m) hMax' x st' (h + m) (cuts ++ [cut])
        (by omega) (by omega) H' hxg hx hxmax hI'
      refine ⟨max (M.numFacts + 2) (max F1 F2) + 1, h', cuts', ?_, j1, by omega, cut :: more, by simp [j3],
        by simp only [List.length_cons]; omega, by simp⟩
      intro fuel hf
      obtain ⟨fuel, rfl⟩ : ∃ k, fuel = k + 1 := ⟨fuel - 1, by omega⟩
      obtain ⟨z, a1, a2⟩ := hmono fuel (by omega)
      unfold lmLoop
      rw [if_pos h0]
      simp only [a1, a2, Option.bind_eq_bind, Option.bind_some]
      have e1' := e1 fuel (by omega)
      have e2' := e2 fuel (by omega)
      rw [hm] at e1' e2'
      unfold reduce at e1' e2'
      rw [e1']
      exact e2'
    · refine ⟨1, h, cuts, ?_, ⟨c, hI⟩, by omega, [], by simp, by simp, fun hh => absurd hh h0⟩
      intro fuel hf
      obtain ⟨fuel, rfl⟩ : ∃ k, fuel = k + 1 := ⟨fuel - 1, by omega⟩
      unfold lmLoop
      rw [if_neg h0]

/-- The result of `getHeuristicValue`. -/
theorem lmCut_spec (hM : M.WF) (htot : M.total M.cost < U) (hs : s.Nodup) {g : List Nat} (hg : g ≠ []) :
    ∃ F h cuts hMax x, (∀ fuel, F ≤ fuel → lmCut M pq U fuel s g = some (h, cuts) ∧
        getHMax M pq U M.cost fuel s g = some (hMax, x)) ∧
      ((∃ f ∈ g, ¬ Reach M (· ∈ s) f) → h = U ∧ hMax = U ∧ cuts = []) ∧
      ((∀ f ∈ g, Reach M (· ∈ s) f) → (∃ c', LInv M s g c' h cuts) ∧ hMax ≤ h ∧ cuts.length ≤ h ∧
        (cuts = [] → h = 0)) := by
  obtain ⟨F, hMax, G, st, e, H, k1, k2⟩ := getHMax_spec (pq := pq) (c := M.cost) hM htot hs hg
  have hI : LInv M s g M.cost 0 [] := ⟨fun π _ => by omega, by simp⟩
  by_cases hr : ∀ f ∈ g, Reach M (· ∈ s) f
  · obtain ⟨x, rfl, hxg, hx, hle, hmax⟩ := k2 hr
    have hnr : ¬ ∃ f ∈ g, ¬ Reach M (· ∈ s) f := fun ⟨f, h1, h2⟩ => h2 (hr f h1)
    by_cases h0 : hMax = 0
    · refine ⟨F, hMax, [], hMax, _, fun fuel hf => ⟨?_, e fuel hf⟩, fun h => absurd h hnr,
        fun _ => ⟨⟨M.cost, ?_⟩, Nat.le_refl _, by simp, fun _ => h0⟩⟩
      · unfold lmCut
        rw [e fuel hf]
        simp [h0]
      · rw [h0]; exact hI
    · obtain ⟨F', h', cuts', e', j1, j2, more, j3, j4, j5⟩ := lmLoop_spec (pq := pq) hM hs hg hr (M.total M.cost) M.cost
        hMax x st 0 [] (Nat.le_refl _) htot H hxg hx hmax hI
      refine ⟨max F F', h', cuts', hMax, _, fun fuel hf => ⟨?_, e fuel (by omega)⟩, fun h => absurd h hnr,
        fun _ => ⟨j1, by omega, ?_, fun hc => ?_⟩⟩
      · unfold lmCut
        rw [e fuel (by omega)]
        simp only [Option.bind_eq_bind, Option.bind_some]
        rw [if_neg (by omega)]
        exact e' fuel (by omega)
      · rw [j3]; simpa using j4
      · rw [hc] at j3
        have := j5 (by omega)
        simp at j3
        exact absurd j3.symm (by simpa using this)
  · have hnr : ∃ f ∈ g, ¬ Reach M (· ∈ s) f := by
      by_contra hc
      exact hr fun f hf => by by_contra h; exact hc ⟨f, hf, h⟩
    have hU := k1 hnr
    refine ⟨F, U, [], hMax, _, fun fuel hf => ⟨?_, e fuel hf⟩, fun _ => ⟨rfl, hU, rfl⟩, fun h => absurd h hr⟩
    unfold lmCut
    rw [e fuel hf]
    simp [hU]

/-! ## Relaxed plans without repetitions -/

theorem RelPlan.filter_ne {s t : Nat → Prop} {π : List Nat} (h : RelPlan M s π t) (o : Nat)
    (ho : ∀ f ∈ M.add o, s f) : ∃ t', RelPlan M s (π.filter (· ≠ o)) t' ∧ ∀ f, t f → t' f := by
  induction h with
  | nil => exact ⟨_, .nil, fun f h => h⟩
  | @cons s t a π ha hp hπ ih =>
    obtain ⟨t', h1, h2⟩ := ih fun f hf => .inl (ho f hf)
    by_cases hao : a = o
    · subst hao
      rw [List.filter_cons_of_neg (by simp)]
      obtain ⟨t'', h3, h4⟩ := h1.mono (s2 := s) fun f hf => hf.elim id (ho f)
      exact ⟨t'', h3, fun f hf => h4 f (h2 f hf)⟩
    · rw [List.filter_cons_of_pos (by simpa using hao)]
      exact ⟨t', .cons ha hp h1, h2⟩

theorem RelPlan.dedup {s t : Nat → Prop} : ∀ (n : Nat) {π : List Nat}, π.length ≤ n → RelPlan M s π t →
    ∃ ρ t', ρ.Nodup ∧ ρ ⊆ π ∧ RelPlan M s ρ t' ∧ ∀ f, t f → t' f := by
  intro n
  induction n generalizing s t with
  | zero =>
    intro π hn h
    obtain rfl := List.length_eq_zero_iff.1 (Nat.le_zero.1 hn)
    exact ⟨[], t, List.nodup_nil, fun _ h => h, h, fun f h => h⟩
  | succ n ih =>
    intro π hn h
    cases h with
    | nil => exact ⟨[], _, List.nodup_nil, fun _ h => h, .nil, fun f h => h⟩
    | @cons _ _ a π ha hp hπ =>
      obtain ⟨t1, h1, h2⟩ := hπ.filter_ne a fun f hf => .inr hf
      have hl : (π.filter (· ≠ a)).length ≤ n := by
        have := List.length_filter_le (fun x => decide (x ≠ a)) π
        simp only [List.length_cons] at hn
        omega
      obtain ⟨ρ, t2, k1, k2, k3, k4⟩ := ih hl h1
      refine ⟨a :: ρ, t2, List.nodup_cons.2 ⟨fun hm => ?_, k1⟩, ?_, .cons ha hp k3, fun f hf => k4 f (h2 f hf)⟩
      · have := List.mem_filter.1 (k2 hm)
        simp at this
      · intro x hx
        rcases List.mem_cons.1 hx with rfl | hx
        · exact List.mem_cons_self
        · exact List.mem_cons_of_mem _ (List.mem_of_mem_filter (k2 hx))

theorem RelPlan.ops {s t : Nat → Prop} {π : List Nat} (h : RelPlan M s π t) : ∀ o ∈ π, o < M.numOps := by
  induction h with
  | nil => simp
  | cons ho _ _ ih =>
    intro x hx
    rcases List.mem_cons.1 hx with rfl | hx
    · exact ho
    · exact ih x hx

/-- If the goal is reachable, then some relaxed plan costs at most the sum of all action costs. -/
theorem relPlan_bound {g : List Nat} (hr : ∀ f ∈ g, Reach M (· ∈ s) f) (c : Nat → Nat) :
    ∃ π t, RelPlan M (· ∈ s) π t ∧ (∀ f ∈ g, t f) ∧ costOf c π ≤ M.total c := by
  obtain ⟨π, t, h1, h2⟩ := reach_iff.1 hr
  obtain ⟨ρ, t', k1, -, k3, k4⟩ := RelPlan.dedup _ (Nat.le_refl _) h1
  refine ⟨ρ, t', k3, fun f hf => k4 f (h2 f hf), ?_⟩
  have : costOf c ρ = ∑ o ∈ ρ.toFinset, c o := by
    unfold costOf
    rw [← List.sum_toFinset c k1]
  rw [this]
  exact Finset.sum_le_sum_of_subset fun o ho => Finset.mem_range.2 (k3.ops o (by simpa using ho))

end Verif.Strips
