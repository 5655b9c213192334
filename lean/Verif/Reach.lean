import Verif.IntSets
import Verif.SearchInv

/-! # Model of the reachability sets stored with plan steps

`planStep::reachableT` (src/ProgressionNetwork.h 64-65) is computed on demand and kept: it is `nullptr`
until `calcReachability` has been called for the step. -/

namespace Verif.Reach

open Verif.Htn Verif.Prog Verif.IntSets Relation

/-- The field `reachableT` of every step; `none` stands for `nullptr`. -/
abbrev Cache := Nat → Option (List Nat)

/-- What the functions change: the fields, and the member `intSet` of the model. -/
structure RSt where
  cache : Cache
  set : NoDel

/-- The loops that call `calcReachability` for the steps without set (src/Model.cpp 1414-1423 and
1428-1432); `rec` is the call. -/
def calcMissing (rec : RSt → Nat → Option RSt) : List Nat → RSt → Option RSt
  | [], st => some st
  | v :: vs, st =>
    match st.cache v with
    | some _ => calcMissing rec vs st
    | none =>
      match rec st v with
      | none => none
      | some st => calcMissing rec vs st

/-- Insertion of the sets of the successors (src/Model.cpp 1436-1440).  Outcome `none`: a null pointer is
read or the set is written out of bounds. -/
def insertSuccs (c : Cache) : List Nat → NoDel → Option NoDel
  | [], s => some s
  | v :: vs, s =>
    match c v with
    | none => none
    | some l =>
      match s.insertAll l with
      | none => none
      | some s => insertSuccs c vs s

/-- `Model::calcReachability` (src/Model.cpp 1426-1450).  `R` is the array `reachable`, with `none` for
entries that have not been set.  Outcome `none`: out of fuel or undefined behaviour. -/
def calcReach (R : Nat → Option (List Nat)) (h : Heap) : Nat → RSt → Nat → Option RSt
  | 0, _, _ => none
  | f + 1, st, u => do
    let st ← calcMissing (calcReach R h f) (succsOf h u) st
    let s ← insertSuccs st.cache (succsOf h u) st.set.clear
    let own ← R (taskOf h u)
    let s ← s.insertAll own
    let r ← iterate NoDel.getNext (s.ints.length + 2) s.getFirst
    return ⟨Function.update st.cache u (some r.2), r.1⟩

/-- `Model::updateReachability` (src/Model.cpp 1413-1424). -/
def updateReach (R : Nat → Option (List Nat)) (h : Heap) (fuel : Nat) (st : RSt) (n : Node) : Option RSt := do
  let st ← calcMissing (calcReach R h fuel) n.abs st
  calcMissing (calcReach R h fuel) n.prims st

/-! ## Correctness -/

/-- The tasks that belong to a step or one that has to be executed later, closed under `TR`. -/
def ReachT (h : Heap) (TR : Nat → Nat → Prop) (u t : Nat) : Prop :=
  ∃ v, ReflTransGen (Edge h) u v ∧ TR (taskOf h v) t

/-- Every stored set is exact. -/
def CacheOK (h : Heap) (TR : Nat → Nat → Prop) (c : Cache) : Prop :=
  ∀ u l, c u = some l → u < h.length ∧ l.Nodup ∧ ∀ t, t ∈ l ↔ ReachT h TR u t

/-- The entries of the array `reachable` for the tasks of the steps in `D`, which is closed under
successors. -/
structure TableOK (h : Heap) (D : Nat → Prop) (R : Nat → Option (List Nat)) (TR : Nat → Nat → Prop)
    (size : Nat) : Prop where
  lt : ∀ u, D u → u < h.length
  succ : ∀ u v, D u → Edge h u v → D v
  get : ∀ u, D u → ∃ l, R (taskOf h u) = some l ∧ (∀ t ∈ l, t < size) ∧ ∀ t, t ∈ l ↔ TR (taskOf h u) t

variable {h : Heap} {D : Nat → Prop} {R : Nat → Option (List Nat)} {TR : Nat → Nat → Prop} {size : Nat}

/-- The invariant of the pair. -/
structure RInv (h : Heap) (TR : Nat → Nat → Prop) (size : Nat) (st : RSt) : Prop where
  cache : CacheOK h TR st.cache
  set : st.set.Inv
  len : st.set.bools.length = size

/-- What a successful call guarantees. -/
structure RPost (h : Heap) (TR : Nat → Nat → Prop) (size : Nat) (st st' : RSt) : Prop where
  inv : RInv h TR size st'
  keep : ∀ v l, st.cache v = some l → st'.cache v = some l

theorem calcMissing_spec {rec : RSt → Nat → Option RSt} : ∀ (vs : List Nat) (st : RSt), RInv h TR size st →
    (∀ v ∈ vs, ∀ st, RInv h TR size st → st.cache v = none → ∃ st', rec st v = some st' ∧ RPost h TR size st st' ∧ st'.cache v ≠ none) →
    ∃ st', calcMissing rec vs st = some st' ∧ RPost h TR size st st' ∧ ∀ v ∈ vs, st'.cache v ≠ none := by
  intro vs
  induction vs with
  | nil => intro st hI _; exact ⟨st, rfl, ⟨hI, fun _ _ h => h⟩, by simp⟩
  | cons v vs ih =>
    intro st hI hrec
    cases hc : st.cache v with
    | some l =>
      obtain ⟨st', e, hp, hv⟩ := ih st hI fun w hw => hrec w (List.mem_cons_of_mem _ hw)
      refine ⟨st', by simp only [calcMissing, hc]; exact e, hp, fun w hw => ?_⟩
      rcases List.mem_cons.1 hw with rfl | hw
      · rw [hp.keep _ _ hc]; simp
      · exact hv w hw
    | none =>
      obtain ⟨s1, e1, hp1, hv1⟩ := hrec v List.mem_cons_self st hI hc
      obtain ⟨st', e, hp, hv⟩ := ih s1 hp1.inv fun w hw => hrec w (List.mem_cons_of_mem _ hw)
      refine ⟨st', by simp only [calcMissing, hc, e1]; exact e,
        ⟨hp.inv, fun w l hw => hp.keep _ _ (hp1.keep _ _ hw)⟩, fun w hw => ?_⟩
      rcases List.mem_cons.1 hw with rfl | hw
      · cases hc1 : s1.cache w with
        | none => exact absurd hc1 hv1
        | some l => rw [hp.keep _ _ hc1]; simp
      · exact hv w hw

theorem insertSuccs_spec {c : Cache} : ∀ (vs : List Nat) (s : NoDel), s.Inv →
    (∀ v ∈ vs, ∃ l, c v = some l ∧ ∀ t ∈ l, t < s.bools.length) →
    ∃ s', insertSuccs c vs s = some s' ∧ s'.Inv ∧ s'.bools.length = s.bools.length ∧
      ∀ t, t ∈ s'.ints ↔ t ∈ s.ints ∨ ∃ v ∈ vs, ∃ l, c v = some l ∧ t ∈ l := by
  intro vs
  induction vs with
  | nil => intro s hs _; exact ⟨s, rfl, hs, rfl, by simp⟩
  | cons v vs ih =>
    intro s hs hc
    obtain ⟨l, hl, hlt⟩ := hc v List.mem_cons_self
    obtain ⟨s1, e1, i1, n1, m1⟩ := NoDel.insertAll_spec hs hlt
    obtain ⟨s', e, i, n, m⟩ := ih s1 i1 fun w hw => by
      obtain ⟨l, h1, h2⟩ := hc w (List.mem_cons_of_mem _ hw)
      exact ⟨l, h1, fun t ht => by rw [n1]; exact h2 t ht⟩
    refine ⟨s', by simp only [insertSuccs, hl, e1]; exact e, i, by rw [n, n1], fun t => ?_⟩
    rw [m, m1]
    constructor
    · rintro ((h | h) | ⟨w, hw, l', h1, h2⟩)
      · exact .inr ⟨v, List.mem_cons_self, l, hl, h⟩
      · exact .inl h
      · exact .inr ⟨w, List.mem_cons_of_mem _ hw, l', h1, h2⟩
    · rintro (h | ⟨w, hw, l', h1, h2⟩)
      · exact .inl (.inr h)
      · rcases List.mem_cons.1 hw with rfl | hw
        · rw [hl] at h1
          cases h1
          exact .inl (.inl h2)
        · exact .inr ⟨w, hw, l', h1, h2⟩

/-- A step's set consists of its own tasks and those of its successors. -/
theorem reachT_iff {u t : Nat} :
    ReachT h TR u t ↔ TR (taskOf h u) t ∨ ∃ v, Edge h u v ∧ ReachT h TR v t := by
  constructor
  · rintro ⟨w, hw, ht⟩
    rcases ReflTransGen.cases_head hw with rfl | ⟨v, hv, hvw⟩
    · exact .inl ht
    · exact .inr ⟨v, hv, w, hvw, ht⟩
  · rintro (ht | ⟨v, hv, w, hvw, ht⟩)
    · exact ⟨u, .refl, ht⟩
    · exact ⟨w, .head hv hvw, ht⟩

theorem ReachT.lt (hR : TableOK h D R TR size) {u t : Nat} (hu : D u) (ht : ReachT h TR u t) : t < size := by
  obtain ⟨v, hv, ht⟩ := ht
  have hD : D v := by
    clear ht
    induction hv with
    | refl => exact hu
    | tail _ he ih => exact hR.succ _ _ ih he
  obtain ⟨l, -, h1, h2⟩ := hR.get v hD
  exact h1 t ((h2 t).2 ht)

theorem calcReach_spec (hR : TableOK h D R TR size) {rank : Nat → Nat}
    (hrank : ∀ u v, Edge h u v → rank v < rank u) : ∀ (f : Nat) (st : RSt) (u : Nat), rank u < f → D u →
    RInv h TR size st → st.cache u = none →
    ∃ st', calcReach R h f st u = some st' ∧ RPost h TR size st st' ∧ st'.cache u ≠ none := by
  intro f
  induction f with
  | zero => intro st u hr; omega
  | succ f ih =>
    intro st u hr hu hI hnone
    have hsucc : ∀ v ∈ succsOf h u, Edge h u v := fun v hv => mem_succsOf.1 hv
    obtain ⟨s1, e1, hp1, hv1⟩ := calcMissing_spec (rec := calcReach R h f) (succsOf h u) st hI
      fun v hv st hI hc => ih st v (by have := hrank _ _ (hsucc v hv); omega) (hR.succ _ _ hu (hsucc v hv)) hI hc
    obtain ⟨hcl, hlen⟩ := NoDel.clear_spec hp1.inv.set
    have hlen' : s1.set.clear.bools.length = size := by rw [hlen, hp1.inv.len]
    obtain ⟨s2, e2, i2, n2, m2⟩ := insertSuccs_spec (c := s1.cache) (succsOf h u) s1.set.clear hcl fun v hv => by
      cases hc : s1.cache v with
      | none => exact absurd hc (hv1 v hv)
      | some l =>
        obtain ⟨-, -, h3⟩ := hp1.inv.cache v l hc
        exact ⟨l, rfl, fun t ht => by rw [hlen']; exact ReachT.lt hR (hR.succ _ _ hu (hsucc v hv)) ((h3 t).1 ht)⟩
    obtain ⟨own, eo, ol, om⟩ := hR.get u hu
    obtain ⟨s3, e3, i3, n3, m3⟩ := NoDel.insertAll_spec i2 (l := own)
      (fun t ht => by rw [n2, hlen']; exact ol t ht)
    obtain ⟨k, e4⟩ := NoDel.iterate_spec s3
    have hmem : ∀ t, t ∈ s3.ints ↔ ReachT h TR u t := by
      intro t
      rw [m3, m2, om, reachT_iff]
      constructor
      · rintro (h | h | ⟨v, hv, l, hl, ht⟩)
        · exact .inl h
        · simp [NoDel.clear] at h
        · exact .inr ⟨v, hsucc v hv, ((hp1.inv.cache v l hl).2.2 t).1 ht⟩
      · rintro (h | ⟨v, hv, ht⟩)
        · exact .inl h
        · refine .inr (.inr ⟨v, mem_succsOf.2 hv, ?_⟩)
          cases hc : s1.cache v with
          | none => exact absurd hc (hv1 v (mem_succsOf.2 hv))
          | some l => exact ⟨l, rfl, ((hp1.inv.cache v l hc).2.2 t).2 ht⟩
    refine ⟨⟨Function.update s1.cache u (some s3.ints), { s3 with iter := k }⟩, ?_, ⟨⟨?_, ?_, ?_⟩, ?_⟩, ?_⟩
    · simp [calcReach, e1, e2, eo, e3, e4]
    · intro w l hw
      by_cases hwu : w = u
      · subst hwu
        simp only [Function.update_self, Option.some.injEq] at hw
        subst hw
        exact ⟨hR.lt _ hu, i3.nodup, hmem⟩
      · simp only [Function.update_of_ne hwu] at hw
        exact hp1.inv.cache w l hw
    · exact ⟨i3.nodup, i3.mem⟩
    · simp only [n3, n2, hlen']
    · intro w l hw
      have hw1 := hp1.keep _ _ hw
      by_cases hwu : w = u
      · subst hwu
        rw [hnone] at hw
        simp at hw
      · simp only [Function.update_of_ne hwu]; exact hw1
    · simp

open Classical in
/-- The number of later steps is a rank bounded by the size of the heap. -/
theorem rank_le (hh : HeapOK h) :
    ∃ rank : Nat → Nat, (∀ u v, Edge h u v → rank v < rank u) ∧ ∀ u, rank u ≤ h.length := by
  obtain ⟨r, hr⟩ := hh.acyc
  refine ⟨fun u => ((Finset.range h.length).filter fun v => TransGen (Edge h) u v).card, fun u v he => ?_, fun u => ?_⟩
  · refine Finset.card_lt_card ⟨fun w hw => ?_, fun hc => ?_⟩
    · rw [Finset.mem_filter] at hw ⊢
      exact ⟨hw.1, .head he hw.2⟩
    · have := hc (Finset.mem_filter.2 ⟨Finset.mem_range.2 (hh.succ_lt _ _ he), .single he⟩)
      exact absurd (rank_trans hr (Finset.mem_filter.1 this).2) (Nat.lt_irrefl _)
  · exact Nat.le_trans (Finset.card_filter_le _ _) (by simp)

/-- `updateReachability` terminates without undefined behaviour; afterwards every unconstrained step has an
exact set, and the sets computed before are unchanged. -/
theorem updateReach_spec (hh : HeapOK h) (hR : TableOK h D R TR size) {n : Node} (hn : ∀ u ∈ n.firsts, D u)
    {st : RSt} (hI : RInv h TR size st) {fuel : Nat} (hf : h.length < fuel) :
    ∃ st', updateReach R h fuel st n = some st' ∧ RPost h TR size st st' ∧ ∀ u ∈ n.firsts, st'.cache u ≠ none := by
  obtain ⟨rank, hr, hle⟩ := rank_le hh
  have hcall : ∀ v, D v → ∀ st, RInv h TR size st → st.cache v = none →
      ∃ st', calcReach R h fuel st v = some st' ∧ RPost h TR size st st' ∧ st'.cache v ≠ none :=
    fun v hv st hI hc => calcReach_spec hR hr fuel st v (by have := hle v; omega) hv hI hc
  obtain ⟨s1, e1, p1, v1⟩ := calcMissing_spec (rec := calcReach R h fuel) n.abs st hI
    fun v hv => hcall v (hn v (List.mem_append_right _ hv))
  obtain ⟨s2, e2, p2, v2⟩ := calcMissing_spec (rec := calcReach R h fuel) n.prims s1 p1.inv
    fun v hv => hcall v (hn v (List.mem_append_left _ hv))
  refine ⟨s2, by simp [updateReach, e1, e2], ⟨p2.inv, fun v l hv => p2.keep _ _ (p1.keep _ _ hv)⟩, fun u hu => ?_⟩
  rcases List.mem_append.1 hu with hu | hu
  · exact v2 u hu
  · cases hc : s1.cache u with
    | none => exact absurd hc (v1 u hu)
    | some l => rw [p2.keep _ _ hc]; simp

/-- Later changes of the heap do not invalidate the stored sets. -/
theorem CacheOK.ext {h' : Heap} (hp : h <+: h') (hh : HeapOK h) (hh' : HeapOK h') {c : Cache}
    (hc : CacheOK h TR c) : CacheOK h' TR c := by
  intro u l hu
  obtain ⟨h1, h2, h3⟩ := hc u l hu
  refine ⟨Nat.lt_of_lt_of_le h1 hp.length_le, h2, fun t => ?_⟩
  rw [h3]
  refine exists_congr fun v => ?_
  rw [prefix_reach hp hh h1]
  exact and_congr_right fun hv => by rw [prefix_taskOf hp (reach_lt hh h1 hv)]

/-! ## Tasks that can be obtained by decomposition -/

/-- `b` is a subtask of a method for `a`. -/
def SubOf (P : Problem) (a b : Nat) : Prop := ∃ m < P.numMethods, P.head m = a ∧ b ∈ P.sub m

/-- `b` can be obtained from `a` by repeated decomposition. -/
def TaskReach (P : Problem) : Nat → Nat → Prop := ReflTransGen (SubOf P)

variable {P : Problem} {cfg : Cfg}

/-- All tasks of the network can be obtained from the initial task. -/
def LiveTasks (P : Problem) (h : Heap) (n : Node) : Prop := ∀ u ∈ live h n, TaskReach P P.init (taskOf h u)

theorem init_liveTasks : LiveTasks P (initNode P cfg).1.heap (initNode P cfg).2 := by
  intro u hu
  have := live_lt hu
  simp only [initNode, List.length_cons, List.length_nil] at this
  obtain rfl : u = 0 := by omega
  exact .refl

theorem Chain.liveTasks (hP : P.WF) (hcfg : cfg.Ok) {h i n us j n'} (hg : Good P cfg h n)
    (c : Chain P cfg h i n us j n') (hl : LiveTasks P h n) : LiveTasks P h n' := by
  induction c with
  | nil => exact hl
  | step a f _ ih =>
    obtain ⟨-, hg1, he, -⟩ := a.inv hP hcfg hg
    exact ih hg1 fun u hu => hl u (by rw [he] at hu; exact Finset.mem_of_mem_erase hu)
  | flag _ _ ih => exact ih hg.flag hl

theorem apply_liveTasks (hP : P.WF) (hcfg : cfg.Ok) {f g n i u g' n2} (hn : Good P cfg g.heap n)
    (hu : n.prims[i]? = some u) (happ : P.Applicable (holds n.state) (taskOf g.heap u))
    (h : apply P cfg f g n i = some (g', n2)) (hl : LiveTasks P g.heap n) : LiveTasks P g'.heap n2 := by
  obtain ⟨hheap, -, n1, us, a, c⟩ := apply_chain f g n i g' n2 u hu happ h
  obtain ⟨-, hg1, he, -⟩ := a.inv hP hcfg hn
  rw [hheap]
  exact Chain.liveTasks hP hcfg hg1 c fun u hu => hl u (by rw [he] at hu; exact Finset.mem_of_mem_erase hu)

theorem decompose_liveTasks (hP : P.WF) (hcfg : cfg.Ok) {f g n d u m g' n2} (hn : Good P cfg g.heap n)
    (hu : n.abs[d]? = some u) (hm : m ∈ methodsOf P (taskOf g.heap u))
    (h : decompose P cfg f g n d m = some (g', n2)) (hl : LiveTasks P g.heap n) : LiveTasks P g'.heap n2 := by
  obtain ⟨g1, n1, us, hd, hheap, c⟩ := decompose_chain h
  simp only [methodsOf, List.mem_filter, List.mem_range, beq_iff_eq] at hm
  obtain ⟨hm, hhead⟩ := hm
  have hg1 := decomposeBase_good hP hn hm hu hhead hd
  obtain ⟨-, -, -, S⟩ := decomposeBase_inv hP hn.heap hn.node hm hd hu
  have hul : u ∈ live g.heap n :=
    (hn.node.first_min hn.heap (List.mem_append_right _ (List.mem_of_getElem? hu))).1
  rw [hheap]
  refine Chain.liveTasks hP hcfg hg1 c fun v hv => ?_
  rcases (S.mem v).1 hv with ⟨h1, h2⟩ | ⟨i, hi, rfl⟩
  · rw [S.lab_old v h1 h2]; exact hl v h1
  · have hget := List.getElem?_eq_getElem hi
    rw [S.lab_new i _ hget]
    exact (hl u hul).tail ⟨m, hm, hhead, List.getElem_mem hi⟩

theorem LiveTasks.ext {h h' : Heap} (hp : h <+: h') (hh : HeapOK h) (hh' : HeapOK h') {n : Node}
    (hn : ∀ u ∈ n.firsts, u < h.length) (hl : LiveTasks P h n) : LiveTasks P h' n := by
  intro u hu
  rw [prefix_live hp hh hh' hn] at hu
  rw [prefix_taskOf hp (live_lt hu)]
  exact hl u hu

end Verif.Reach
