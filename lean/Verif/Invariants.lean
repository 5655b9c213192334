import Mathlib.Data.List.Basic
import Mathlib.Data.List.Perm.Basic
import Verif.HtnSpec

/-! # Model of the extraction of binary invariants (src/Invariants.cpp 20-188)

A literal is an integer: `l ≥ 0` says that fact `l` holds, `l < 0` that fact `-l-1` does not.  `binary_invariants` is an
array of hash sets, modelled as a function from literals to lists; the order in which a hash set is traversed is a
parameter.  Inserting a new element into the set that is being traversed invalidates the iterator if the table is
rehashed; this is treated as undefined. -/

namespace Verif.Inv

open Verif.Htn

/-- `-l-1`: the contrary literal. -/
def neg (l : Int) : Int := -l - 1

/-- Meaning of a literal. -/
def holds (s : State) (l : Int) : Prop := if 0 ≤ l then s l.toNat else ¬ s (-l - 1).toNat

/-- The fact of a literal. -/
def factOf (l : Int) : Int := if l < 0 then -l - 1 else l

/-- Indices of `binary_invariants` that exist (Invariants.cpp 47). -/
def inRange (N : Nat) (l : Int) : Bool := decide (-(N : Int) ≤ l) && decide (l < N)

/-- All literals, in the order of the loops over `i` (Invariants.cpp 100, 150). -/
def allLits (N : Nat) : List Int := (List.range (2 * N)).map fun i : Nat => (i : Int) - N

/-- The array `binary_invariants`. -/
abbrev BinInv := Int → List Int

/-- `unordered_set::insert`. -/
def setIns (x : Int) (l : List Int) : List Int := if x ∈ l then l else x :: l

/-- Insertion into one entry. -/
def put (B : BinInv) (a b : Int) : BinInv := fun c => if c = a then setIns b (B c) else B c

/-- `insert_invariant` (Invariants.cpp 32-36); `none` if an index is out of range. -/
def insertInv (N : Nat) (B : BinInv) (a b : Int) : Option BinInv :=
  if inRange N a && inRange N b then some (put (put B a b) b a) else none

/-- `can_state_features_co_occur` (Invariants.cpp 23-30). -/
def canCoOccur (B : BinInv) (a b : Int) : Bool := if a = -b - 1 then false else !((B (-a - 1)).contains (-b - 1))

/-- Insertion of several pairs. -/
def insertAll (N : Nat) : List (Int × Int) → BinInv → Option BinInv
  | [], B => some B
  | (a, b) :: ps, B => (insertInv N B a b).bind (insertAll N ps)

/-- Pairs at positions `m1 < m2` (the loops of Invariants.cpp 61-63, 73-75, 80-82). -/
def pairsOf {α : Type} : List α → List (α × α)
  | [] => []
  | a :: l => l.map (fun b => (a, b)) ++ pairsOf l

/-- What the parser delivers: `invariants`, `strictMutexes`, `mutexes` and the SAS groups as (firstIndex, lastIndex). -/
structure Given where
  invs : List (List Int)
  strict : List (List Nat)
  mutex : List (List Nat)
  groups : List (Nat × Nat)

/-- Facts `firstIndex, ..., lastIndex`. -/
def groupFacts (g : Nat × Nat) : List Nat := List.range' g.1 (g.2 + 1 - g.1)

/-- The clauses inserted before resolution (Invariants.cpp 54-86). -/
def initialPairs (G : Given) : List (Int × Int) :=
  (G.invs.flatMap fun c => match c with | [a, b] => [(a, b)] | _ => []) ++
  ((G.strict.flatMap fun m : List Nat =>
      (pairsOf m).map (fun p : Nat × Nat => (-(p.1 : Int) - 1, -(p.2 : Int) - 1)) ++
      (match m with | [a, b] => [((a : Int), (b : Int))] | _ => [])) ++
   ((G.mutex.flatMap fun m : List Nat => (pairsOf m).map fun p : Nat × Nat => (-(p.1 : Int) - 1, -(p.2 : Int) - 1)) ++
    (G.groups.flatMap fun g =>
      (pairsOf (groupFacts g)).map (fun p : Nat × Nat => (-(p.1 : Int) - 1, -(p.2 : Int) - 1)) ++
      (if g.2 = g.1 + 1 then [((g.1 : Int), (g.2 : Int))] else []))))

/-- Clauses and queue. -/
abbrev RS := BinInv × List (Int × Int)

/-- The queue before the loop (Invariants.cpp 99-110). -/
def initialQueue (N : Nat) (ord : List Int → List Int) (B : BinInv) : List (Int × Int) :=
  (allLits N).flatMap fun a =>
    (ord (B a)).flatMap fun b => if factOf a < factOf b then [(a, b)] else []

/-- Resolution with the clauses that contain `cur` (Invariants.cpp 121-130, 132-141); `other` is the remaining literal of
the clause.  `none` if the set being traversed gets a new element. -/
def resolve (N : Nat) (other cur : Int) : List Int → RS → Option RS
  | [], st => some st
  | j :: js, st =>
    if neg j = other then resolve N other cur js st
    else if j ∈ st.1 other then resolve N other cur js st
    else if other = cur ∨ j = cur then none
    else (insertInv N st.1 other j).bind fun B => resolve N other cur js (B, st.2 ++ [(other, j)])

/-- One round of the inner loop (Invariants.cpp 116-141). -/
def resStep (N : Nat) (ord : List Int → List Int) (inv : Int × Int) (st : RS) : Option RS :=
  (resolve N inv.2 (neg inv.1) (ord (st.1 (neg inv.1))) st).bind fun st =>
    resolve N inv.1 (neg inv.2) (ord (st.1 (neg inv.2))) st

/-- The loop over the members of a group (Invariants.cpp 158-164): 0, the only member that is not excluded (as a negative
literal), or 1. -/
def scanGroup (S : List Int) : List Nat → Int → Int
  | [], invar => invar
  | i :: is, invar =>
    if -(i : Int) - 1 ∈ S then scanGroup S is invar
    else if invar = 0 then scanGroup S is (-(i : Int) - 1)
    else if invar < 0 then 1
    else scanGroup S is invar

/-- Inference from one group (Invariants.cpp 153-177). -/
def sasOne (N : Nat) (a : Int) (g : Nat × Nat) (st : RS) : Option RS :=
  if g.1 = g.2 then some st
  else if (g.1 : Int) ≤ factOf a ∧ factOf a ≤ g.2 then some st
  else
    let invar := scanGroup (st.1 a) (groupFacts g) 0
    if invar < 0 ∧ neg invar ∉ st.1 a then
      (insertInv N st.1 (neg invar) a).bind fun B => some (B, st.2 ++ [(neg invar, a)])
    else some st

/-- Inference from the groups (Invariants.cpp 150-179). -/
def sasAll (N : Nat) : List (Int × (Nat × Nat)) → RS → Option RS
  | [], st => some st
  | p :: ps, st => (sasOne N p.1 p.2 st).bind (sasAll N ps)

/-- All combinations, in the order of the two loops. -/
def sasPairs (N : Nat) (G : Given) : List (Int × (Nat × Nat)) :=
  (allLits N).flatMap fun a => G.groups.map fun g => (a, g)

/-- How the computation ends. -/
inductive Res where
  | ub
  | outOfFuel
  | done (B : BinInv)

/-- The two nested loops (Invariants.cpp 114-181): while the queue is not empty take a clause; when it has become empty,
infer from the groups and stop if there is nothing new.  One unit of fuel per clause and per inference round. -/
def resLoop (N : Nat) (G : Given) (ord : List Int → List Int) : Nat → RS → Res
  | 0, _ => .outOfFuel
  | k + 1, (B, inv :: q) =>
    match resStep N ord inv (B, q) with
    | none => .ub
    | some st => resLoop N G ord k st
  | k + 1, (B, []) =>
    match sasAll N (sasPairs N G) (B, []) with
    | none => .ub
    | some (B', []) => .done B'
    | some (B', inv :: q) => resLoop N G ord k (B', inv :: q)

/-- `extract_invariants_from_parsed_model` (Invariants.cpp 45-188).  If there is nothing to resolve, nothing is inferred
from the groups either. -/
def extract (N : Nat) (G : Given) (ord : List Int → List Int) (fuel : Nat) : Res :=
  match insertAll N (initialPairs G) (fun _ => []) with
  | none => .ub
  | some B => if initialQueue N ord B = [] then .done B else resLoop N G ord fuel (B, initialQueue N ord B)

/-! ## Soundness -/

/-- The state respects what the parser delivered: the clauses hold, at most one member of a mutex holds, exactly one
member of a strict mutex or of a group with several members does. -/
structure Given.Ok (G : Given) (s : State) : Prop where
  invs : ∀ c ∈ G.invs, ∃ l ∈ c, holds s l
  amoMutex : ∀ m ∈ G.mutex, m.Pairwise fun a b => ¬ (s a ∧ s b)
  amoStrict : ∀ m ∈ G.strict, m.Pairwise fun a b => ¬ (s a ∧ s b)
  aloStrict : ∀ m ∈ G.strict, ∃ a ∈ m, s a
  amoGroup : ∀ g ∈ G.groups, ∀ a b, g.1 ≤ a → a < b → b ≤ g.2 → ¬ (s a ∧ s b)
  aloGroup : ∀ g ∈ G.groups, g.1 < g.2 → ∃ a, g.1 ≤ a ∧ a ≤ g.2 ∧ s a

/-- All clauses hold in the state. -/
def AllHold (s : State) (B : BinInv) : Prop := ∀ a, ∀ b ∈ B a, holds s a ∨ holds s b

theorem holds_nat (s : State) (i : Nat) : holds s (i : Int) ↔ s i := by simp [holds]

theorem holds_negNat (s : State) (i : Nat) : holds s (-(i : Int) - 1) ↔ ¬ s i := by
  have : ¬ (0 : Int) ≤ -(i : Int) - 1 := by omega
  simp only [holds, if_neg this]
  have : (-(-(i : Int) - 1) - 1).toNat = i := by omega
  rw [this]

theorem holds_neg (s : State) (l : Int) : holds s (neg l) ↔ ¬ holds s l := by
  unfold neg
  by_cases h : 0 ≤ l
  · obtain ⟨i, rfl⟩ := Int.eq_ofNat_of_zero_le h
    rw [holds_negNat, holds_nat]
  · have : l = -((-l - 1).toNat : Int) - 1 := by omega
    rw [this, holds_negNat]
    have : -(-((-l - 1).toNat : Int) - 1) - 1 = ((-l - 1).toNat : Int) := by omega
    rw [this, holds_nat, not_not]

theorem mem_setIns {x y : Int} {l : List Int} : y ∈ setIns x l ↔ y = x ∨ y ∈ l := by
  unfold setIns
  by_cases h : x ∈ l
  · rw [if_pos h]
    exact ⟨.inr, fun h' => h'.elim (fun e => e ▸ h) id⟩
  · rw [if_neg h, List.mem_cons]

theorem mem_put {B : BinInv} {a b c d : Int} : d ∈ put B a b c ↔ d ∈ B c ∨ (c = a ∧ d = b) := by
  unfold put
  by_cases h : c = a
  · rw [if_pos h, mem_setIns]
    tauto
  · rw [if_neg h]
    tauto

theorem insertInv_mem {N : Nat} {B B' : BinInv} {a b : Int} (h : insertInv N B a b = some B') (c d : Int) :
    d ∈ B' c ↔ d ∈ B c ∨ (c = a ∧ d = b) ∨ (c = b ∧ d = a) := by
  unfold insertInv at h
  split_ifs at h with h1
  simp only [Option.some.injEq] at h
  subst h
  rw [mem_put, mem_put]
  tauto

theorem insertInv_allHold {N : Nat} {B B' : BinInv} {a b : Int} (h : insertInv N B a b = some B') {s : State}
    (hB : AllHold s B) (hab : holds s a ∨ holds s b) : AllHold s B' := by
  intro c d hd
  rcases (insertInv_mem h c d).1 hd with h | ⟨rfl, rfl⟩ | ⟨rfl, rfl⟩
  · exact hB c d h
  · exact hab
  · exact hab.symm

theorem insertAll_allHold {N : Nat} {s : State} : ∀ (ps : List (Int × Int)) {B B' : BinInv}, insertAll N ps B = some B' →
    AllHold s B → (∀ p ∈ ps, holds s p.1 ∨ holds s p.2) → AllHold s B' := by
  intro ps
  induction ps with
  | nil => intro B B' h hB _; cases h; exact hB
  | cons p ps ih =>
    intro B B' h hB hp
    simp only [insertAll, Option.bind_eq_some_iff] at h
    obtain ⟨B1, h1, h2⟩ := h
    exact ih h2 (insertInv_allHold h1 hB (hp p List.mem_cons_self)) fun q hq => hp q (List.mem_cons_of_mem _ hq)

theorem mem_pairsOf {α : Type} {R : α → α → Prop} : ∀ {l : List α}, l.Pairwise R → ∀ p ∈ pairsOf l, R p.1 p.2 := by
  intro l
  induction l with
  | nil => intro _ p hp; simp [pairsOf] at hp
  | cons a l ih =>
    intro h p hp
    obtain ⟨h1, h2⟩ := List.pairwise_cons.1 h
    simp only [pairsOf, List.mem_append, List.mem_map] at hp
    rcases hp with ⟨b, hb, rfl⟩ | hp
    · exact h1 b hb
    · exact ih h2 p hp

theorem mem_groupFacts {g : Nat × Nat} {a : Nat} : a ∈ groupFacts g ↔ g.1 ≤ a ∧ a ≤ g.2 := by
  simp only [groupFacts, List.mem_range'_1]
  omega

theorem initialPairs_hold {G : Given} {s : State} (hs : G.Ok s) : ∀ p ∈ initialPairs G, holds s p.1 ∨ holds s p.2 := by
  intro p hp
  simp only [initialPairs, List.mem_append, List.mem_flatMap] at hp
  have key : ∀ m : List Nat, (m.Pairwise fun a b => ¬ (s a ∧ s b)) →
      p ∈ (pairsOf m).map (fun p : Nat × Nat => (-(p.1 : Int) - 1, -(p.2 : Int) - 1)) → holds s p.1 ∨ holds s p.2 := by
    intro m hm hp
    obtain ⟨q, hq, rfl⟩ := List.mem_map.1 hp
    have := mem_pairsOf hm q hq
    simp only [holds_negNat]
    tauto
  rcases hp with ⟨c, hc, hp⟩ | ⟨m, hm, hp | hp⟩ | ⟨m, hm, hp⟩ | ⟨g, hg, hp | hp⟩
  · obtain ⟨l, hl, hh⟩ := hs.invs c hc
    match c, hp with
    | [a, b], hp =>
      simp only [List.mem_cons, List.not_mem_nil, or_false] at hp hl
      subst hp
      rcases hl with rfl | rfl
      · exact .inl hh
      · exact .inr hh
  · exact key m (hs.amoStrict m hm) hp
  · obtain ⟨l, hl, hh⟩ := hs.aloStrict m hm
    match m, hp with
    | [a, b], hp =>
      simp only [List.mem_cons, List.not_mem_nil, or_false] at hp hl
      subst hp
      simp only [holds_nat]
      rcases hl with rfl | rfl
      · exact .inl hh
      · exact .inr hh
  · exact key m (hs.amoMutex m hm) hp
  · refine key (groupFacts g) ?_ hp
    have hlt : (groupFacts g).Pairwise (· < ·) := List.pairwise_lt_range'
    refine hlt.imp_of_mem fun {a b} ha hb hab => ?_
    exact hs.amoGroup g hg a b (mem_groupFacts.1 ha).1 hab (mem_groupFacts.1 hb).2
  · split_ifs at hp with he
    · simp only [List.mem_cons, List.not_mem_nil, or_false] at hp
      subst hp
      obtain ⟨a, h1, h2, h3⟩ := hs.aloGroup g hg (by omega)
      simp only [holds_nat]
      have : a = g.1 ∨ a = g.2 := by omega
      rcases this with rfl | rfl
      · exact .inl h3
      · exact .inr h3
    · simp at hp

/-- The state of the loop is fine for `s`: all clauses hold, and those in the queue too. -/
def RsOk (s : State) (st : RS) : Prop := AllHold s st.1 ∧ ∀ p ∈ st.2, holds s p.1 ∨ holds s p.2

theorem resolve_ok {N : Nat} {other cur : Int} {s : State} : ∀ (js : List Int) {st st' : RS},
    resolve N other cur js st = some st' → RsOk s st → (holds s other ∨ holds s (neg cur)) →
    (∀ j ∈ js, holds s cur ∨ holds s j) → RsOk s st' := by
  intro js
  induction js with
  | nil => intro st st' h ho _ _; cases h; exact ho
  | cons j js ih =>
    intro st st' h ho hoc hj
    have hj' : ∀ j ∈ js, holds s cur ∨ holds s j := fun i hi => hj i (List.mem_cons_of_mem _ hi)
    unfold resolve at h
    split_ifs at h with h1 h2 h3
    · exact ih h ho hoc hj'
    · exact ih h ho hoc hj'
    · rw [Option.bind_eq_some_iff] at h
      obtain ⟨B, hB, h⟩ := h
      have hnew : holds s other ∨ holds s j := by
        rcases hj j List.mem_cons_self with hc | hc
        · rcases hoc with ho | ho
          · exact .inl ho
          · exact absurd hc ((holds_neg s cur).1 ho)
        · exact .inr hc
      refine ih h ⟨insertInv_allHold hB ho.1 hnew, fun p hp => ?_⟩ hoc hj'
      rcases List.mem_append.1 hp with hp | hp
      · exact ho.2 p hp
      · simp only [List.mem_cons, List.not_mem_nil, or_false] at hp
        subst hp
        exact hnew

theorem neg_neg' (l : Int) : neg (neg l) = l := by unfold neg; omega

theorem resStep_ok {N : Nat} {ord : List Int → List Int} (hord : ∀ l, (ord l).Perm l) {s : State} {inv : Int × Int}
    {st st' : RS} (h : resStep N ord inv st = some st') (ho : RsOk s st) (hi : holds s inv.1 ∨ holds s inv.2) :
    RsOk s st' := by
  simp only [resStep, Option.bind_eq_some_iff] at h
  obtain ⟨st1, h1, h2⟩ := h
  have ho1 : RsOk s st1 := resolve_ok _ h1 ho (by rw [neg_neg']; exact hi.symm)
    fun j hj => ho.1 _ j ((hord _).mem_iff.1 hj)
  exact resolve_ok _ h2 ho1 (by rw [neg_neg']; exact hi) fun j hj => ho1.1 _ j ((hord _).mem_iff.1 hj)

theorem scanGroup_neg {S : List Int} : ∀ {is : List Nat} {v : Int}, scanGroup S is v < 0 → v ≤ 0 →
    (∀ i ∈ is, -(i : Int) - 1 ∈ S ∨ -(i : Int) - 1 = scanGroup S is v) ∧
    (scanGroup S is v = v ∨ ∃ i ∈ is, scanGroup S is v = -(i : Int) - 1) ∧ (v < 0 → scanGroup S is v = v) := by
  intro is
  induction is with
  | nil => intro v h hv; exact ⟨by simp, .inl rfl, fun _ => rfl⟩
  | cons i is ih =>
    intro v h hv
    unfold scanGroup at h ⊢
    by_cases h1 : -(i : Int) - 1 ∈ S
    · rw [if_pos h1] at h ⊢
      obtain ⟨ha, hb, hc⟩ := ih h hv
      refine ⟨fun k hk => ?_, hb.imp id fun ⟨k, hk, e⟩ => ⟨k, List.mem_cons_of_mem _ hk, e⟩, hc⟩
      rcases List.mem_cons.1 hk with rfl | hk
      · exact .inl h1
      · exact ha k hk
    · rw [if_neg h1] at h ⊢
      by_cases h2 : v = 0
      · rw [if_pos h2] at h ⊢
        obtain ⟨ha, hb, hc⟩ := ih h (by omega)
        have hc := hc (by omega)
        refine ⟨fun k hk => ?_, .inr ⟨i, List.mem_cons_self, hc⟩, fun hv => absurd h2 (by omega)⟩
        rcases List.mem_cons.1 hk with rfl | hk
        · exact .inr hc.symm
        · exact ha k hk
      · rw [if_neg h2] at h
        rw [if_pos (show v < 0 by omega)] at h
        omega

theorem sasOne_ok {N : Nat} {a : Int} {g : Nat × Nat} {s : State} {st st' : RS} (h : sasOne N a g st = some st')
    (hg : g.1 < g.2 → ∃ a, g.1 ≤ a ∧ a ≤ g.2 ∧ s a) (ho : RsOk s st) : RsOk s st' := by
  unfold sasOne at h
  simp only at h
  split_ifs at h with h1 h2 h3
  · cases h; exact ho
  · cases h; exact ho
  · rw [Option.bind_eq_some_iff] at h
    obtain ⟨B, hB, h⟩ := h
    cases h
    obtain ⟨ha, hb, -⟩ := scanGroup_neg h3.1 (Int.le_refl 0)
    have hnew : holds s (neg (scanGroup (st.1 a) (groupFacts g) 0)) ∨ holds s a := by
      obtain ⟨k, hk, hk'⟩ : ∃ i ∈ groupFacts g, scanGroup (st.1 a) (groupFacts g) 0 = -(i : Int) - 1 := by
        rcases hb with hb | hb
        · omega
        · exact hb
      have hkb := mem_groupFacts.1 hk
      obtain ⟨i, hi1, hi2, hi⟩ := hg (by omega)
      rcases ha i (mem_groupFacts.2 ⟨hi1, hi2⟩) with hm | hm
      · rcases ho.1 a _ hm with h | h
        · exact .inr h
        · rw [holds_negNat] at h; exact absurd hi h
      · left
        rw [← hm, holds_neg, holds_negNat, not_not]
        exact hi
    refine ⟨insertInv_allHold hB ho.1 hnew, fun p hp => ?_⟩
    rcases List.mem_append.1 hp with hp | hp
    · exact ho.2 p hp
    · simp only [List.mem_cons, List.not_mem_nil, or_false] at hp
      subst hp
      exact hnew
  · cases h; exact ho

theorem sasAll_ok {N : Nat} {G : Given} {s : State} (hs : G.Ok s) : ∀ (ps : List (Int × (Nat × Nat))) {st st' : RS},
    sasAll N ps st = some st' → (∀ p ∈ ps, p.2 ∈ G.groups) → RsOk s st → RsOk s st' := by
  intro ps
  induction ps with
  | nil => intro st st' h _ ho; cases h; exact ho
  | cons p ps ih =>
    intro st st' h hp ho
    simp only [sasAll, Option.bind_eq_some_iff] at h
    obtain ⟨st1, h1, h2⟩ := h
    exact ih h2 (fun q hq => hp q (List.mem_cons_of_mem _ hq))
      (sasOne_ok h1 (hs.aloGroup _ (hp p List.mem_cons_self)) ho)

theorem sasPairs_mem {N : Nat} {G : Given} : ∀ p ∈ sasPairs N G, p.1 ∈ allLits N ∧ p.2 ∈ G.groups := by
  intro p hp
  simp only [sasPairs, List.mem_flatMap, List.mem_map] at hp
  obtain ⟨a, ha, g, hg, rfl⟩ := hp
  exact ⟨ha, hg⟩

theorem resLoop_ok {N : Nat} {G : Given} {ord : List Int → List Int} (hord : ∀ l, (ord l).Perm l) {s : State}
    (hs : G.Ok s) : ∀ (k : Nat) {st : RS} {B : BinInv}, resLoop N G ord k st = .done B → RsOk s st → AllHold s B := by
  intro k
  induction k with
  | zero => intro st B h; cases h
  | succ k ih =>
    rintro ⟨B0, q⟩ B h ho
    cases q with
    | cons inv q =>
      unfold resLoop at h
      have ho' : RsOk s (B0, q) := ⟨ho.1, fun p hp => ho.2 p (List.mem_cons_of_mem _ hp)⟩
      cases hst : resStep N ord inv (B0, q) with
      | none => rw [hst] at h; cases h
      | some st => rw [hst] at h; exact ih h (resStep_ok hord hst ho' (ho.2 inv List.mem_cons_self))
    | nil =>
      unfold resLoop at h
      cases hst : sasAll N (sasPairs N G) (B0, []) with
      | none => rw [hst] at h; cases h
      | some st =>
        have ho' := sasAll_ok hs _ hst (fun p hp => (sasPairs_mem p hp).2) ho
        obtain ⟨B', q'⟩ := st
        rw [hst] at h
        cases q' with
        | nil => cases h; exact ho'.1
        | cons i q' => exact ih h ho'

theorem initialQueue_mem {N : Nat} {ord : List Int → List Int} (hord : ∀ l, (ord l).Perm l) {B : BinInv} :
    ∀ p ∈ initialQueue N ord B, p.2 ∈ B p.1 ∧ factOf p.1 < factOf p.2 ∧ p.1 ∈ allLits N := by
  intro p hp
  simp only [initialQueue, List.mem_flatMap] at hp
  obtain ⟨a, ha, b, hb, hp⟩ := hp
  split_ifs at hp with h
  · simp only [List.mem_cons, List.not_mem_nil, or_false] at hp
    subst hp
    exact ⟨(hord _).mem_iff.1 hb, h, ha⟩
  · simp at hp

theorem extract_ok {N : Nat} {G : Given} {ord : List Int → List Int} (hord : ∀ l, (ord l).Perm l) {s : State}
    (hs : G.Ok s) {fuel : Nat} {B : BinInv} (h : extract N G ord fuel = .done B) : AllHold s B := by
  unfold extract at h
  cases hB : insertAll N (initialPairs G) (fun _ => []) with
  | none => rw [hB] at h; cases h
  | some B0 =>
    rw [hB] at h
    have h0 : AllHold s B0 := insertAll_allHold _ hB (fun a b hb => by simp at hb) (initialPairs_hold hs)
    simp only at h
    split_ifs at h with h1
    · cases h; exact h0
    · exact resLoop_ok hord hs fuel h ⟨h0, fun p hp => h0 _ _ (initialQueue_mem hord p hp).1⟩

/-! ## Termination -/

theorem mem_allLits {N : Nat} {l : Int} : l ∈ allLits N ↔ inRange N l = true := by
  simp only [allLits, List.mem_map, List.mem_range, inRange, Bool.and_eq_true, decide_eq_true_eq]
  constructor
  · rintro ⟨i, hi, rfl⟩; omega
  · rintro ⟨h1, h2⟩
    exact ⟨(l + N).toNat, by omega, by omega⟩

/-- Number of pairs that are not clauses yet. -/
def missing (N : Nat) (B : BinInv) : Nat :=
  ((allLits N).flatMap fun a => (allLits N).map fun b => (a, b)).countP fun p => decide (p.2 ∉ B p.1)

theorem countP_lt {α : Type} {p q : α → Bool} : ∀ {l : List α}, (∀ x ∈ l, p x = true → q x = true) →
    (∃ x ∈ l, q x = true ∧ p x = false) → l.countP p < l.countP q := by
  intro l
  induction l with
  | nil => rintro _ ⟨x, hx, -⟩; simp at hx
  | cons a l ih =>
    intro h1 h2
    rw [List.countP_cons, List.countP_cons]
    have hle : l.countP p ≤ l.countP q := List.countP_mono_left fun x hx => h1 x (List.mem_cons_of_mem _ hx)
    obtain ⟨x, hx, hq, hp⟩ := h2
    rcases List.mem_cons.1 hx with rfl | hx
    · rw [hq, hp]; simp; omega
    · have := ih (fun x hx => h1 x (List.mem_cons_of_mem _ hx)) ⟨x, hx, hq, hp⟩
      have ha := h1 a List.mem_cons_self
      cases hpa : p a
      · simp; omega
      · rw [ha hpa]; simp; omega

theorem insertInv_missing {N : Nat} {B B' : BinInv} {a b : Int} (h : insertInv N B a b = some B') (hn : b ∉ B a) :
    missing N B' < missing N B := by
  have hr : inRange N a = true ∧ inRange N b = true := by
    unfold insertInv at h
    split_ifs at h with h1
    simpa using h1
  refine countP_lt (fun p _ hp => ?_) ⟨(a, b), ?_, ?_, ?_⟩
  · rw [decide_eq_true_eq] at hp ⊢
    exact fun hm => hp ((insertInv_mem h _ _).2 (.inl hm))
  · simp only [List.mem_flatMap, List.mem_map]
    exact ⟨a, mem_allLits.2 hr.1, b, mem_allLits.2 hr.2, rfl⟩
  · simpa using hn
  · simp only [decide_eq_false_iff_not, not_not]
    exact (insertInv_mem h _ _).2 (.inr (.inl ⟨rfl, rfl⟩))

/-- Work left. -/
def work (N : Nat) (st : RS) : Nat := 2 * missing N st.1 + st.2.length

theorem resolve_work {N : Nat} {other cur : Int} : ∀ (js : List Int) {st st' : RS},
    resolve N other cur js st = some st' → work N st' ≤ work N st := by
  intro js
  induction js with
  | nil => intro st st' h; cases h; exact Nat.le_refl _
  | cons j js ih =>
    intro st st' h
    unfold resolve at h
    split_ifs at h with h1 h2 h3
    · exact ih h
    · exact ih h
    · rw [Option.bind_eq_some_iff] at h
      obtain ⟨B, hB, h⟩ := h
      refine (ih h).trans ?_
      have := insertInv_missing hB h2
      simp only [work, List.length_append, List.length_cons, List.length_nil]
      omega

theorem sasOne_work {N : Nat} {a : Int} {g : Nat × Nat} {st st' : RS} (hsym : ∀ a b, b ∈ st.1 a → a ∈ st.1 b)
    (h : sasOne N a g st = some st') :
    work N st' + (st'.2.length - st.2.length) ≤ work N st ∧ st.2.length ≤ st'.2.length ∧
    (∀ a b, b ∈ st'.1 a → a ∈ st'.1 b) := by
  unfold sasOne at h
  simp only at h
  split_ifs at h with h1 h2 h3
  · cases h; exact ⟨by simp, Nat.le_refl _, hsym⟩
  · cases h; exact ⟨by simp, Nat.le_refl _, hsym⟩
  · rw [Option.bind_eq_some_iff] at h
    obtain ⟨B, hB, h⟩ := h
    cases h
    have := insertInv_missing hB (fun hm => h3.2 (hsym _ _ hm))
    refine ⟨?_, by simp, fun c d hd => ?_⟩
    · simp only [work, List.length_append, List.length_cons, List.length_nil]
      omega
    · rw [insertInv_mem hB] at hd ⊢
      rcases hd with h | ⟨rfl, rfl⟩ | ⟨rfl, rfl⟩
      · exact .inl (hsym _ _ h)
      · exact .inr (.inr ⟨rfl, rfl⟩)
      · exact .inr (.inl ⟨rfl, rfl⟩)
  · cases h; exact ⟨by simp, Nat.le_refl _, hsym⟩

theorem sasAll_work {N : Nat} : ∀ (ps : List (Int × (Nat × Nat))) {st st' : RS},
    (∀ a b, b ∈ st.1 a → a ∈ st.1 b) → sasAll N ps st = some st' →
    work N st' + (st'.2.length - st.2.length) ≤ work N st ∧ st.2.length ≤ st'.2.length ∧
    (∀ a b, b ∈ st'.1 a → a ∈ st'.1 b) := by
  intro ps
  induction ps with
  | nil => intro st st' hsym h; cases h; exact ⟨by simp, Nat.le_refl _, hsym⟩
  | cons p ps ih =>
    intro st st' hsym h
    simp only [sasAll, Option.bind_eq_some_iff] at h
    obtain ⟨st1, h1, h2⟩ := h
    obtain ⟨a1, a2, a3⟩ := sasOne_work hsym h1
    obtain ⟨b1, b2, b3⟩ := ih a3 h2
    exact ⟨by omega, by omega, b3⟩

theorem insertInv_sym {N : Nat} {B B' : BinInv} {a b : Int} (h : insertInv N B a b = some B')
    (hsym : ∀ a b, b ∈ B a → a ∈ B b) : ∀ a b, b ∈ B' a → a ∈ B' b := by
  intro c d hd
  rw [insertInv_mem h] at hd ⊢
  rcases hd with h | ⟨rfl, rfl⟩ | ⟨rfl, rfl⟩
  · exact .inl (hsym _ _ h)
  · exact .inr (.inr ⟨rfl, rfl⟩)
  · exact .inr (.inl ⟨rfl, rfl⟩)

theorem resolve_sym {N : Nat} {other cur : Int} : ∀ (js : List Int) {st st' : RS},
    resolve N other cur js st = some st' → (∀ a b, b ∈ st.1 a → a ∈ st.1 b) → ∀ a b, b ∈ st'.1 a → a ∈ st'.1 b := by
  intro js
  induction js with
  | nil => intro st st' h hs; cases h; exact hs
  | cons j js ih =>
    intro st st' h hs
    unfold resolve at h
    split_ifs at h with h1 h2 h3
    · exact ih h hs
    · exact ih h hs
    · rw [Option.bind_eq_some_iff] at h
      obtain ⟨B, hB, h⟩ := h
      exact ih h (insertInv_sym hB hs)

theorem resStep_work {N : Nat} {ord : List Int → List Int} {inv : Int × Int} {st st' : RS}
    (h : resStep N ord inv st = some st') (hs : ∀ a b, b ∈ st.1 a → a ∈ st.1 b) :
    work N st' ≤ work N st ∧ ∀ a b, b ∈ st'.1 a → a ∈ st'.1 b := by
  simp only [resStep, Option.bind_eq_some_iff] at h
  obtain ⟨st1, h1, h2⟩ := h
  exact ⟨(resolve_work _ h2).trans (resolve_work _ h1), resolve_sym _ h2 (resolve_sym _ h1 hs)⟩

theorem resLoop_fuel {N : Nat} {G : Given} {ord : List Int → List Int} : ∀ (k : Nat) {st : RS},
    work N st < k → (∀ a b, b ∈ st.1 a → a ∈ st.1 b) → resLoop N G ord k st ≠ .outOfFuel := by
  intro k
  induction k with
  | zero => intro st h; omega
  | succ k ih =>
    rintro ⟨B, q⟩ h hs
    cases q with
    | cons inv q =>
      unfold resLoop
      cases hst : resStep N ord inv (B, q) with
      | none => simp
      | some st =>
        obtain ⟨h1, h2⟩ := resStep_work hst hs
        refine ih ?_ h2
        simp only [work, List.length_cons] at h h1 ⊢
        omega
    | nil =>
      unfold resLoop
      cases hst : sasAll N (sasPairs N G) (B, []) with
      | none => simp
      | some st =>
        obtain ⟨h1, -, h2⟩ := sasAll_work _ hs hst
        obtain ⟨B', q'⟩ := st
        cases q' with
        | nil => simp
        | cons i q' =>
          refine ih ?_ h2
          simp only [work, List.length_cons, List.length_nil] at h h1 ⊢
          omega

theorem resLoop_mono {N : Nat} {G : Given} {ord : List Int → List Int} : ∀ (k : Nat) {st : RS} (k' : Nat),
    resLoop N G ord k st ≠ .outOfFuel → k ≤ k' → resLoop N G ord k' st = resLoop N G ord k st := by
  intro k
  induction k with
  | zero => intro st k' h; exact absurd rfl h
  | succ k ih =>
    rintro ⟨B, q⟩ k' h hk
    obtain ⟨k', rfl⟩ : ∃ j, k' = j + 1 := ⟨k' - 1, by omega⟩
    cases q with
    | cons inv q =>
      unfold resLoop at h ⊢
      cases hst : resStep N ord inv (B, q) with
      | none => rfl
      | some st => rw [hst] at h; exact ih k' h (by omega)
    | nil =>
      unfold resLoop at h ⊢
      cases hst : sasAll N (sasPairs N G) (B, []) with
      | none => rfl
      | some st =>
        rw [hst] at h
        obtain ⟨B', q'⟩ := st
        cases q' with
        | nil => rfl
        | cons i q' => exact ih k' h (by omega)

theorem insertAll_sym {N : Nat} : ∀ (ps : List (Int × Int)) {B B' : BinInv}, insertAll N ps B = some B' →
    (∀ a b, b ∈ B a → a ∈ B b) → ∀ a b, b ∈ B' a → a ∈ B' b := by
  intro ps
  induction ps with
  | nil => intro B B' h hs; cases h; exact hs
  | cons p ps ih =>
    intro B B' h hs
    simp only [insertAll, Option.bind_eq_some_iff] at h
    obtain ⟨B1, h1, h2⟩ := h
    exact ih h2 (insertInv_sym h1 hs)

theorem extract_terminates (N : Nat) (G : Given) (ord : List Int → List Int) :
    ∃ k r, r ≠ Res.outOfFuel ∧ ∀ k' ≥ k, extract N G ord k' = r := by
  unfold extract
  cases hB : insertAll N (initialPairs G) (fun _ => []) with
  | none => exact ⟨0, .ub, by simp, fun _ _ => rfl⟩
  | some B =>
    simp only
    by_cases h1 : initialQueue N ord B = []
    · exact ⟨0, .done B, by simp, fun _ _ => if_pos h1⟩
    · have := resLoop_fuel (N := N) (G := G) (ord := ord) (work N (B, initialQueue N ord B) + 1)
        (st := (B, initialQueue N ord B)) (by omega) (insertAll_sym _ hB (by simp))
      refine ⟨work N (B, initialQueue N ord B) + 1, _, this, fun k' hk => ?_⟩
      rw [if_neg h1]
      exact resLoop_mono _ k' this hk

/-! ## No undefined behaviour without static facts -/

/-- All indices the parser delivered exist. -/
structure Given.InRange (G : Given) (N : Nat) : Prop where
  invs : ∀ c ∈ G.invs, ∀ l ∈ c, inRange N l = true
  strict : ∀ m ∈ G.strict, ∀ f ∈ m, f < N
  mutex : ∀ m ∈ G.mutex, ∀ f ∈ m, f < N
  groups : ∀ g ∈ G.groups, g.2 < N

/-- Good states of the loop. -/
structure Good (N : Nat) (G : Given) (st : RS) : Prop where
  rng : ∀ a, ∀ b ∈ st.1 a, inRange N a = true ∧ inRange N b = true
  sym : ∀ a b, b ∈ st.1 a → a ∈ st.1 b
  queue : ∀ p ∈ st.2, p.2 ∈ st.1 p.1 ∧ p.2 ≠ neg p.1
  ok : ∀ s, G.Ok s → AllHold s st.1

theorem inRange_nat {N i : Nat} : inRange N (i : Int) = true ↔ i < N := by
  simp only [inRange, Bool.and_eq_true, decide_eq_true_eq]; omega

theorem inRange_negNat {N i : Nat} : inRange N (-(i : Int) - 1) = true ↔ i < N := by
  simp only [inRange, Bool.and_eq_true, decide_eq_true_eq]; omega

theorem inRange_neg {N : Nat} {l : Int} : inRange N (neg l) = true ↔ inRange N l = true := by
  unfold inRange neg
  simp only [Bool.and_eq_true, decide_eq_true_eq]
  constructor <;> rintro ⟨h1, h2⟩ <;> exact ⟨by omega, by omega⟩

theorem insertInv_some {N : Nat} {B : BinInv} {a b : Int} (ha : inRange N a = true) (hb : inRange N b = true) :
    ∃ B', insertInv N B a b = some B' := by
  refine ⟨put (put B a b) b a, ?_⟩
  unfold insertInv
  rw [ha, hb]
  rfl

theorem good_insert {N : Nat} {G : Given} {st : RS} (hg : Good N G st) {a b : Int} {B : BinInv}
    (h : insertInv N st.1 a b = some B) (hok : ∀ s, G.Ok s → holds s a ∨ holds s b) (hne : b ≠ neg a) :
    Good N G (B, st.2 ++ [(a, b)]) := by
  have hr : inRange N a = true ∧ inRange N b = true := by
    unfold insertInv at h
    split_ifs at h with h1
    simpa using h1
  refine ⟨fun c d hd => ?_, insertInv_sym h hg.sym, fun p hp => ?_, fun s hs => insertInv_allHold h (hg.ok s hs) (hok s hs)⟩
  · rcases (insertInv_mem h c d).1 hd with h | ⟨rfl, rfl⟩ | ⟨rfl, rfl⟩
    · exact hg.rng c d h
    · exact hr
    · exact hr.symm
  · rcases List.mem_append.1 hp with hp | hp
    · exact ⟨(insertInv_mem h _ _).2 (.inl (hg.queue p hp).1), (hg.queue p hp).2⟩
    · simp only [List.mem_cons, List.not_mem_nil, or_false] at hp
      subst hp
      exact ⟨(insertInv_mem h _ _).2 (.inr (.inl ⟨rfl, rfl⟩)), hne⟩

/-- No literal in range is implied. -/
def NoStatic (N : Nat) (G : Given) : Prop := ∀ l, inRange N l = true → ∃ s, G.Ok s ∧ ¬ holds s l

theorem resolve_good {N : Nat} {G : Given} (hns : NoStatic N G) {other cur : Int} (hne : other ≠ cur) :
    ∀ (js : List Int) {st : RS}, Good N G st → other ∈ st.1 (neg cur) →
    (∀ j ∈ js, j ∈ st.1 cur) → ∃ st', resolve N other cur js st = some st' ∧ Good N G st' ∧
      (∀ a, ∀ b ∈ st.1 a, b ∈ st'.1 a) := by
  intro js
  induction js with
  | nil => intro st hg _ _; exact ⟨st, rfl, hg, fun _ _ h => h⟩
  | cons j js ih =>
    intro st hg hin hj
    have hj' : ∀ j ∈ js, j ∈ st.1 cur := fun i hi => hj i (List.mem_cons_of_mem _ hi)
    unfold resolve
    by_cases h1 : neg j = other
    · rw [if_pos h1]; exact ih hg hin hj'
    rw [if_neg h1]
    by_cases h2 : j ∈ st.1 other
    · rw [if_pos h2]; exact ih hg hin hj'
    rw [if_neg h2]
    have hjc := hj j List.mem_cons_self
    have h3 : ¬ (other = cur ∨ j = cur) := by
      rintro (h | rfl)
      · exact hne h
      · obtain ⟨s, hs, hn⟩ := hns j (hg.rng _ _ hjc).1
        rcases hg.ok s hs _ _ hjc with h | h <;> exact hn h
    rw [if_neg h3]
    obtain ⟨B, hB⟩ := insertInv_some (B := st.1) (hg.rng _ _ hin).2 (hg.rng _ _ hjc).2
    have hgood := good_insert hg hB (fun s hs => by
      rcases hg.ok s hs _ _ hin with h | h
      · rcases hg.ok s hs _ _ hjc with h' | h'
        · exact absurd h' ((holds_neg s cur).1 h)
        · exact .inr h'
      · exact .inl h) (fun e => h1 (by rw [e, neg_neg']))
    have hsub : ∀ a, ∀ b ∈ st.1 a, b ∈ B a := fun a b hb => (insertInv_mem hB _ _).2 (.inl hb)
    obtain ⟨st', e1, e2, e3⟩ := ih hgood (hsub _ _ hin) (fun i hi => hsub _ _ (hj' i hi))
    rw [hB]
    exact ⟨st', e1, e2, fun a b hb => e3 a b (hsub a b hb)⟩

theorem resStep_good {N : Nat} {G : Given} (hns : NoStatic N G) {ord : List Int → List Int} (hord : ∀ l, (ord l).Perm l)
    {inv : Int × Int} {B : BinInv} {q : List (Int × Int)} (hg : Good N G (B, inv :: q)) :
    ∃ st', resStep N ord inv (B, q) = some st' ∧ Good N G st' := by
  obtain ⟨hm, hne⟩ := hg.queue inv List.mem_cons_self
  have hg' : Good N G (B, q) := ⟨hg.rng, hg.sym, fun p hp => hg.queue p (List.mem_cons_of_mem _ hp), hg.ok⟩
  obtain ⟨st1, h1, h2, h3⟩ := resolve_good hns (other := inv.2) (cur := neg inv.1) hne (ord (B (neg inv.1))) hg'
    (by rw [neg_neg']; exact hm) (fun j hj => (hord _).mem_iff.1 hj)
  obtain ⟨st2, h4, h5, -⟩ := resolve_good hns (other := inv.1) (cur := neg inv.2)
    (fun e => hne (by rw [e, neg_neg'])) (ord (st1.1 (neg inv.2))) h2
    (by rw [neg_neg']; exact h3 _ _ (hg.sym _ _ hm)) (fun j hj => (hord _).mem_iff.1 hj)
  refine ⟨st2, ?_, h5⟩
  unfold resStep
  simp only [h1, Option.bind_some]
  exact h4

theorem sasOne_good {N : Nat} {G : Given} {a : Int} {g : Nat × Nat} {st : RS} (hg : Good N G st)
    (ha : inRange N a = true) (hgG : g ∈ G.groups) (hgN : g.2 < N) :
    ∃ st', sasOne N a g st = some st' ∧ Good N G st' := by
  unfold sasOne
  simp only
  by_cases h1 : g.1 = g.2
  · rw [if_pos h1]; exact ⟨st, rfl, hg⟩
  rw [if_neg h1]
  by_cases h2 : (g.1 : Int) ≤ factOf a ∧ factOf a ≤ g.2
  · rw [if_pos h2]; exact ⟨st, rfl, hg⟩
  rw [if_neg h2]
  by_cases h3 : scanGroup (st.1 a) (groupFacts g) 0 < 0 ∧ neg (scanGroup (st.1 a) (groupFacts g) 0) ∉ st.1 a
  · rw [if_pos h3]
    obtain ⟨hsa, hsb, -⟩ := scanGroup_neg h3.1 (Int.le_refl 0)
    obtain ⟨k, hk, hk'⟩ : ∃ i ∈ groupFacts g, scanGroup (st.1 a) (groupFacts g) 0 = -(i : Int) - 1 := by
      rcases hsb with hsb | hsb
      · omega
      · exact hsb
    have hkb := mem_groupFacts.1 hk
    have hnk : neg (scanGroup (st.1 a) (groupFacts g) 0) = (k : Int) := by rw [hk']; unfold neg; omega
    obtain ⟨B, hB⟩ := insertInv_some (N := N) (B := st.1) (a := neg (scanGroup (st.1 a) (groupFacts g) 0)) (b := a)
      (by rw [hnk, inRange_nat]; omega) ha
    rw [hB]
    refine ⟨_, rfl, good_insert hg hB (fun s hs => ?_) (fun e => ?_)⟩
    · obtain ⟨i, hi1, hi2, hi⟩ := hs.aloGroup g hgG (by omega)
      rcases hsa i (mem_groupFacts.2 ⟨hi1, hi2⟩) with hm | hm
      · rcases hg.ok s hs a _ hm with h | h
        · exact .inr h
        · rw [holds_negNat] at h; exact absurd hi h
      · left
        rw [← hm, holds_neg, holds_negNat, not_not]
        exact hi
    · rw [neg_neg', hk'] at e
      apply h2
      rw [e]
      unfold factOf
      rw [if_pos (by omega)]
      omega
  · rw [if_neg h3]; exact ⟨st, rfl, hg⟩

theorem sasAll_good {N : Nat} {G : Given} (hG : G.InRange N) : ∀ (ps : List (Int × (Nat × Nat))) {st : RS}, Good N G st →
    (∀ p ∈ ps, p.1 ∈ allLits N ∧ p.2 ∈ G.groups) → ∃ st', sasAll N ps st = some st' ∧ Good N G st' := by
  intro ps
  induction ps with
  | nil => intro st hg _; exact ⟨st, rfl, hg⟩
  | cons p ps ih =>
    intro st hg hp
    obtain ⟨hp1, hp2⟩ := hp p List.mem_cons_self
    obtain ⟨st1, h1, h2⟩ := sasOne_good hg (mem_allLits.1 hp1) hp2 (hG.groups _ hp2)
    obtain ⟨st2, h3, h4⟩ := ih h2 fun q hq => hp q (List.mem_cons_of_mem _ hq)
    refine ⟨st2, ?_, h4⟩
    simp only [sasAll, h1, Option.bind_some]
    exact h3

theorem resLoop_noUb {N : Nat} {G : Given} (hG : G.InRange N) (hns : NoStatic N G) {ord : List Int → List Int}
    (hord : ∀ l, (ord l).Perm l) : ∀ (k : Nat) {st : RS}, Good N G st → resLoop N G ord k st ≠ .ub := by
  intro k
  induction k with
  | zero => intro st _; simp [resLoop]
  | succ k ih =>
    rintro ⟨B, q⟩ hg
    cases q with
    | cons inv q =>
      unfold resLoop
      obtain ⟨st, h1, h2⟩ := resStep_good hns hord hg
      rw [h1]
      exact ih h2
    | nil =>
      unfold resLoop
      obtain ⟨st, h1, h2⟩ := sasAll_good hG _ hg sasPairs_mem
      rw [h1]
      obtain ⟨B', q'⟩ := st
      cases q' with
      | nil => simp
      | cons i q' => exact ih h2

theorem pairsOf_sub {α : Type} : ∀ {l : List α}, ∀ p ∈ pairsOf l, p.1 ∈ l ∧ p.2 ∈ l := by
  intro l
  induction l with
  | nil => intro p hp; simp [pairsOf] at hp
  | cons a l ih =>
    intro p hp
    simp only [pairsOf, List.mem_append, List.mem_map] at hp
    rcases hp with ⟨b, hb, rfl⟩ | hp
    · exact ⟨List.mem_cons_self, List.mem_cons_of_mem _ hb⟩
    · exact ⟨List.mem_cons_of_mem _ (ih p hp).1, List.mem_cons_of_mem _ (ih p hp).2⟩

theorem initialPairs_range {N : Nat} {G : Given} (hG : G.InRange N) :
    ∀ p ∈ initialPairs G, inRange N p.1 = true ∧ inRange N p.2 = true := by
  intro p hp
  simp only [initialPairs, List.mem_append, List.mem_flatMap] at hp
  have key : ∀ m : List Nat, (∀ f ∈ m, f < N) →
      p ∈ (pairsOf m).map (fun p : Nat × Nat => (-(p.1 : Int) - 1, -(p.2 : Int) - 1)) →
      inRange N p.1 = true ∧ inRange N p.2 = true := by
    intro m hm hp
    obtain ⟨q, hq, rfl⟩ := List.mem_map.1 hp
    obtain ⟨h1, h2⟩ := pairsOf_sub q hq
    exact ⟨inRange_negNat.2 (hm _ h1), inRange_negNat.2 (hm _ h2)⟩
  rcases hp with ⟨c, hc, hp⟩ | ⟨m, hm, hp | hp⟩ | ⟨m, hm, hp⟩ | ⟨g, hg, hp | hp⟩
  · have hl := hG.invs c hc
    match c, hp with
    | [a, b], hp =>
      simp only [List.mem_cons, List.not_mem_nil, or_false] at hp
      subst hp
      exact ⟨hl _ (by simp), hl _ (by simp)⟩
  · exact key m (hG.strict m hm) hp
  · have hl := hG.strict m hm
    match m, hp with
    | [a, b], hp =>
      simp only [List.mem_cons, List.not_mem_nil, or_false] at hp
      subst hp
      exact ⟨inRange_nat.2 (hl _ (by simp)), inRange_nat.2 (hl _ (by simp))⟩
  · exact key m (hG.mutex m hm) hp
  · have := hG.groups g hg
    exact key (groupFacts g) (fun f hf => by have := mem_groupFacts.1 hf; omega) hp
  · have := hG.groups g hg
    split_ifs at hp with he
    · simp only [List.mem_cons, List.not_mem_nil, or_false] at hp
      subst hp
      exact ⟨inRange_nat.2 (by omega), inRange_nat.2 (by omega)⟩
    · simp at hp

theorem insertAll_good {N : Nat} {G : Given} : ∀ (ps : List (Int × Int)) {B : BinInv},
    (∀ p ∈ ps, inRange N p.1 = true ∧ inRange N p.2 = true) →
    (∀ a, ∀ b ∈ B a, inRange N a = true ∧ inRange N b = true) →
    ∃ B', insertAll N ps B = some B' ∧ ∀ a, ∀ b ∈ B' a, inRange N a = true ∧ inRange N b = true := by
  intro ps
  induction ps with
  | nil => intro B _ h; exact ⟨B, rfl, h⟩
  | cons p ps ih =>
    intro B hp hB
    obtain ⟨h1, h2⟩ := hp p List.mem_cons_self
    obtain ⟨B1, hB1⟩ := insertInv_some (B := B) h1 h2
    obtain ⟨B2, h3, h4⟩ := ih (B := B1) (fun q hq => hp q (List.mem_cons_of_mem _ hq)) (fun c d hd => by
      rcases (insertInv_mem hB1 c d).1 hd with h | ⟨rfl, rfl⟩ | ⟨rfl, rfl⟩
      · exact hB c d h
      · exact ⟨h1, h2⟩
      · exact ⟨h2, h1⟩)
    refine ⟨B2, ?_, h4⟩
    simp only [insertAll, hB1, Option.bind_some]
    exact h3

theorem factOf_neg (l : Int) : factOf (neg l) = factOf l := by
  unfold factOf neg
  split_ifs <;> omega

theorem extract_noUb {N : Nat} {G : Given} (hG : G.InRange N) (hns : NoStatic N G) {ord : List Int → List Int}
    (hord : ∀ l, (ord l).Perm l) (fuel : Nat) : extract N G ord fuel ≠ .ub := by
  unfold extract
  obtain ⟨B, hB, hr⟩ := insertAll_good (G := G) (initialPairs G) (initialPairs_range hG) (B := fun _ => []) (by simp)
  rw [hB]
  simp only
  by_cases h1 : initialQueue N ord B = []
  · rw [if_pos h1]; simp
  · rw [if_neg h1]
    refine resLoop_noUb hG hns hord fuel ⟨hr, insertAll_sym _ hB (by simp), fun p hp => ?_, fun s hs =>
      insertAll_allHold _ hB (fun a b hb => by simp at hb) (initialPairs_hold hs)⟩
    obtain ⟨a1, a2, -⟩ := initialQueue_mem hord p hp
    exact ⟨a1, fun e => by rw [e, factOf_neg] at a2; omega⟩

end Verif.Inv
