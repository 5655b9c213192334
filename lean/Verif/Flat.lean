import Verif.TotalOrder
import Verif.SatEncoder
import Mathlib.Data.List.GetD
import Mathlib.Data.List.Permutation

/-! # Tools for concrete cases: problems without hierarchy, and refutations of formulas

They are used to show that certain concrete problems have, or have no, solutions and that certain concrete formulas have no
models. -/

namespace Verif.Htn

open Relation

/-- The methods for the initial task have primitive subtasks only. -/
def FlatP (P : Problem) : Prop := ∀ m < P.numMethods, P.head m = P.init → ∀ t ∈ P.sub m, P.prim t = true

/-- Execution with the set of facts as a list. -/
def runB (P : Problem) : List Nat → List Nat → Bool
  | st, [] => P.goal.all fun f => st.contains f
  | st, a :: π => (P.prec a).all (fun f => st.contains f) && runB P (P.add a ++ st.filter fun f => !(P.del a).contains f) π

theorem runB_iff {P : Problem} : ∀ (π st : List Nat) (s : State), (∀ f, s f ↔ f ∈ st) →
    (runB P st π = true ↔ ∃ s', Exec P s π s' ∧ P.GoalState s')
  | [], st, s, hs => by
    rw [runB, List.all_eq_true]
    simp only [List.contains_iff_mem]
    constructor
    · exact fun h => ⟨s, .nil s, fun f hf => (hs f).2 (h f hf)⟩
    · rintro ⟨s', hex, hg⟩ f hf
      cases hex
      exact (hs f).1 (hg f hf)
  | a :: π, st, s, hs => by
    have ih := runB_iff (P := P) π (P.add a ++ st.filter fun f => !(P.del a).contains f) (P.result s a) fun f => by
      simp [Problem.result, hs]
    rw [runB, Bool.and_eq_true, List.all_eq_true, ih]
    simp only [List.contains_iff_mem]
    constructor
    · rintro ⟨h1, s', h2, h3⟩
      exact ⟨s', .cons (fun f hf => (hs f).2 (h1 f hf)) h2, h3⟩
    · rintro ⟨s', hex, hg⟩
      cases hex with
      | cons h1 h2 => exact ⟨fun f hf => (hs f).1 (h1 f hf), s', h2, hg⟩

/-- The solutions of problems without hierarchy. -/
theorem flat_solution {P : Problem} (hP : P.WF) (hf : FlatP P) {k : Nat} {π : List Nat} :
    SolutionOfHeight P (k + 1) π ↔ ∃ m < P.numMethods, P.head m = P.init ∧ ∃ idx : List Nat, idx.Perm (List.range (P.sub m).length) ∧
      idx.Pairwise (fun i j => ¬ TransGen (P.OrdRel m) j i) ∧ π = idx.map (fun i => (P.sub m).getD i 0) ∧ runB P P.s0 π = true := by
  have hrun : runB P P.s0 π = true ↔ ∃ s', Exec P P.initState π s' ∧ P.GoalState s' := runB_iff π P.s0 P.initState fun f => Iff.rfl
  have hget : ∀ m i, i < (P.sub m).length → (P.sub m)[i]? = some ((P.sub m).getD i 0) := by
    intro m i hi
    rw [List.getD_eq_getElem _ _ hi, List.getElem?_eq_getElem hi]
  constructor
  · rintro ⟨tr, hv, -, ⟨occ, hocc⟩, hex⟩
    generalize ht : P.init = t at hv
    cases hv with
    | leaf h => rw [← ht, hP.init_abs] at h; simp at h
    | @node m cs hm hc =>
      have hleaf : ∀ i < (P.sub m).length, cs i = .leaf ((P.sub m).getD i 0) := by
        intro i hi
        have hc' := hc i _ (hget m i hi)
        have hp := hf m hm ht.symm _ (List.mem_of_getElem? (hget m i hi))
        generalize (P.sub m).getD i 0 = a at hc' hp
        generalize cs i = c at hc'
        cases hc' with
        | leaf _ => rfl
        | node hm' _ => rw [hP.head_abs _ hm'] at hp; simp at hp
      have hat : ∀ p a, LeafAt P (.node m cs) p a ↔ ∃ i < (P.sub m).length, p = [i] ∧ a = (P.sub m).getD i 0 := by
        intro p a
        constructor
        · intro h
          cases h with
          | @child _ _ i p _ hi h =>
            rw [hleaf i hi] at h
            cases h
            exact ⟨i, hi, rfl, rfl⟩
        · rintro ⟨i, hi, rfl, rfl⟩
          exact .child hi (by rw [hleaf i hi]; exact .here)
      have hmem : ∀ p, p ∈ occ ↔ ∃ i < (P.sub m).length, p = [i] := by
        intro p
        rw [hocc.all]
        constructor
        · rintro ⟨a, h⟩
          obtain ⟨i, hi, h, -⟩ := (hat p a).1 h
          exact ⟨i, hi, h⟩
        · rintro ⟨i, hi, rfl⟩
          exact ⟨_, (hat _ _).2 ⟨i, hi, rfl, rfl⟩⟩
      have hocc' : occ = (occ.map fun p => p.headD 0).map fun i => [i] := by
        rw [List.map_map]
        conv_lhs => rw [← List.map_id occ]
        refine List.map_congr_left fun p hp => ?_
        obtain ⟨i, -, rfl⟩ := (hmem p).1 hp
        rfl
      obtain ⟨idx, hidx⟩ : ∃ idx, idx = occ.map fun p => p.headD 0 := ⟨_, rfl⟩
      rw [← hidx] at hocc'
      have hi : ∀ i, i ∈ idx ↔ i < (P.sub m).length := by
        intro i
        rw [hidx, List.mem_map]
        constructor
        · rintro ⟨p, hp, rfl⟩
          obtain ⟨i, hi, rfl⟩ := (hmem p).1 hp
          exact hi
        · intro h
          exact ⟨[i], (hmem _).2 ⟨i, h, rfl⟩, rfl⟩
      have hnd : idx.Nodup := by
        have := hocc.nodup
        rw [hocc'] at this
        exact List.Nodup.of_map _ this
      refine ⟨m, hm, rfl, idx, ?_, ?_, ?_, hrun.2 hex⟩
      · rw [List.perm_ext_iff_of_nodup hnd List.nodup_range]
        exact fun i => by rw [hi, List.mem_range]
      · have := hocc.order
        rw [hocc', List.pairwise_map] at this
        exact this.imp fun h h' => h (.diff h')
      · have := hocc.labels
        rw [hocc', List.forall₂_map_left_iff] at this
        clear hocc' hidx hnd hrun hex hocc hi hmem
        induction this with
        | nil => rfl
        | @cons i a l π h1 _ ih =>
          obtain ⟨i', -, he, rfl⟩ := (hat _ _).1 h1
          obtain rfl : i = i' := by simpa using he
          rw [List.map_cons]
          exact congrArg _ ih
  · rintro ⟨m, hm, hh, idx, hp, hpw, rfl, hr⟩
    have hi : ∀ i, i ∈ idx ↔ i < (P.sub m).length := fun i => by rw [hp.mem_iff, List.mem_range]
    refine ⟨.node m fun i => .leaf ((P.sub m).getD i 0), ?_, .node fun i _ => .leaf, ⟨idx.map fun i => [i], ?_, ?_, ?_, ?_⟩, hrun.1 hr⟩
    · rw [← hh]
      refine .node hm fun i t hit => ?_
      obtain rfl : (P.sub m).getD i 0 = t := by
        rw [List.getD_eq_getElem?_getD, hit]; rfl
      exact .leaf (hf m hm hh _ (List.mem_of_getElem? hit))
    · exact (hp.nodup_iff.2 List.nodup_range).map (fun a b h => by simpa using h)
    · intro p
      rw [List.mem_map]
      constructor
      · rintro ⟨i, h, rfl⟩
        exact ⟨_, .child ((hi i).1 h) .here⟩
      · rintro ⟨a, h⟩
        cases h with
        | @child _ _ i p _ hi' h =>
          cases h
          exact ⟨i, (hi i).2 hi', rfl⟩
    · rw [List.pairwise_map]
      refine hpw.imp fun {i j} h h' => ?_
      cases h' with
      | same h => cases h
      | diff h' => exact h h'
    · rw [List.forall₂_map_left_iff, List.forall₂_map_right_iff]
      exact List.forall₂_same.2 fun i h => .child ((hi i).1 h) .here

end Verif.Htn

namespace Verif.Sat

/-- The formula after a literal is made true. -/
def assume (l : Int) (cs : List Clause) : List Clause := (cs.filter fun c => !c.contains l).map fun c => c.filter fun x => x != -l

/-- The literal to decide: that of a clause of one literal, or the first one. -/
def pickLit (cs : List Clause) : Option Int :=
  match cs.find? fun c => c.length == 1 with
  | some c => c.head?
  | none => cs.head?.bind List.head?

/-- Does case distinction show that there is no model? -/
def refute : Nat → List Clause → Bool
  | 0, _ => false
  | f + 1, cs =>
    cs.contains [] ||
    match pickLit cs with
    | none => false
    | some l => l != 0 && refute f (assume l cs) && refute f (assume (-l) cs)

theorem assume_sat {w : Assignment} {l : Int} (h0 : l ≠ 0) {cs : List Clause} (h : satAll w cs) (hl : lit w l = true) : satAll w (assume l cs) := by
  intro c hc
  obtain ⟨c', hc', rfl⟩ := List.mem_map.1 hc
  obtain ⟨x, hx, hxt⟩ := h c' (List.mem_filter.1 hc').1
  refine ⟨x, List.mem_filter.2 ⟨hx, ?_⟩, hxt⟩
  rw [bne_iff_ne]
  rintro rfl
  rw [lit_neg h0, hl] at hxt
  simp at hxt

theorem refute_sound : ∀ (f : Nat) (cs : List Clause), refute f cs = true → ¬ ∃ w, satAll w cs
  | 0, _, h => by simp [refute] at h
  | f + 1, cs, h => by
    rintro ⟨w, hw⟩
    rw [refute, Bool.or_eq_true] at h
    rcases h with h | h
    · obtain ⟨x, hx, -⟩ := hw [] (List.contains_iff_mem.1 h)
      simp at hx
    · cases hp : pickLit cs with
      | none => rw [hp] at h; simp at h
      | some l =>
        rw [hp] at h
        simp only [Bool.and_eq_true, bne_iff_ne, ne_eq] at h
        cases hl : lit w l with
        | true => exact refute_sound f _ h.1.2 ⟨w, assume_sat h.1.1 hw hl⟩
        | false =>
          refine refute_sound f _ h.2 ⟨w, assume_sat (by omega) hw ?_⟩
          rw [lit_neg h.1.1, hl]; rfl

/-- Is the assignment, given by the variables that are true, a model? -/
def checkModel (t : List Nat) (cs : List Clause) : Bool :=
  cs.all fun c => c.any fun l => lit (fun x => t.contains x) l

theorem checkModel_sound {t : List Nat} {cs : List Clause} (h : checkModel t cs = true) : satAll (fun x => t.contains x) cs := by
  intro c hc
  have := List.all_eq_true.1 h c hc
  obtain ⟨l, hl, h⟩ := List.any_eq_true.1 this
  exact ⟨l, hl, h⟩

end Verif.Sat

namespace Verif.Htn

open Relation

/-- No order of the subtasks of a method for the initial task that keeps the orderings `clo` is executable and reaches the goal. -/
def flatCheck (P : Problem) (clo : Nat → List (Nat × Nat)) : Bool :=
  (List.range P.numMethods).all fun m => (List.range (P.sub m).length).permutations'.all fun idx =>
    !decide (idx.Pairwise fun i j => (j, i) ∉ clo m) || !runB P P.s0 (idx.map fun i => (P.sub m).getD i 0)

theorem flat_unsolvable {P : Problem} (hP : P.WF) (hf : FlatP P) {clo : Nat → List (Nat × Nat)}
    (hclo : ∀ m < P.numMethods, ∀ i j, (i, j) ∈ clo m → TransGen (P.OrdRel m) i j) (h : flatCheck P clo = true) :
    ¬ ∃ π, IsSolution P π := by
  rintro ⟨π, hπ⟩
  obtain ⟨k, hk⟩ := hπ.height
  obtain ⟨m, hm, -, idx, hp, hpw, rfl, hr⟩ := (flat_solution hP hf).1 (hk (k + 1) (by omega))
  have h1 := List.all_eq_true.1 (List.all_eq_true.1 h m (List.mem_range.2 hm)) idx (List.mem_permutations'.2 hp)
  rw [hr, Bool.not_true, Bool.or_false, Bool.not_eq_true', decide_eq_false_iff_not] at h1
  exact h1 (hpw.imp fun h h' => h (hclo m hm _ _ h'))

end Verif.Htn
