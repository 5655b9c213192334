import Verif.Pdt
import Verif.TotalOrder

/-! # The path decomposition tree to a given depth, and what it represents

The vertices of the tree are named by their paths, last step first: `c :: p` is child `c` of `p`.  The code expands the
same tree further for every depth; since an expanded vertex is not expanded again, the tree for depth `K` is the one
that is given here. -/

namespace Verif.Pdt

open Verif.Htn Verif.Sog

abbrev Path := List Nat

/-- The vertices of a tree and their expansions. -/
structure T where
  K : Nat
  nd : Path → Option ND
  ex : Path → Option EX

/-- The root (`PDT::PDT(Model*)`, pdt.cpp 27-38). -/
def root (P : Problem) : ND := ⟨[], [P.init], [], []⟩

/-- The vertex at a path in the tree expanded up to level `K` (`expandPDTUpToLevel`, pdt.cpp 423-431; `expandPDT` does
nothing for vertices without abstract tasks, lines 129-132). -/
def nodeAt (P : Problem) (cfg : Cfg) (K : Nat) : Path → Option ND
  | [] => some (root P)
  | c :: p =>
    match nodeAt P cfg K p with
    | none => none
    | some d =>
      if p.length < K ∧ d.abss ≠ [] then
        match expand P cfg d with
        | none => none
        | some e => e.children[c]?
      else none

/-- The expansion of the vertex at a path. -/
def exAt (P : Problem) (cfg : Cfg) (K : Nat) (p : Path) : Option EX :=
  match nodeAt P cfg K p with
  | none => none
  | some d => if p.length < K ∧ d.abss ≠ [] then expand P cfg d else none

/-- The tree of depth `K`. -/
def tree (P : Problem) (cfg : Cfg) (K : Nat) : T := ⟨K, nodeAt P cfg K, exAt P cfg K⟩

/-- The expansion of the tree ran into undefined behaviour or stopped the program. -/
def Stuck (P : Problem) (cfg : Cfg) (K : Nat) : Prop :=
  ∃ p d, nodeAt P cfg K p = some d ∧ p.length < K ∧ d.abss ≠ [] ∧ expand P cfg d = none

/-- Number of children. -/
def T.nc (t : T) (p : Path) : Nat :=
  match t.ex p with
  | none => 0
  | some e => e.children.length

/-- The vertices below `p`, parents first. -/
def T.below (t : T) : Nat → Path → List Path
  | 0, p => [p]
  | f + 1, p => p :: (List.range (t.nc p)).flatMap fun c => t.below f (c :: p)

/-- `getLeafs` (pdt.cpp 433-439). -/
def T.leavesFrom (t : T) : Nat → Path → List Path
  | 0, p => [p]
  | f + 1, p => if t.nc p = 0 then [p] else (List.range (t.nc p)).flatMap fun c => t.leavesFrom f (c :: p)

/-- The leaves of the tree. -/
def T.leaves (t : T) : List Path := t.leavesFrom t.K []

/-- All vertices of the tree. -/
def T.nodes (t : T) : List Path := t.below t.K []

/-- What is known about a tree. -/
structure T.OK (P : Problem) (tot : Nat → List Nat) (t : T) : Prop where
  root : ∃ d, t.nd [] = some d ∧ d.prims = [] ∧ d.abss = [P.init]
  nd : ∀ p d, t.nd p = some d → d.OK P
  len : ∀ p d, t.nd p = some d → p.length ≤ t.K
  child : ∀ c p ch, t.nd (c :: p) = some ch ↔ ∃ e, t.ex p = some e ∧ e.children[c]? = some ch
  ex : ∀ p e, t.ex p = some e → ∃ d, t.nd p = some d ∧ p.length < t.K ∧ d.abss ≠ [] ∧ ExpOK P tot d e ∧
    (e.children = [] ↔ ∀ ti mi m, ¬ IsMeth P d ti mi m)
  full : ∀ p d, t.nd p = some d → p.length < t.K → d.abss ≠ [] → ∃ e, t.ex p = some e

theorem tree_ok {P : Problem} {cfg : Cfg} {K : Nat} (hP : P.WF) (hc : CfgOK P cfg) (hs : ¬ Stuck P cfg K) :
    (tree P cfg K).OK P cfg.tot := by
  have hnd : ∀ p d, nodeAt P cfg K p = some d → d.OK P ∧ p.length ≤ K := by
    intro p
    induction p with
    | nil =>
      intro d h
      simp only [nodeAt, Option.some.injEq] at h
      subst h
      exact ⟨⟨by simp [root], by simp [root], by simp [root], by simpa [root] using hP.init_abs⟩, by simp⟩
    | cons c p ih =>
      intro d h
      rw [nodeAt] at h
      cases hp : nodeAt P cfg K p with
      | none => rw [hp] at h; exact absurd h (by simp)
      | some dp =>
        rw [hp] at h
        simp only at h
        by_cases hcond : p.length < K ∧ dp.abss ≠ []
        · rw [if_pos hcond] at h
          cases he : expand P cfg dp with
          | none => rw [he] at h; exact absurd h (by simp)
          | some e =>
            rw [he] at h
            simp only at h
            exact ⟨(((expand_spec hc hP (ih dp hp).1).2 e he).1).child c d h, by simp; omega⟩
        · rw [if_neg hcond] at h; exact absurd h (by simp)
  refine ⟨⟨root P, rfl, rfl, rfl⟩, fun p d h => (hnd p d h).1, fun p d h => (hnd p d h).2, fun c p ch => ?_, fun p e h => ?_,
    fun p d h h1 h2 => ?_⟩
  · show nodeAt P cfg K (c :: p) = some ch ↔ ∃ e, exAt P cfg K p = some e ∧ _
    rw [nodeAt, exAt]
    cases nodeAt P cfg K p with
    | none => simp
    | some d =>
      simp only
      by_cases hcond : p.length < K ∧ d.abss ≠ []
      · rw [if_pos hcond, if_pos hcond]
        cases expand P cfg d <;> simp
      · rw [if_neg hcond, if_neg hcond]; simp
  · have h' : exAt P cfg K p = some e := h
    rw [exAt] at h'
    show ∃ d, nodeAt P cfg K p = some d ∧ p.length < K ∧ _
    cases hp : nodeAt P cfg K p with
    | none => rw [hp] at h'; exact absurd h' (by simp)
    | some d =>
      rw [hp] at h'
      simp only at h'
      by_cases hcond : p.length < K ∧ d.abss ≠ []
      · rw [if_pos hcond] at h'
        exact ⟨d, rfl, hcond.1, hcond.2, (expand_spec hc hP (hnd p d hp).1).2 e h'⟩
      · rw [if_neg hcond] at h'; exact absurd h' (by simp)
  · show ∃ e, exAt P cfg K p = some e
    rw [exAt, show nodeAt P cfg K p = some d from h]
    simp only
    rw [if_pos ⟨h1, h2⟩]
    cases he : expand P cfg d with
    | none => exact absurd ⟨p, d, h, h1, h2, he⟩ hs
    | some e => exact ⟨e, rfl⟩

/-- The methods are placed in the tree such that `R` holds (for vertex, method and placement). -/
def T.Has (P : Problem) (tot : Nat → List Nat) (t : T) (R : Path → Nat → List Nat → Prop) : Prop :=
  ∀ p d e, t.nd p = some d → t.ex p = some e → ∀ ti mi m, IsMeth P d ti mi m → ∃ mp, PlaceSpec P tot e ti mi m mp ∧ R p m mp

/-- The order of every method is the order of the children. -/
def SeqR (tot : Nat → List Nat) (t : T) (p : Path) (m : Nat) (mp : List Nat) : Prop := Placed (tot m) (t.nc p) mp

theorem ex_expand {P : Problem} {cfg : Cfg} {K : Nat} {p : Path} {d : ND} {e : EX} (hd : nodeAt P cfg K p = some d)
    (he : exAt P cfg K p = some e) : expand P cfg d = some e ∧ p.length < K ∧ d.abss ≠ [] := by
  rw [exAt, hd] at he
  simp only at he
  by_cases hcond : p.length < K ∧ d.abss ≠ []
  · rw [if_pos hcond] at he
    exact ⟨he, hcond⟩
  · rw [if_neg hcond] at he; exact absurd he (by simp)

/-- What is known about the placements in the tree. -/
theorem tree_extra {P : Problem} {cfg : Cfg} {K : Nat} (hP : P.WF) (hc : CfgOK P cfg) (hs : ¬ Stuck P cfg K) :
    ∀ p d e, (tree P cfg K).nd p = some d → (tree P cfg K).ex p = some e → ∀ ti mi m, IsMeth P d ti mi m →
      ∃ mp, PlaceSpec P cfg.tot e ti mi m mp ∧ Extra P cfg ((cfg.sortM (applicable P d)).map (·.1)) e.children.length m mp := by
  intro p d e hd he ti mi m hm
  have hok := (tree_ok hP hc hs).nd p d hd
  exact ((expand_full hc hP hok).2 e (ex_expand hd he).1).1.2 ti mi m hm

/-- In totally ordered problems the order of the children is the order of the methods. -/
theorem tree_seq {P : Problem} {cfg : Cfg} {K : Nat} (hP : P.WF) (hc : CfgOK P cfg) (hs : ¬ Stuck P cfg K) (hpo : cfg.po = false) :
    (tree P cfg K).Has P cfg.tot (SeqR cfg.tot (tree P cfg K)) := by
  intro p d e hd he ti mi m hm
  obtain ⟨mp, h1, h2⟩ := tree_extra hP hc hs p d e hd he ti mi m hm
  refine ⟨mp, h1, ?_⟩
  have : (tree P cfg K).nc p = e.children.length := by unfold T.nc; rw [he]
  unfold SeqR
  rw [this]
  exact h2.1 (by unfold usesPO; rw [hpo]; rfl)

/-- Without the compact mode nothing goes wrong. -/
theorem not_stuck {P : Problem} {cfg : Cfg} {K : Nat} (hP : P.WF) (hc : CfgOK P cfg) (hcf : cfg.compact = false) :
    ¬ Stuck P cfg K := by
  have hnd : ∀ p d, nodeAt P cfg K p = some d → d.OK P := by
    intro p
    induction p with
    | nil =>
      intro d h
      simp only [nodeAt, Option.some.injEq] at h
      subst h
      exact ⟨by simp [root], by simp [root], by simp [root], by simpa [root] using hP.init_abs⟩
    | cons c p ih =>
      intro d h
      rw [nodeAt] at h
      cases hp : nodeAt P cfg K p with
      | none => rw [hp] at h; exact absurd h (by simp)
      | some dp =>
        rw [hp] at h
        simp only at h
        by_cases hcond : p.length < K ∧ dp.abss ≠ []
        · rw [if_pos hcond] at h
          cases he : expand P cfg dp with
          | none => rw [he] at h; exact absurd h (by simp)
          | some e =>
            rw [he] at h
            exact (((expand_spec hc hP (ih dp hp)).2 e he).1).child c d h
        · rw [if_neg hcond] at h; exact absurd h (by simp)
  rintro ⟨p, d, h1, -, -, h2⟩
  obtain ⟨e, he⟩ := (expand_spec hc hP (hnd p d h1)).1 hcf
  rw [h2] at he
  exact absurd he (by simp)

/-! ## Selections -/

/-- What is chosen at a vertex: nothing, a primitive task (by its number), or an abstract task with a method (by their
numbers). -/
inductive Sel
  | none
  | prim (i : Nat)
  | abs (a m : Nat)
deriving DecidableEq

/-- A selection follows the pointers of the tree: it represents a decomposition. -/
structure Consistent (P : Problem) (t : T) (sel : Path → Sel) : Prop where
  root : ∃ m, sel [] = .abs 0 m
  prim : ∀ p i, sel p = .prim i → ∃ d x, t.nd p = some d ∧ d.prims[i]? = some x
  abs : ∀ p a m, sel p = .abs a m → ∃ d e x, t.nd p = some d ∧ t.ex p = some e ∧ IsMeth P d a m x
  none_child : ∀ p c, sel p = .none → sel (c :: p) = .none
  prim_child : ∀ p i e, sel p = .prim i → t.ex p = some e → ∃ c j k, e.posP[i]? = some (c, j, k) ∧ sel (c :: p) = .prim j ∧
    ∀ c', c' ≠ c → sel (c' :: p) = .none
  abs_child : ∀ p a m e, sel p = .abs a m → t.ex p = some e → ∀ c,
    (e.ptr a m c = .none → sel (c :: p) = .none) ∧
    ∀ q, e.ptr a m c = some q → if q.isPrim then sel (c :: p) = .prim q.task else ∃ m', sel (c :: p) = .abs q.task m'

/-- The action chosen at a vertex. -/
def actAt (t : T) (sel : Path → Sel) (p : Path) : List Nat :=
  match t.nd p, sel p with
  | some d, .prim i => [d.prims.getD i 0]
  | _, _ => []

/-- The plan of a selection: the actions at the leaves from left to right. -/
def planOf (t : T) (sel : Path → Sel) : List Nat := t.leaves.flatMap (actAt t sel)

end Verif.Pdt
