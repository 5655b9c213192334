import Verif.SimpleHeur
import Verif.Props.Search
import Verif.Props.Progression

/-! # The search with the code's own fringe: C22, and C01, C02, C21 without contracts -/

namespace Verif.Props

open Verif.Htn Verif.Prog Verif.TaskCounter Relation

/-! ## C22: the priority fringe -/

/-- An operation of the user of a fringe. -/
inductive FOp
  | push (x : SNode)
  | pop

/-- What happens to a queue with heuristics count `numH`, options `opt` and `w`, while the
operations are performed: (content, pushed nodes, popped nodes); `none` if `pop` is called on the
empty fringe. -/
def runFringe (opt : AStar) (w : Int) (rnd : Nat → Nat) (numH : Nat) (choice : List Entry → Nat) :
    List FOp → WFringe → Option (WFringe × List SNode × List SNode)
  | [], fr => some (fr, [], [])
  | .push x :: ops, fr =>
    (runFringe opt w rnd numH choice ops (wpush opt w rnd fr x)).map fun r => (r.1, x :: r.2.1, r.2.2)
  | .pop :: ops, fr =>
    match wpop numH choice fr with
    | none => none
    | some (y, fr') => (runFringe opt w rnd numH choice ops fr').map fun r => (r.1, r.2.1, y :: r.2.2)

/-- **C22** (nothing lost or duplicated).  Over every history of operations, what was pushed
(with the evaluation filled in) is what was popped plus what is still contained. -/
theorem C22_popped_once {opt w rnd numH choice} :
    ∀ ops fr fr' pushed popped, runFringe opt w rnd numH choice ops fr = some (fr', pushed, popped) →
      (witems fr ++ pushed.map fun x : SNode => { x with f := some (fval opt w x) }).Perm (popped ++ witems fr') := by
  intro ops
  induction ops with
  | nil => intro fr fr' pu po h; simp [runFringe] at h; obtain ⟨rfl, rfl, rfl⟩ := h; simp
  | cons op ops ih =>
    intro fr fr' pu po h
    cases op with
    | push x =>
      simp only [runFringe, Option.map_eq_some_iff] at h
      obtain ⟨⟨f1, pu', po'⟩, h1, h2⟩ := h
      simp only [Prod.mk.injEq] at h2
      obtain ⟨rfl, rfl, rfl⟩ := h2
      refine List.Perm.trans ?_ (ih _ _ _ _ h1)
      simp only [witems, wpush, List.map_cons]
      exact List.perm_middle
    | pop =>
      simp only [runFringe] at h
      cases hp : wpop numH choice fr with
      | none => simp [hp] at h
      | some r =>
        obtain ⟨y, fr1⟩ := r
        simp only [hp, Option.map_eq_some_iff] at h
        obtain ⟨⟨f1, pu', po'⟩, h1, h2⟩ := h
        simp only [Prod.mk.injEq] at h2
        obtain ⟨rfl, rfl, rfl⟩ := h2
        obtain ⟨e, he, rfl, hq, -, -⟩ := wpop_spec.2 _ _ hp
        refine List.Perm.trans ?_ ((ih _ _ _ _ h1).cons e.x)
        rw [← List.cons_append]
        refine List.Perm.append_right _ ?_
        simp only [witems, hq]
        exact (List.perm_cons_erase he).map Entry.x

/-- The list of numbers compared by the queue, ignoring the final random number. -/
def evalKey (numH : Nat) (x : SNode) : List Int :=
  x.f.getD 0 :: (List.range (numH - 1)).map fun i => x.hv[i + 1]?.getD 0

theorem tieKey_eq (a : Entry) : ∀ k i, tieKey a i k =
    ((List.range k).map fun j => a.x.hv[i + j]?.getD 0) ++ [(a.rand : Int)] := by
  intro k
  induction k with
  | zero => intro i; rfl
  | succ k ih =>
    intro i
    rw [tieKey, ih, List.range_succ_eq_map]
    simp [Function.comp_def, Nat.add_assoc, Nat.add_comm 1]

theorem le_of_append_le : ∀ {a b : List Int} {x y : Int}, a.length = b.length →
    a ++ [x] ≤ b ++ [y] → a ≤ b := by
  intro a
  induction a with
  | nil => intro b x y _ _; exact not_lt.1 (List.not_lt_nil _)
  | cons u a ih =>
    intro b x y hl h
    cases b with
    | nil => simp at hl
    | cons v b =>
      rw [List.cons_append, List.cons_append, cons_le_cons'] at h
      rw [cons_le_cons']
      rcases h with h | ⟨h1, h2⟩
      · exact .inl h
      · exact .inr ⟨h1, ih (by simpa using hl) h2⟩

/-- **C22** (minimality).  The popped node's `(f, h1, h2, ...)` is lexicographically minimal among
the contained ones; `pop` only fails on the empty fringe. -/
theorem C22_pop_minimal {numH choice} {fr : WFringe} :
    (wpop numH choice fr = none ↔ witems fr = []) ∧
    ∀ x fr', wpop numH choice fr = some (x, fr') →
      x ∈ witems fr ∧ ∀ y ∈ witems fr, evalKey numH x ≤ evalKey numH y := by
  constructor
  · rw [wpop_spec.1]; simp [witems]
  · intro x fr' h
    obtain ⟨e, he, rfl, -, -, hle⟩ := wpop_spec.2 _ _ h
    refine ⟨List.mem_map.2 ⟨e, he, rfl⟩, fun y hy => ?_⟩
    obtain ⟨e', he', rfl⟩ := List.mem_map.1 hy
    have h1 := hle e' he'
    simp only [entryKey, tieKey_eq, ← List.cons_append] at h1
    have h2 := le_of_append_le (by simp) h1
    simpa [evalKey, Nat.add_comm 1] using h2

/-- The comparator handed to `std::priority_queue` is a strict weak order, as its contract
demands. -/
theorem C22_comparator_strict_weak (numH : Nat) :
    (∀ a, cmpLess numH a a = false) ∧
    (∀ a b c, cmpLess numH a b = true → cmpLess numH b c = true → cmpLess numH a c = true) ∧
    (∀ a b c, cmpLess numH a b = false → cmpLess numH b a = false → cmpLess numH b c = false →
      cmpLess numH c b = false → cmpLess numH a c = false ∧ cmpLess numH c a = false) := by
  refine ⟨fun a => ?_, fun a b c h1 h2 => ?_, fun a b c h1 h2 h3 h4 => ?_⟩
  · rw [← Bool.not_eq_true, cmpLess_iff]; exact lt_irrefl _
  · rw [cmpLess_iff] at *; exact lt_trans h2 h1
  · simp only [← Bool.not_eq_true, cmpLess_iff, not_lt] at *
    exact ⟨le_trans h1 h3, le_trans h4 h2⟩

/-- Two nodes, the second of which has the smaller evaluation. -/
example : (runFringe .action 1 (fun _ => 0) 1 (fun _ => 0)
    [.push ⟨{ (default : Node) with costs := 3 }, [2], none⟩,
     .push ⟨{ (default : Node) with costs := 1 }, [3], none⟩, .pop] emptyFringe).map (fun r => r.2.2.map fun x => x.f)
    = some [some 4] := by decide

/-! ## The search with simple heuristics -/

variable {P : Problem} {cfg : Cfg} {V : Type} {o : Opts} {ins : V → Heap → SNode → V × Bool} {v0 : V}

theorem opts_fringe (o : Opts) (ins : V → Heap → SNode → V × Bool) :
    FringeOK (o.env ins) emptyFringe witems o.eval :=
  wfringe_ok (opt := o.aStar) (w := o.weight) (rnd := o.rndF) (numH := o.heurs.length) (choice := o.choice) rfl rfl

theorem opts_heurSafe (K B c) : HeurSafe P cfg (o.env ins) K noState B c := by
  intro hs h par n2 _ _ _ hr
  simp [Opts.env] at hr

/-- **C01** for the priority queue fringe, simple heuristics and any visited list. -/
theorem C01_simple_search (hP : P.WF) (hcfg : cfg.Ok) {fuel n s'}
    (h : search P cfg (o.env ins) fuel v0 emptyFringe () = some (.solved n, s')) :
    IsSolution P (planOf n.node.sol) :=
  C01_reported_plan_is_solution hP hcfg (opts_fringe o ins) h

/-- **C02** for the priority queue fringe, simple heuristics and switched-off visited list. -/
theorem C02_simple_search (hP : P.WF) (hcfg : cfg.Ok) {fuel s'}
    (h : search P cfg (o.env insNone) fuel () emptyFringe () = some (.unsolvable, s')) :
    ∀ π, ¬ IsSolution P π :=
  C02_unsolvable_is_correct hP hcfg (opts_fringe o insNone) (Keeps.trivial _ _ _)
    (insNone_sound rfl _ _) (opts_heurSafe _ _ _) (HeurInv.trivial _ _ _) h

/-- A* with the zero heuristic keeps the conditions of C21. -/
theorem zero_keeps (ho : o.subopt = false) (ha : o.aStar = .action) (hw : o.weight = 1)
    (hz : o.heurs.head? = some .zero) :
    Keeps P cfg (o.env ins) o.eval (fun _ _ => True) (AStarQ P) noState := by
  have hq : ∀ h n vs, vs.head? = some 0 → AStarQ P h ⟨n, vs, o.eval ⟨n, vs, none⟩⟩ := by
    intro h n vs hv
    cases vs with
    | nil => simp at hv
    | cons v vs =>
      simp only [List.head?_cons, Option.some.injEq] at hv
      subst hv
      exact ⟨by simp [Opts.eval, fval, ha, hw, h0], by simp [h0], by simp [h0]⟩
  obtain ⟨hs, hh⟩ : ∃ hs, o.heurs = .zero :: hs := by
    cases hc : o.heurs with
    | nil => simp [hc] at hz
    | cons a hs => rw [hc] at hz; simp at hz; exact ⟨hs, by rw [hz]⟩
  refine ⟨?_, fun _ _ _ => trivial, fun _ _ _ _ _ _ _ _ _ _ _ _ => trivial,
    fun _ _ _ _ _ _ _ _ _ _ _ _ _ => trivial, ?_, fun _ _ _ _ _ _ _ => trivial, ?_, ?_⟩
  · exact hq _ _ _ (by simp [Opts.env, hh, rootNode, List.replicate_succ])
  · rintro h h' x hp hh' hi ⟨h1, h2, h3⟩
    exact ⟨h1, h2, fun π k hs => h3 π k ((prefix_nodeSol hp hi.good.heap hh' hi.good.node.lt).1 hs)⟩
  · intro _ h par n2 _ _ _ _
    exact hq _ _ _ (by simp [Opts.env, hh, SimpleH.value])
  · intro h; simp [Opts.env, ho] at h

/-- **C21** for uniform cost search: zero heuristic, no duplicate detection. -/
theorem C21_uniform_cost_search (hP : P.WF) (hcfg : cfg.Ok)
    (ho : o.subopt = false) (ha : o.aStar = .action) (hw : o.weight = 1)
    (hz : o.heurs.head? = some .zero) {fuel n s'}
    (h : search P cfg (o.env insNone) fuel () emptyFringe () = some (.solved n, s')) :
    IsSolution P (planOf n.node.sol) ∧
      ∀ π, IsSolution P π → P.planCost (planOf n.node.sol) ≤ P.planCost π :=
  C21_astar_optimal hP hcfg (opts_fringe o insNone) ho (fun _ _ _ hp => wfringe_min hp)
    (zero_keeps ho ha hw hz) (fun _ _ h => h) (insNone_sound rfl _ _) (opts_heurSafe _ _ _)
    (HeurInv.trivial _ _ _) h

/-- Options used in the examples. -/
def exOpts (subopt : Bool) : Opts where
  subopt := subopt
  aStar := .action
  weight := 1
  heurs := [.zero, .modDepth true]
  rndF := fun i => i
  rndS := fun _ => 0
  choice := fun _ => 0
  timeUp := fun i => decide (20 ≤ i)

/-- The search finds the plan `e, a, b` of the example problem (so that the
hypotheses of C01, C07, C21 are met), with early and with late goal test. -/
example : ((search exP exCfg ((exOpts false).env insNone) 30 () emptyFringe ()).map fun r =>
      match r.1 with
      | .solved n => (planOf n.node.sol, n.node.costs)
      | _ => ([], 0)) = some ([3, 1, 2], 3) ∧
    ((search exP exCfg ((exOpts true).env insNone) 30 () emptyFringe ()).map fun r =>
      match r.1 with
      | .solved n => planOf n.node.sol
      | _ => []) = some [3, 1, 2] := by decide

/-- The same problem with an unreachable goal and without recursion. -/
def exU : Problem := { exP with goal := [0, 1], numMethods := 2 }

/-- The fringe runs empty: the hypotheses of C02 are met. -/
example : ((search exU exCfg2 ((exOpts false).env insNone) 30 () emptyFringe ()).map fun r =>
      match r.1 with
      | .unsolvable => true
      | _ => false) = some true := by decide

end Verif.Props
