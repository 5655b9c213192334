import Verif.Interactive
import Verif.Props.Progression

/-! # C94: what a session of the interactive planner reaches -/

namespace Verif.Props

open Verif.Htn Verif.Prog Verif.Interactive

variable {P : Problem} {cfg : Cfg}

theorem i_at {α : Type} {l : List α} {i : Int} {x : α} (h : at? l i = some x) :
    0 ≤ i ∧ l[i.toNat]? = some x := by
  unfold at? at h
  split_ifs at h with h0
  exact ⟨by omega, h⟩

theorem i_ok {F : Nat} : ∀ (K : Nat) (ins : List Int) (g : Glob) (n : Node) (ok : Bool) {o g' n'},
    play P cfg F K ins g n ok = some o → o.node = some (g', n', true) → ok = true := by
  intro K
  induction K with
  | zero =>
    intro ins g n ok o g' n' h ho
    simp only [play, Option.some.injEq] at h
    subst h; simp [Out.node] at ho; exact ho.2.2
  | succ K ih =>
    intro ins g n ok o g' n' h ho
    unfold play at h
    split at h
    · simp only [Option.some.injEq] at h; subst h; simp [Out.node] at ho; exact ho.2.2
    · split_ifs at h
      · simp only [Option.some.injEq] at h; subst h; simp [Out.node] at ho; exact ho.2.2
      · simp only [Option.some.injEq] at h; subst h; simp [Out.node] at ho
      · split at h
        · simp at h
        · split at h
          · simp only [Option.some.injEq] at h; subst h; simp [Out.node] at ho; exact ho.2.2
          · split at h
            · simp at h
            · split at h
              · simp at h
              · exact ih _ _ _ _ h ho
      · split at h
        · simp at h
        · split at h
          · simp at h
          · have := ih _ _ _ _ h ho
            simp at this; exact this.1

theorem i_reached {F : Nat} : ∀ (K : Nat) (ins : List Int) (g : Glob) (n : Node) (ok : Bool) {o g' n'},
    Reached P cfg g n → play P cfg F K ins g n ok = some o → o.node = some (g', n', true) →
    Reached P cfg g' n' := by
  intro K
  induction K with
  | zero =>
    intro ins g n ok o g' n' hr h ho
    simp only [play, Option.some.injEq] at h
    subst h; simp [Out.node] at ho; obtain ⟨rfl, rfl, -⟩ := ho; exact hr
  | succ K ih =>
    intro ins g n ok o g' n' hr h ho
    unfold play at h
    split at h
    · simp only [Option.some.injEq] at h; subst h; simp [Out.node] at ho
      obtain ⟨rfl, rfl, -⟩ := ho; exact hr
    · split_ifs at h
      · simp only [Option.some.injEq] at h; subst h; simp [Out.node] at ho
        obtain ⟨rfl, rfl, -⟩ := ho; exact hr
      · simp only [Option.some.injEq] at h; subst h; simp [Out.node] at ho
      · split at h
        · simp at h
        · rename_i u hu
          split at h
          · simp only [Option.some.injEq] at h; subst h; simp [Out.node] at ho
            obtain ⟨rfl, rfl, -⟩ := ho; exact hr
          · split at h
            · simp at h
            · rename_i m hm
              split at h
              · simp at h
              · rename_i hd
                exact ih _ _ _ _ (.dec hr (i_at hu).2 (List.mem_of_getElem? (i_at hm).2) hd) h ho
      · split at h
        · simp at h
        · rename_i u hu
          split at h
          · simp at h
          · rename_i hd
            have hok := i_ok _ _ _ _ _ h ho
            simp only [Bool.and_eq_true] at hok
            exact ih _ _ _ _ (.app hr (i_at hu).2 hok.2 hd) h ho

/-- **C94** (soundness, partial: sessions in which every action chosen was applicable).  A session
stands at a node reached by progression; if no task is left there and the goal holds, the actions
carried out are a solution.  Missing: actions that are not applicable can be chosen as well
(`C94_inapplicable_violated`). -/
theorem C94_session_partial (hP : P.WF) (hcfg : cfg.Ok) {F K ins o g n}
    (h : session P cfg F K ins = some o) (ho : o.node = some (g, n, true)) :
    Reached P cfg g n ∧
      (n.abs = [] → n.prims = [] → (∀ f ∈ P.goal, n.state[f]? = some true) →
        IsSolution P (planOf n.sol)) := by
  have hr := i_reached _ _ _ _ _ .init h ho
  refine ⟨hr, fun ha hp hg => ?_⟩
  have hgoal : isGoal P n = true := by
    refine isGoal_iff.2 ⟨by simp [Node.firsts, ha, hp], ?_⟩
    intro f hf; exact hg f hf
  have hn := hr.ninv hP hcfg
  have hs : NodeSol P g.heap n [] 0 := Solved.sol ⟨hn, hgoal⟩
  have := C05_solutions_extend hP hcfg hr hs
  simpa using this

theorem i_ask (k j : Nat) (hj : j < k) :
    ∃ l : List Int, ∀ r, ask k (l ++ r) = some ((j : Int), r) := by
  by_cases h : k = 1
  · refine ⟨[], fun r => ?_⟩
    obtain rfl : j = 0 := by omega
    simp [ask, h]
  · exact ⟨[(j : Int)], fun r => by simp [ask, h]⟩

theorem i_at_nat {α : Type} {l : List α} {j : Nat} : at? l (j : Int) = l[j]? := by simp [at?]

/-- The input that chooses a method does not depend on the fuel. -/
theorem i_method_input {g : Glob} {n : Node} {j k m u : Nat} (hu : n.abs[j]? = some u)
    (hm : (methodsOf P (taskOf g.heap u))[k]? = some m) :
    ∃ l : List Int, ∀ F g' n', decompose P cfg F g n j m = some (g', n') → ∀ K r ok,
      play P cfg F (K + 1) (l ++ r) g n ok = play P cfg F K r g' n' ok := by
  obtain ⟨hj, -⟩ := List.getElem?_eq_some_iff.1 hu
  obtain ⟨hk, -⟩ := List.getElem?_eq_some_iff.1 hm
  obtain ⟨l1, h1⟩ := i_ask (n.abs.length + n.prims.length) j (by omega)
  obtain ⟨l2, h2⟩ := i_ask _ k hk
  refine ⟨l1 ++ l2, fun F g' n' hd K r ok => ?_⟩
  rw [play, List.append_assoc, h1]
  have e1 : ¬ ((j : Int) = -2) := by omega
  have e2 : ¬ ((j : Int) = -1) := by omega
  have e3 : (j : Int) < n.abs.length := by omega
  simp only [e1, e2, e3, if_false, if_true, i_at_nat, hu, h2, hm, Int.toNat_natCast, hd]

/-- The input that chooses an action does not depend on the fuel. -/
theorem i_action_input {g : Glob} {n : Node} {i u : Nat} (hu : n.prims[i]? = some u) :
    ∃ l : List Int, ∀ F g' n', apply P cfg F g n i = some (g', n') → ∀ K r ok,
      play P cfg F (K + 1) (l ++ r) g n ok =
        play P cfg F K r g' n' (ok && isApplicable P n.state (taskOf g.heap u)) := by
  obtain ⟨hj, -⟩ := List.getElem?_eq_some_iff.1 hu
  obtain ⟨l1, h1⟩ := i_ask (n.abs.length + n.prims.length) (n.abs.length + i) (by omega)
  refine ⟨l1, fun F g' n' hd K r ok => ?_⟩
  rw [play, h1]
  have e1 : ¬ (((n.abs.length + i : Nat) : Int) = -2) := by omega
  have e2 : ¬ (((n.abs.length + i : Nat) : Int) = -1) := by omega
  have e3 : ¬ (((n.abs.length + i : Nat) : Int) < n.abs.length) := by omega
  have e4 : ((n.abs.length + i : Nat) : Int) - n.abs.length = (i : Int) := by omega
  simp only [e1, e2, e3, if_false, e4, i_at_nat, hu, Int.toNat_natCast, hd]

/-- **C94** (every decomposition can be chosen).  For every unconstrained abstract task and every
method of it there is an input that makes the next round carry out this decomposition. -/
theorem C94_choose_method {F : Nat} {g : Glob} {n : Node} {j k m u : Nat} {g' n'} (hu : n.abs[j]? = some u)
    (hm : (methodsOf P (taskOf g.heap u))[k]? = some m)
    (hd : decompose P cfg F g n j m = some (g', n')) :
    ∃ l : List Int, ∀ K r ok, play P cfg F (K + 1) (l ++ r) g n ok = play P cfg F K r g' n' ok := by
  obtain ⟨l, hl⟩ := i_method_input (P := P) (cfg := cfg) hu hm
  exact ⟨l, hl F g' n' hd⟩

/-- **C94** (every action can be chosen).  For every unconstrained action there is an input that
makes the next round carry it out. -/
theorem C94_choose_action {F : Nat} {g : Glob} {n : Node} {i u : Nat} {g' n'} (hu : n.prims[i]? = some u)
    (hd : apply P cfg F g n i = some (g', n')) :
    ∃ l : List Int, ∀ K r ok, play P cfg F (K + 1) (l ++ r) g n ok =
      play P cfg F K r g' n' (ok && isApplicable P n.state (taskOf g.heap u)) := by
  obtain ⟨l, hl⟩ := i_action_input (P := P) (cfg := cfg) (g := g) hu
  exact ⟨l, hl F g' n' hd⟩

/-- **C94** (rounds are defined).  At a reached node, for every choice of an unconstrained task that
can be carried out (an abstract task with a method, or an applicable action) there is an input for
which the round has a defined outcome: all further input is left, and the session stands at a
reached node. -/
theorem C94_round_defined (hP : P.WF) (hcfg : cfg.Ok) {g n} (hr : Reached P cfg g n) :
    (∀ j u m, n.abs[j]? = some u → m ∈ methodsOf P (taskOf g.heap u) →
      ∃ F g' n', Reached P cfg g' n' ∧ decompose P cfg F g n j m = some (g', n') ∧
        ∃ l : List Int, ∀ f, F ≤ f → ∀ r ok,
          play P cfg f 1 (l ++ r) g n ok = some (.running r g' n' ok)) ∧
    (∀ i u, n.prims[i]? = some u → isApplicable P n.state (taskOf g.heap u) = true →
      ∃ F g' n', Reached P cfg g' n' ∧ apply P cfg F g n i = some (g', n') ∧
        ∃ l : List Int, ∀ f, F ≤ f → ∀ r ok,
          play P cfg f 1 (l ++ r) g n ok = some (.running r g' n' ok)) := by
  constructor
  · intro j u m hu hm
    obtain ⟨F, ⟨g', n'⟩, hF⟩ := C06_decompose_terminates hP hcfg hr hu hm
    obtain ⟨k, hk⟩ := List.mem_iff_getElem?.1 hm
    obtain ⟨l, hl⟩ := i_method_input (P := P) (cfg := cfg) hu hk
    refine ⟨F, g', n', .dec hr hu hm (hF F le_rfl), hF F le_rfl, l, fun f hf r ok => ?_⟩
    rw [hl f g' n' (hF f hf) 0 r ok, play]
  · intro i u hu ha
    obtain ⟨F, ⟨g', n'⟩, hF⟩ := C06_apply_terminates hP hcfg hr hu ha
    obtain ⟨l, hl⟩ := i_action_input (P := P) (cfg := cfg) (g := g) hu
    refine ⟨F, g', n', .app hr hu ha (hF F le_rfl), hF F le_rfl, l, fun f hf r ok => ?_⟩
    rw [hl f g' n' (hF f hf) 0 r ok, play, ha, Bool.and_true]

/-- **C94** (violation).  When no task is left, the program still asks for a task, and every number
other than `-1` and `-2` makes it read an array out of bounds. -/
theorem C94_end_violated {F K : Nat} {s : Int} {r g n ok} (ha : n.abs = []) (hp : n.prims = [])
    (h1 : s ≠ -1) (h2 : s ≠ -2) : play P cfg F (K + 1) (s :: r) g n ok = none := by
  unfold play
  simp [ask, ha, hp, h1, h2, at?]

/-- **C94** (violation).  A negative number other than these two does so at every node with at
least two unconstrained tasks. -/
theorem C94_negative_violated {F K : Nat} {s : Int} {r g n ok}
    (hn : n.abs.length + n.prims.length ≠ 1) (hs : s < -2) :
    play P cfg F (K + 1) (s :: r) g n ok = none := by
  unfold play
  have e1 : ¬ s = -2 := by omega
  have e2 : ¬ s = -1 := by omega
  have e3 : s < n.abs.length := by omega
  have e4 : s < 0 := by omega
  simp [ask, hn, e1, e2, e3, at?, e4]

/-- Task 0 has one method with the only subtask 1; action 1 needs fact 0, which never holds, and
adds the goal. -/
def iP : Problem where
  numFacts := 2
  prim t := t == 1
  prec t := if t = 1 then [0] else []
  add t := if t = 1 then [1] else []
  del _ := []
  cost _ := 1
  numMethods := 1
  head _ := 0
  sub _ := [1]
  ord _ := []
  init := 0
  s0 := []
  goal := [1]

theorem iP_wf : iP.WF where
  ord_lt := by simp [iP]
  ord_acyclic := by simp [iP]
  sub_ne := by simp [iP]
  head_abs := by simp [iP]
  init_abs := by simp [iP]
  prec_lt := by
    intro a f h
    simp only [iP] at h ⊢
    split_ifs at h <;> simp_all
  add_lt := by
    intro a f h
    simp only [iP] at h ⊢
    split_ifs at h <;> simp_all
  del_lt := by simp [iP]
  s0_lt := by simp [iP]
  goal_lt := by simp [iP]

/-- **C94** (violation).  The program carries out actions that are not applicable: in a well-formed
problem a session (here without any choice) ends with no task left and with the goal true, but the
actions carried out are not a solution. -/
theorem C94_inapplicable_violated :
    iP.WF ∧ ∃ g n, session iP exCfg 10 3 [-2] = some (.quit g n false) ∧ isGoal iP n = true ∧
      planOf n.sol = [1] ∧ ¬ IsSolution iP [1] := by
  refine ⟨iP_wf, _, _, rfl, by decide +kernel, by decide +kernel, ?_⟩
  rintro ⟨k, tr, -, -, -, s', he, -⟩
  cases he with
  | cons h _ =>
    have := h 0 (by simp [iP])
    simp [Problem.initState, iP] at this

/-- A session in the example problem: the task is decomposed, the rest of the choices is given, and
a solution is reached. -/
example : ∃ g n, session exP exCfg 20 9 [0, 0, 0, 0, -2] = some (.quit g n true) ∧ n.abs = [] ∧
    n.prims = [] ∧ (∀ f ∈ exP.goal, n.state[f]? = some true) :=
  ⟨_, _, rfl, by decide +kernel, by decide +kernel, by decide +kernel⟩

/-- The first decomposition of the example problem is one that can be chosen. -/
example : (initNode exP exCfg).2.abs[0]? = some 0 ∧
    (methodsOf exP (taskOf (initNode exP exCfg).1.heap 0))[0]? = some 0 ∧
    (decompose exP exCfg 20 (initNode exP exCfg).1 (initNode exP exCfg).2 0 0).isSome := by
  decide +kernel

end Verif.Props
