import Verif.PoBound
import Verif.Flat
import Verif.Props.SatPlan

/-! # C76, C77, C78: the SAT planner for partially ordered problems -/

namespace Verif.Props

open Verif.Htn Verif.Pdt Verif.Sog Verif.Sat Verif.Inv Relation

/-! ## C76 -/

/-- C76: the common graph of the methods of a vertex.  Each method puts different subtasks on different vertices; a pair
of vertices is an edge if and only if it is an ordering of one of the methods; and for the subtasks of one method, there
is an edge between their vertices if and only if the method orders them. -/
theorem C76_common_graph (P : Problem) (tot : Nat → List Nat) (clo : Nat → List (Nat × Nat)) (compact : Bool) (ms : List Nat)
    (ht : ∀ m ∈ ms, (tot m).Perm (List.range (P.sub m).length))
    (hc : ∀ m ∈ ms, (∀ i j, (i, j) ∈ clo m → (j, i) ∉ clo m) ∧ ∀ i j, (i, j) ∈ clo m → i < (P.sub m).length ∧ j < (P.sub m).length) :
    (poAll P tot clo compact ms).2.length = ms.length ∧
    (∀ (k m : Nat) (mp : List Nat), ms[k]? = some m → (poAll P tot clo compact ms).2[k]? = some mp →
      mp.length = (P.sub m).length ∧ mp.Nodup ∧ (∀ v ∈ mp, v < (poAll P tot clo compact ms).1.nv) ∧
      ∀ i < (P.sub m).length, ∀ j < (P.sub m).length,
        ((mp.getD i 0, mp.getD j 0) ∈ (poAll P tot clo compact ms).1.adj ↔ (i, j) ∈ clo m)) ∧
    ∀ u v, (u, v) ∈ (poAll P tot clo compact ms).1.adj ↔ ∃ (k m : Nat) (mp : List Nat) (i j : Nat), ms[k]? = some m ∧
      (poAll P tot clo compact ms).2[k]? = some mp ∧ (i, j) ∈ clo m ∧ u = mp.getD i 0 ∧ v = mp.getD j 0 := by
  obtain ⟨-, -, h3⟩ := poAll_spec (P := P) (compact := compact) ht hc
  obtain ⟨-, hd⟩ := poAll_direct (P := P) (compact := compact) (tot := tot) (clo := clo) (ms := ms) ht hc
  have hpr := poAll_prov (P := P) (compact := compact) ht hc
  have hzip : ∀ m mp, (m, mp) ∈ ms.zip (poAll P tot clo compact ms).2 ↔ ∃ k : Nat, ms[k]? = some m ∧ (poAll P tot clo compact ms).2[k]? = some mp := by
    intro m mp
    rw [List.mem_iff_getElem?]
    exact exists_congr fun k => by rw [List.getElem?_zip_eq_some]
  refine ⟨h3.length_eq.symm, fun k m mp hm hmp => ?_, fun u v => ?_⟩
  · have hz := (hzip m mp).2 ⟨k, hm, hmp⟩
    have hmm := List.mem_of_getElem? hm
    obtain ⟨hp, hk⟩ := List.forall₂_zip h3 hz
    have hperm := ht m hmm
    have hlen : mp.length = (P.sub m).length := by rw [hp.length, hperm.length_eq, List.length_range]
    have hget : ∀ v ∈ mp, ∃ i < (P.sub m).length, mp.getD i 0 = v := by
      intro v hv
      obtain ⟨i, hi, rfl⟩ := List.mem_iff_getElem.1 hv
      exact ⟨i, hlen ▸ hi, List.getD_eq_getElem _ _ hi⟩
    have hin : ∀ i, i < (P.sub m).length → i ∈ tot m := fun i hi => hperm.mem_iff.2 (List.mem_range.2 hi)
    have hinj : ∀ i < (P.sub m).length, ∀ j < (P.sub m).length, i ≠ j → mp.getD i 0 ≠ mp.getD j 0 := by
      intro i hi j hj hij
      obtain ⟨x, hx, hxe⟩ := List.mem_iff_getElem.1 (hin i hi)
      obtain ⟨y, hy, hye⟩ := List.mem_iff_getElem.1 (hin j hj)
      have hpw := List.pairwise_iff_getElem.1 hp.inj
      rcases Nat.lt_trichotomy x y with h | rfl | h
      · have := hpw x y hx hy h; rwa [hxe, hye] at this
      · exact absurd (hxe.symm.trans hye) hij
      · have := hpw y x hy hx h; rw [hxe, hye] at this; exact this.symm
    refine ⟨hlen, ?_, ?_, fun i hi j hj => ⟨?_, fun h => hk i j h⟩⟩
    · unfold List.Nodup
      rw [List.pairwise_iff_getElem]
      intro i j hi hj hij
      have := hinj i (hlen ▸ hi) j (hlen ▸ hj) (by omega)
      rwa [List.getD_eq_getElem _ _ hi, List.getD_eq_getElem _ _ hj] at this
    · intro v hv
      obtain ⟨i, hi, rfl⟩ := hget v hv
      exact hp.lt i (hin i hi)
    · exact fun h => List.forall₂_zip hd hz i hi j hj h
  · rw [hpr]
    constructor
    · rintro ⟨⟨m, mp⟩, hx, i, j, hij, he⟩
      obtain ⟨k, h1, h2⟩ := (hzip m mp).1 hx
      obtain ⟨rfl, rfl⟩ := Prod.mk.inj he
      exact ⟨k, m, mp, i, j, h1, h2, hij, rfl, rfl⟩
    · rintro ⟨k, m, mp, i, j, h1, h2, hij, rfl, rfl⟩
      exact ⟨(m, mp), (hzip m mp).2 ⟨k, h1, h2⟩, i, j, hij, rfl⟩

/-- At every vertex of the tree, all methods are totally ordered, or all but at most one have no orderings. -/
def Tame (P : Problem) (cfg : Cfg) (K : Nat) : Prop :=
  ∀ p d, (tree P cfg K).nd p = some d → (∀ m ∈ msAt P cfg d, cfg.isTO m = true) ∨
    ∃ m0, ∀ m ∈ msAt P cfg d, m ≠ m0 → ∀ i j, ¬ P.OrdRel m i j

/-- C76: the graphs of such vertices have no cycles and, with the orders that follow by transitivity, impose no order on
the subtasks of a method beyond the order of the method. -/
theorem C76_tame_graphs (P : Problem) (cfg : Cfg) (hP : P.WF) (hc : CfgOK P cfg) (hcf : cfg.compact = false) (hpo : cfg.po = true) (K : Nat)
    (h : Tame P cfg K) : AcyclicAll P cfg K ∧ ExactAll P cfg K := by
  have hst := C52_defined P hP cfg hc hcf K
  have key : ∀ p d, (tree P cfg K).nd p = some d → AcyclicAt P cfg d ∧ ExactAt P cfg d := by
    intro p d hd
    refine closed_good hP hc hpo ?_
    rcases h p d hd with h | ⟨m0, h⟩
    · exact closed_of hc hpo (.inl h)
    · exact closed_of_one hP hc hpo ((tree_ok hP hc hst).nd p d hd) h
  exact ⟨fun p d hd => (key p d hd).1, fun p d hd => (key p d hd).2⟩

/-! ## C77 -/

/-- C77, partial: whatever satisfying assignments the solver returns, what the planner prints is a solution with at most
as many methods on each path as the depth it announces; and there is no undefined behaviour as long as the leaves can be
numbered with 16 bits.  Assumed in addition to what the statement says: every action has an effect, and no graph of a
vertex has a cycle. -/
theorem C77_plans_are_solutions_partial (P : Problem) (cfg : Cfg) (o : SatOpts) (iter : List Nat → List Nat)
    (hin : PoInput P cfg o iter) (hcf : cfg.compact = false) (heff : AllEff P) (hac : ∀ K, AcyclicAll P cfg K)
    (solve : List Clause → Option Assignment) (hsat : ∀ cs w, solve cs = some w → satAll w cs) (fuel : Nat) :
    ((∀ K ≤ fuel, (tree P cfg K).leaves.length ≤ 65536) → satPlanPO P cfg o iter solve fuel ≠ .undef) ∧
    ∀ K π, satPlanPO P cfg o iter solve fuel = .plan K π → IsSolution P π ∧ SolutionOfHeight P K π := by
  have hst := fun K => C52_defined P hin.wf cfg hin.conf hcf K
  constructor
  · intro hsz
    have key : ∀ f K n V, VMInv (tree P cfg K) n V → K + f ≤ fuel + 1 → satLoopPO P cfg o iter solve f K n V ≠ .undef := by
      intro f
      induction f with
      | zero => intro K n V _ _; simp [satLoopPO]
      | succ f ih =>
        intro K n V hV hK
        rw [satLoopPO]
        obtain ⟨n1, V', l, s, M, hp⟩ := partsPO_exist hin (hst K) heff (hsz K (by omega)) hV
        obtain ⟨hV', -, -⟩ := depthPO_formula hin (hst K) heff (hac K) hV hp.formula
        rw [hp.formula]
        simp only
        split
        · simp
        · exact ih (K + 1) _ V' hV'.next (by omega)
    exact key fuel 1 0 _ (vmInv_empty _ _) (by omega)
  · intro K π h
    have h2 := satLoopPO_sound hin hst heff hac hsat fuel 1 0 (fun _ => none) (vmInv_empty _ _) K π h
    exact ⟨h2.1.isSolution, h2.1⟩

/-! ## C78 -/

/-- C78, partial: the formula for depth `K` is exact.  The plans that are printed for its models are the solutions with at
most `K` methods on each path whose actions do not add and delete the same fact.  Assumed in addition to what the
statement says: every action has an effect, and the graphs have no cycles and impose no orders beyond those of the
methods. -/
theorem C78_formula_exact_partial (P : Problem) (cfg : Cfg) (o : SatOpts) (iter : List Nat → List Nat)
    (hin : PoInput P cfg o iter) (hcf : cfg.compact = false) (heff : AllEff P) (hmu : MutexAll P o) (K : Nat)
    (hac : AcyclicAll P cfg K) (hexa : ExactAll P cfg K) (hsz : (tree P cfg K).leaves.length ≤ 65536) :
    ∃ V n cs M, depthFormulaPO P cfg o iter (tree P cfg K) 0 (fun _ => none) = .formula V n cs M ∧
      ∀ π, (∃ w, satAll w cs ∧ printedPO (tree P cfg K) V M w = π) ↔ SolutionOfHeight P K π ∧ ∀ a ∈ π, NoClash P a := by
  have hst := C52_defined P hin.wf cfg hin.conf hcf K
  obtain ⟨n1, V', l, s, M, hp⟩ := partsPO_exist hin hst heff hsz (vmInv_empty (tree P cfg K) 0)
  obtain ⟨-, h1, h2⟩ := depthPO_formula hin hst heff hac (vmInv_empty (tree P cfg K) 0) hp.formula
  refine ⟨_, _, _, _, hp.formula, fun π => ⟨?_, fun h => h2 hexa hmu π h.1 h.2⟩⟩
  rintro ⟨w, hw, rfl⟩
  exact h1 w hw

/-- C78, partial (see above): the planner stops at the least depth for which there is a solution of actions that do not
add and delete the same fact. -/
theorem C78_stops_at_least_depth_partial (P : Problem) (cfg : Cfg) (o : SatOpts) (iter : List Nat → List Nat)
    (hin : PoInput P cfg o iter) (hcf : cfg.compact = false) (heff : AllEff P) (hmu : MutexAll P o)
    (hac : ∀ K, AcyclicAll P cfg K) (hexa : ∀ K, ExactAll P cfg K)
    (solve : List Clause → Option Assignment) (hso : SolverOK solve) (K : Nat)
    (hsz : ∀ k ≤ K, (tree P cfg k).leaves.length ≤ 65536) (hex : ∃ π, SolutionOfHeight P K π ∧ ∀ a ∈ π, NoClash P a) :
    ∃ k ≤ K, (∀ k' < k, ¬ ∃ π, SolutionOfHeight P k' π ∧ ∀ a ∈ π, NoClash P a) ∧
      ∀ fuel ≥ K, ∃ π, satPlanPO P cfg o iter solve fuel = .plan k π ∧ SolutionOfHeight P k π := by
  classical
  have hst := fun K => C52_defined P hin.wf cfg hin.conf hcf K
  have hex' : ∃ k, ∃ π, SolutionOfHeight P k π ∧ ∀ a ∈ π, NoClash P a := ⟨K, hex⟩
  have hle : Nat.find hex' ≤ K := Nat.find_min' hex' hex
  have hpos : Nat.find hex' ≠ 0 := by
    intro h0
    obtain ⟨π, hπ, -⟩ := Nat.find_spec hex'
    rw [h0] at hπ
    exact no_height_zero hin.wf ⟨π, hπ⟩
  exact ⟨_, hle, fun k hk => Nat.find_min hex' hk, fun fuel hf =>
    satLoopPO_complete hin hst heff hac hexa hmu hso (fun k hk => hsz k (hk.trans hle)) (Nat.find_spec hex')
      (fun k hk => Nat.find_min hex' hk) fuel 1 0 _ (vmInv_empty _ _) (by omega) (by omega)⟩

/-! ## Concrete cases -/

/-- Sorting by the number of subtasks. -/
def sortBy (P : Problem) : List (Nat × Nat × Nat) → List (Nat × Nat × Nat) :=
  List.insertionSort fun a b => (P.sub b.1).length ≤ (P.sub a.1).length

theorem sortBy_ok (P : Problem) : SortOK P (sortBy P) := by
  intro l
  refine ⟨List.perm_insertionSort _ _, ?_⟩
  haveI : Std.Total fun a b : Nat × Nat × Nat => (P.sub b.1).length ≤ (P.sub a.1).length := ⟨fun a b => Nat.le_total _ _⟩
  haveI : IsTrans (Nat × Nat × Nat) fun a b => (P.sub b.1).length ≤ (P.sub a.1).length := ⟨fun a b c h h' => Nat.le_trans h' h⟩
  exact List.pairwise_insertionSort _ _

/-- Configurations for problems whose orderings are transitively closed in the input. -/
def poCfgOf (P : Problem) (tot : Nat → List Nat) (isTO : Nat → Bool) : Cfg where
  tot := tot
  compact := false
  sortM := sortBy P
  po := true
  isTO := isTO
  clo := P.ord

theorem closed_ord {P : Problem} {m : Nat} (h : ∀ e ∈ P.ord m, ∀ e' ∈ P.ord m, e.2 = e'.1 → (e.1, e'.2) ∈ P.ord m) (i j : Nat) :
    (i, j) ∈ P.ord m ↔ TransGen (P.OrdRel m) i j := by
  constructor
  · exact fun h => .single h
  · intro h'
    induction h' with
    | single h => exact h
    | tail _ h1 ih => exact h _ ih _ h1 rfl

theorem poCfgOf_ok (P : Problem) (tot : Nat → List Nat) (isTO : Nat → Bool)
    (ht : ∀ m < P.numMethods, (tot m).Perm (List.range (P.sub m).length))
    (hs : ((List.range P.numMethods).map fun m => (P.sub m).length).sum ≤ 65536)
    (hc : ∀ m < P.numMethods, ∀ e ∈ P.ord m, ∀ e' ∈ P.ord m, e.2 = e'.1 → (e.1, e'.2) ∈ P.ord m)
    (hto : ∀ m < P.numMethods, isTO m = true → (tot m).Pairwise fun i j => (i, j) ∈ P.ord m) : CfgOK P (poCfgOf P tot isTO) :=
  ⟨ht, sortBy_ok P, fun d hd => bound_of ht (sortBy_ok P) rfl hs d hd,
    fun _ => ⟨fun m hm => closed_ord (hc m hm), hto⟩⟩

/-- No mutexes; at-most-one constraints with as many bits as there are literals. -/
def poO : SatOpts := ⟨fun k => k, .none, false, none⟩

theorem poO_mutex (P : Problem) : MutexAll P poO := fun G B h => by simp [poO] at h

/-- Actions 0, 1, 2; action 1 needs what 0 adds.  The initial task 3 is decomposed into 0 and 4 in any order; task 4 into 1
and, after it, twice 2 in any order. -/
def poP : Problem where
  numFacts := 3
  prim := fun t => decide (t < 3)
  prec := fun a => if a = 1 then [0] else []
  add := fun a => if a < 3 then [a] else []
  del := fun _ => []
  cost := fun _ => 1
  numMethods := 2
  head := fun m => if m = 0 then 3 else 4
  sub := fun m => if m = 0 then [0, 4] else [1, 2, 2]
  ord := fun m => if m = 0 then [] else [(0, 1), (0, 2)]
  init := 3
  s0 := []
  goal := [1, 2]

def poCfg : Cfg := poCfgOf poP (fun m => if m = 0 then [0, 1] else [0, 1, 2]) fun _ => false

theorem poP_input : PoInput poP poCfg poO id := by
  refine ⟨⟨?_, ?_, by decide, by decide, by decide, ?_, ?_, by intro a f h; simp [poP] at h, by decide, by decide⟩,
    poCfgOf_ok _ _ _ (by decide) (by decide) (by decide) (by decide), ⟨⟨0, by decide, rfl⟩, by decide⟩, fun k => Nat.lt_two_pow_self.le, rfl,
    fun l => .refl l⟩
  · have : ∀ m < poP.numMethods, ∀ e ∈ poP.ord m, e.1 < (poP.sub m).length ∧ e.2 < (poP.sub m).length := by decide
    exact fun m hm i j h => this m hm (i, j) h
  · have : ∀ m < poP.numMethods, ∀ e ∈ poP.ord m, e.1 < e.2 := by decide
    exact fun m hm => ⟨id, fun i j h => this m hm (i, j) h⟩
  · intro a f hf
    simp only [poP] at hf ⊢
    split_ifs at hf <;> simp at hf
    omega
  · intro a f hf
    simp only [poP] at hf ⊢
    split_ifs at hf <;> simp at hf
    omega

theorem poP_eff : AllEff poP := by
  intro a ha
  simp only [poP, decide_eq_true_eq] at ha
  simp [hasEff, poP, ha]

theorem poP_tame (K : Nat) : Tame poP poCfg K := by
  intro p d _
  refine .inr ⟨1, fun m hms hm i j h => ?_⟩
  have hlt : m < 2 := msAt_lt poP_input.conf m hms
  obtain rfl : m = 0 := by omega
  exact absurd h (by simp [Problem.OrdRel, poP])

/-- In the following problem, action 0 deletes fact 0, which action 1 needs; action 1 has no effect.  The initial task is
decomposed into 0, 1 and 2 such that 0 is before 1. -/
def lateP : Problem where
  numFacts := 3
  prim := fun t => decide (t < 3)
  prec := fun a => if a = 1 then [0] else []
  add := fun a => if a = 0 then [1] else if a = 2 then [2] else []
  del := fun a => if a = 0 then [0] else []
  cost := fun _ => 1
  numMethods := 1
  head := fun _ => 3
  sub := fun _ => [0, 1, 2]
  ord := fun _ => [(0, 1)]
  init := 3
  s0 := [0]
  goal := [1, 2]

def lateCfg : Cfg := poCfgOf lateP (fun _ => [0, 1, 2]) fun _ => false

/-- Action 1, which has no effect, needs what action 0 adds.  The initial task is decomposed into 0 and, after it, twice 1. -/
def trailP : Problem where
  numFacts := 1
  prim := fun t => decide (t < 2)
  prec := fun a => if a = 1 then [0] else []
  add := fun a => if a = 0 then [0] else []
  del := fun _ => []
  cost := fun _ => 1
  numMethods := 1
  head := fun _ => 2
  sub := fun _ => [0, 1, 1]
  ord := fun _ => [(0, 1), (0, 2)]
  init := 2
  s0 := []
  goal := [0]

def trailCfg : Cfg := poCfgOf trailP (fun _ => [0, 1, 2]) fun _ => false

/-- Three methods for the initial task: 0 before 1, 1 before 2, and 0 and 2 in any order.  Action 0 needs what 2 adds, and
the goal needs both. -/
def chainP : Problem where
  numFacts := 3
  prim := fun t => decide (t < 3)
  prec := fun a => if a = 0 then [0] else []
  add := fun a => if a = 0 then [1] else if a = 1 then [2] else if a = 2 then [0] else []
  del := fun _ => []
  cost := fun _ => 1
  numMethods := 3
  head := fun _ => 3
  sub := fun m => if m = 0 then [0, 1] else if m = 1 then [1, 2] else [0, 2]
  ord := fun m => if m = 2 then [] else [(0, 1)]
  init := 3
  s0 := []
  goal := [0, 1]

def chainCfg : Cfg := poCfgOf chainP (fun _ => [0, 1]) fun m => m != 2

/-- Methods whose orders together make a cycle.  Action 3 needs what 4 adds, only the method that puts 3 before 4 contains
it, and the goal needs it. -/
def cycleP : Problem where
  numFacts := 3
  prim := fun t => decide (t < 5)
  prec := fun a => if a = 3 then [1] else []
  add := fun a => if a < 3 then [2] else if a = 3 then [0] else if a = 4 then [1] else []
  del := fun _ => []
  cost := fun _ => 1
  numMethods := 5
  head := fun _ => 5
  sub := fun m => if m = 0 then [0, 1, 2] else if m = 1 then [1, 0, 1] else if m = 2 then [0, 1, 0] else if m = 3 then [3, 4] else [1, 1]
  ord := fun m => if m = 0 then [(0, 1), (0, 2), (2, 1)] else if m < 3 then [(0, 1), (2, 0), (2, 1)] else if m = 3 then [(0, 1)] else []
  init := 5
  s0 := []
  goal := [0]

def cycleCfg : Cfg := poCfgOf cycleP (fun m => if m = 0 then [0, 2, 1] else if m < 3 then [2, 0, 1] else [0, 1]) fun m => decide (m < 4)

/-- The clauses for a depth. -/
def clausesAt (P : Problem) (cfg : Cfg) (K : Nat) : Option (List Clause) :=
  match depthFormulaPO P cfg poO id (tree P cfg K) 0 (fun _ => none) with
  | .undef => none
  | .formula _ _ cs _ => some cs

theorem clausesAt_some {P : Problem} {cfg : Cfg} {K : Nat} {p : List Clause → Bool} (h : (clausesAt P cfg K).any p = true) :
    ∃ V n cs M, depthFormulaPO P cfg poO id (tree P cfg K) 0 (fun _ => none) = .formula V n cs M ∧ p cs = true := by
  unfold clausesAt at h
  cases hd : depthFormulaPO P cfg poO id (tree P cfg K) 0 (fun _ => none) with
  | undef => rw [hd] at h; simp at h
  | formula V n cs M => rw [hd] at h; exact ⟨V, n, cs, M, rfl, h⟩

/-- If the formula has a model, the planner prints something. -/
theorem plan_of_model {P : Problem} {cfg : Cfg} {t : List Nat} (h : (clausesAt P cfg 1).any (checkModel t) = true)
    {solve : List Clause → Option Assignment} (hso : SolverOK solve) (fuel : Nat) :
    ∃ π, satPlanPO P cfg poO id solve (fuel + 1) = .plan 1 π := by
  obtain ⟨V, n, cs, M, hd, hc⟩ := clausesAt_some h
  unfold satPlanPO
  rw [satLoopPO, hd]
  simp only
  cases hs : solve cs with
  | none => exact absurd ⟨_, checkModel_sound hc⟩ (hso.unsat _ hs)
  | some w => exact ⟨_, rfl⟩

theorem plan_depth {P : Problem} {cfg : Cfg} {o : SatOpts} {iter : List Nat → List Nat} {solve : List Clause → Option Assignment} :
    ∀ (f K n : Nat) (V : VM) (K' : Nat) (π : List Nat), satLoopPO P cfg o iter solve f K n V = .plan K' π → K ≤ K'
  | 0, K, n, V, K', π, h => by simp [satLoopPO] at h
  | f + 1, K, n, V, K', π, h => by
    rw [satLoopPO] at h
    cases hd : depthFormulaPO P cfg o iter (tree P cfg K) n V with
    | undef => rw [hd] at h; simp at h
    | formula V' n' cs M =>
      rw [hd] at h
      simp only at h
      cases hs : solve cs with
      | none =>
        rw [hs] at h
        exact Nat.le_of_succ_le (plan_depth f (K + 1) n' V' K' π h)
      | some w =>
        rw [hs] at h
        simp only [LRes.plan.injEq] at h
        omega

/-- If the formula has no model, the planner does not stop at this depth. -/
theorem no_plan_of_refute {P : Problem} {cfg : Cfg} {f : Nat} (h : (clausesAt P cfg 1).any (refute f) = true)
    {solve : List Clause → Option Assignment} (hsat : ∀ cs w, solve cs = some w → satAll w cs) (fuel : Nat) (π : List Nat) :
    satPlanPO P cfg poO id solve fuel ≠ .plan 1 π := by
  obtain ⟨V, n, cs, M, hd, hc⟩ := clausesAt_some h
  intro hp
  unfold satPlanPO at hp
  cases fuel with
  | zero => simp [satLoopPO] at hp
  | succ fuel =>
    rw [satLoopPO, hd] at hp
    simp only at hp
    cases hs : solve cs with
    | none =>
      rw [hs] at hp
      have := plan_depth _ _ _ _ _ _ hp
      omega
    | some w => exact refute_sound f cs hc ⟨w, hsat cs w hs⟩

/-- The hypotheses of C76, C77 and C78 are met by a problem that needs interleaving, and the planner finds a plan for it. -/
example : Tame poP poCfg 2 ∧ AllEff poP ∧ PoInput poP poCfg poO id ∧ (∀ a, poP.prim a = true → NoClash poP a) ∧
    ∃ k ≤ 2, ∃ π, satPlanPO poP poCfg poO id idealSolver 2 = .plan k π ∧ IsSolution poP π := by
  have hall := fun K => C76_tame_graphs _ _ poP_input.wf poP_input.conf rfl rfl K (poP_tame K)
  have hcl : ∀ a, NoClash poP a := fun a f _ h => by simp [poP] at h
  refine ⟨poP_tame 2, poP_eff, poP_input, fun a _ => hcl a, ?_⟩
  have hm : (clausesAt poP poCfg 2).any (checkModel [2, 3, 5, 7, 8, 10, 12, 14, 15, 19, 23, 26, 30, 33, 34, 36, 37, 38, 39, 40, 41, 42,
    47, 53, 56, 58, 59, 60, 61, 62, 63, 64, 65, 74, 78]) = true := by decide +kernel
  have hsz : ∀ k ≤ 2, (tree poP poCfg k).leaves.length ≤ 65536 := by decide +kernel
  obtain ⟨V, n, cs, M, hd, hc⟩ := clausesAt_some hm
  obtain ⟨V', n', cs', M', hd', hiff⟩ := C78_formula_exact_partial _ _ _ _ poP_input rfl poP_eff (poO_mutex _) 2 (hall 2).1 (hall 2).2
    (hsz 2 (Nat.le_refl _))
  rw [hd] at hd'
  obtain ⟨rfl, rfl, rfl, rfl⟩ := FResPO.formula.inj hd'
  have hsol := (hiff _).1 ⟨_, checkModel_sound hc, rfl⟩
  obtain ⟨k, hk, -, h⟩ := C78_stops_at_least_depth_partial _ _ _ _ poP_input rfl poP_eff (poO_mutex _) (fun K => (hall K).1) (fun K => (hall K).2)
    idealSolver idealSolver_ok 2 hsz ⟨_, hsol⟩
  obtain ⟨π, h1, h2⟩ := h 2 (Nat.le_refl _)
  exact ⟨k, hk, π, h1, h2.isSolution⟩

theorem lateP_input : PoInput lateP lateCfg poO id := by
  refine ⟨⟨?_, ?_, by decide, by decide, by decide, ?_, ?_, ?_, by decide, by decide⟩,
    poCfgOf_ok _ _ _ (by decide) (by decide) (by decide) (by decide), ⟨⟨0, by decide, rfl⟩, by decide⟩, fun k => Nat.lt_two_pow_self.le, rfl,
    fun l => .refl l⟩
  · have : ∀ m < lateP.numMethods, ∀ e ∈ lateP.ord m, e.1 < (lateP.sub m).length ∧ e.2 < (lateP.sub m).length := by decide
    exact fun m hm i j h => this m hm (i, j) h
  · have : ∀ m < lateP.numMethods, ∀ e ∈ lateP.ord m, e.1 < e.2 := by decide
    exact fun m hm => ⟨id, fun i j h => this m hm (i, j) h⟩
  all_goals
    intro a f hf
    simp only [lateP] at hf ⊢
    split_ifs at hf <;> simp at hf <;> omega

theorem trailP_input : PoInput trailP trailCfg poO id := by
  refine ⟨⟨?_, ?_, by decide, by decide, by decide, ?_, ?_, ?_, by decide, by decide⟩,
    poCfgOf_ok _ _ _ (by decide) (by decide) (by decide) (by decide), ⟨⟨0, by decide, rfl⟩, by decide⟩, fun k => Nat.lt_two_pow_self.le, rfl,
    fun l => .refl l⟩
  · have : ∀ m < trailP.numMethods, ∀ e ∈ trailP.ord m, e.1 < (trailP.sub m).length ∧ e.2 < (trailP.sub m).length := by decide
    exact fun m hm i j h => this m hm (i, j) h
  · have : ∀ m < trailP.numMethods, ∀ e ∈ trailP.ord m, e.1 < e.2 := by decide
    exact fun m hm => ⟨id, fun i j h => this m hm (i, j) h⟩
  · intro a f hf
    simp only [trailP] at hf ⊢
    split_ifs at hf <;> simp at hf <;> omega
  · intro a f hf
    simp only [trailP] at hf ⊢
    split_ifs at hf <;> simp at hf <;> omega
  · intro a f hf
    simp [trailP] at hf

theorem chainP_input : PoInput chainP chainCfg poO id := by
  refine ⟨⟨?_, ?_, by decide, by decide, by decide, ?_, ?_, ?_, by decide, by decide⟩,
    poCfgOf_ok _ _ _ (by decide) (by decide) (by decide) (by decide), ⟨⟨0, by decide, rfl⟩, by decide⟩, fun k => Nat.lt_two_pow_self.le, rfl,
    fun l => .refl l⟩
  · have : ∀ m < chainP.numMethods, ∀ e ∈ chainP.ord m, e.1 < (chainP.sub m).length ∧ e.2 < (chainP.sub m).length := by decide
    exact fun m hm i j h => this m hm (i, j) h
  · have : ∀ m < chainP.numMethods, ∀ e ∈ chainP.ord m, e.1 < e.2 := by decide
    exact fun m hm => ⟨id, fun i j h => this m hm (i, j) h⟩
  · intro a f hf
    simp only [chainP] at hf ⊢
    split_ifs at hf <;> simp at hf <;> omega
  · intro a f hf
    simp only [chainP] at hf ⊢
    split_ifs at hf <;> simp at hf <;> omega
  · intro a f hf
    simp [chainP] at hf

theorem cycleP_input : PoInput cycleP cycleCfg poO id := by
  refine ⟨⟨?_, ?_, by decide, by decide, by decide, ?_, ?_, ?_, by decide, by decide⟩,
    poCfgOf_ok _ _ _ (by decide) (by decide) (by decide) (by decide), ⟨⟨0, by decide, rfl⟩, by decide⟩, fun k => Nat.lt_two_pow_self.le, rfl,
    fun l => .refl l⟩
  · have : ∀ m < cycleP.numMethods, ∀ e ∈ cycleP.ord m, e.1 < (cycleP.sub m).length ∧ e.2 < (cycleP.sub m).length := by decide
    exact fun m hm i j h => this m hm (i, j) h
  · have : ∀ m < cycleP.numMethods, ∀ e ∈ cycleP.ord m, (cycleCfg.tot m).idxOf e.1 < (cycleCfg.tot m).idxOf e.2 := by decide
    exact fun m hm => ⟨fun i => (cycleCfg.tot m).idxOf i, fun i j h => this m hm (i, j) h⟩
  · intro a f hf
    simp only [cycleP] at hf ⊢
    split_ifs at hf <;> simp at hf <;> omega
  · intro a f hf
    simp only [cycleP] at hf ⊢
    split_ifs at hf <;> simp at hf <;> omega
  · intro a f hf
    simp [cycleP] at hf

set_option maxRecDepth 10000 in
/-- C77 without the assumption on effects fails: an action without effects may be put on the same position of the plan as
the action before it, that is, be executed before it.  The problem has no solution, but the planner prints a plan. -/
theorem C77_effectless_violated (solve : List Clause → Option Assignment) (hso : SolverOK solve) (fuel : Nat) :
    PoInput lateP lateCfg poO id ∧ (∀ K, AcyclicAll lateP lateCfg K) ∧ (¬ ∃ π, IsSolution lateP π) ∧
    ∃ π, satPlanPO lateP lateCfg poO id solve (fuel + 1) = .plan 1 π := by
  refine ⟨lateP_input, fun K => (C76_tame_graphs _ _ lateP_input.wf lateP_input.conf rfl rfl K fun p d _ => .inr ⟨0, fun m hm hne => ?_⟩).1,
    flat_unsolvable lateP_input.wf (by unfold FlatP; decide) (fun m hm i j h => .single h) (clo := lateP.ord) (by decide +kernel),
    plan_of_model (t := [2, 3, 5, 7, 9, 12, 13, 14, 16, 19, 21, 23, 24, 26, 28, 29, 31, 32, 33, 34, 35, 38]) (by decide +kernel) hso fuel⟩
  have : m < 1 := msAt_lt lateP_input.conf m hm
  omega

set_option maxRecDepth 10000 in
/-- C77 without the assumption on cycles fails: if the graph of a vertex has a cycle, the removal of transitive orderings
removes edges that do not follow from others.  All actions have effects and the problem has no solution, but the planner
prints a plan. -/
theorem C77_cycle_violated (solve : List Clause → Option Assignment) (hso : SolverOK solve) (fuel : Nat) :
    PoInput cycleP cycleCfg poO id ∧ AllEff cycleP ∧ (¬ ∃ π, IsSolution cycleP π) ∧
    ∃ π, satPlanPO cycleP cycleCfg poO id solve (fuel + 1) = .plan 1 π := by
  refine ⟨cycleP_input, ?_, flat_unsolvable cycleP_input.wf (by unfold FlatP; decide) (fun m hm i j h => .single h) (clo := cycleP.ord) (by decide +kernel),
    plan_of_model (t := [2, 6, 10, 13, 14, 17, 19, 21, 44, 48, 69, 71, 72, 79, 84, 110, 111, 120, 121, 128, 129, 130, 131, 134, 135, 136,
      137, 140, 141, 142, 143, 146, 147, 148, 149]) (by decide +kernel) hso fuel⟩
  intro a ha
  simp only [cycleP, decide_eq_true_eq] at ha
  match a, ha with
  | 0, _ | 1, _ | 2, _ | 3, _ | 4, _ => rfl

set_option maxRecDepth 10000 in
/-- C78 without the assumption on effects fails: there are as many positions as leaves with actions that have effects, so
that an action without effects cannot be executed after the last one of them. -/
theorem C78_effectless_violated (solve : List Clause → Option Assignment) (hsat : ∀ cs w, solve cs = some w → satAll w cs) (fuel : Nat)
    (π : List Nat) :
    PoInput trailP trailCfg poO id ∧ (∀ K, AcyclicAll trailP trailCfg K ∧ ExactAll trailP trailCfg K) ∧
    SolutionOfHeight trailP 1 [0, 1, 1] ∧ (∀ a, NoClash trailP a) ∧ satPlanPO trailP trailCfg poO id solve fuel ≠ .plan 1 π := by
  refine ⟨trailP_input, fun K => C76_tame_graphs _ _ trailP_input.wf trailP_input.conf rfl rfl K fun p d _ => .inr ⟨0, fun m hm hne => ?_⟩, ?_,
    fun a f _ h => by simp [trailP] at h, no_plan_of_refute (f := 100) (by decide +kernel) hsat fuel π⟩
  · have : m < 1 := msAt_lt trailP_input.conf m hm
    omega
  · rw [flat_solution trailP_input.wf (by unfold FlatP; decide)]
    refine ⟨0, by decide, rfl, [0, 1, 2], by decide, ?_, by decide, by decide⟩
    have hcl := closed_ord (P := trailP) (m := 0) (by decide)
    simp only [← hcl]
    decide

set_option maxRecDepth 10000 in
/-- C78 without the assumption on the graphs fails: two methods put an edge from 0 to 1 and one from 1 to 2, and a third
one, which does not order its subtasks, puts them on 0 and 2.  All actions have effects; the graph has no cycle. -/
theorem C78_transitive_violated (solve : List Clause → Option Assignment) (hsat : ∀ cs w, solve cs = some w → satAll w cs) (fuel : Nat)
    (π : List Nat) :
    PoInput chainP chainCfg poO id ∧ AllEff chainP ∧ SolutionOfHeight chainP 1 [2, 0] ∧ (∀ a, NoClash chainP a) ∧
    satPlanPO chainP chainCfg poO id solve fuel ≠ .plan 1 π := by
  refine ⟨chainP_input, ?_, ?_, fun a f _ h => by simp [chainP] at h, no_plan_of_refute (f := 200) (by decide +kernel) hsat fuel π⟩
  · intro a ha
    simp only [chainP, decide_eq_true_eq] at ha
    match a, ha with
    | 0, _ | 1, _ | 2, _ => rfl
  · rw [flat_solution chainP_input.wf (by unfold FlatP; decide)]
    refine ⟨2, by decide, rfl, [1, 0], by decide, ?_, by decide, by decide⟩
    have hcl := closed_ord (P := chainP) (m := 2) (by decide)
    simp only [← hcl]
    decide

/-- The methods of this example: the orders by transitivity are not those of the third method (C76 speaks of edges only). -/
theorem C76_transitive_violated : ∃ mp, (poAll chainP chainCfg.tot chainCfg.clo false [0, 1, 2]).2[2]? = some mp ∧
    TransGen (fun u v => (u, v) ∈ (poAll chainP chainCfg.tot chainCfg.clo false [0, 1, 2]).1.adj) (mp.getD 0 0) (mp.getD 1 0) ∧
    chainCfg.clo 2 = [] :=
  ⟨[0, 2], by decide, .tail (.single (show ((0, 1) : Nat × Nat) ∈ _ by decide)) (by decide), rfl⟩

/-- The graph of methods without cycles may have a cycle. -/
theorem C76_cycle_violated : TransGen (fun u v => (u, v) ∈ (poAll cycleP cycleCfg.tot cycleCfg.clo false [0, 1, 2, 3, 4]).1.adj) 1 1 :=
  .tail (.tail (.single (show ((1, 4) : Nat × Nat) ∈ _ by decide +kernel)) (show ((4, 2) : Nat × Nat) ∈ _ by decide +kernel))
    (show ((2, 1) : Nat × Nat) ∈ _ by decide +kernel)

end Verif.Props
