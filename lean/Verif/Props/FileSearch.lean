import Verif.Props.ReadFile
import Verif.Props.EndToEnd
import Verif.Props.VisitedKeys
import Verif.Props.RcSearch

/-! # C75: from the problem file to the verdict of the search -/

namespace Verif.Props

open Verif.Htn Verif.Prog Verif.TaskCounter Verif.Strips Verif.IntSets Verif.Reach Verif.Scc Verif.Rc Verif.Bits Verif.CST
  Verif.ReadFile Verif.Ordering Relation

/-- What the theorems below demand of the problem that the file describes. -/
structure PlainDesc (D : Desc) (h : HierD) : Prop where
  ok : D.OK
  hier : D.hier = some h
  /-- the initial task is abstract -/
  init : ∃ nm, D.tasks[h.init]? = some (true, nm)
  acyclic : ∀ m ∈ h.methods, Acyclic m.ord
  /-- no conditional effects -/
  uncond : ∀ a ∈ D.acts, ∀ e ∈ a.add ++ a.del, e.1 = []

/-- Every method orders any two of its subtasks. -/
def TotalDesc (h : HierD) : Prop :=
  ∀ m ∈ h.methods, ∀ x y, x < m.sub.length → y < m.sub.length → x ≠ y → TransGen (Rel m.ord) x y ∨ TransGen (Rel m.ord) y x

/-- What a grounder guarantees and the relaxed composition relies on: the actions are the first tasks, all others are abstract, and
every task can be obtained from the initial one. -/
structure GroundDesc (D : Desc) (h : HierD) : Prop where
  le : D.acts.length ≤ D.tasks.length
  kind : ∀ (t : Nat) (b : Bool) (nm : List Char), D.tasks[t]? = some (b, nm) → (b = false ↔ t < D.acts.length)
  reach : ∀ t < D.tasks.length, ReflTransGen (fun a b => ∃ m ∈ h.methods, m.head = a ∧ b ∈ m.sub) h.init t

/-- The reader turns the text into `M` with the hierarchy `H`. -/
def Loads (txt : List Char) (M : Model) (H : Hier) : Prop :=
  M.hier = some H ∧ ∃ n, ∀ fuel, n ≤ fuel → readFile fuel txt = .ok M

theorem Loads.unique {txt : List Char} {M M' : Model} {H H' : Hier} (h : Loads txt M H) (h' : Loads txt M' H') : M = M' ∧ H = H' := by
  obtain ⟨e, n, hn⟩ := h
  obtain ⟨e', n', hn'⟩ := h'
  have := (hn (max n n') (le_max_left _ _)).symm.trans (hn' _ (le_max_right _ _))
  cases this
  rw [e] at e'
  cases e'
  exact ⟨rfl, rfl⟩

/-- The visited list as configured for the problem that has been read (src/VisitedList.cpp 78-98). -/
structure Configured (M : Model) (H : Hier) (c : VisCfg) : Prop where
  total : c.totalOrder = H.flags.totallyOrdered
  /-- `--noParallelSequences` switches the mode off -/
  seq : c.seqMode = true → H.flags.parallelSequences = true
  tasks : c.numTasks = M.cl.tasks.length
  topo : c.topo = true

variable {D : Desc} {h : HierD} {txt : List Char} {M : Model} {H : Hier}

/-- What is known about the problem that has been read. -/
structure ReadProblem (D : Desc) (h : HierD) (M : Model) (H : Hier) : Prop where
  cl : MatchesC D M.cl
  hi : MatchesH D h H
  wf : (Model.problem M.cl H).WF
  sol : ∀ π k, IsSolutionN (Model.problem M.cl H) π k ↔ IsSolutionN (problemOf D h) π k
  cost : ∀ π, (Model.problem M.cl H).planCost π = (problemOf D h).planCost π

theorem loads_read (hp : PlainDesc D h) (ht : FileText D txt) : ∃ M H, Loads txt M H ∧ ReadProblem D h M H := by
  obtain ⟨n, M, H, h1, h2, h3, h4, h5, h6, h7⟩ := C74_same_solutions hp.ok ht hp.hier hp.acyclic hp.uncond
  refine ⟨M, H, ⟨h2, n, h1⟩, h3, h4, h7 ?_, h5, h6⟩
  obtain ⟨nm, e⟩ := hp.init
  simp [problemOf, e]

theorem Loads.read (hp : PlainDesc D h) (ht : FileText D txt) (hl : Loads txt M H) : ReadProblem D h M H := by
  obtain ⟨M', H', hl', hr⟩ := loads_read hp ht
  obtain ⟨rfl, rfl⟩ := hl.unique hl'
  exact hr

theorem ReadProblem.isSol (hr : ReadProblem D h M H) (π : List Nat) :
    IsSolution (Model.problem M.cl H) π ↔ IsSolution (problemOf D h) π :=
  exists_congr fun k => hr.sol π k

theorem ReadProblem.method (hr : ReadProblem D h M H) {i : Nat} (hi : i < (Model.problem M.cl H).numMethods) :
    ∃ (m : MethD) (m' : MethM), h.methods[i]? = some m ∧ H.methods[i]? = some m' ∧ m'.head = m.head ∧ m'.sub = m.sub ∧ m'.ord.Nodup ∧
      (∀ x y, (x, y) ∈ m'.ord ↔ TransGen (Rel m.ord) x y ∧ ∀ z, ¬ (TransGen (Rel m.ord) x z ∧ TransGen (Rel m.ord) z y)) ∧
      (Acyclic m.ord → ∀ x y, TransGen (Rel m'.ord) x y ↔ TransGen (Rel m.ord) x y) := by
  have hlt : i < h.methods.length := by
    have := hr.hi.methods
    change i < H.methods.length at hi
    omega
  obtain ⟨m', e', -, h1, h2, h3, h4, -, h5⟩ := hr.hi.method i _ (List.getElem?_eq_getElem hlt)
  exact ⟨_, m', List.getElem?_eq_getElem hlt, e', h1, h2, h3, h4, fun ha => (h5 ha).1⟩

theorem ReadProblem.sub_lt (hp : PlainDesc D h) (hr : ReadProblem D h M H) :
    ∀ m < (Model.problem M.cl H).numMethods, ∀ t ∈ (Model.problem M.cl H).sub m, t < D.tasks.length := by
  intro i hi t ht
  obtain ⟨m, m', e, e', -, hs, -⟩ := hr.method hi
  change t ∈ ((H.methods[i]?).map MethM.sub).getD [] at ht
  rw [e'] at ht
  exact hp.ok.sub h hp.hier m (List.mem_of_getElem? e) t (hs ▸ ht)

theorem ReadProblem.init_lt (hp : PlainDesc D h) (hr : ReadProblem D h M H) : (Model.problem M.cl H).init < D.tasks.length := by
  show H.init < _
  rw [hr.hi.init]
  exact hp.ok.init h hp.hier

theorem ReadProblem.totOrd (hp : PlainDesc D h) (hr : ReadProblem D h M H) (htot : TotalDesc h) : TotOrd (Model.problem M.cl H) := by
  intro i hi
  obtain ⟨m, m', e, e', -, hs, hnd, ho, htg⟩ := hr.method hi
  have hac := hp.acyclic m (List.mem_of_getElem? e)
  have eo : (Model.problem M.cl H).ord i = m'.ord := by show ((H.methods[i]?).map MethM.ord).getD [] = _; rw [e']; rfl
  have es : (Model.problem M.cl H).sub i = m.sub := by show ((H.methods[i]?).map MethM.sub).getD [] = _; rw [e', ← hs]; rfl
  have er : (Model.problem M.cl H).OrdRel i = Rel m'.ord := by funext x y; show ((x, y) ∈ (Model.problem M.cl H).ord i) = _; rw [eo]; rfl
  refine ⟨?_, ?_, eo ▸ hnd⟩
  · intro x y hx hy hne
    rw [es] at hx hy
    rw [er, htg hac, htg hac]
    exact htot m (List.mem_of_getElem? e) x y hx hy hne
  · intro x y hxy z hz
    rw [eo] at hxy
    rw [er, htg hac, htg hac] at hz
    exact ((ho x y).1 hxy).2 z hz

theorem ReadProblem.modeOK (hp : PlainDesc D h) (hr : ReadProblem D h M H) (htot : TotalDesc h) {c : VisCfg} (hc : Configured M H c) :
    ModeOK (Model.problem M.cl H) c where
  tot _ := hr.totOrd hp htot
  par _ := (hr.totOrd hp htot).parSeq hr.wf
  mode := .inl (hc.total.trans ((hr.hi.total hp.acyclic).2 htot))
  topo := hc.topo
  init_lt := by rw [hc.tasks, hr.cl.tasks]; exact hr.init_lt hp
  sub_lt := by rw [hc.tasks, hr.cl.tasks]; exact hr.sub_lt hp

theorem ReadProblem.rcInput (hp : PlainDesc D h) (hr : ReadProblem D h M H) (hg : GroundDesc D h) {cfg : Cfg} (hcfg : cfg.Ok)
    (htr : cfg.trackTasks = true) : RcInput (Model.problem M.cl H) cfg D.acts.length D.tasks.length where
  track := htr
  wf := hr.wf
  cfg := hcfg
  tasks := {
    init_lt := hr.init_lt hp
    sub_lt := hr.sub_lt hp
    reach := by
      intro t ht
      show ReflTransGen (SubOf (Model.problem M.cl H)) H.init t
      rw [hr.hi.init]
      suffices key : ∀ a b, (∃ m ∈ h.methods, m.head = a ∧ b ∈ m.sub) → SubOf (Model.problem M.cl H) a b by
        have hrt := hg.reach t ht
        clear ht
        induction hrt with
        | refl => exact .refl
        | tail _ hs ih => exact ih.tail (key _ _ hs)
      rintro a b ⟨m, hm, rfl, hb⟩
      obtain ⟨i, hi, rfl⟩ := List.mem_iff_getElem.1 hm
      obtain ⟨m', e', -, h1, h2, -⟩ := hr.hi.method i _ (List.getElem?_eq_getElem hi)
      refine ⟨i, ?_, ?_, ?_⟩
      · show i < H.methods.length
        rw [hr.hi.methods]; exact hi
      · show ((H.methods[i]?).map MethM.head).getD 0 = _
        rw [e']; exact h1
      · show b ∈ ((H.methods[i]?).map MethM.sub).getD []
        rw [e']
        show b ∈ m'.sub
        rw [h2]
        exact hb }
  rc := {
    le := hg.le
    prim := by
      intro t ht
      show ((M.cl.tasks[t]?).map Prod.fst).getD false = _
      obtain ⟨⟨b, nm⟩, e⟩ : ∃ x, D.tasks[t]? = some x := ⟨_, List.getElem?_eq_getElem ht⟩
      rw [hr.cl.task t _ _ e]
      have := hg.kind t _ _ e
      cases b with
      | true => simpa using this
      | false => simpa using this
    init_lt := hr.init_lt hp
    head_lt := by
      intro i hi
      obtain ⟨m, m', e, e', hh, -⟩ := hr.method hi
      show ((H.methods[i]?).map MethM.head).getD 0 < _
      rw [e']
      obtain ⟨nm, hnm⟩ := hp.ok.head h hp.hier m (List.mem_of_getElem? e)
      show m'.head < _
      rw [hh]
      exact (List.getElem?_eq_some_iff.1 hnm).1
    sub_lt := hr.sub_lt hp
    prec_nodup := by
      intro a ha
      obtain ⟨b, e, -, hn, -⟩ := hr.cl.act a _ (List.getElem?_eq_getElem ha)
      show (((M.cl.acts[a]?).map ActM.prec).getD []).Nodup
      rw [e]; exact hn }

/-! ## The theorems -/

/-- C75: the file is read. -/
theorem C75_loads (hp : PlainDesc D h) (ht : FileText D txt) : ∃ M H, Loads txt M H := by
  obtain ⟨M, H, hl, -⟩ := loads_read hp ht
  exact ⟨M, H, hl⟩

/-- C75, plans: whatever fringe, heuristics and visited list are used, a reported plan solves the problem described by the file. -/
theorem C75_plan_solves (hp : PlainDesc D h) (ht : FileText D txt) (hl : Loads txt M H) {cfg : Cfg} (hcfg : cfg.Ok) {V F HS : Type}
    {E : Env V F HS} {f0 : F} {items eval} (hF : FringeOK E f0 items eval) {fuel : Nat} {v0 : V} {hs0 : HS} {n s'}
    (hs : search (Model.problem M.cl H) cfg E fuel v0 f0 hs0 = some (.solved n, s')) :
    IsSolution (problemOf D h) (planOf n.node.sol) :=
  ((hl.read hp ht).isSol _).1 (C01_reported_plan_is_solution (hl.read hp ht).wf hcfg hF hs)

/-- C75, unsolvability, without visited list. -/
theorem C75_unsolvable (hp : PlainDesc D h) (ht : FileText D txt) (hl : Loads txt M H) {cfg : Cfg} (hcfg : cfg.Ok) {o : Opts} {fuel : Nat} {s'}
    (hs : search (Model.problem M.cl H) cfg (o.env insNone) fuel () emptyFringe () = some (.unsolvable, s')) :
    ∀ π, ¬ IsSolution (problemOf D h) π :=
  fun π hπ => C02_simple_search (hl.read hp ht).wf hcfg hs π (((hl.read hp ht).isSol π).2 hπ)

/-- C75, unsolvability, with visited list: if the file describes a totally ordered problem. -/
theorem C75_unsolvable_visited (hp : PlainDesc D h) (ht : FileText D txt) (hl : Loads txt M H) (htot : TotalDesc h) {c : VisCfg}
    (hc : Configured M H c) {cfg : Cfg} (hcfg : cfg.Ok) {o : Opts} {fuel : Nat} {s' tb}
    (hs : search (Model.problem M.cl H) cfg (o.env (insVis c)) fuel emptyVis emptyFringe () = some (.unsolvable, s')) (hv : s'.vis = some tb) :
    ∀ π, ¬ IsSolution (problemOf D h) π :=
  have hr := hl.read hp ht
  fun π hπ => C02_visited_list_search hr.wf hcfg (hr.modeOK hp htot hc) hs hv π ((hr.isSol π).2 hπ)

/-- C75, costs: uniform cost search reports a cheapest plan of the problem described by the file. -/
theorem C75_cheapest (hp : PlainDesc D h) (ht : FileText D txt) (hl : Loads txt M H) {cfg : Cfg} (hcfg : cfg.Ok) {o : Opts}
    (ho : o.subopt = false) (ha : o.aStar = .action) (hw : o.weight = 1) (hz : o.heurs.head? = some .zero) {fuel : Nat} {n s'}
    (hs : search (Model.problem M.cl H) cfg (o.env insNone) fuel () emptyFringe () = some (.solved n, s')) :
    IsSolution (problemOf D h) (planOf n.node.sol) ∧
      ∀ π, IsSolution (problemOf D h) π → (problemOf D h).planCost (planOf n.node.sol) ≤ (problemOf D h).planCost π := by
  have hr := hl.read hp ht
  obtain ⟨h1, h2⟩ := C21_uniform_cost_search hr.wf hcfg ho ha hw hz hs
  refine ⟨(hr.isSol _).1 h1, fun π hπ => ?_⟩
  rw [← hr.cost, ← hr.cost]
  exact h2 π ((hr.isSol π).2 hπ)

/-- C75, costs, with visited list. -/
theorem C75_cheapest_visited (hp : PlainDesc D h) (ht : FileText D txt) (hl : Loads txt M H) (htot : TotalDesc h) {c : VisCfg}
    (hc : Configured M H c) (hno : c.noReopen = false) {cfg : Cfg} (hcfg : cfg.Ok) {o : Opts}
    (ho : o.subopt = false) (ha : o.aStar = .action) (hw : o.weight = 1) (hz : o.heurs.head? = some .zero) {fuel : Nat} {n s' tb}
    (hs : search (Model.problem M.cl H) cfg (o.env (insVis c)) fuel emptyVis emptyFringe () = some (.solved n, s')) (hv : s'.vis = some tb) :
    IsSolution (problemOf D h) (planOf n.node.sol) ∧
      ∀ π, IsSolution (problemOf D h) π → (problemOf D h).planCost (planOf n.node.sol) ≤ (problemOf D h).planCost π := by
  have hr := hl.read hp ht
  obtain ⟨h1, h2⟩ := C21_visited_list_search hr.wf hcfg (hr.modeOK hp htot hc) hno ho ha hw hz hs hv
  refine ⟨(hr.isSol _).1 h1, fun π hπ => ?_⟩
  rw [← hr.cost, ← hr.cost]
  exact h2 π ((hr.isSol π).2 hπ)

theorem sum_getD : ∀ l : List Nat, ∑ x ∈ Finset.range l.length, (l[x]?).getD 0 = l.sum
  | [] => rfl
  | a :: l => by
    rw [List.length_cons, Finset.sum_range_succ', List.sum_cons, ← sum_getD l]
    simp [Nat.add_comm]

theorem ReadProblem.rcTotal (hr : ReadProblem D h M H) :
    rcTotal (Model.problem M.cl H) D.acts.length D.tasks.length .costs = (D.acts.map ActD.cost).sum := by
  show (∑ x ∈ Finset.range (D.acts.length + (Model.problem M.cl H).numMethods),
    if x < D.acts.length then (if (0 : Nat) = 0 then (Model.problem M.cl H).cost x else 0) else 0) = _
  rw [Finset.sum_range_add, Finset.sum_eq_zero (s := Finset.range (Model.problem M.cl H).numMethods) (fun x _ => by simp), Nat.add_zero]
  rw [← sum_getD, List.length_map]
  refine Finset.sum_congr rfl fun x hx => ?_
  have hx := Finset.mem_range.1 hx
  rw [if_pos hx, if_pos rfl]
  show ((M.cl.acts[x]?).map fun a => a.cost.toNat).getD 0 = _
  obtain ⟨b, e, hb, -⟩ := hr.cl.act x _ (List.getElem?_eq_getElem hx)
  rw [e, List.getElem?_map, List.getElem?_eq_getElem hx]
  simp [hb]

/-- C75 for A* with the relaxed composition heuristic (with LM-cut) and visited list, for totally ordered problems as written by a grounder whose costs sum up to less
than `INT_MAX`: the reported plan is a cheapest one, and if the problem is reported as unsolvable, it is. -/
theorem C75_lmcut (hp : PlainDesc D h) (ht : FileText D txt) (hl : Loads txt M H) (hg : GroundDesc D h) (htot : TotalDesc h) {c : VisCfg}
    (hc : Configured M H c) {cfg : Cfg} (hcfg : cfg.Ok) (htr : cfg.trackTasks = true) (pq : PQ) {U : Nat}
    (hU : (D.acts.map ActD.cost).sum < U) :
    ∃ F, ∀ fuel, F ≤ fuel → ∀ inner, inner = lmCut (Est.model (Model.problem M.cl H) D.acts.length D.tasks.length .costs) pq U fuel →
      ∀ correct mi Rt hs0 o f s', RcStarted (Model.problem M.cl H) cfg D.acts.length D.tasks.length Rt hs0 → ∀ r,
        search (Model.problem M.cl H) cfg (rcEnv (Model.problem M.cl H) D.acts.length U ⟨.costs, correct, mi, inner⟩ Rt o (insVis c)) f emptyVis emptyFringe hs0 =
          some (r, s') → s'.vis.isSome → match r with
          | .solved n => IsSolution (problemOf D h) (planOf n.node.sol) ∧
            (o.subopt = false → o.aStar = .action → o.weight = 1 → c.noReopen = false → ∀ π, IsSolution (problemOf D h) π → (problemOf D h).planCost π < U →
              (problemOf D h).planCost (planOf n.node.sol) ≤ (problemOf D h).planCost π)
          | .unsolvable => correct = false → ∀ π, ¬ IsSolution (problemOf D h) π
          | .timeout => True := by
  have hr := hl.read hp ht
  have hI := hr.rcInput hp hg hcfg htr
  have hm := hr.modeOK hp htot hc
  rw [← hr.rcTotal] at hU
  obtain ⟨F1, h1⟩ := C02_rc_uncorrected hI hm pq .costs hU 0 fun _ => none
  obtain ⟨F2, h2⟩ : ∃ F2, c.noReopen = false → _ := by
    by_cases hno : c.noReopen = false
    · obtain ⟨F2, h2⟩ := C21_rc_visited_list_search hI hm hno pq hU 0 fun _ => none
      exact ⟨F2, fun _ => h2⟩
    · exact ⟨0, fun h => absurd h hno⟩
  refine ⟨max F1 F2, fun fuel hf inner hin correct mi Rt hs0 o f s' hst r hs hv => ?_⟩
  obtain ⟨tb, hv⟩ := Option.isSome_iff_exists.1 hv
  cases r with
  | timeout => trivial
  | unsolvable =>
    intro hcor π hπ
    exact h1 fuel ((le_max_left _ _).trans hf) inner (.inl hin) correct mi Rt hs0 o f s' tb (.inl hcor) hst hs hv π ((hr.isSol π).2 hπ)
  | solved n =>
    refine ⟨C75_plan_solves hp ht hl hcfg (rc_fringe _ Rt o (insVis c)) hs, fun ho ha hw hno π hπ hlt => ?_⟩
    rw [← hr.cost] at hlt ⊢
    rw [← hr.cost]
    exact (h2 hno fuel ((le_max_right _ _).trans hf) inner (.inl hin) correct mi Rt hs0 o f n s' tb ho ha hw hst hs hv).2 π ((hr.isSol π).2 hπ) hlt

/-! ## An initial task without methods -/

theorem loop_pop {P : Problem} {cfg : Cfg} {V F HS : Type} {E : Env V F HS} {fuel : Nat} {s : Prog.St V F HS} {n : SNode} {fr : F} (h : E.pop s.fr = some (n, fr)) :
    loop P cfg E (fuel + 1) s = if (popCheck E s n).2 = false then loop P cfg E fuel { s with fr := fr, vis := (popCheck E s n).1 }
      else afterCheck P cfg E (loop P cfg E fuel) fuel n { s with fr := fr, vis := (popCheck E s n).1 } := by
  rw [loop, h]

theorem loop_end {P : Problem} {cfg : Cfg} {V F HS : Type} {E : Env V F HS} {fuel : Nat} {s : Prog.St V F HS} (h : E.pop s.fr = none) :
    loop P cfg E (fuel + 1) s = some (.unsolvable, s) := by
  rw [loop, h]

/-- If the initial task has no methods, search ends with the first iteration. -/
theorem search_no_method {P : Problem} (hm : methodsOf P P.init = []) (cfg : Cfg) (o : Opts) (ht : o.timeUp 0 = false) (fuel : Nat) :
    ∃ s', search P cfg (o.env insNone) (fuel + 2) () emptyFringe () = some (.unsolvable, s') := by
  set fr := wpush o.aStar o.weight o.rndF emptyFringe (rootNode P cfg o.heurs.length) with hfr
  obtain ⟨x, fr1, e1, hx, hq⟩ : ∃ x fr1, wpop o.heurs.length o.choice fr = some (x, fr1) ∧ x.node = (initNode P cfg).2 ∧ fr1.q = [] := by
    cases hp : wpop o.heurs.length o.choice fr with
    | none => exact absurd (wpop_spec.1.1 hp) (by simp [hfr, wpush])
    | some r =>
      obtain ⟨e, he, h1, h2, -⟩ := wpop_spec.2 r.1 r.2 hp
      rw [hfr] at he h2
      simp only [wpush, emptyFringe, List.mem_singleton] at he
      refine ⟨r.1, r.2, rfl, ?_, ?_⟩
      · rw [← h1, he]; rfl
      · rw [h2, he]; simp [wpush, emptyFringe]
  have e2 : wpop o.heurs.length o.choice fr1 = none := wpop_spec.1.2 hq
  have hd : o.rndS 0 % 1 = 0 := Nat.mod_one _
  have ht0 : taskOf (initNode P cfg).1.heap 0 = P.init := rfl
  refine ⟨⟨(initNode P cfg).1, fr1, (), (), 1⟩, ?_⟩
  unfold search
  refine (loop_pop (fuel := fuel + 1) (n := x) (fr := fr1) e1).trans ?_
  have hc : popCheck (o.env insNone) ⟨(initNode P cfg).1, fr, (), (), 0⟩ x = ((), true) := by
    unfold popCheck
    split <;> rfl
  have hexp : ∀ fuel : Nat, expand P cfg (o.env insNone) fuel x.node ⟨(initNode P cfg).1, fr1, (), (), 0⟩ =
      some (⟨(initNode P cfg).1, fr1, (), (), 0⟩, none) := by
    intro fuel
    rw [hx]
    show decAll P cfg (o.env insNone) fuel _ (o.rndS 0 % 1) (methodsOf P (taskOf (initNode P cfg).1.heap (([0] : List Nat)[o.rndS 0 % 1]?.getD 0))) _ = _
    rw [hd]
    show decAll P cfg (o.env insNone) fuel _ 0 (methodsOf P P.init) _ = _
    rw [hm]
    rfl
  have hgoal : isGoal P x.node = false := by rw [hx]; rfl
  show (if (popCheck (o.env insNone) ⟨(initNode P cfg).1, fr, (), (), 0⟩ x).2 = false then _ else _) = _
  rw [if_neg (by rw [hc]; decide)]
  show afterCheck P cfg (o.env insNone) (loop P cfg (o.env insNone) (fuel + 1)) (fuel + 1) x ⟨(initNode P cfg).1, fr1, (), (), 0⟩ = _
  rw [afterCheck, hgoal, Bool.and_false, if_neg (by decide), hexp]
  show (if o.timeUp 0 then _ else loop P cfg (o.env insNone) (fuel + 1) ⟨(initNode P cfg).1, fr1, (), (), 1⟩) = _
  rw [ht, if_neg (by decide)]
  exact loop_end e2

/-- C75 demands that the initial task is abstract: if it is an action, the problem is reported as unsolvable, whatever the options. -/
theorem C75_primitive_init (hD : D.OK) (ht : FileText D txt) (hh : D.hier = some h) {nm : List Char} (hi : D.tasks[h.init]? = some (false, nm)) :
    ∃ M H, Loads txt M H ∧ ∀ (cfg : Cfg) (o : Opts), o.timeUp 0 = false → ∀ fuel, ∃ s',
      search (Model.problem M.cl H) cfg (o.env insNone) (fuel + 2) () emptyFringe () = some (.unsolvable, s') := by
  obtain ⟨n, M, hr, hc, hM⟩ := C74_read hD ht
  rw [hh] at hM
  obtain ⟨H, hH, hm⟩ := hM
  refine ⟨M, H, ⟨hH, n, hr⟩, fun cfg o hto fuel => search_no_method ?_ cfg o hto fuel⟩
  refine List.filter_eq_nil_iff.2 fun i hlt he => ?_
  have hlt : i < h.methods.length := by
    have := List.mem_range.1 hlt
    change i < H.methods.length at this
    rw [← hm.methods]
    exact this
  obtain ⟨m', e', -, h1, -⟩ := hm.method i _ (List.getElem?_eq_getElem hlt)
  have he : ((H.methods[i]?).map MethM.head).getD 0 = H.init := beq_iff_eq.1 he
  rw [e', hm.init] at he
  obtain ⟨nm', e⟩ := hD.head h hh _ (List.getElem_mem hlt)
  rw [← h1, show m'.head = h.init from he, hi] at e
  cases e

/-- Such a problem, with the action as plan. -/
def exPrim : Desc := { exDesc [] with hier := some ⟨0, [⟨"m".toList, 2, [0, 1], []⟩]⟩ }

theorem C75_primitive_violated : ∃ (D : Desc) (txt : List Char) (h : HierD) (M : Model) (H : Hier), D.OK ∧ FileText D txt ∧ D.hier = some h ∧ Loads txt M H ∧
    (∃ π, IsSolution (problemOf D h) π) ∧ ∀ (cfg : Cfg) (o : Opts), o.timeUp 0 = false → ∀ fuel, ∃ s',
      search (Model.problem M.cl H) cfg (o.env insNone) (fuel + 2) () emptyFringe () = some (.unsolvable, s') := by
  have hok : exPrim.OK := { exDesc_ok (ord := []) (by simp) with
    init := by simp [exPrim, exDesc], head := by simp [exPrim, exDesc], sub_ne := by simp [exPrim], sub := by simp [exPrim, exDesc], ord := by simp [exPrim] }
  obtain ⟨txt, ht⟩ := C74_texts_exist hok { exDesc_printable [] with methods := by simp [exPrim, Parse.intMax] }
  obtain ⟨M, H, hl, hs⟩ := C75_primitive_init hok ht rfl (nm := "a".toList) rfl
  refine ⟨_, txt, _, M, H, hok, ht, rfl, hl, ⟨[0], 0, .leaf 0, .leaf rfl, rfl, ⟨[[]], ⟨by simp, fun p => ?_, by simp, ?_⟩⟩, ?_⟩, hs⟩
  · constructor
    · intro hp
      rw [List.mem_singleton] at hp
      subst hp
      exact ⟨0, .here⟩
    · rintro ⟨a, ha⟩
      cases ha
      simp
  · exact .cons .here .nil
  · refine ⟨_, .cons (fun f hf => ?_) (.nil _), fun f hf => by cases hf⟩
    have : f = 0 := by simpa [problemOf, exPrim, exDesc] using hf
    subst this
    show 0 ∈ [0]
    decide

/-! ## Examples -/

theorem exDesc_plain : PlainDesc (exDesc [(0, 1)]) ⟨2, [⟨"m".toList, 2, [0, 1], [(0, 1)]⟩]⟩ where
  ok := exDesc_ok (by simp)
  hier := rfl
  init := ⟨_, rfl⟩
  acyclic := by
    intro m hm x hx
    rw [List.mem_singleton] at hm
    subst hm
    have key : ∀ y, TransGen (Rel [(0, 1)]) x y → x = 0 ∧ y = 1 := by
      intro y hy
      induction hy with
      | single h => simpa [Rel] using h
      | tail _ h ih =>
        simp only [Rel, List.mem_singleton, Prod.mk.injEq] at h
        omega
    have := key x hx
    omega
  uncond := by simp [exDesc]

theorem exDesc_total : TotalDesc ⟨2, [⟨"m".toList, 2, [0, 1], [(0, 1)]⟩]⟩ := by
  intro m hm x y hx hy hne
  rw [List.mem_singleton] at hm
  subst hm
  have hx : x < 2 := hx
  have hy : y < 2 := hy
  have h01 : TransGen (Rel [(0, 1)]) 0 1 := .single (by simp [Rel])
  have : x = 0 ∧ y = 1 ∨ x = 1 ∧ y = 0 := by omega
  rcases this with ⟨rfl, rfl⟩ | ⟨rfl, rfl⟩
  · exact .inl h01
  · exact .inr h01

theorem exDesc_ground : GroundDesc (exDesc [(0, 1)]) ⟨2, [⟨"m".toList, 2, [0, 1], [(0, 1)]⟩]⟩ where
  le := by decide
  kind := by
    intro t b nm h
    rcases t with _ | _ | _ | t <;> simp [exDesc] at h ⊢ <;> simp [← h.1]
  reach := by
    intro t ht
    have ht : t < 3 := ht
    by_cases h2 : t = 2
    · subst h2; exact .refl
    · exact .single ⟨_, List.mem_singleton.2 rfl, rfl, by simp; omega⟩

def exText : List Char :=
  "x\n2\np\nq\n\n\n1\n0 1 v\n\n\n0\n\n\n1\n0 -3 -1\n\n\n1\n0 -2 -1\n\n\n2\n1\n0 0 -1\n0 1 -1\n-1\n2\n-1\n-1\n0 1 -1\n\n\n0 -1\n\n\n-1\n\n\n3\n0 a\n0 b\n1 t\n\n\n2\n\n\n1\nm\n2\n0 1 -1\n0 1 -1\n".toList

/-- Reading and search. -/
def readAndSearch (txt : List Char) : Option (Option (List Nat)) :=
  match readFile 1000 txt with
  | .ok ⟨c, some H⟩ =>
    (search (Model.problem c H) exCfg2 ((exOpts false).env insNone) 30 () emptyFringe ()).map fun r =>
      match r.1 with
      | .solved n => some (planOf n.node.sol)
      | _ => none
  | _ => none

/-- The hypotheses of C75 can be met. -/
example : ∃ (D : Desc) (h : HierD) (txt : List Char) (M : Model) (H : Hier), PlainDesc D h ∧ TotalDesc h ∧ GroundDesc D h ∧ FileText D txt ∧ Loads txt M H ∧
    ∃ c, Configured M H c := by
  obtain ⟨txt, ht⟩ := C74_texts_exist exDesc_plain.ok (exDesc_printable _)
  obtain ⟨M, H, hl⟩ := C75_loads exDesc_plain ht
  exact ⟨_, _, txt, M, H, exDesc_plain, exDesc_total, exDesc_ground, ht, hl,
    { exVis false true with totalOrder := H.flags.totallyOrdered, seqMode := false, numTasks := M.cl.tasks.length }, rfl, by simp, rfl, rfl⟩

example : readAndSearch exText = some (some [0, 1]) := by decide +kernel

end Verif.Props
