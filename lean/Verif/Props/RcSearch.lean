import Verif.RcSearch
import Verif.Props.Rc
import Verif.Props.VisitedKeys
import Verif.Props.MinImplied

/-! # The search with relaxed composition heuristics: C02, C17, C21 -/

namespace Verif.Props

open Verif.Htn Verif.Prog Verif.TaskCounter Verif.Strips Verif.IntSets Verif.Reach Verif.Scc Verif.Rc Verif.Bits Verif.CST
  Relation

variable {P : Problem} {cfg : Cfg} {nA nT U : Nat} {ro : RcOpt} {Rt : Nat → Option (List Nat)} {V : Type} {o : Opts}
  {ins : V → Heap → SNode → V × Bool} {hs0 : RcH}

/-! ## Contracts -/

/-- The start of a search: components, table of reachable tasks, and the state of the heuristic have been computed. -/
def RcStarted (P : Problem) (cfg : Cfg) (nA nT : Nat) (Rt : Nat → Option (List Nat)) (hs0 : RcH) : Prop :=
  ∃ junk S sets, calcSccs nT (taskAdj P) junk P.init = some S ∧ reachTable nT (taskAdj P) nA S = some Rt ∧
    List.length sets = P.numFacts + nA + nT ∧ rcStart P cfg nA nT Rt sets = some hs0

/-- The state of the heuristic is in order. -/
structure RcState (P : Problem) (nA nT : Nat) (h : Heap) (hs : RcH) : Prop where
  reach : RInv h (fun a b => b < nA ∧ TaskReach P a b) nA hs.reach
  sets : SetsOK P nA nT hs.sets

/-- The content of the table. -/
def RtOK (P : Problem) (nA nT : Nat) (Rt : Nat → Option (List Nat)) : Prop :=
  ∀ t < nT, ∃ l, Rt t = some l ∧ l.Pairwise (· < ·) ∧ ∀ t', t' ∈ l ↔ t' < nA ∧ TaskReach P t t'

theorem good_table (hT : TasksOK P nT) (hR : RtOK P nA nT Rt) {h : Heap} {n : Node} (hg : Good P cfg h n)
    (hl : LiveTasks P h n) : TableOK h (· ∈ live h n) Rt (fun a b => b < nA ∧ TaskReach P a b) nA := by
  refine ⟨fun u hu => live_lt hu, fun u v hu he => ?_, fun u hu => ?_⟩
  · rw [mem_live hg.heap (fun w hw => hg.node.lt w hw)] at hu ⊢
    obtain ⟨w, hw, hr⟩ := hu
    exact ⟨w, hw, hr.tail he⟩
  · obtain ⟨l, h1, -, h2⟩ := hR _ (hT.lt (hl u hu))
    exact ⟨l, h1, fun t ht => ((h2 t).1 ht).1, h2⟩

/-- The update of the reachability sets before a call. -/
theorem update_ready (hI : RcInput P cfg nA nT) (hR : RtOK P nA nT Rt) {h : Heap} {n : Node} {r : RSt}
    (hr : RInv h (fun a b => b < nA ∧ TaskReach P a b) nA r) (hg : Good P cfg h n) (hl : LiveTasks P h n) :
    ∃ r', updateReach Rt h (h.length + 1) r n = some r' ∧ RInv h (fun a b => b < nA ∧ TaskReach P a b) nA r' ∧
      Ready P nA nT nA h n r'.cache := by
  obtain ⟨r', e, hp, hf⟩ := updateReach_spec hg.heap (good_table hI.tasks hR hg hl)
    (fun u hu => (hg.node.first_min hg.heap hu).1) hr (Nat.lt_succ_self _)
  exact ⟨r', e, hp.inv, hg.heap, hg.node, hg.counter hI.track, fun u hu => hI.tasks.lt (hl u hu), Nat.le_refl _,
    hp.inv.cache, hf⟩

theorem RcStarted.spec (hI : RcInput P cfg nA nT) (hs : RcStarted P cfg nA nT Rt hs0) :
    RtOK P nA nT Rt ∧ RcState P nA nT (initNode P cfg).1.heap hs0 ∧ hs0.bad = false := by
  obtain ⟨junk, S, sets, h1, h2, h3, h4⟩ := hs
  obtain ⟨S', Rt', e1, e2, hR⟩ := C14_table hI.tasks junk nA
  rw [h1] at e1
  cases e1
  rw [h2] at e2
  cases e2
  have h0 : RInv (initNode P cfg).1.heap (fun a b => b < nA ∧ TaskReach P a b) nA ⟨fun _ => none, NoDel.init nA⟩ := by
    refine ⟨fun u l h => by simp at h, ⟨by simp [NoDel.init], ?_⟩, by simp [NoDel.init]⟩
    intro e
    simp [NoDel.init, List.getElem?_replicate]
  obtain ⟨r, e, hr, -⟩ := update_ready hI hR h0 (init_ninv (cfg := cfg) hI.wf).1.good init_liveTasks
  simp only [rcStart, e, Option.bind_eq_bind, Option.bind_some, pure, Option.some.injEq] at h4
  subst h4
  exact ⟨hR, ⟨hr, sets_init h3⟩, rfl⟩

/-- Every problem can be started. -/
theorem rcStarted_exists (hI : RcInput P cfg nA nT) : ∃ Rt hs0, RcStarted P cfg nA nT Rt hs0 := by
  obtain ⟨S, Rt, e1, e2, hR⟩ := C14_table hI.tasks (fun _ => 0) nA
  have h0 : RInv (initNode P cfg).1.heap (fun a b => b < nA ∧ TaskReach P a b) nA ⟨fun _ => none, NoDel.init nA⟩ := by
    refine ⟨fun u l h => by simp at h, ⟨by simp [NoDel.init], ?_⟩, by simp [NoDel.init]⟩
    intro e
    simp [NoDel.init, List.getElem?_replicate]
  obtain ⟨r, e, -⟩ := update_ready hI hR h0 (init_ninv (cfg := cfg) hI.wf).1.good init_liveTasks
  refine ⟨Rt, ⟨r, ⟨Bucket.init (List.replicate (P.numFacts + nA + nT) true), NoDel.init (P.numFacts + nA + nT)⟩, false⟩,
    _, S, List.replicate (P.numFacts + nA + nT) true, e1, e2, by simp, ?_⟩
  simp only [rcStart, e, Option.bind_eq_bind, Option.bind_some, pure]

theorem RcState.ext {h h' : Heap} {hs : RcH} (hp : h <+: h') (hh : HeapOK h) (hh' : HeapOK h')
    (H : RcState P nA nT h hs) : RcState P nA nT h' hs :=
  ⟨{ H.reach with cache := H.reach.cache.ext hp hh hh' }, H.sets⟩

/-- One call. -/
theorem rcCall_spec (hI : RcInput P cfg nA nT) (hR : RtOK P nA nT Rt)
    (hin : InnerSafe (ro.est.model P nA nT) U ro.inner) {h : Heap} {n : Node} {hs : RcH} (H : RcState P nA nT h hs)
    (hg : Good P cfg h n) (hl : LiveTasks P h n) :
    RcState P nA nT h (rcCall P nA U ro Rt hs h n).1 ∧ ∃ c, Ready P nA nT nA h n c ∧
      (rcCall P nA U ro Rt hs h n).2 = valOf (rcValue P nA U ro c n hs.sets) ∧
      (rcValue P nA U ro c n hs.sets ≠ none → (rcCall P nA U ro Rt hs h n).1.bad = hs.bad) := by
  obtain ⟨r, e, hr, hy⟩ := update_ready hI hR H.reach hg hl
  cases hv : rcValue P nA U ro r.cache n hs.sets with
  | none =>
    have hc : rcCall P nA U ro Rt hs h n = (⟨r, hs.sets, true⟩, 0) := by simp only [rcCall, e, hv]
    rw [hc]
    exact ⟨⟨hr, H.sets⟩, r.cache, hy, by rw [hv]; rfl, fun h => absurd hv h⟩
  | some x =>
    obtain ⟨s, v, cuts⟩ := x
    have hc : rcCall P nA U ro Rt hs h n = (⟨r, s, hs.bad⟩, v) := by simp only [rcCall, e, hv]
    rw [hc]
    exact ⟨⟨hr, (rcValue_some hI.wf hI.rc hy H.sets hin hv).1⟩, r.cache, hy, by rw [hv]; rfl, fun _ => rfl⟩

/-- The bound on solutions that may be lost: the sum of all costs in the model together with `W` per action and
decomposition is smaller than `INT_MAX`. -/
def sizeBound (P : Problem) (nA nT U : Nat) (ro : RcOpt) (W : Nat) : Nat → Nat → Prop :=
  fun _ y => ro.correct = true → rcTotal P nA nT ro.est + W * y < U

theorem sizeBound_mono {W : Nat} : ∀ a b x y, a ≤ b → x ≤ y → sizeBound P nA nT U ro W b y → sizeBound P nA nT U ro W a x := by
  intro a b x y _ hxy h hc
  have := h hc
  have := Nat.mul_le_mul_left W hxy
  omega

theorem valOf_eq {x : Option (RcSets × Nat × List (List Nat))} {v : Nat} (h : valOf x = v) (hv : v ≠ 0) :
    ∃ s cuts, x = some (s, v, cuts) := by
  match x, h with
  | none, h => exact absurd h.symm hv
  | some (s, v', cuts), h =>
    have h : v' = v := h
    exact ⟨s, cuts, by rw [h]⟩

theorem rc_heurSafe (hI : RcInput P cfg nA nT) (hR : RtOK P nA nT Rt)
    (hin : InnerSafe (ro.est.model P nA nT) U ro.inner) (htot : rcTotal P nA nT ro.est < U) {W : Nat}
    (hw : CorrOK P nA ro W) (K : Heap → Node → Prop) (hK : ∀ h n, K h n → LiveTasks P h n) (c : Nat) :
    HeurSafe P cfg (rcEnv P nA U ro Rt o ins) K (RcState P nA nT) (sizeBound P nA nT U ro W) c := by
  intro hs h par n2 H hn hk hf π k hb hsol
  obtain ⟨-, c', hy, hv, -⟩ := rcCall_spec hI hR hin H hn.good (hK _ _ hk)
  have hf : ((rcCall P nA U ro Rt hs h n2).2 != U) = false := hf
  have hU : (rcCall P nA U ro Rt hs h n2).2 = U := by simpa using hf
  rw [hU] at hv
  obtain ⟨s, cuts, e⟩ := valOf_eq hv.symm (by omega)
  refine rcValue_safe hI.wf hI.rc hy H.sets hin e (fun hcor => ?_) htot ⟨π, k, hsol⟩
  have h1 := corr_size hI.wf hI.rc hy.node hy.counter hy.lab hw hcor hsol
  have h2 := hb hcor
  unfold rcTotal at h2
  omega

theorem rc_heurInv (hI : RcInput P cfg nA nT) (hs : RcStarted P cfg nA nT Rt hs0)
    (hin : InnerSafe (ro.est.model P nA nT) U ro.inner) (K : Heap → Node → Prop)
    (hK : ∀ h n, K h n → LiveTasks P h n) :
    HeurInv P cfg (rcEnv P nA U ro Rt o ins) K (RcState P nA nT) hs0 where
  init := (hs.spec hI).2.1
  ext := fun _ _ _ hp hh hh' H => H.ext hp hh hh'
  step := fun _ _ _ _ H hn hk => (rcCall_spec hI (hs.spec hI).1 hin H hn.good (hK _ _ hk)).1

theorem rc_fringe (ro : RcOpt) (Rt) (o : Opts) (ins : V → Heap → SNode → V × Bool) :
    FringeOK (rcEnv P nA U ro Rt o ins) emptyFringe witems o.eval :=
  wfringe_ok (opt := o.aStar) (w := o.weight) (rnd := o.rndF) (numH := o.heurs.length + 1) (choice := o.choice) rfl rfl

theorem live_keeps {F H : Type} {E : Env V F H} {J : Heap → H → Prop} (hP : P.WF) (hcfg : cfg.Ok) (eval) :
    Keeps P cfg E eval (LiveTasks P) (fun h x => LiveTasks P h x.node) J where
  root := init_liveTasks
  toK := fun _ _ h => h
  app := fun _ _ _ _ _ _ _ hn hl hu ha h => apply_liveTasks hP hcfg hn.good hu ha h hl
  dec := fun _ _ _ _ _ _ _ _ hn hl hu hm h => decompose_liveTasks hP hcfg hn.good hu hm h hl
  ext := fun _ _ _ hp hh' hi hl => hl.ext hp hi.good.heap hh' fun u hu => hi.good.node.lt u hu
  extK := fun _ _ _ hp hh' hi hl => hl.ext hp hi.good.heap hh' fun u hu => hi.good.node.lt u hu
  heur := fun _ _ _ _ _ _ h _ => h
  fresh := fun _ _ _ _ h => h

/-- Two properties are kept together. -/
theorem Keeps.and {F H : Type} {E : Env V F H} {eval} {K K' : Heap → Node → Prop} {Q Q' : Heap → SNode → Prop}
    {J : Heap → H → Prop} (h1 : Keeps P cfg E eval K Q J) (h2 : Keeps P cfg E eval K' Q' J) :
    Keeps P cfg E eval (fun h n => K h n ∧ K' h n) (fun h x => Q h x ∧ Q' h x) J where
  root := ⟨h1.root, h2.root⟩
  toK := fun h x hq => ⟨h1.toK h x hq.1, h2.toK h x hq.2⟩
  app := fun _ _ _ _ _ _ _ hn hl hu ha h => ⟨h1.app _ _ _ _ _ _ _ hn hl.1 hu ha h, h2.app _ _ _ _ _ _ _ hn hl.2 hu ha h⟩
  dec := fun _ _ _ _ _ _ _ _ hn hl hu hm h =>
    ⟨h1.dec _ _ _ _ _ _ _ _ hn hl.1 hu hm h, h2.dec _ _ _ _ _ _ _ _ hn hl.2 hu hm h⟩
  ext := fun _ _ _ hp hh' hi hl => ⟨h1.ext _ _ _ hp hh' hi hl.1, h2.ext _ _ _ hp hh' hi hl.2⟩
  extK := fun _ _ _ hp hh' hi hl => ⟨h1.extK _ _ _ hp hh' hi hl.1, h2.extK _ _ _ hp hh' hi hl.2⟩
  heur := fun _ _ _ _ hj hn hk hr => ⟨h1.heur _ _ _ _ hj hn hk.1 hr, h2.heur _ _ _ _ hj hn hk.2 hr⟩
  fresh := fun hs _ _ hn hk => ⟨h1.fresh hs _ _ hn hk.1, h2.fresh hs _ _ hn hk.2⟩

/-! ## C02 -/

/-- The inner heuristics of `hhRC2` whose `UNREACHABLE` is safe. -/
theorem inners_safe (hI : RcInput P cfg nA nT) (pq : PQ) (e : Est) (htot : rcTotal P nA nT e < U) (cap : Nat)
    (rb0 : Nat → Option Nat) :
    ∃ F, ∀ fuel, F ≤ fuel → ∀ inner, inner = lmCut (e.model P nA nT) pq U fuel ∨
        inner = ffInner (e.model P nA nT) pq U cap rb0 fuel ∨ inner = filterInner (e.model P nA nT) pq U cap rb0 fuel →
      InnerSafe (e.model P nA nT) U inner := by
  have hM : (e.model P nA nT).WF := by rw [e.model_eq]; exact rcModel_wf hI.wf hI.rc
  obtain ⟨F, hF⟩ := lmCut_inner pq hM htot
  obtain ⟨F', hF'⟩ := ff_inner pq hM htot cap rb0
  refine ⟨max F F', fun fuel hf inner hin => ?_⟩
  rcases hin with rfl | rfl | rfl
  · exact (hF fuel (by omega)).2.1
  · exact (hF' fuel (by omega)).1
  · exact (hF' fuel (by omega)).2.1

/-- C02 for the search with an RC heuristic (LM-cut, FF or filter) without visited list: if the fringe runs
empty, the problem has no solution, apart from solutions that are so large (`k` decompositions, `π.length` actions) that
the correction of task counts for them exceeds the range of `int`. -/
theorem C02_rc_search (hI : RcInput P cfg nA nT) (pq : PQ) (e : Est) (htot : rcTotal P nA nT e < U) (cap : Nat)
    (rb0 : Nat → Option Nat) :
    ∃ F, ∀ fuel, F ≤ fuel → ∀ inner, inner = lmCut (e.model P nA nT) pq U fuel ∨
        inner = ffInner (e.model P nA nT) pq U cap rb0 fuel ∨ inner = filterInner (e.model P nA nT) pq U cap rb0 fuel →
      ∀ correct mi W Rt hs0 o f s', CorrOK P nA ⟨e, correct, mi, inner⟩ W → RcStarted P cfg nA nT Rt hs0 →
        search P cfg (rcEnv P nA U ⟨e, correct, mi, inner⟩ Rt o insNone) f () emptyFringe hs0 = some (.unsolvable, s') →
        ∀ π k, IsSolutionN P π k → correct = true ∧ U ≤ rcTotal P nA nT e + W * (k + π.length) := by
  obtain ⟨F, hF⟩ := inners_safe hI pq e htot cap rb0
  refine ⟨F, fun fuel hf inner hin correct mi W Rt hs0 o f s' hw hs h π k hsol => ?_⟩
  have hsafe := hF fuel hf inner hin
  have := C02_unsolvable_below (B := sizeBound P nA nT U ⟨e, correct, mi, inner⟩ W) (c := 0) hI.wf hI.cfg (rc_fringe _ Rt o insNone)
    sizeBound_mono (live_keeps hI.wf hI.cfg _) (insNone_sound rfl _ _)
    (rc_heurSafe hI (hs.spec hI).1 hsafe htot hw (LiveTasks P) (fun _ _ h => h) 0)
    (rc_heurInv hI hs hsafe (LiveTasks P) fun _ _ h => h) h π k hsol
  simp only [sizeBound] at this
  push Not at this
  exact this

/-- C02 for the search with an RC heuristic with visited list, totally ordered or parallel-sequences instances. -/
theorem C02_rc_visited_list_search {c : VisCfg} (hI : RcInput P cfg nA nT) (hm : ModeOK P c) (pq : PQ) (e : Est)
    (htot : rcTotal P nA nT e < U) (cap : Nat) (rb0 : Nat → Option Nat) :
    ∃ F, ∀ fuel, F ≤ fuel → ∀ inner, inner = lmCut (e.model P nA nT) pq U fuel ∨
        inner = ffInner (e.model P nA nT) pq U cap rb0 fuel ∨ inner = filterInner (e.model P nA nT) pq U cap rb0 fuel →
      ∀ correct mi W Rt hs0 o f s' tb, CorrOK P nA ⟨e, correct, mi, inner⟩ W → RcStarted P cfg nA nT Rt hs0 →
        search P cfg (rcEnv P nA U ⟨e, correct, mi, inner⟩ Rt o (insVis c)) f emptyVis emptyFringe hs0 =
          some (.unsolvable, s') → s'.vis = some tb →
        ∀ π k, IsSolutionN P π k → correct = true ∧ U ≤ rcTotal P nA nT e + W * (k + π.length) := by
  obtain ⟨F, hF⟩ := inners_safe hI pq e htot cap rb0
  refine ⟨F, fun fuel hf inner hin correct mi W Rt hs0 o f s' tb hw hs h _ π k hsol => ?_⟩
  have hsafe := hF fuel hf inner hin
  have := C02_unsolvable_below (B := sizeBound P nA nT U ⟨e, correct, mi, inner⟩ W) (c := 0) hI.wf hI.cfg
    (rc_fringe _ Rt o (insVis c)) sizeBound_mono (Keeps.and (live_keeps hI.wf hI.cfg _) (vis_keeps hI.wf hI.cfg hm _))
    (insVis_sound hm rfl fun _ _ h => h.2)
    (rc_heurSafe hI (hs.spec hI).1 hsafe htot hw _ (fun _ _ h => h.1) 0)
    (rc_heurInv hI hs hsafe _ fun _ _ h => h.1) h π k hsol
  simp only [sizeBound] at this
  push Not at this
  exact this

/-- C02, without correction of task counts (or with the mixed estimate, for which nothing is added): no solution at
all. -/
theorem C02_rc_uncorrected {c : VisCfg} (hI : RcInput P cfg nA nT) (hm : ModeOK P c) (pq : PQ) (e : Est)
    (htot : rcTotal P nA nT e < U) (cap : Nat) (rb0 : Nat → Option Nat) :
    ∃ F, ∀ fuel, F ≤ fuel → ∀ inner, inner = lmCut (e.model P nA nT) pq U fuel ∨
        inner = ffInner (e.model P nA nT) pq U cap rb0 fuel ∨ inner = filterInner (e.model P nA nT) pq U cap rb0 fuel →
      ∀ correct mi Rt hs0 o f s' tb, correct = false ∨ e = .mixed → RcStarted P cfg nA nT Rt hs0 →
        search P cfg (rcEnv P nA U ⟨e, correct, mi, inner⟩ Rt o (insVis c)) f emptyVis emptyFringe hs0 =
          some (.unsolvable, s') → s'.vis = some tb → ∀ π, ¬ IsSolution P π := by
  obtain ⟨F, hF⟩ := C02_rc_visited_list_search hI hm pq e htot cap rb0
  refine ⟨F, fun fuel hf inner hin correct mi Rt hs0 o f s' tb hce hs h ht π ⟨k, hsol⟩ => ?_⟩
  obtain ⟨h1, h2⟩ := hF fuel hf inner hin correct mi 0 Rt hs0 o f s' tb (fun hc => by
    rcases hce with hce | rfl
    · rw [show correct = true from hc] at hce; cases hce
    · trivial) hs h ht π k hsol
  omega

/-! ## C21 -/

theorem rcEnv_h0 {hs h par n2 f} : h0 ⟨n2, ((rcEnv P nA U ro Rt o ins).heur hs h par n2).2.1, f⟩ =
    ((rcCall P nA U ro Rt hs h n2).2 : Int) := by
  simp [h0, rcEnv]

theorem rc_root : h0 { rootNode P cfg (rcEnv P nA U ro Rt o ins).hLength with
    f := o.eval (rootNode P cfg (rcEnv P nA U ro Rt o ins).hLength) } = 0 := by
  simp [h0, rcEnv, rootNode, List.replicate_succ]

/-- The estimate is determined by the node. -/
def RcDet (P : Problem) (nA nT U : Nat) (ro : RcOpt) (h : Heap) (x : SNode) : Prop :=
  (h0 x = 0 ∧ x.node.costs = 0) ∨ ∃ c st, Ready P nA nT nA h x.node c ∧ SetsOK P nA nT st ∧
    h0 x = (valOf (rcValue P nA U ro c x.node st) : Int)

theorem ready_ext {h h' : Heap} {n : Node} {c : Cache} (hp : h <+: h') (hh' : HeapOK h') (hi : Good P cfg h n)
    (htr : cfg.trackTasks = true) (H : Ready P nA nT nA h n c) : Ready P nA nT nA h' n c := by
  have hg := hi.ext hp hh'
  refine ⟨hh', hg.node, hg.counter htr, fun u hu => ?_, Nat.le_refl _, H.cache.ext hp hi.heap hh', H.firsts⟩
  rw [prefix_live hp hi.heap hh' fun u hu => hi.node.lt u hu] at hu
  rw [prefix_taskOf hp (live_lt hu)]
  exact H.lab u hu

/-- Admissible estimates. -/
theorem valOf_adm (hI : RcInput P cfg nA nT) (he : ro.est = .costs) (hin : InnerSafe (ro.est.model P nA nT) U ro.inner)
    (hadm : InnerAdm (ro.est.model P nA nT) ro.inner) {h : Heap} {n : Node} {c : Cache} {st : RcSets}
    (hy : Ready P nA nT nA h n c) (hst : SetsOK P nA nT st) {π k} (hs : NodeSol P h n π k) :
    valOf (rcValue P nA U ro c n st) ≤ P.planCost π := by
  cases hv : rcValue P nA U ro c n st with
  | none => exact Nat.zero_le _
  | some x =>
    obtain ⟨s, v, cuts⟩ := x
    exact rcValue_costs hI.wf hI.rc hy hst he hin hadm hv hs

theorem rc_keeps (hI : RcInput P cfg nA nT) (hs : RcStarted P cfg nA nT Rt hs0) (he : ro.est = .costs)
    (hin : InnerSafe (ro.est.model P nA nT) U ro.inner) (hadm : InnerAdm (ro.est.model P nA nT) ro.inner)
    (ho : o.subopt = false) (ha : o.aStar = .action) (hw : o.weight = 1) :
    Keeps P cfg (rcEnv P nA U ro Rt o ins) o.eval (LiveTasks P)
      (fun h x => LiveTasks P h x.node ∧ AStarQ P h x ∧ RcDet P nA nT U ro h x) (RcState P nA nT) := by
  have k := live_keeps (E := rcEnv P nA U ro Rt o ins) (J := RcState P nA nT) hI.wf hI.cfg o.eval
  have hev : ∀ x : SNode, o.eval x = some (h0 x + x.node.costs) := fun x => by
    simp only [Opts.eval, fval, ha, hw, h0, Int.mul_one]
    have : x.hv[0]?.getD 0 = x.hv.headD 0 := by cases x.hv <;> rfl
    rw [this, Int.add_comm]
  refine ⟨⟨k.root, ?_, .inl ⟨rc_root, rfl⟩⟩, fun _ _ h => h.1, k.app, k.dec, ?_, k.extK, ?_, ?_⟩
  · refine ⟨hev _, by rw [rc_root], fun _ _ _ => by rw [rc_root]; exact Int.natCast_nonneg _⟩
  · rintro h h' x hp hh' hi ⟨q1, ⟨f, nn, adm⟩, q3⟩
    refine ⟨k.ext h h' x hp hh' hi q1, ⟨f, nn, fun π k hs => adm π k ((prefix_nodeSol hp hi.good.heap hh' hi.good.node.lt).1 hs)⟩, ?_⟩
    rcases q3 with q3 | ⟨c, st, h1, h2, h3⟩
    · exact .inl q3
    · exact .inr ⟨c, st, ready_ext hp hh' hi.good hI.track h1, h2, h3⟩
  · intro hs' h par n2 H hn hk _
    obtain ⟨-, c, hy, hv, -⟩ := rcCall_spec (ro := ro) (U := U) hI (hs.spec hI).1 hin H hn.good hk
    refine ⟨hk, ⟨hev _, ?_, fun π k hsol => ?_⟩, .inr ⟨c, hs'.sets, hy, H.sets, ?_⟩⟩
    · rw [rcEnv_h0]; exact Int.natCast_nonneg _
    · rw [rcEnv_h0, hv]
      exact Int.ofNat_le.2 (valOf_adm hI he hin hadm hy H.sets hsol)
    · rw [rcEnv_h0, hv]
  · intro h; simp [rcEnv, ho] at h

/-- Total costs below `INT_MAX`. -/
def costBound (U : Nat) : Nat → Nat → Prop := fun a _ => a < U

theorem rc_heurSafe_costs (hI : RcInput P cfg nA nT) (hR : RtOK P nA nT Rt) (he : ro.est = .costs)
    (hin : InnerSafe (ro.est.model P nA nT) U ro.inner) (hadm : InnerAdm (ro.est.model P nA nT) ro.inner)
    (K : Heap → Node → Prop) (hK : ∀ h n, K h n → LiveTasks P h n) :
    HeurSafe P cfg (rcEnv P nA U ro Rt o ins) K (RcState P nA nT) (costBound U) 1 := by
  intro hs h par n2 H hn hk hf π k hb hsol
  obtain ⟨-, c', hy, hv, -⟩ := rcCall_spec hI hR hin H hn.good (hK _ _ hk)
  have hf : ((rcCall P nA U ro Rt hs h n2).2 != U) = false := hf
  have hU : (rcCall P nA U ro Rt hs h n2).2 = U := by simpa using hf
  have := valOf_adm hI he hin hadm hy H.sets hsol
  have hb : 1 * (n2.costs + P.planCost π) < U := hb
  omega

/-- The inner heuristics that are admissible. -/
theorem inners_adm (hI : RcInput P cfg nA nT) (pq : PQ) (htot : rcTotal P nA nT .costs < U) (cap : Nat)
    (rb0 : Nat → Option Nat) :
    ∃ F, ∀ fuel, F ≤ fuel → ∀ inner, inner = lmCut (Est.model P nA nT .costs) pq U fuel ∨
        inner = filterInner (Est.model P nA nT .costs) pq U cap rb0 fuel →
      InnerSafe (Est.model P nA nT .costs) U inner ∧ InnerAdm (Est.model P nA nT .costs) inner := by
  have hM : (Est.model P nA nT .costs).WF := by rw [Est.model_eq]; exact rcModel_wf hI.wf hI.rc
  obtain ⟨F, hF⟩ := lmCut_inner pq hM htot
  obtain ⟨F', hF'⟩ := ff_inner pq hM htot cap rb0
  refine ⟨max F F', fun fuel hf inner hin => ?_⟩
  rcases hin with rfl | rfl
  · exact ⟨(hF fuel (by omega)).2.1, (hF fuel (by omega)).2.2.1⟩
  · exact (hF' fuel (by omega)).2

/-- C21 for A* with an RC heuristic that estimates costs (LM-cut or filter, with or without correction of task counts),
without visited list: the plan found is a solution, and no solution with costs in the range of `int` is cheaper. -/
theorem C21_rc_search (hI : RcInput P cfg nA nT) (pq : PQ) (htot : rcTotal P nA nT .costs < U) (cap : Nat)
    (rb0 : Nat → Option Nat) :
    ∃ F, ∀ fuel, F ≤ fuel → ∀ inner, inner = lmCut (Est.model P nA nT .costs) pq U fuel ∨
        inner = filterInner (Est.model P nA nT .costs) pq U cap rb0 fuel →
      ∀ correct mi Rt hs0 o f n s', o.subopt = false → o.aStar = .action → o.weight = 1 →
        RcStarted P cfg nA nT Rt hs0 →
        search P cfg (rcEnv P nA U ⟨.costs, correct, mi, inner⟩ Rt o insNone) f () emptyFringe hs0 = some (.solved n, s') →
        IsSolution P (planOf n.node.sol) ∧
          ∀ π, IsSolution P π → P.planCost π < U → P.planCost (planOf n.node.sol) ≤ P.planCost π := by
  obtain ⟨F, hF⟩ := inners_adm hI pq htot cap rb0
  refine ⟨F, fun fuel hf inner hi correct mi Rt hs0 o f n s' ho ha hw hs h => ?_⟩
  obtain ⟨hin, hadm⟩ := hF fuel hf inner hi
  obtain ⟨h1, h2⟩ := C21_astar_optimal_below (B := costBound U) hI.wf hI.cfg (rc_fringe _ Rt o insNone) ho
    (fun _ _ _ hp => wfringe_min hp) (fun a b _ _ hab _ h => Nat.lt_of_le_of_lt hab h)
    (rc_keeps hI hs rfl hin hadm ho ha hw) (fun _ _ h => h.2.1) (insNone_sound rfl _ _)
    (rc_heurSafe_costs hI (hs.spec hI).1 rfl hin hadm _ fun _ _ h => h)
    (rc_heurInv hI hs hin _ fun _ _ h => h) h
  exact ⟨h1, fun π ⟨k, hsol⟩ hlt => h2 π k hsol hlt⟩

/-- C21 with visited list and re-opening, totally ordered or parallel-sequences instances. -/
theorem C21_rc_visited_list_search {c : VisCfg} (hI : RcInput P cfg nA nT) (hm : ModeOK P c) (hno : c.noReopen = false)
    (pq : PQ) (htot : rcTotal P nA nT .costs < U) (cap : Nat) (rb0 : Nat → Option Nat) :
    ∃ F, ∀ fuel, F ≤ fuel → ∀ inner, inner = lmCut (Est.model P nA nT .costs) pq U fuel ∨
        inner = filterInner (Est.model P nA nT .costs) pq U cap rb0 fuel →
      ∀ correct mi Rt hs0 o f n s' tb, o.subopt = false → o.aStar = .action → o.weight = 1 →
        RcStarted P cfg nA nT Rt hs0 →
        search P cfg (rcEnv P nA U ⟨.costs, correct, mi, inner⟩ Rt o (insVis c)) f emptyVis emptyFringe hs0 =
          some (.solved n, s') → s'.vis = some tb →
        IsSolution P (planOf n.node.sol) ∧
          ∀ π, IsSolution P π → P.planCost π < U → P.planCost (planOf n.node.sol) ≤ P.planCost π := by
  obtain ⟨F, hF⟩ := inners_adm hI pq htot cap rb0
  refine ⟨F, fun fuel hf inner hi correct mi Rt hs0 o f n s' tb ho ha hw hs h _ => ?_⟩
  obtain ⟨hin, hadm⟩ := hF fuel hf inner hi
  have hdet : ∀ h x h' y fx fy,
      ((LiveTasks P h x.node ∧ AStarQ P h x ∧ RcDet P nA nT U ⟨.costs, correct, mi, inner⟩ h x) ∧ NodeVis P c h x.node) →
      ((LiveTasks P h' y.node ∧ AStarQ P h' y ∧ RcDet P nA nT U ⟨.costs, correct, mi, inner⟩ h' y) ∧ NodeVis P c h' y.node) →
      Good P cfg h x.node → Good P cfg h' y.node → x.node.state = y.node.state →
      (∃ e g, NetIso (live h x.node) (live h' y.node) (taskOf h) (taskOf h') (TransGen (Edge h))
        (TransGen (Edge h')) e g) → x.f = some fx → y.f = some fy → fy ≤ fx → y.node.costs ≤ x.node.costs := by
    rintro h x h' y fx fy ⟨⟨-, qx, zx⟩, -⟩ ⟨⟨-, qy, zy⟩, -⟩ - - hst ⟨e, g, hiso⟩ hfx hfy hle
    have e1 := qx.f
    have e2 := qy.f
    rw [hfx, Option.some.injEq] at e1
    rw [hfy, Option.some.injEq] at e2
    have n1 := qx.nonneg
    have n2 := qy.nonneg
    rcases zy with ⟨-, z2⟩ | ⟨cy, sy, y1, y2, y3⟩
    · omega
    · rcases zx with ⟨z1, z2⟩ | ⟨cx, sx, x1, x2, x3⟩
      · omega
      · have := rcValue_det (U := U) hI.wf hI.rc x1 y1 x2 y2 hst hiso ⟨.costs, correct, mi, inner⟩
        rw [this, ← y3] at x3
        omega
  obtain ⟨h1, h2⟩ := C21_astar_optimal_below (B := costBound U) hI.wf hI.cfg (rc_fringe _ Rt o (insVis c)) ho
    (fun _ _ _ hp => wfringe_min hp) (fun a b _ _ hab _ h => Nat.lt_of_le_of_lt hab h)
    (Keeps.and (rc_keeps hI hs rfl hin hadm ho ha hw) (vis_keeps hI.wf hI.cfg hm _)) (fun _ _ h => h.1.2.1)
    (insVis_sound_cost hm rfl hno (fun _ _ h => h.2) hdet)
    (rc_heurSafe_costs hI (hs.spec hI).1 rfl hin hadm _ fun _ _ h => h.1)
    (rc_heurInv hI hs hin _ fun _ _ h => h.1) h
  exact ⟨h1, fun π ⟨k, hsol⟩ hlt => h2 π k hsol hlt⟩

/-! ## C17 -/

/-- C17 during a search: with LM-cut and without correction (or with the mixed estimate), no call of the heuristic
leaves the defined range. -/
theorem C17_rc_search_defined (hI : RcInput P cfg nA nT) (pq : PQ) (e : Est) (htot : rcTotal P nA nT e < U) :
    ∃ F, ∀ fuel, F ≤ fuel → ∀ correct mi Rt hs0 o f res s', correct = false ∨ e = .mixed →
      RcStarted P cfg nA nT Rt hs0 →
      search P cfg (rcEnv P nA U ⟨e, correct, mi, lmCut (e.model P nA nT) pq U fuel⟩ Rt o insNone) f () emptyFringe hs0 =
        some (res, s') → s'.hs.bad = false := by
  have hM : (e.model P nA nT).WF := by rw [e.model_eq]; exact rcModel_wf hI.wf hI.rc
  obtain ⟨F, hF⟩ := lmCut_inner pq hM htot
  refine ⟨F, fun fuel hf correct mi Rt hs0 o f res s' hce hs h => ?_⟩
  obtain ⟨htotal, hin, -⟩ := hF fuel hf
  let ro : RcOpt := ⟨e, correct, mi, lmCut (e.model P nA nT) pq U fuel⟩
  have hw : CorrOK P nA ro 0 := fun hc => by
    rcases hce with hce | rfl
    · rw [show correct = true from hc] at hce; cases hce
    · trivial
  obtain ⟨hR, h0, hb0⟩ := hs.spec hI
  let J : Heap → RcH → Prop := fun h hs => RcState P nA nT h hs ∧ hs.bad = false
  have hJ : HeurInv P cfg (rcEnv P nA U ro Rt o insNone) (LiveTasks P) J hs0 := by
    refine ⟨⟨h0, hb0⟩, fun _ _ _ hp hh hh' H => ⟨H.1.ext hp hh hh', H.2⟩, fun hs' h par n2 H hn hk => ?_⟩
    obtain ⟨h1, c, hy, -, h3⟩ := rcCall_spec (ro := ro) hI hR hin H.1 hn.good hk
    refine ⟨h1, (h3 ?_).trans H.2⟩
    obtain ⟨st', v, cuts, h4, -⟩ := rcValue_total (o := ro) hI.wf hI.rc hy H.1.sets hin htotal fun hc => by
      have : corrSum (ro.est.weight P nA ro.mi) n2.contained = 0 := by
        rcases hce with hce | hce
        · rw [show correct = true from hc] at hce; cases hce
        · have : ro.est = .mixed := hce
          rw [this]
          simp [corrSum, Est.weight]
      rw [this]
      exact htot
    rw [h4]; simp
  have hsafe : HeurSafe P cfg (rcEnv P nA U ro Rt o insNone) (LiveTasks P) J (sizeBound P nA nT U ro 0) 0 :=
    fun hs h par n2 H => rc_heurSafe hI hR hin htot hw (LiveTasks P) (fun _ _ h => h) 0 hs h par n2 H.1
  exact (search_post hI.wf hI.cfg (rc_fringe ro Rt o insNone) (live_keeps hI.wf hI.cfg _) (insNone_sound rfl _ _) hsafe hJ
    sizeBound_mono h).state.2

/-! ## Examples -/

/-- Actions 0 (cost `k`) and 1 (cost 1) without preconditions and effects; task 2 has one method with the sequence 0, 0, 1. -/
def repP (k : Nat) : Problem where
  numFacts := 1
  prim t := decide (t < 2)
  prec _ := []
  add _ := []
  del _ := []
  cost t := if t = 0 then k else 1
  numMethods := 1
  head _ := 2
  sub _ := [0, 0, 1]
  ord _ := [(0, 1), (1, 2)]
  init := 2
  s0 := []
  goal := []

theorem repP_wf (k) : (repP k).WF where
  ord_lt := by intro m _ i j h; simp [repP] at h ⊢; omega
  ord_acyclic := by intro m _; exact ⟨id, fun i j h => by simp [repP] at h ⊢; omega⟩
  sub_ne := by intro m _; simp [repP]
  head_abs := by intro m _; simp [repP]
  init_abs := by simp [repP]
  prec_lt := by simp [repP]
  add_lt := by simp [repP]
  del_lt := by simp [repP]
  s0_lt := by simp [repP]
  goal_lt := by simp [repP]

theorem repP_input (k) : RcInput (repP k) rcCfg 2 3 where
  track := rfl
  wf := repP_wf k
  cfg := fun _ => List.Perm.refl _
  tasks := {
    init_lt := by simp [repP]
    sub_lt := by intro m hm; simp [repP]
    reach := by
      intro t ht
      rcases (by omega : t = 0 ∨ t = 1 ∨ t = 2) with rfl | rfl | rfl
      · exact .single ⟨0, by simp [repP], rfl, by simp [repP]⟩
      · exact .single ⟨0, by simp [repP], rfl, by simp [repP]⟩
      · exact .refl }
  rc := {
    le := by decide
    prim := fun _ _ => rfl
    init_lt := by simp [repP]
    head_lt := by intro m hm; simp [repP]
    sub_lt := by intro m hm; simp [repP]
    prec_nodup := by intro a _; simp [repP] }

/-- The outcome of a search with RC heuristic: plan (or none), costs, and whether all values were defined. -/
def rcRunSearch {V : Type} (P : Problem) (nA nT U : Nat) (ro : RcOpt) (o : Opts) (ins : V → Heap → SNode → V × Bool) (v0 : V) :
    Option (Option (List Nat × Nat) × Bool) := do
  let S ← calcSccs nT (taskAdj P) (fun _ => 0) P.init
  let Rt ← reachTable nT (taskAdj P) nA S
  let hs0 ← rcStart P rcCfg nA nT Rt (List.replicate (P.numFacts + nA + nT) true)
  let r ← search P rcCfg (rcEnv P nA U ro Rt o ins) 30 v0 emptyFringe hs0
  match r.1 with
  | .solved n => some (some (planOf n.node.sol, n.node.costs), r.2.hs.bad)
  | .unsolvable => some (none, r.2.hs.bad)
  | .timeout => none

/-- LM-cut as estimate of the costs. -/
def lmcOpt (P : Problem) (nA nT : Nat) (correct : Bool) : RcOpt :=
  ⟨.costs, correct, fun _ => 0, lmCut (Est.model P nA nT .costs) (heapPQ 8) 2147483647 100⟩

/-- A* with LM-cut finds the optimal plan of the example of C17. -/
example : rcRunSearch rcP 2 4 2147483647 (lmcOpt rcP 2 4 true) (exOpts false) insNone () =
    some (some ([0, 1], 5), false) := by decide +kernel

example : rcRunSearch (repP 3) 2 3 2147483647 (lmcOpt (repP 3) 2 3 true) (exOpts false) insNone () =
    some (some ([0, 0, 1], 7), false) := by decide +kernel

example : rcTotal rcP 2 4 .costs < 2147483647 ∧ rcTotal (repP 3) 2 3 .costs < 2147483647 ∧
    CorrOK (repP 3) 2 (lmcOpt (repP 3) 2 3 true) 3 := by
  refine ⟨by decide +kernel, by decide +kernel, fun _ a _ => ?_⟩
  simp only [repP]
  split_ifs <;> omega

/-- The problem has a solution: it is found without heuristic. -/
theorem repP_solution : IsSolution (repP 1073741823) [0, 0, 1] := by
  have h : ((search (repP 1073741823) rcCfg ((exOpts false).env insNone) 30 () emptyFringe ()).map
      fun r => match r.1 with
      | .solved n => planOf n.node.sol
      | _ => []) = some [0, 0, 1] := by decide +kernel
  obtain ⟨⟨r, s'⟩, h1, h2⟩ := Option.map_eq_some_iff.1 h
  cases r with
  | solved n =>
    have h2 : planOf n.node.sol = [0, 0, 1] := h2
    rw [← h2]
    exact C01_simple_search (repP_wf 1073741823) (repP_input 1073741823).cfg h1
  | unsolvable => simp at h2
  | timeout => simp at h2

/-- **C02 is violated** by the correction of task counts: LM-cut estimates this network at 1073741824, the correction
adds 1073741823 for the second occurrence of action 0, and the sum is the constant that stands for "unreachable". So
the search prunes the only node and reports a solvable problem as unsolvable; no value is undefined, and the costs
summed by LM-cut stay below the constant. -/
theorem C02_rc_saturation_violated :
    RcInput (repP 1073741823) rcCfg 2 3 ∧ rcTotal (repP 1073741823) 2 3 .costs < 2147483647 ∧
    IsSolution (repP 1073741823) [0, 0, 1] ∧
    rcRunSearch (repP 1073741823) 2 3 2147483647 (lmcOpt (repP 1073741823) 2 3 true) (exOpts false) insNone () =
      some (none, false) :=
  ⟨repP_input _, by decide +kernel, repP_solution, by decide +kernel⟩

/-- Without correction, the plan is found. -/
example : rcRunSearch (repP 1073741823) 2 3 2147483647 (lmcOpt (repP 1073741823) 2 3 false) (exOpts false) insNone () =
    some (some ([0, 0, 1], 2147483647), false) := by decide +kernel

theorem repP_tot (k) : TotOrd (repP k) := by
  have hr : ∀ {m i j : Nat}, (repP k).OrdRel m i j ↔ (i = 0 ∧ j = 1) ∨ (i = 1 ∧ j = 2) := by
    intro m i j; simp [Problem.OrdRel, repP]
  intro m _
  have hlt : ∀ {a b}, TransGen ((repP k).OrdRel m) a b → a < b ∧ b ≤ 2 := by
    intro a b hab
    induction hab with
    | single h => have := hr.1 h; omega
    | tail _ h ih => have := hr.1 h; omega
  have h01 : TransGen ((repP k).OrdRel m) 0 1 := .single (hr.2 (.inl ⟨rfl, rfl⟩))
  have h12 : TransGen ((repP k).OrdRel m) 1 2 := .single (hr.2 (.inr ⟨rfl, rfl⟩))
  refine ⟨?_, ?_, by simp [repP]⟩
  · intro i j hi hj hne
    have hi : i < 3 := hi
    have hj : j < 3 := hj
    rcases (by omega : (i = 0 ∧ j = 1) ∨ (i = 1 ∧ j = 0) ∨ (i = 1 ∧ j = 2) ∨ (i = 2 ∧ j = 1) ∨ (i = 0 ∧ j = 2) ∨
      (i = 2 ∧ j = 0)) with h | h | h | h | h | h <;> obtain ⟨rfl, rfl⟩ := h
    · exact .inl h01
    · exact .inr h01
    · exact .inl h12
    · exact .inr h12
    · exact .inl (h01.trans h12)
    · exact .inr (h01.trans h12)
  · rintro i j h k' ⟨h3, h4⟩
    have h5 := hlt h3
    have h6 := hlt h4
    have h7 := hr.1 h
    omega

theorem repP_vis (k) (sq reop) : ModeOK (repP k) (exVis sq reop) where
  tot _ := repP_tot k
  par _ := (repP_tot k).parSeq (repP_wf k)
  mode := .inl rfl
  topo := rfl
  init_lt := by show (2 : Nat) < 3; decide
  sub_lt := by
    intro m _ t ht
    simp only [repP] at ht
    show t < 3
    simp at ht; omega

/-- The search with visited list finds the plan, too. -/
example : rcRunSearch (repP 3) 2 3 2147483647 (lmcOpt (repP 3) 2 3 true) (exOpts false) (insVis (exVis false true))
    emptyVis = some (some ([0, 0, 1], 7), false) := by decide +kernel

/-- The minimal implied distances computed from the model are admitted as correction. -/
theorem corrOK_distance {na B k : Nat} (hp : ∀ t, P.prim t = decide (t < na))
    (habs : ∀ m < P.numMethods, P.prim (P.head m) = false) {s : MinImplied.Vals} {q : List MinImplied.Item}
    (h : MinImplied.iter B P k (MinImplied.start P na, MinImplied.startQueue P na) = some (s, q)) (correct inner) :
    CorrOK P na ⟨.distance, correct, s.td, inner⟩ 1 :=
  fun _ => ⟨Nat.le_refl _, fun t tr hv => (C15_lower_bounds hp habs h t tr hv).2⟩

/-- FF as estimate of the distance, corrected by the minimal implied distances. -/
def ffOpt (P : Problem) (nA nT : Nat) (mi : Nat → Nat) : RcOpt :=
  ⟨.distance, true, mi, ffInner (Est.model P nA nT .distance) (heapPQ 8) 2147483647 30 (fun _ => none) 100⟩

example : ((MinImplied.iter 100 (repP 3) 30 (MinImplied.start (repP 3) 2, MinImplied.startQueue (repP 3) 2)).map fun r =>
      ((List.range 3).map r.1.td, rcRunSearch (repP 3) 2 3 2147483647 (ffOpt (repP 3) 2 3 r.1.td) (exOpts false) insNone ())) =
    some ([1, 1, 4], some (some ([0, 0, 1], 7), false)) := by decide +kernel

/-- `repP` with a goal that cannot be reached. -/
def deadP : Problem := { repP 3 with goal := [0] }

theorem deadP_input : RcInput deadP rcCfg 2 3 where
  track := rfl
  wf := { repP_wf 3 with goal_lt := by simp [deadP, repP] }
  cfg := (repP_input 3).cfg
  tasks := { init_lt := (repP_input 3).tasks.init_lt, sub_lt := (repP_input 3).tasks.sub_lt, reach := (repP_input 3).tasks.reach }
  rc := { le := by decide, prim := fun _ _ => rfl, init_lt := (repP_input 3).rc.init_lt, head_lt := (repP_input 3).rc.head_lt,
          sub_lt := (repP_input 3).rc.sub_lt, prec_nodup := (repP_input 3).rc.prec_nodup }

/-- The search reports it as unsolvable: the hypotheses of C02 are met. -/
example : rcRunSearch deadP 2 3 2147483647 (lmcOpt deadP 2 3 true) (exOpts false) insNone () =
    some (none, false) := by decide +kernel

end Verif.Props
