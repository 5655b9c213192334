import Verif.SearchInv

/-! # The search loop keeps the invariant -/

namespace Verif.Prog

open Verif.Htn Verif.TaskCounter Relation

variable {P : Problem} {cfg : Cfg} {V F H : Type}
variable {E : Env V F H} {items : F → List SNode} {v0 : V} {f0 : F} {Q : Heap → SNode → Prop}
  {K : Heap → Node → Prop} {J : Heap → H → Prop} {B : Nat → Nat → Prop} {eval : SNode → Option Int} {c : Nat}

/-- A node that is a solution. -/
def Solved (P : Problem) (cfg : Cfg) (h : Heap) (n : Node) : Prop :=
  NInv P cfg h n ∧ isGoal P n = true

/-- Result of expanding `par`. -/
def ExpPost (P : Problem) (cfg : Cfg) (E : Env V F H) (items : F → List SNode) (v0 : V)
    (Q : Heap → SNode → Prop) (J : Heap → H → Prop) (B : Nat → Nat → Prop) (c : Nat) (s : St V F H) (pend closed : List Node)
    (s' : St V F H) (r : Option SNode) (done : St V F H → Prop) : Prop :=
  (r = none → ∃ hist', SInv P cfg E items v0 Q J B c s' pend closed hist' ∧ s.g.heap <+: s'.g.heap ∧
    s'.iter = s.iter ∧
    (∀ n ∈ known items s pend closed, n ∈ known items s' pend closed) ∧ done s') ∧
  (∀ x, r = some x → E.subopt = true ∧ Solved P cfg s'.g.heap x.node ∧ J s'.g.heap s'.hs)

theorem applyAll_inv (hP : P.WF) (hcfg : cfg.Ok) (hF : FringeOK E f0 items eval) (hK : Keeps P cfg E eval K Q J)
    (hV : VisSound P cfg E v0 Q c) (hH : HeurSafe P cfg E K J B c) {hs0} (hJ : HeurInv P cfg E K J hs0)
    (hB : ∀ a b x y, a ≤ b → x ≤ y → B b y → B a x) {fuel : Nat} {par : Node} {pend closed : List Node}
    (hpar : par ∈ pend) : ∀ (is : List Nat) (s : St V F H) (hist s' r),
      K s.g.heap par → (∀ i ∈ is, i < par.prims.length) →
      SInv P cfg E items v0 Q J B c s pend closed hist → applyAll P cfg E fuel par is s = some (s', r) →
      ExpPost P cfg E items v0 Q J B c s pend closed s' r (fun s' => s'.g.heap = s.g.heap ∧
        ∀ i ∈ is, ∀ u, par.prims[i]? = some u → P.Applicable (holds par.state) (taskOf s.g.heap u) →
        ∀ π k, B (c * (par.costs + P.cost (taskOf s.g.heap u) + P.planCost π)) (k + π.length) → SolvesN P ((live s.g.heap par).erase u) (taskOf s.g.heap) (TransGen (Edge s.g.heap))
          (P.result (holds par.state) (taskOf s.g.heap u)) π k →
          CovBy P c s.g.heap (known items s' pend closed)
            (par.costs + P.cost (taskOf s.g.heap u) + P.planCost π) (k + π.length + 1)) := by
  intro is
  induction is with
  | nil =>
    intro s hist s' r _ _ I h
    simp only [applyAll, Option.some.injEq, Prod.mk.injEq] at h
    obtain ⟨rfl, rfl⟩ := h
    exact ⟨fun _ => ⟨hist, I, List.prefix_refl _, rfl, fun _ h => h, rfl, by simp⟩, fun x hx => by simp at hx⟩
  | cons i is ih =>
    intro s hist s' r hk hlt I h
    have hi := hlt i List.mem_cons_self
    have hiu : par.prims[i]? = some par.prims[i] := List.getElem?_eq_getElem hi
    have hlt' : ∀ i ∈ is, i < par.prims.length := fun j hj => hlt j (List.mem_cons_of_mem _ hj)
    have hpi : NInv P cfg s.g.heap par := I.pc_ok par (List.mem_append_left _ hpar)
    unfold applyAll at h
    split at h
    · rename_i hna
      obtain ⟨h1, h2⟩ := ih s hist s' r hk hlt' I h
      refine ⟨fun hr => ?_, h2⟩
      obtain ⟨hist', I', hp, hit, hsub, hheq, hdone⟩ := h1 hr
      refine ⟨hist', I', hp, hit, hsub, hheq, fun j hj u hu ha => ?_⟩
      rcases List.mem_cons.1 hj with rfl | hj
      · rw [hiu] at hu
        obtain rfl := Option.some.inj hu
        have : isApplicable P par.state (taskOf s.g.heap par.prims[j]) = true := isApplicable_iff.2 ha
        rw [hiu] at hna
        simp [this] at hna
      · exact hdone j hj u hu ha
    · rename_i hna
      have ha : P.Applicable (holds par.state) (taskOf s.g.heap par.prims[i]) := by
        rw [hiu] at hna
        exact isApplicable_iff.1 (by simpa using hna)
      split at h
      · simp at h
      · rename_i g n2 happ
        obtain ⟨e1, e2, e3, e4⟩ := apply_step hP hcfg hpi hiu ha happ
        have hk2 := hK.app fuel s.g par i _ g n2 hpi hk hiu ha happ
        have I1 : SInv P cfg E items v0 Q J B c { s with g := g } pend closed hist :=
          I.heap_ext hK hJ (by rw [e1]) (by rw [e1]; exact I.heap)
        split at h
        · rename_i s1 x hc
          simp only [Option.some.injEq, Prod.mk.injEq] at h
          obtain ⟨rfl, rfl⟩ := h
          obtain ⟨-, c2⟩ := child_inv hF hK hV hH hJ hB I1 (n2 := n2) (by simpa [e1] using e2) hk2
            (by simpa [e1] using e3) hc
          refine ⟨fun hr => by simp at hr, fun y hy => ?_⟩
          obtain ⟨d1, d2, d3, d4, d5⟩ := c2 y hy
          refine ⟨d1, ⟨?_, ?_⟩, d5⟩
          · rw [d2, d4]; simpa [e1] using e2
          · rw [d2]; exact d3
        · rename_i s1 hc
          obtain ⟨c1, -⟩ := child_inv hF hK hV hH hJ hB I1 (n2 := n2) (by simpa [e1] using e2) hk2
            (by simpa [e1] using e3) hc
          obtain ⟨hist1, J1, jg, jit, jsub, jcov⟩ := c1 rfl
          have jheap : s1.g.heap = s.g.heap := by rw [jg]; exact e1
          obtain ⟨h1, h2⟩ := ih s1 hist1 s' r (by rw [jheap]; exact hk) hlt' J1 h
          refine ⟨fun hr => ?_, h2⟩
          obtain ⟨hist', I', hp, hit, hsub, hheq, hdone⟩ := h1 hr
          rw [jheap] at hp hheq hdone
          refine ⟨hist', I', hp, by rw [hit, jit], fun n hn => hsub n (jsub n hn), hheq, fun j hj u hu hau π k hb hs => ?_⟩
          rcases List.mem_cons.1 hj with rfl | hj
          · rw [hiu] at hu
            obtain rfl := Option.some.inj hu
            obtain ⟨π', hs', hlen, hcost⟩ := e4 π k hs
            have := jcov π' k (hB _ _ _ _ (by rw [hcost]) (by omega) hb) (by simpa [e1] using hs')
            simp only [e1] at this
            refine this.mono hsub ?_ (by omega)
            rw [hcost]
          · exact hdone j hj u hu hau π k hb hs

theorem decAll_inv (hP : P.WF) (hcfg : cfg.Ok) (hF : FringeOK E f0 items eval) (hK : Keeps P cfg E eval K Q J)
    (hV : VisSound P cfg E v0 Q c) (hH : HeurSafe P cfg E K J B c) {hs0} (hJ : HeurInv P cfg E K J hs0)
    (hB : ∀ a b x y, a ≤ b → x ≤ y → B b y → B a x) {fuel : Nat} {par : Node} {pend closed : List Node}
    {d u t : Nat} (hu : par.abs[d]? = some u)
    (hpar : par ∈ pend) : ∀ (ms : List Nat) (s : St V F H) (hist s' r),
      K s.g.heap par → taskOf s.g.heap u = t → (∀ m ∈ ms, m ∈ methodsOf P t) →
      SInv P cfg E items v0 Q J B c s pend closed hist → decAll P cfg E fuel par d ms s = some (s', r) →
      ExpPost P cfg E items v0 Q J B c s pend closed s' r (fun s' =>
        ∀ m ∈ ms, ∀ π k, B (c * (par.costs + P.planCost π)) (k + π.length) → (∀ b I' lab' lt', Subst P (live s.g.heap par) (taskOf s.g.heap)
            (TransGen (Edge s.g.heap)) u m b I' lab' lt' → SolvesN P I' lab' lt' (holds par.state) π k) →
          CovBy P c s'.g.heap (known items s' pend closed) (par.costs + P.planCost π) (k + π.length + 1)) := by
  intro ms
  induction ms with
  | nil =>
    intro s hist s' r _ _ _ I h
    simp only [decAll, Option.some.injEq, Prod.mk.injEq] at h
    obtain ⟨rfl, rfl⟩ := h
    exact ⟨fun _ => ⟨hist, I, List.prefix_refl _, rfl, fun _ h => h, by simp⟩, fun x hx => by simp at hx⟩
  | cons m ms ih =>
    intro s hist s' r hk ht hms I h
    have hpi : NInv P cfg s.g.heap par := I.pc_ok par (List.mem_append_left _ hpar)
    have hm : m ∈ methodsOf P (taskOf s.g.heap u) := by rw [ht]; exact hms m List.mem_cons_self
    have huf : u ∈ par.firsts := List.mem_append_right _ (List.mem_of_getElem? hu)
    have hul : u < s.g.heap.length := hpi.good.node.lt u huf
    unfold decAll at h
    split at h
    · simp at h
    · rename_i g n2 hdec
      obtain ⟨e0, e1, e2, e3, e4⟩ := decompose_step hP hcfg hpi hu hm hdec
      have hk2 := hK.dec fuel s.g par d u m g n2 hpi hk hu hm hdec
      have I1 : SInv P cfg E items v0 Q J B c { s with g := g } pend closed hist := I.heap_ext hK hJ e0 e1
      split at h
      · rename_i s1 x hc
        simp only [Option.some.injEq, Prod.mk.injEq] at h
        obtain ⟨rfl, rfl⟩ := h
        obtain ⟨-, c2⟩ := child_inv hF hK hV hH hJ hB I1 (n2 := n2) e2 hk2 e3 hc
        refine ⟨fun hr => by simp at hr, fun y hy => ?_⟩
        obtain ⟨d1, d2, d3, d4, d5⟩ := c2 y hy
        refine ⟨d1, ⟨?_, ?_⟩, d5⟩
        · rw [d2, d4]; exact e2
        · rw [d2]; exact d3
      · rename_i s1 hc
        obtain ⟨c1, -⟩ := child_inv hF hK hV hH hJ hB I1 (n2 := n2) e2 hk2 e3 hc
        obtain ⟨hist1, J1, jg, jit, jsub, jcov⟩ := c1 rfl
        have jheap : s1.g.heap = g.heap := by rw [jg]
        have jp : s.g.heap <+: s1.g.heap := by rw [jheap]; exact e0
        obtain ⟨h1, h2⟩ := ih s1 hist1 s' r (hK.extK _ _ _ jp J1.heap hpi hk)
          (by rw [prefix_taskOf jp hul, ht]) (fun m hm => hms m (List.mem_cons_of_mem _ hm)) J1 h
        refine ⟨fun hr => ?_, h2⟩
        obtain ⟨hist', I', hp, hit, hsub, hdone⟩ := h1 hr
        refine ⟨hist', I', jp.trans hp, by rw [hit, jit], fun n hn => hsub n (jsub n hn), fun m' hm' π k hb hs => ?_⟩
        rcases List.mem_cons.1 hm' with rfl | hm'
        · obtain ⟨π', hs', hlen, hcost⟩ := e4 π k hs
          have := jcov π' k (hB _ _ _ _ (by rw [hcost]) (by omega) hb) hs'
          rw [show ({ s with g := g } : St V F H).g.heap = s1.g.heap from jheap.symm] at this
          exact ((this.ext hp I'.heap J1.known_ok)).mono hsub (by rw [hcost]) (by omega)
        · refine hdone m' hm' π k hb (fun b I2 lab' lt' S => hs b I2 lab' lt' ?_)
          -- the substitution problem is the same in the extended heap
          have hlive := prefix_live jp I.heap J1.heap hpi.good.node.lt
          rw [hlive] at S
          have hl : ∀ v ∈ live s.g.heap par, taskOf s1.g.heap v = taskOf s.g.heap v :=
            fun v hv => prefix_taskOf jp (live_lt hv)
          have ht : ∀ v ∈ live s.g.heap par, ∀ w, TransGen (Edge s1.g.heap) v w ↔ TransGen (Edge s.g.heap) v w :=
            fun v hv w => prefix_trans jp I.heap (live_lt hv)
          have hul : u ∈ live s.g.heap par := (hpi.good.node.first_min I.heap huf).1
          exact ⟨S.mem, S.fresh, fun v hv hvu => by rw [S.lab_old v hv hvu, hl v hv], S.lab_new,
            fun v hv w hw h1 h2 => by rw [S.lt_old v hv w hw h1 h2, ht v hv w], S.lt_new,
            fun i w hi hw h1 => by rw [S.lt_new_old i w hi hw h1, ht u hul w],
            fun v i hv h1 hi => by rw [S.lt_old_new v i hv h1 hi, ht v hv u]⟩

/-- A solution of a node that is not a goal node is inherited by a child. -/
theorem expand_inv (hP : P.WF) (hcfg : cfg.Ok) (hF : FringeOK E f0 items eval) (hK : Keeps P cfg E eval K Q J)
    (hV : VisSound P cfg E v0 Q c) (hH : HeurSafe P cfg E K J B c) {hs0} (hJ : HeurInv P cfg E K J hs0)
    (hB : ∀ a b x y, a ≤ b → x ≤ y → B b y → B a x) {fuel : Nat} {par : Node} {closed : List Node}
    {s hist s' r} (hk : K s.g.heap par) (hng : isGoal P par = false)
    (I : SInv P cfg E items v0 Q J B c s [par] closed hist) (h : expand P cfg E fuel par s = some (s', r)) :
    (r = none → ∃ hist', SInv P cfg E items v0 Q J B c s' [] (par :: closed) hist' ∧ s'.iter = s.iter) ∧
      (∀ x, r = some x → E.subopt = true ∧ Solved P cfg s'.g.heap x.node ∧ J s'.g.heap s'.hs) := by
  have hpi : NInv P cfg s.g.heap par := I.pc_ok par (by simp)
  have finish : ∀ hist', SInv P cfg E items v0 Q J B c s' [par] closed hist' →
      (∀ π k, B (c * (par.costs + P.planCost π)) (k + π.length) → NodeSol P s'.g.heap par π k → CovBy P c s'.g.heap (known items s' [par] closed)
        (par.costs + P.planCost π) (k + π.length)) →
      SInv P cfg E items v0 Q J B c s' [] (par :: closed) hist' := by
    intro hist' I' hcov
    exact ⟨I'.heap, I'.vis, I'.hist_ok, I'.items_ok, I'.pc_ok, fun n hn => by
      rcases List.mem_cons.1 hn with rfl | hn
      · exact hcov
      · exact I'.closed_cov n hn, I'.acc, I'.root, I'.state⟩
  unfold expand at h
  split at h
  · rename_i habs
    rw [List.isEmpty_iff] at habs
    obtain ⟨h1, h2⟩ := applyAll_inv hP hcfg hF hK hV hH hJ hB (pend := [par]) (by simp) _ s hist s' r hk
      (fun i hi => List.mem_range.1 hi) I h
    refine ⟨fun hr => ?_, h2⟩
    obtain ⟨hist', I', hp, hit, hsub, hheq, hdone⟩ := h1 hr
    refine ⟨hist', finish hist' I' (fun π k hb hs => ?_), hit⟩
    rw [hheq] at hs ⊢
    by_cases hpr : par.prims = []
    · exfalso
      have hf : par.firsts = [] := by simp [Node.firsts, hpr, habs]
      have hl : live s.g.heap par = ∅ := by
        ext v; rw [mem_live I.heap hpi.good.node.lt, hf]; simp [ReachFrom]
      unfold NodeSol at hs
      rw [hl] at hs
      have := isGoal_iff.2 ⟨hf, (solvesN_empty.1 hs).2.2⟩
      rw [hng] at this; simp at this
    · obtain ⟨u, hu, happ, π', rfl, hs'⟩ := hs.first hP hpi.good habs hpr
      obtain ⟨i, hi⟩ := List.mem_iff_getElem?.1 hu
      have hil := (List.getElem?_eq_some_iff.1 hi).1
      have := hdone i (List.mem_range.2 hil) u hi happ π' k (hB _ _ _ _ (by rw [planCost_cons, ← Nat.add_assoc]) (by simp) hb) hs'
      refine this.mono (fun _ h => h) ?_ (by simp; omega)
      rw [planCost_cons, Nat.add_assoc]
  · rename_i habs
    have hne : par.abs ≠ [] := by simpa using habs
    set d := E.rnd s.iter % par.abs.length with hd
    have hdl : d < par.abs.length := Nat.mod_lt _ (List.length_pos_of_ne_nil hne)
    have hdu : par.abs[d]? = some par.abs[d] := List.getElem?_eq_getElem hdl
    set u := par.abs[d] with hu
    have huf : u ∈ par.firsts := List.mem_append_right _ (List.mem_of_getElem? hdu)
    simp only [hdu, Option.getD_some] at h
    obtain ⟨h1, h2⟩ := decAll_inv hP hcfg hF hK hV hH hJ hB (pend := [par]) hdu (by simp) _ s hist s' r hk
      rfl (fun m hm => hm) I h
    refine ⟨fun hr => ?_, h2⟩
    obtain ⟨hist', I', hp, hit, hsub, hdone⟩ := h1 hr
    refine ⟨hist', finish hist' I' (fun π k hb hs => ?_), hit⟩
    have hs0 : NodeSol P s.g.heap par π k := (prefix_nodeSol hp I.heap I'.heap hpi.good.node.lt).1 hs
    have hul := (hpi.good.node.first_min I.heap huf).1
    obtain ⟨m, hm, hhead, hk0, hsub'⟩ := SolvesN.to_subst hul
      (hpi.good.node.abs u (List.mem_of_getElem? hdu)) hs0
    have hmm : m ∈ methodsOf P (taskOf s.g.heap u) := by
      simp [methodsOf, hm, hhead]
    exact (hdone m hmm π (k - 1) (hB _ _ _ _ (Nat.le_refl _) (by omega) hb) hsub').mono (fun _ h => h) (Nat.le_refl _) (by omega)

/-- Taking a node out of the fringe. -/
theorem SInv.pop (hF : FringeOK E f0 items eval) {s closed hist} (I : SInv P cfg E items v0 Q J B c s [] closed hist)
    {n fr'} (hpop : E.pop s.fr = some (n, fr')) :
    NInv P cfg s.g.heap n.node ∧ Q s.g.heap n ∧ (E.subopt = true → isGoal P n.node = false) ∧
      SInv P cfg E items v0 Q J B c { s with fr := fr' } [n.node] closed hist := by
  have hperm := hF.pop_some _ _ _ hpop
  have hn := I.items_ok n (hperm.mem_iff.2 List.mem_cons_self)
  have hsub : ∀ x ∈ known items s [] closed, x ∈ known items { s with fr := fr' } [n.node] closed := by
    intro x hx
    rcases List.mem_append.1 hx with hx | hx
    · obtain ⟨y, hy, rfl⟩ := List.mem_map.1 hx
      rcases List.mem_cons.1 (hperm.mem_iff.1 hy) with rfl | hy
      · exact List.mem_append_right _ (by simp)
      · exact List.mem_append_left _ (List.mem_map.2 ⟨y, hy, rfl⟩)
    · exact List.mem_append_right _ (List.mem_cons_of_mem _ hx)
  refine ⟨hn.1, hn.2.1, hn.2.2, I.heap, I.vis, I.hist_ok, ?_, ?_, ?_, ?_, ?_, I.state⟩
  · exact fun y hy => I.items_ok y (hperm.mem_iff.2 (List.mem_cons_of_mem _ hy))
  · intro x hx
    rcases List.mem_cons.1 hx with rfl | hx
    · exact hn.1
    · exact I.pc_ok x hx
  · exact fun x hx π k hb hs => (I.closed_cov x hx π k hb hs).mono hsub (Nat.le_refl _) (Nat.le_refl _)
  · intro pre y post he ha
    obtain ⟨h1, h2⟩ := I.acc pre y post he ha
    exact ⟨fun h => List.mem_cons_of_mem _ (h1 h), fun π k hb hs => (h2 π k hb hs).mono hsub (Nat.le_refl _) (Nat.le_refl _)⟩
  · exact fun π k hb hs => (I.root π k hb hs).mono hsub (Nat.le_refl _) (Nat.le_refl _)

/-- Dropping a rejected node (late duplicate test). -/
theorem SInv.drop (hV : VisSound P cfg E v0 Q c)
    {s : St V F H} {closed hist} {n : SNode} (I : SInv P cfg E items v0 Q J B c s [n.node] closed hist)
    (I0 : ∀ pre y post, hist = pre ++ y :: post → (E.ins (runIns E v0 pre) y.1 y.2).2 = true →
      y.2.node ∈ closed)
    (hq : Q s.g.heap n) (hdup : (E.ins s.vis s.g.heap n).2 = false) :
    SInv P cfg E items v0 Q J B c { s with vis := (E.ins s.vis s.g.heap n).1 } [] closed
      (hist ++ [(s.g.heap, n)]) := by
  have hn : NInv P cfg s.g.heap n.node := I.pc_ok _ (by simp)
  have hdup' := hdup
  rw [I.vis] at hdup'
  obtain ⟨pre, y, post, he, ha, hy⟩ := hV hist s.g.heap n
    (fun y hy => ⟨(I.hist_ok y hy).1, (I.hist_ok y hy).2.1.good, (I.hist_ok y hy).2.2⟩) hn.good hq hdup'
  have hyc := I0 pre y post he ha
  have hyh := I.hist_ok y (by rw [he]; simp)
  have hred : ∀ T μ, CovBy P c s.g.heap (known items s [n.node] closed) T μ →
      CovBy P c s.g.heap (known items s [] closed) T μ := by
    rintro T μ ⟨x, hx, π, k, hs, h1, h2⟩
    rcases List.mem_append.1 hx with hx | hx
    · exact ⟨x, List.mem_append_left _ hx, π, k, hs, h1, h2⟩
    · rcases List.mem_cons.1 hx with rfl | hx
      · obtain ⟨π', k', hs', hle, hm⟩ := hy π k hs
        exact ⟨y.2.node, List.mem_append_right _ hyc, π', k',
          (prefix_nodeSol hyh.1 hyh.2.1.good.heap I.heap hyh.2.1.good.node.lt).2 hs',
          Nat.le_trans hle h1, by omega⟩
      · exact ⟨x, List.mem_append_right _ hx, π, k, hs, h1, h2⟩
  have J1 : SInv P cfg E items v0 Q J B c s [] closed hist := by
    refine ⟨I.heap, I.vis, I.hist_ok, I.items_ok, fun x hx => I.pc_ok x (List.mem_cons_of_mem _ hx), ?_, ?_, ?_, I.state⟩
    · exact fun x hx π k hb hs => hred _ _ (I.closed_cov x hx π k hb hs)
    · intro pre y post he ha
      exact ⟨fun _ => I0 pre y post he ha, fun π k hb hs => hred _ _ ((I.acc pre y post he ha).2 π k hb hs)⟩
    · exact fun π k hb hs => hred _ _ (I.root π k hb hs)
  exact J1.insert hn hq (fun h => by rw [hdup] at h; simp at h)

/-- What is known when the search stops. -/
def LoopPost (P : Problem) (cfg : Cfg) (E : Env V F H) (items : F → List SNode)
    (v0 : V) (Q : Heap → SNode → Prop) (J : Heap → H → Prop) (B : Nat → Nat → Prop) (c : Nat) : Result → St V F H → Prop
  | .unsolvable, s => ∃ closed hist, SInv P cfg E items v0 Q J B c s [] closed hist ∧ items s.fr = []
  | .solved n, s => Solved P cfg s.g.heap n.node ∧
      (E.subopt = false → ∃ s0 closed hist, SInv P cfg E items v0 Q J B c s0 [] closed hist ∧
        E.pop s0.fr = some (n, s.fr) ∧ s0.g = s.g ∧ Q s.g.heap n) ∧ J s.g.heap s.hs
  | .timeout, s => J s.g.heap s.hs

theorem loop_inv (hP : P.WF) (hcfg : cfg.Ok) (hF : FringeOK E f0 items eval) (hK : Keeps P cfg E eval K Q J)
    (hV : VisSound P cfg E v0 Q c) (hH : HeurSafe P cfg E K J B c) {hs0} (hJ : HeurInv P cfg E K J hs0)
    (hB : ∀ a b x y, a ≤ b → x ≤ y → B b y → B a x) : ∀ (fuel : Nat) (s : St V F H) (closed hist res s'),
      SInv P cfg E items v0 Q J B c s [] closed hist → loop P cfg E fuel s = some (res, s') →
      LoopPost P cfg E items v0 Q J B c res s' := by
  intro fuel
  induction fuel with
  | zero => intro s closed hist res s' _ h; simp [loop] at h
  | succ fuel ih =>
    intro s closed hist res s' I h
    unfold loop at h
    split at h
    · rename_i hpop
      simp only [Option.some.injEq, Prod.mk.injEq] at h
      obtain ⟨rfl, rfl⟩ := h
      exact ⟨closed, hist, I, hF.pop_none _ hpop⟩
    · rename_i n fr' hpop
      obtain ⟨hn, hq, hgoal, I1⟩ := I.pop hF hpop
      -- the part after the duplicate test
      have rest : ∀ (v' : V) (hist' : List (Heap × SNode)),
          SInv P cfg E items v0 Q J B c { s with fr := fr', vis := v' } [n.node] closed hist' →
          afterCheck P cfg E (loop P cfg E fuel) fuel n { s with fr := fr', vis := v' } =
            some (res, s') → LoopPost P cfg E items v0 Q J B c res s' := by
        intro v' hist' J1 h
        unfold afterCheck at h
        split at h
        · rename_i hg
          simp only [Option.some.injEq, Prod.mk.injEq] at h
          obtain ⟨rfl, rfl⟩ := h
          simp only [Bool.and_eq_true] at hg
          exact ⟨⟨hn, hg.2⟩, fun _ => ⟨s, closed, hist, I, hpop, rfl, hq⟩, J1.state⟩
        · rename_i hg
          have hng : isGoal P n.node = false := by
            cases hs : E.subopt with
            | true => exact hgoal hs
            | false => simpa [hs] using hg
          have hkn := hK.toK _ _ hq
          revert h
          generalize hexp : expand P cfg E fuel n.node { s with fr := fr', vis := v' } = ex
          intro h
          unfold afterExpand at h
          split at h
          · simp at h
          · rename_i s1 x
            simp only [Option.some.injEq, Prod.mk.injEq] at h
            obtain ⟨rfl, rfl⟩ := h
            obtain ⟨-, e2⟩ := expand_inv hP hcfg hF hK hV hH hJ hB (s := { s with fr := fr', vis := v' }) hkn hng J1 hexp
            obtain ⟨d1, d2, d3⟩ := e2 x rfl
            exact ⟨d2, fun hs => by rw [d1] at hs; simp at hs, d3⟩
          · rename_i s1
            obtain ⟨e1, -⟩ := expand_inv hP hcfg hF hK hV hH hJ hB (s := { s with fr := fr', vis := v' }) hkn hng J1 hexp
            obtain ⟨hist'', J', -⟩ := e1 rfl
            split at h
            · simp only [Option.some.injEq, Prod.mk.injEq] at h
              obtain ⟨rfl, rfl⟩ := h
              exact J'.state
            · exact ih _ _ _ _ _ (⟨J'.heap, J'.vis, J'.hist_ok, J'.items_ok, J'.pc_ok, J'.closed_cov,
                J'.acc, J'.root, J'.state⟩ : SInv P cfg E items v0 Q J B c { s1 with iter := s1.iter + 1 } [] _ hist'') h
      by_cases hs : E.subopt = true
      · have hpc : popCheck E s n = (s.vis, true) := by simp [popCheck, hs]
        simp only [hpc] at h
        exact rest s.vis hist I1 (by simpa using h)
      · have hs' : E.subopt = false := by simpa using hs
        have hpc : popCheck E s n = E.ins s.vis s.g.heap n := by simp [popCheck, hs]
        simp only [hpc] at h
        split at h
        · rename_i hdup
          have I0 : ∀ pre y post, hist = pre ++ y :: post → (E.ins (runIns E v0 pre) y.1 y.2).2 = true →
              y.2.node ∈ closed := fun pre y post he ha => by simpa using (I.acc pre y post he ha).1 hs'
          exact ih _ _ _ _ _ (I1.drop hV I0 hq hdup) h
        · refine rest _ _ (I1.insert hn hq (fun _ => ⟨fun _ => by simp, fun π k _ hsol => ?_⟩)) h
          exact ⟨n.node, List.mem_append_right _ (by simp), π, k, hsol, Nat.le_refl _, Nat.lt_succ_self _⟩

/-- The invariant holds initially. -/
theorem search_init (hP : P.WF) (hF : FringeOK E f0 items eval) (hK : Keeps P cfg E eval K Q J) {hs0 : H}
    (hJ : HeurInv P cfg E K J hs0) :
    SInv P cfg E items v0 Q J B c
      { g := (initNode P cfg).1, fr := E.push f0 (rootNode P cfg E.hLength), vis := v0, hs := hs0, iter := 0 }
      [] [] [] := by
  obtain ⟨hn, hsol⟩ := init_ninv (cfg := cfg) hP
  have hperm := hF.push f0 (rootNode P cfg E.hLength)
  rw [hF.empty] at hperm
  refine ⟨hn.good.heap, rfl, by simp, ?_, by simp, by simp, by simp, ?_, hJ.init⟩
  · intro x hx
    obtain rfl := List.mem_singleton.1 (hperm.mem_iff.1 hx)
    exact ⟨hn, hK.root, fun _ => by simp [isGoal, rootNode, initNode]⟩
  · intro π k _ hs
    refine ⟨(initNode P cfg).2, List.mem_append_left _ (List.mem_map.2
      ⟨_, hperm.mem_iff.2 List.mem_cons_self, rfl⟩), π, k, (hsol π k).2 hs, ?_, Nat.lt_succ_self _⟩
    have : (initNode P cfg).2.costs = 0 := rfl
    rw [this, Nat.zero_add]

theorem search_post (hP : P.WF) (hcfg : cfg.Ok) (hF : FringeOK E f0 items eval) (hK : Keeps P cfg E eval K Q J)
    (hV : VisSound P cfg E v0 Q c) (hH : HeurSafe P cfg E K J B c) {hs0} (hJ : HeurInv P cfg E K J hs0)
    (hB : ∀ a b x y, a ≤ b → x ≤ y → B b y → B a x) {fuel res s'}
    (h : search P cfg E fuel v0 f0 hs0 = some (res, s')) : LoopPost P cfg E items v0 Q J B c res s' :=
  loop_inv hP hcfg hF hK hV hH hJ hB fuel _ _ _ _ _ (search_init hP hF hK hJ) h

/-- The internal state of the heuristic is in order at the end. -/
theorem LoopPost.state {res : Result} {s : St V F H} (h : LoopPost P cfg E items v0 Q J B c res s) :
    J s.g.heap s.hs := by
  cases res with
  | unsolvable =>
    obtain ⟨_, _, I, _⟩ := h
    exact I.state
  | solved n => exact h.2.2
  | timeout => exact h

/-- Solutions can always be continued from the fringe. -/
theorem SInv.fringe_cov (hB : ∀ a b x y, a ≤ b → x ≤ y → B b y → B a x) {s closed hist} (I : SInv P cfg E items v0 Q J B c s [] closed hist) :
    ∀ μ T, B (c * T) (μ - 1) → CovBy P c s.g.heap (known items s [] closed) T μ →
      ∃ x ∈ items s.fr, ∃ π k, NodeSol P s.g.heap x.node π k ∧
        c * (x.node.costs + P.planCost π) ≤ c * T := by
  intro μ
  induction μ using Nat.strong_induction_on with
  | _ μ ih =>
  rintro T hb ⟨n, hn, π, k, hs, h1, h2⟩
  rcases List.mem_append.1 hn with hn | hn
  · obtain ⟨x, hx, rfl⟩ := List.mem_map.1 hn
    exact ⟨x, hx, π, k, hs, h1⟩
  · have := I.closed_cov n (by simpa using hn) π k (hB _ _ _ _ h1 (by omega) hb) hs
    obtain ⟨x, hx, π', k', hs', hc⟩ := ih _ h2 _ (hB _ _ _ _ h1 (by omega) hb) this
    exact ⟨x, hx, π', k', hs', Nat.le_trans hc h1⟩

end Verif.Prog
