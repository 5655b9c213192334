import Verif.VisKey

/-! # The visited list is sound in totally ordered and parallel-sequence instances -/

namespace Verif.Prog

open Verif.Htn Verif.TaskCounter Verif.Bits Verif.CST Relation

variable {P : Problem} {cfg : Cfg} {c : VisCfg}

/-- The configuration of the visited list fits the problem: modes are chosen as by the constructor
(src/VisitedList.cpp 87-88), and the key contains the sequence of tasks. -/
structure ModeOK (P : Problem) (c : VisCfg) : Prop where
  tot : c.totalOrder = true → TotOrd P
  par : c.seqMode = true → ParSeq P
  mode : c.totalOrder = true ∨ c.seqMode = true
  topo : c.topo = true
  init_lt : P.init < c.numTasks
  sub_lt : ∀ m < P.numMethods, ∀ t ∈ P.sub m, t < c.numTasks

theorem ModeOK.parSeq (hP : P.WF) (hm : ModeOK P c) : ParSeq P :=
  hm.mode.elim (fun h => (hm.tot h).parSeq hP) hm.par

/-- Invariant of nodes needed by the visited list. -/
structure NodeVis (P : Problem) (c : VisCfg) (h : Heap) (n : Node) : Prop where
  tasks : ∀ u ∈ live h n, taskOf h u < c.numTasks
  tot : c.totalOrder = true → TotNode h n
  chain : ChainNode P h n

theorem NodeVis.ext {h h' : Heap} (hp : h <+: h') (hh' : HeapOK h') {n : Node} (hg : Good P cfg h n)
    (hc : NodeVis P c h n) : NodeVis P c h' n :=
  ⟨fun u hu => by
    rw [prefix_live hp hg.heap hh' hg.node.lt] at hu
    rw [prefix_taskOf hp (live_lt hu)]; exact hc.tasks u hu, fun h0 => (hc.tot h0).ext hp hh' hg, hc.chain.ext hp hh' hg⟩

theorem decompose_tasks (hP : P.WF) (hcfg : cfg.Ok) (hm : ModeOK P c) {f g n d u m g' n2} (hg : Good P cfg g.heap n)
    (ht : ∀ u ∈ live g.heap n, taskOf g.heap u < c.numTasks) (hu : n.abs[d]? = some u)
    (hmm : m ∈ methodsOf P (taskOf g.heap u)) (h : decompose P cfg f g n d m = some (g', n2)) :
    ∀ u ∈ live g'.heap n2, taskOf g'.heap u < c.numTasks := by
  obtain ⟨g1, n1, us, h1, h2, h3⟩ := decompose_chain h
  have hl := h3.live_sub hP hcfg (hg.decomposeBase hP hu hmm h1)
  simp only [methodsOf, List.mem_filter, List.mem_range, beq_iff_eq] at hmm
  obtain ⟨-, -, -, S⟩ := decomposeBase_inv hP hg.heap hg.node hmm.1 h1 hu
  rw [h2]
  intro v hv
  rcases (S.mem v).1 (hl hv) with ⟨hx, hxu⟩ | ⟨i, hi, rfl⟩
  · rw [S.lab_old v hx hxu]; exact ht v hx
  · rw [S.lab_new i _ (List.getElem?_eq_getElem hi)]
    exact hm.sub_lt m hmm.1 _ (List.getElem_mem hi)

theorem nodeVis_keeps (hP : P.WF) (hcfg : cfg.Ok) (hm : ModeOK P c) :
    NodeVis P c (initNode P cfg).1.heap (initNode P cfg).2 ∧
    (∀ f g n i u g' n2, NInv P cfg g.heap n → NodeVis P c g.heap n → n.prims[i]? = some u →
      P.Applicable (holds n.state) (taskOf g.heap u) → apply P cfg f g n i = some (g', n2) →
      NodeVis P c g'.heap n2) ∧
    (∀ f g n d u m g' n2, NInv P cfg g.heap n → NodeVis P c g.heap n → n.abs[d]? = some u →
      m ∈ methodsOf P (taskOf g.heap u) → decompose P cfg f g n d m = some (g', n2) →
      NodeVis P c g'.heap n2) := by
  obtain ⟨c0, c1, c2⟩ := chain_keeps hP hcfg (hm.parSeq hP)
  refine ⟨⟨?_, fun h0 => (tot_keeps hP hcfg (hm.tot h0)).1, c0⟩, ?_, ?_⟩
  · intro u hu
    have : u = 0 := by have := live_lt hu; simp [initNode] at this; exact this
    subst this
    exact hm.init_lt
  · intro f g n i u g' n2 hn hc hu happ h
    obtain ⟨h1, h2⟩ := apply_live_sub hP hcfg hn.good hu happ h
    exact ⟨by rw [h1]; exact fun u hu => hc.tasks u (h2 hu),
      fun h0 => (tot_keeps hP hcfg (hm.tot h0)).2.1 _ _ _ _ _ _ _ hn (hc.tot h0) hu happ h,
      c1 _ _ _ _ _ _ _ hn hc.chain hu happ h⟩
  · intro f g n d u m g' n2 hn hc hu hmm h
    exact ⟨decompose_tasks hP hcfg hm hn.good hc.tasks hu hmm h,
      fun h0 => (tot_keeps hP hcfg (hm.tot h0)).2.2 _ _ _ _ _ _ _ _ hn (hc.tot h0) hu hmm h,
      c2 _ _ _ _ _ _ _ _ hn hc.chain hu hmm h⟩

/-! ## From the sequence to the network -/

/-- A list of all steps of a totally ordered network, compatible with the ordering, is its chain. -/
theorem chainNet_single {h : Heap} (hh : HeapOK h) {n : Node} (ht : TotNode h n) {us : List Nat} (hnd : us.Nodup)
    (hmem : ∀ v, v ∈ us ↔ v ∈ live h n) (hpw : us.Pairwise (fun a b => ¬ TransGen (Edge h) b a)) :
    ChainNet (live h n) (TransGen (Edge h)) [us] := by
  refine ⟨by simpa using hnd, fun v => ?_, ?_⟩
  · rw [← hmem, List.mem_iff_getElem?]
    constructor
    · rintro ⟨j, hj⟩; exact ⟨0, j, hj⟩
    · rintro ⟨i, j, hij⟩
      cases i with
      | zero => exact ⟨j, hij⟩
      | succ i => simp at hij
  · intro i j i' j' u v hu hv
    have hi : i = 0 := by cases i with | zero => rfl | succ i => simp at hu
    have hi' : i' = 0 := by cases i' with | zero => rfl | succ i' => simp at hv
    subst hi; subst hi'
    simp only [List.getElem?_cons_zero, Option.bind_some] at hu hv
    obtain ⟨hj, rfl⟩ := List.getElem?_eq_some_iff.1 hu
    obtain ⟨hj', rfl⟩ := List.getElem?_eq_some_iff.1 hv
    have hp := List.pairwise_iff_getElem.1 hpw
    constructor
    · intro hlt
      refine ⟨rfl, ?_⟩
      by_contra hge
      rcases Nat.lt_or_ge j' j with h1 | h1
      · exact hp j' j hj' hj h1 hlt
      · obtain rfl : j = j' := by omega
        exact hh.irrefl hlt
    · rintro ⟨-, hlt⟩
      have hne : us[j] ≠ us[j'] := fun he => by
        have := (List.Nodup.getElem_inj_iff hnd).1 he; omega
      exact (ht _ ((hmem _).1 (List.getElem_mem hj)) _ ((hmem _).1 (List.getElem_mem hj')) hne).resolve_right
        (hp j j' hj hj' hlt)

/-- Encoding of the label sequences. -/
def encSeq (c : VisCfg) (L : List (List Nat)) : List Nat :=
  if c.seqMode then (if c.totalOrder then joinSep c.numTasks (sortSeqs L) else []) ++ joinSep c.numTasks (sortSeqs L)
  else L.flatten

theorem append_self_inj {l l' : List Nat} (h : l ++ l = l' ++ l') : l = l' := by
  have := congrArg List.length h
  simp only [List.length_append] at this
  exact (List.append_inj h (by omega)).1

theorem encSeq_perm {L L' : List (List Nat)} (hs : ∀ s ∈ L, (∀ t ∈ s, t < c.numTasks) ∧ (c.seqMode = true → s ≠ []))
    (hs' : ∀ s ∈ L', (∀ t ∈ s, t < c.numTasks) ∧ (c.seqMode = true → s ≠ []))
    (h1 : c.seqMode = false → L.length = 1) (h1' : c.seqMode = false → L'.length = 1)
    (h : encSeq c L = encSeq c L') : L.Perm L' := by
  unfold encSeq at h
  by_cases hm : c.seqMode = true
  · rw [if_pos hm, if_pos hm] at h
    have hj : joinSep c.numTasks (sortSeqs L) = joinSep c.numTasks (sortSeqs L') := by
      by_cases ht : c.totalOrder = true
      · rw [if_pos ht, if_pos ht] at h; exact append_self_inj h
      · rw [if_neg ht, if_neg ht] at h; simpa using h
    have hn : ∀ K : List (List Nat), (∀ s ∈ K, (∀ t ∈ s, t < c.numTasks) ∧ (c.seqMode = true → s ≠ [])) →
        ∀ s ∈ sortSeqs K, c.numTasks ∉ s ∧ s ≠ [] := by
      intro K hK s hsK
      obtain ⟨e1, e2⟩ := hK s ((sortSeqs_perm K).mem_iff.1 hsK)
      exact ⟨fun h0 => Nat.lt_irrefl _ (e1 _ h0), e2 hm⟩
    have := joinSep_inj _ _ (hn L hs) (hn L' hs') hj
    exact (sortSeqs_perm L).symm.trans (this ▸ sortSeqs_perm L')
  · rw [if_neg hm, if_neg hm] at h
    obtain ⟨s, rfl⟩ := List.length_eq_one_iff.1 (h1 (by simpa using hm))
    obtain ⟨s', rfl⟩ := List.length_eq_one_iff.1 (h1' (by simpa using hm))
    simp at h; rw [h]

theorem toDfs_ne {h : Heap} : ∀ {f u l}, toDfs h f u = some l → l ≠ [] := by
  intro f u l hl
  cases f with
  | zero => simp [toDfs] at hl
  | succ f =>
    rw [toDfs] at hl
    split at hl
    · simp at hl
    · split at hl
      · simp only [Option.some.injEq] at hl; subst hl; simp
      · rw [Option.map_eq_some_iff] at hl
        obtain ⟨l', -, rfl⟩ := hl
        simp

/-- The sequence used in the key is the encoding of the chains of the network. -/
theorem visSeq_spec (hm : ModeOK P c) {h : Heap} {n : Node} (hg : Good P cfg h n) (hv : NodeVis P c h n) :
    ∃ cs : List (List Nat), visSeq c h n = some (encSeq c (cs.map fun l => l.map (taskOf h))) ∧
      ChainNet (live h n) (TransGen (Edge h)) cs ∧
      (∀ s ∈ cs, (∀ u ∈ s, u ∈ live h n) ∧ (c.seqMode = true → s ≠ [])) ∧ (c.seqMode = false → cs.length = 1) ∧
      (c.totalOrder = true → cs.length ≤ 1) := by
  have hh := hg.heap
  have hn := hg.node
  have hperm : (n.abs ++ n.prims).Perm n.firsts := List.perm_append_comm
  obtain ⟨cs, hcs⟩ := chainsOf_total hh (us := n.abs ++ n.prims) fun u hu => hn.lt u (hperm.mem_iff.1 hu)
  have hcn := hv.chain.chainNet hh hn hperm hcs
  obtain ⟨hlen, hget⟩ := chainsOf_get hcs
  -- the part for totally ordered instances
  have hto : ∀ us : List Nat, (∀ u ∈ us, u < h.length) → ∃ s, dfsHead h us = some s := by
    intro us hus
    cases us with
    | nil => exact ⟨[], rfl⟩
    | cons u us =>
      obtain ⟨l, hl⟩ := toDfs_total hh (h.length + 1) u ∅ (hus u List.mem_cons_self) (by simp) (by simp)
      exact ⟨l.map (taskOf h), by simp [dfsHead, hl]⟩
  obtain ⟨s1, hs1⟩ := hto n.prims fun u hu => hn.lt u (List.mem_append_left _ hu)
  obtain ⟨s2, hs2⟩ := hto n.abs fun u hu => hn.lt u (List.mem_append_right _ hu)
  have htopo : (c.topo || c.seqHash) = true := by rw [hm.topo]; rfl
  have hfirst : c.totalOrder = true → n.firsts.length ≤ 1 := fun h0 => (hv.tot h0).one_first hh hn
  have hsame : c.totalOrder = true → s1 ++ s2 = joinSep c.numTasks (sortSeqs (cs.map fun l => l.map (taskOf h))) := by
    intro h0
    have hf := hfirst h0
    unfold Node.firsts at hf
    match hp : n.prims, ha : n.abs with
    | [], [] =>
      rw [hp] at hs1; rw [ha] at hs2
      have : cs = [] := by rw [hp, ha] at hlen; exact List.eq_nil_of_length_eq_zero hlen
      subst this
      simp [dfsHead] at hs1 hs2
      subst hs1; subst hs2; simp [sortSeqs, joinSep]
    | [u], [] =>
      rw [hp] at hs1; rw [ha] at hs2
      have hcs' := hcs
      rw [hp, ha] at hcs'
      simp only [dfsHead, Option.map_eq_some_iff, Option.some.injEq] at hs1 hs2
      obtain ⟨l, hl, rfl⟩ := hs1
      subst hs2
      simp [chainsOf, hl] at hcs'
      subst hcs'
      simp [sortSeqs, joinSep]
    | [], [u] =>
      rw [hp] at hs1; rw [ha] at hs2
      have hcs' := hcs
      rw [hp, ha] at hcs'
      simp only [dfsHead, Option.map_eq_some_iff, Option.some.injEq] at hs1 hs2
      obtain ⟨l, hl, rfl⟩ := hs2
      subst hs1
      simp [chainsOf, hl] at hcs'
      subst hcs'
      simp [sortSeqs, joinSep]
    | u :: v :: l, _ => rw [hp] at hf; simp at hf
    | [u], v :: l => rw [hp, ha] at hf; simp at hf
    | [], u :: v :: l => rw [hp, ha] at hf; simp at hf
  unfold visSeq
  rw [if_pos htopo]
  have e1 : ∃ t1, (if c.totalOrder then dfsHead h n.prims else some []) = some t1 ∧ (c.totalOrder = true → t1 = s1) ∧
      (c.totalOrder = false → t1 = []) := by
    by_cases h0 : c.totalOrder = true
    · exact ⟨s1, by rw [if_pos h0, hs1], fun _ => rfl, fun h => by rw [h0] at h; simp at h⟩
    · exact ⟨[], by rw [if_neg h0], fun h => absurd h h0, fun _ => rfl⟩
  have e2 : ∃ t2, (if c.totalOrder then dfsHead h n.abs else some []) = some t2 ∧ (c.totalOrder = true → t2 = s2) ∧
      (c.totalOrder = false → t2 = []) := by
    by_cases h0 : c.totalOrder = true
    · exact ⟨s2, by rw [if_pos h0, hs2], fun _ => rfl, fun h => by rw [h0] at h; simp at h⟩
    · exact ⟨[], by rw [if_neg h0], fun h => absurd h h0, fun _ => rfl⟩
  obtain ⟨t1, f1, f2, f3⟩ := e1
  obtain ⟨t2, g1, g2, g3⟩ := e2
  rw [f1, g1]
  simp only
  by_cases hmode : c.seqMode = true
  · refine ⟨cs, ?_, hcn, ?_, fun h0 => (by rw [hmode] at h0; simp at h0), ?_⟩
    · rw [if_pos hmode, hcs]
      simp only
      unfold encSeq
      rw [if_pos hmode]
      by_cases h0 : c.totalOrder = true
      · rw [if_pos h0, f2 h0, g2 h0, hsame h0]
      · rw [if_neg h0, f3 (by simpa using h0), g3 (by simpa using h0)]; simp
    · intro s hs
      obtain ⟨i, hi, rfl⟩ := List.mem_iff_getElem.1 hs
      refine ⟨fun u hu => ?_, fun _ => ?_⟩
      · obtain ⟨j, hj, rfl⟩ := List.mem_iff_getElem.1 hu
        refine (hcn.mem _).2 ⟨i, j, ?_⟩
        rw [List.getElem?_eq_getElem hi]
        simp [List.getElem?_eq_getElem hj]
      · obtain ⟨l, h1, h2⟩ := hget i _ (List.getElem?_eq_getElem (by omega))
        rw [List.getElem?_eq_getElem hi] at h1
        cases h1
        exact toDfs_ne h2
    · intro h0
      rw [hlen, hperm.length_eq]; exact hfirst h0
  · have h0 : c.totalOrder = true := hm.mode.resolve_right hmode
    obtain ⟨r, r1, r2, r3, r4, r5⟩ := topSortIds_spec hh hn
    refine ⟨[r.map Prod.snd], ?_, chainNet_single hh (hv.tot h0) r3 r4 r5, ?_, fun _ => rfl, fun _ => by simp⟩
    · rw [if_neg hmode]
      unfold topSort encSeq
      rw [if_neg hmode, r1]
      simp only [Option.map_some, List.map_cons, List.map_nil, List.map_map, List.flatten_cons, List.flatten_nil,
        List.append_nil, Option.some.injEq]
      exact List.map_congr_left fun p hp => r2 p hp
    · intro s hs
      rw [List.mem_singleton] at hs
      subst hs
      exact ⟨fun u hu => (r4 u).1 hu, fun h => absurd h hmode⟩

/-- Nodes with equal keys have equal states and isomorphic networks. -/
theorem key_iso (hm : ModeOK P c) {h h' : Heap} {n n' : Node} (hg : Good P cfg h n) (hv : NodeVis P c h n)
    (hg' : Good P cfg h' n') (hv' : NodeVis P c h' n') {k : Nat × List Bool} {i : Nat}
    (hk : keyOf c h n = some k) (hk' : keyOf c h' n' = some (i, k.2)) :
    n.state = n'.state ∧
    ∃ e g, NetIso (live h n) (live h' n') (taskOf h) (taskOf h') (TransGen (Edge h)) (TransGen (Edge h')) e g := by
  obtain ⟨cs, h1, h2, h3, h4, -⟩ := visSeq_spec hm hg hv
  obtain ⟨ds, h1', h2', h3', h4', -⟩ := visSeq_spec hm hg' hv'
  unfold keyOf at hk hk'
  rw [h1] at hk
  rw [h1'] at hk'
  cases hb : c.bits with
  | none => rw [hb] at hk; simp at hk
  | some b =>
    rw [hb] at hk hk'
    simp only [Option.some.injEq, Prod.mk.injEq] at hk hk'
    obtain ⟨b1, b2, b3⟩ := VisCfg.bits_spec hb
    have hkey := hk'.2
    rw [← hk] at hkey
    simp only [keyBits, hm.topo, if_true] at hkey
    obtain ⟨e1, e2⟩ := List.append_inj hkey.symm (by rw [hg.node.state_len, hg'.node.state_len])
    refine ⟨e1, ?_⟩
    have hlab : ∀ (h : Heap) (n : Node) (cs : List (List Nat)), (∀ u ∈ live h n, taskOf h u < c.numTasks) →
        (∀ s ∈ cs, (∀ u ∈ s, u ∈ live h n) ∧ (c.seqMode = true → s ≠ [])) →
        ∀ s ∈ cs.map (fun l => l.map (taskOf h)), (∀ t ∈ s, t < c.numTasks) ∧ (c.seqMode = true → s ≠ []) := by
      intro h n cs ht hs s hs'
      obtain ⟨l, hl, rfl⟩ := List.mem_map.1 hs'
      obtain ⟨p1, p2⟩ := hs l hl
      refine ⟨fun t ht' => ?_, fun h0 => by simpa using p2 h0⟩
      obtain ⟨u, hu, rfl⟩ := List.mem_map.1 ht'
      exact ht u (p1 u hu)
    have hJ : ∀ K : List (List Nat), (∀ s ∈ K, ∀ t ∈ s, t < c.numTasks) →
        ∀ t ∈ joinSep c.numTasks K, t < c.numTasks ∨ t = c.numTasks := by
      intro K
      induction K with
      | nil => intro _ t ht; simp [joinSep] at ht
      | cons s K ih =>
        intro hK t ht
        cases K with
        | nil => exact .inl (hK s (by simp) t ht)
        | cons s' K =>
          simp only [joinSep, List.mem_append, List.mem_cons] at ht
          rcases ht with ht | ht | ht
          · exact .inl (hK s (by simp) t ht)
          · exact .inr ht
          · exact ih (fun x hx => hK x (List.mem_cons_of_mem _ hx)) t ht
    have henc : ∀ L : List (List Nat), (∀ s ∈ L, ∀ t ∈ s, t < c.numTasks) → ∀ t ∈ encSeq c L, t < 2 ^ b := by
      intro L hL t ht
      unfold encSeq at ht
      by_cases hmode : c.seqMode = true
      · rw [if_pos hmode] at ht
        have : t ∈ joinSep c.numTasks (sortSeqs L) := by
          rcases List.mem_append.1 ht with ht | ht
          · by_cases h0 : c.totalOrder = true
            · rw [if_pos h0] at ht; exact ht
            · rw [if_neg h0] at ht; simp at ht
          · exact ht
        rcases hJ _ (fun s hs => hL s ((sortSeqs_perm L).mem_iff.1 hs)) t this with h0 | rfl
        · exact b2 t h0
        · exact b3 hmode
      · rw [if_neg hmode] at ht
        obtain ⟨s, hs, ht⟩ := List.mem_flatten.1 ht
        exact b2 t (hL s hs t ht)
    have hl1 := hlab h n cs hv.tasks h3
    have hl2 := hlab h' n' ds hv'.tasks h3'
    have hseq := flatMap_taskBits_inj b1 (henc _ fun s hs => (hl1 s hs).1) (henc _ fun s hs => (hl2 s hs).1) e2
    have hperm := encSeq_perm hl1 hl2 (by simpa using h4) (by simpa using h4') hseq
    exact h2.iso_perm h2' hperm

/-- Nodes with equal keys have the same solutions. -/
theorem key_sol (hm : ModeOK P c) {h h' : Heap} {n n' : Node} (hg : Good P cfg h n) (hv : NodeVis P c h n)
    (hg' : Good P cfg h' n') (hv' : NodeVis P c h' n') {k : Nat × List Bool}
    (hk : keyOf c h n = some k) (hk' : keyOf c h' n' = some k) {π : List Nat} {d : Nat} :
    NodeSol P h n π d ↔ NodeSol P h' n' π d := by
  obtain ⟨h1, e, g, hi⟩ := key_iso hm hg hv hg' hv' hk hk'
  unfold NodeSol
  rw [h1]
  exact solvesN_iso_iff hi

/-- The visited list rejects only nodes that are represented by an accepted node; costs are not
considered. -/
theorem insVis_sound {F H : Type} {E : Env (Option (Table Int)) F H} (hm : ModeOK P c) (hE : E.ins = insVis c)
    {Q : Heap → SNode → Prop} (hQ : ∀ h x, Q h x → NodeVis P c h x.node) :
    VisSound P cfg E emptyVis Q 0 := by
  intro hist h x hh hg hq hr
  obtain ⟨pre, y, post, k, h1, h2, h3, h4, -⟩ := insVis_rejected hE hr
  obtain ⟨y1, y2, y3⟩ := hh y (by rw [h1]; simp)
  refine ⟨pre, y, post, h1, h2, fun π d hs => ⟨π, d, ?_, by simp, Nat.le_refl _⟩⟩
  exact (key_sol hm hg (hQ _ _ hq) y2 (hQ _ _ y3) h4 h3).1 hs

/-- With re-opening, the representative has no higher costs, if evaluations are costs plus a value
determined by state and network. -/
theorem insVis_sound_cost {F H : Type} {E : Env (Option (Table Int)) F H} (hm : ModeOK P c) (hE : E.ins = insVis c)
    (hno : c.noReopen = false)
    {Q : Heap → SNode → Prop} (hQ : ∀ h x, Q h x → NodeVis P c h x.node)
    (hf : ∀ h x h' y fx fy, Q h x → Q h' y → Good P cfg h x.node → Good P cfg h' y.node →
      x.node.state = y.node.state →
      (∃ e g, NetIso (live h x.node) (live h' y.node) (taskOf h) (taskOf h') (TransGen (Edge h))
        (TransGen (Edge h')) e g) → x.f = some fx → y.f = some fy → fy ≤ fx → y.node.costs ≤ x.node.costs) :
    VisSound P cfg E emptyVis Q 1 := by
  intro hist h x hh hg hq hr
  obtain ⟨pre, y, post, k, h1, h2, h3, h4, h5⟩ := insVis_rejected hE hr
  obtain ⟨y1, y2, y3⟩ := hh y (by rw [h1]; simp)
  obtain ⟨fy, fx, h6, h7, h8⟩ := h5 hno
  obtain ⟨s1, s2⟩ := key_iso hm hg (hQ _ _ hq) y2 (hQ _ _ y3) h4 h3
  have := hf h x y.1 y.2 fx fy hq y3 hg y2 s1 s2 h7 h6 h8
  refine ⟨pre, y, post, h1, h2, fun π d hs => ⟨π, d, ?_, by omega, Nat.le_refl _⟩⟩
  exact (key_sol hm hg (hQ _ _ hq) y2 (hQ _ _ y3) h4 h3).1 hs

end Verif.Prog
