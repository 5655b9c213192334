import Verif.VisSound
import Verif.Props.Visited
import Verif.Props.EndToEnd

/-! # C23, C27: keys and decisions of the visited list; C02 and C21 with visited list -/

namespace Verif.Props

open Verif.Htn Verif.Prog Verif.TaskCounter Verif.Bits Verif.CST Relation

variable {P : Problem} {cfg : Cfg} {c : VisCfg}

theorem reached_nodeVis (hP : P.WF) (hcfg : cfg.Ok) (hm : ModeOK P c) {g n} (h : Reached P cfg g n) :
    NodeVis P c g.heap n := by
  obtain ⟨c0, c1, c2⟩ := nodeVis_keeps hP hcfg hm
  exact Reached.invariant hP hcfg c0 c1 c2 (fun h h' n hp hh' hi hc => hc.ext hp hh' hi.good) h

/-! ## C23 -/

/-- `l` is the sequence of all steps of the node, in their order. -/
structure SeqOf (h : Heap) (n : Node) (l : List Nat) : Prop where
  nodup : l.Nodup
  mem : ∀ v, v ∈ l ↔ v ∈ live h n
  sorted : l.Pairwise (TransGen (Edge h))

/-- The sequence of tasks recorded in total order mode. -/
theorem visSeq_total (hm : ModeOK P c) (ht : c.totalOrder = true) {h : Heap} {n : Node} (hg : Good P cfg h n)
    (hv : NodeVis P c h n) {l : List Nat} (hl : SeqOf h n l) :
    visSeq c h n = some (if c.seqMode then l.map (taskOf h) ++ l.map (taskOf h) else l.map (taskOf h)) := by
  obtain ⟨cs, h1, h2, h3, h4, h5⟩ := visSeq_spec hm hg hv
  have hcs : cs.flatten = l := by
    have hm2 : ∀ v, v ∈ cs.flatten ↔ v ∈ live h n := by
      intro v
      rw [h2.mem, List.mem_flatten]
      constructor
      · rintro ⟨s, hs, hv'⟩
        obtain ⟨i, hi⟩ := List.mem_iff_getElem?.1 hs
        obtain ⟨j, hj⟩ := List.mem_iff_getElem?.1 hv'
        exact ⟨i, j, by rw [hi]; exact hj⟩
      · rintro ⟨i, j, hij⟩
        obtain ⟨s, hi, hj⟩ := Option.bind_eq_some_iff.1 hij
        exact ⟨s, List.mem_of_getElem? hi, List.mem_of_getElem? hj⟩
    have hp : cs.flatten.Perm l := (List.perm_ext_iff_of_nodup h2.nodup hl.nodup).2 fun v => by rw [hm2, hl.mem]
    refine hp.eq_of_pairwise (le := TransGen (Edge h)) (fun a b _ _ h6 h7 => absurd (h6.trans h7) hg.heap.irrefl) ?_ hl.sorted
    rw [List.pairwise_iff_getElem]
    intro i j hi hj hij
    match cs, h5 ht with
    | [], _ => simp at hi
    | [s], _ =>
      have e : [s].flatten = s := by simp
      have hi' : i < s.length := by simpa using hi
      have hj' : j < s.length := by simpa using hj
      refine (h2.lt 0 i 0 j _ _ ?_ ?_).2 ⟨rfl, hij⟩ <;> simp
    | _ :: _ :: _, h6 => simp at h6
  rw [h1]
  congr 1
  unfold encSeq
  subst hcs
  match cs, h5 ht, h4 with
  | [], _, h4 => simp [sortSeqs, joinSep]
  | [s], _, _ => simp [ht, sortSeqs, joinSep]
  | _ :: _ :: _, h6, _ => simp at h6

/-- **C23.**  In totally ordered instances, two nodes the search can generate get the same
bit string iff they have the same state and the same sequence of remaining tasks. -/
theorem C23_total_order_key_exact (hP : P.WF) (hcfg : cfg.Ok) (hm : ModeOK P c) (ht : c.totalOrder = true)
    {b : Nat} (hb : c.bits = some b) {g g' n n'} (h : Reached P cfg g n) (h' : Reached P cfg g' n') {l l' : List Nat}
    (hl : SeqOf g.heap n l) (hl' : SeqOf g'.heap n' l') :
    ∃ s s', visSeq c g.heap n = some s ∧ visSeq c g'.heap n' = some s' ∧
      (keyBits c b n s = keyBits c b n' s' ↔
        n.state = n'.state ∧ l.map (taskOf g.heap) = l'.map (taskOf g'.heap)) := by
  have hg := (h.ninv hP hcfg).good
  have hg' := (h'.ninv hP hcfg).good
  have hv := reached_nodeVis hP hcfg hm h
  have hv' := reached_nodeVis hP hcfg hm h'
  refine ⟨_, _, visSeq_total hm ht hg hv hl, visSeq_total hm ht hg' hv' hl', ?_⟩
  obtain ⟨b1, b2, -⟩ := VisCfg.bits_spec hb
  constructor
  · intro he
    simp only [keyBits, hm.topo, if_true] at he
    obtain ⟨e1, e2⟩ := List.append_inj he (by rw [hg.node.state_len, hg'.node.state_len])
    refine ⟨e1, ?_⟩
    have hb1 : ∀ t ∈ l.map (taskOf g.heap), t < 2 ^ b := by
      intro t ht
      obtain ⟨u, hu, rfl⟩ := List.mem_map.1 ht
      exact b2 _ (hv.tasks u ((hl.mem u).1 hu))
    have hb2 : ∀ t ∈ l'.map (taskOf g'.heap), t < 2 ^ b := by
      intro t ht
      obtain ⟨u, hu, rfl⟩ := List.mem_map.1 ht
      exact b2 _ (hv'.tasks u ((hl'.mem u).1 hu))
    by_cases hs : c.seqMode = true
    · rw [if_pos hs, if_pos hs] at e2
      refine append_self_inj (flatMap_taskBits_inj b1 ?_ ?_ e2)
      · intro t ht; exact (List.mem_append.1 ht).elim (hb1 t) (hb1 t)
      · intro t ht; exact (List.mem_append.1 ht).elim (hb2 t) (hb2 t)
    · rw [if_neg hs, if_neg hs] at e2
      exact flatMap_taskBits_inj b1 hb1 hb2 e2
  · rintro ⟨e1, e2⟩
    unfold keyBits
    rw [e1, e2]

/-- **C23** (consequence).  Two nodes with the same bit string, in total order or parallel-sequences
mode, have isomorphic networks, and the same solutions. -/
theorem C23_equal_keys_equal_solutions (hP : P.WF) (hcfg : cfg.Ok) (hm : ModeOK P c) {b : Nat} (hb : c.bits = some b)
    {g g' n n'} (h : Reached P cfg g n) (h' : Reached P cfg g' n') {s s'}
    (hs : visSeq c g.heap n = some s) (hs' : visSeq c g'.heap n' = some s')
    (hk : keyBits c b n s = keyBits c b n' s') :
    n.state = n'.state ∧
    (∃ e e', NetIso (live g.heap n) (live g'.heap n') (taskOf g.heap) (taskOf g'.heap)
      (TransGen (Edge g.heap)) (TransGen (Edge g'.heap)) e e') ∧
    ∀ π k, NodeSol P g.heap n π k ↔ NodeSol P g'.heap n' π k := by
  have hg := (h.ninv hP hcfg).good
  have hg' := (h'.ninv hP hcfg).good
  have hk1 : keyOf c g.heap n = some (slot (visHash c n s), keyBits c b n s) := by
    unfold keyOf; rw [hb, hs]
  have hk2 : keyOf c g'.heap n' = some (slot (visHash c n' s'), keyBits c b n s) := by
    unfold keyOf; rw [hb, hs', hk]
  obtain ⟨h1, e, e', hi⟩ := key_iso hm hg (reached_nodeVis hP hcfg hm h) hg' (reached_nodeVis hP hcfg hm h') hk1 hk2
  refine ⟨h1, ⟨e, e', hi⟩, fun π k => ?_⟩
  unfold NodeSol
  rw [h1]
  exact solvesN_iso_iff hi

theorem counter_ext : ∀ {a b : Counter}, Ok a → Ok b → (∀ t, cnt a t = cnt b t) → a = b := by
  intro a
  have hcons : ∀ (t k : Nat) (l : Counter) (x : Nat), cnt ((t, k) :: l) x = (if t = x then k else 0) + cnt l x := by
    intro t k l x
    unfold cnt
    by_cases hx : t = x
    · simp [hx]
    · simp [hx]
  have hzero : ∀ (l : Counter) (x : Nat), (∀ e ∈ l, e.1 ≠ x) → cnt l x = 0 := by
    intro l x hl
    unfold cnt
    rw [List.filter_eq_nil_iff.2 (fun e he => by simpa using hl e he)]; rfl
  have htail : ∀ {t k} {l : Counter}, Ok ((t, k) :: l) → Ok l ∧ 0 < k ∧ ∀ e ∈ l, t < e.1 := by
    intro t k l h
    have hs := h.sorted
    simp only [keys, List.map_cons, List.pairwise_cons] at hs
    exact ⟨⟨hs.2, fun e he => h.pos e (List.mem_cons_of_mem _ he)⟩, h.pos _ List.mem_cons_self,
      fun e he => hs.1 _ (List.mem_map.2 ⟨e, he, rfl⟩)⟩
  induction a with
  | nil =>
    intro b _ hb h
    cases b with
    | nil => rfl
    | cons p b =>
      obtain ⟨t, k⟩ := p
      have := h t
      rw [hcons] at this
      have h2 := (htail hb).2.1
      simp [cnt] at this; omega
  | cons p a ih =>
    obtain ⟨t, k⟩ := p
    intro b ha hb h
    obtain ⟨a1, a2, a3⟩ := htail ha
    cases b with
    | nil =>
      have := h t
      rw [hcons] at this
      simp [cnt] at this; omega
    | cons q b =>
      obtain ⟨t', k'⟩ := q
      obtain ⟨b1, b2, b3⟩ := htail hb
      have htt : t = t' := by
        rcases Nat.lt_trichotomy t t' with hlt | he | hgt
        · have := h t
          rw [hcons, hcons, if_pos rfl, if_neg (by omega),
            hzero b t (fun e he => by have := b3 e he; omega)] at this
          omega
        · exact he
        · have := h t'
          rw [hcons, hcons, if_pos rfl, if_neg (by omega),
            hzero a t' (fun e he => by have := a3 e he; omega)] at this
          omega
      subst htt
      have hk : k = k' := by
        have := h t
        rw [hcons, hcons, if_pos rfl, if_pos rfl, hzero a t (fun e he => by have := a3 e he; omega),
          hzero b t (fun e he => by have := b3 e he; omega)] at this
        omega
      subst hk
      rw [ih a1 b1 fun x => by have := h x; rw [hcons, hcons] at this; omega]

/-- **C23** (hash value).  In totally ordered instances, nodes with the same state and the same sequence
of remaining tasks are looked up in the same slot (tasks are counted if task counts are hashed). -/
theorem C23_same_slot (hP : P.WF) (hcfg : cfg.Ok) (hm : ModeOK P c) (ht : c.totalOrder = true)
    (hcount : c.taskHash = true → cfg.trackTasks = true) {g g' n n'} (h : Reached P cfg g n) (h' : Reached P cfg g' n')
    {l l' : List Nat} (hl : SeqOf g.heap n l) (hl' : SeqOf g'.heap n' l') (hst : n.state = n'.state)
    (hseq : l.map (taskOf g.heap) = l'.map (taskOf g'.heap)) :
    ∃ s s', visSeq c g.heap n = some s ∧ visSeq c g'.heap n' = some s' ∧ visHash c n s = visHash c n' s' := by
  have hg := (h.ninv hP hcfg).good
  have hg' := (h'.ninv hP hcfg).good
  refine ⟨_, _, visSeq_total hm ht hg (reached_nodeVis hP hcfg hm h) hl,
    visSeq_total hm ht hg' (reached_nodeVis hP hcfg hm h') hl', ?_⟩
  unfold visHash
  rw [hst, hseq]
  by_cases h0 : c.taskHash = true
  · have hc1 := hg.counter (hcount h0)
    have hc2 := hg'.counter (hcount h0)
    have hcard : ∀ {h : Heap} {n : Node} {l : List Nat}, SeqOf h n l → ∀ t,
        ((live h n).filter (fun u => taskOf h u = t)).card = (l.map (taskOf h)).count t := by
      intro h n l hl t
      rw [List.count_eq_countP, List.countP_map, List.countP_eq_length_filter]
      have : (live h n).filter (fun u => taskOf h u = t) = (l.filter ((fun x => x == t) ∘ taskOf h)).toFinset := by
        ext v; simp [hl.mem]
      rw [this, List.toFinset_card_of_nodup (hl.nodup.filter _)]
    have : n.contained = n'.contained := counter_ext hc1.1 hc2.1 fun t => by
      rw [hc1.2, hc2.2, hcard hl, hcard hl', hseq]
    rw [this]
  · have h0 : c.taskHash = false := by simpa using h0
    rw [h0]; rfl

/-! ## C27 -/

/-- Successive calls of `insertVisi` with defined behaviour, with the results. -/
inductive VisRun (c : VisCfg) : List (Heap × SNode × Bool) → Table Int → Prop
  | nil : VisRun c [] fun _ => .nil
  | snoc {l tb h x tb' r} : VisRun c l tb → insVisi c tb h x = some (tb', r) → VisRun c (l ++ [(h, x, r)]) tb'

theorem visRun_inv (hc : c.noCheck = false) (hno : c.noReopen = false) {l tb} (hr : VisRun c l tb)
    (hpos : ∀ e ∈ l, ∀ f, e.2.1.f = some f → 0 ≤ f) :
    TWF tb ∧ ∀ i bs, bs ≠ [] →
      (cell tb i (state2Int bs) = 0 ∧ ∀ e ∈ l, e.2.2 = true → keyOf c e.1 e.2.1.node ≠ some (i, bs)) ∨
      ((∃ e ∈ l, e.2.2 = true ∧ keyOf c e.1 e.2.1.node = some (i, bs) ∧
          ∃ f, e.2.1.f = some f ∧ cell tb i (state2Int bs) = f + 1) ∧
        ∀ e ∈ l, e.2.2 = true → keyOf c e.1 e.2.1.node = some (i, bs) →
          ∃ f, e.2.1.f = some f ∧ cell tb i (state2Int bs) ≤ f + 1) := by
  induction hr with
  | nil => exact ⟨fun _ => trivial, fun i bs _ => .inl ⟨rfl, by simp⟩⟩
  | @snoc l tb h x tb' r hr hi ih =>
    obtain ⟨w, hcell⟩ := ih fun e he => hpos e (List.mem_append_left _ he)
    obtain ⟨k, bs, f, hv, old, hk, hf, rfl, hne, ha, hacc⟩ := insVisi_some hc hi
    have hf := hf hno
    have hf0 : 0 ≤ f := hpos (h, x, r) (by simp) f hf
    obtain ⟨a1, a2, a3, a4⟩ := access_ok w (keyOK_of_ne hne) ha
    refine ⟨a1, fun i bs' hne' => ?_⟩
    by_cases hkey : i = slot hv ∧ bs' = bs
    · obtain ⟨rfl, rfl⟩ := hkey
      rw [a3, a2]
      rw [a2] at hacc
      unfold payAccept at hacc
      rw [hno] at hacc
      simp only [Bool.false_eq_true, if_false] at hacc
      have hnew : payNew c f (cell tb (slot hv) (state2Int bs')) =
          if r = true then f + 1 else cell tb (slot hv) (state2Int bs') := by
        unfold payNew payAccept
        rw [hno, hacc]; simp
      rw [hnew]
      by_cases hrt : r = true
      · rw [if_pos hrt]
        refine .inr ⟨⟨(h, x, r), by simp, hrt, hk, f, hf, rfl⟩, ?_⟩
        intro e he het hek
        rcases List.mem_append.1 he with he | he
        · rcases hcell _ _ hne' with ⟨h1, h2⟩ | ⟨-, h2⟩
          · exact absurd hek (h2 e he het)
          · obtain ⟨fe, h3, h4⟩ := h2 e he het hek
            refine ⟨fe, h3, ?_⟩
            rw [hrt] at hacc
            have := of_decide_eq_true hacc.symm
            rcases this with h5 | h5
            · rcases hcell _ _ hne' with ⟨-, h6⟩ | ⟨⟨e', he', het', hek', f', hf', h6⟩, -⟩
              · exact absurd hek (h6 e he het)
              · have := hpos e' (List.mem_append_left _ he') f' hf'
                omega
            · omega
        · rw [List.mem_singleton] at he
          subst he
          exact ⟨f, hf, Int.le_refl _⟩
      · rw [if_neg hrt]
        rcases hcell _ _ hne' with ⟨h1, h2⟩ | ⟨⟨e', he', het', hek', h3⟩, h2⟩
        · exact absurd (by rw [hacc, h1]; simp) hrt
        · refine .inr ⟨⟨e', List.mem_append_left _ he', het', hek', h3⟩, fun e he het hek => ?_⟩
          rcases List.mem_append.1 he with he | he
          · exact h2 e he het hek
          · rw [List.mem_singleton] at he
            subst he
            exact absurd het hrt
    · have hsame := a4 i _ (keyOK_of_ne hne') (fun h0 => hkey ⟨h0.1, state2Int_inj h0.2⟩)
      rw [hsame]
      have hnk : keyOf c h x.node ≠ some (i, bs') := by
        rw [hk]; intro h0
        simp only [Option.some.injEq, Prod.mk.injEq] at h0
        exact hkey ⟨h0.1.symm, h0.2.symm⟩
      rcases hcell i bs' hne' with ⟨h1, h2⟩ | ⟨⟨e', he', het', hek', h3⟩, h2⟩
      · refine .inl ⟨h1, fun e he het => ?_⟩
        rcases List.mem_append.1 he with he | he
        · exact h2 e he het
        · rw [List.mem_singleton] at he; subst he; exact hnk
      · refine .inr ⟨⟨e', List.mem_append_left _ he', het', hek', h3⟩, fun e he het hek => ?_⟩
        rcases List.mem_append.1 he with he | he
        · exact h2 e he het hek
        · rw [List.mem_singleton] at he; subst he; exact absurd hek hnk

/-- **C27.**  With re-opening and non-negative evaluations, a node is kept exactly if its evaluation is
smaller than that of every node with the same slot and bit string that was kept before (in
particular if there is none). -/
theorem C27_reopening (hc : c.noCheck = false) (hno : c.noReopen = false) {l tb} (hr : VisRun c l tb)
    (hpos : ∀ e ∈ l, ∀ f, e.2.1.f = some f → 0 ≤ f) {h x tb' r} (hi : insVisi c tb h x = some (tb', r)) :
    ∃ k f, keyOf c h x.node = some k ∧ x.f = some f ∧
      (r = true ↔ ∀ e ∈ l, e.2.2 = true → keyOf c e.1 e.2.1.node = some k → ∃ f', e.2.1.f = some f' ∧ f < f') := by
  obtain ⟨w, hcell⟩ := visRun_inv hc hno hr hpos
  obtain ⟨k, bs, f, hv, old, hk, hf, rfl, hne, ha, hacc⟩ := insVisi_some hc hi
  refine ⟨_, f, hk, hf hno, ?_⟩
  obtain ⟨-, a2, -, -⟩ := access_ok w (keyOK_of_ne hne) ha
  unfold payAccept at hacc
  rw [hno, a2] at hacc
  simp only [Bool.false_eq_true, if_false] at hacc
  rw [hacc, decide_eq_true_eq]
  rcases hcell _ _ hne with ⟨h1, h2⟩ | ⟨⟨e', he', het', hek', f', hf', h3⟩, h2⟩
  · exact ⟨fun _ e he het hek => absurd hek (h2 e he het), fun _ => .inl h1⟩
  · have hf0 := hpos e' he' f' hf'
    constructor
    · intro h4 e he het hek
      obtain ⟨fe, h5, h6⟩ := h2 e he het hek
      exact ⟨fe, h5, by omega⟩
    · intro h4
      obtain ⟨f'', h5, h6⟩ := h4 e' he' het' hek'
      rw [hf'] at h5
      simp only [Option.some.injEq] at h5
      exact .inr (by omega)

/-- **C27** (without re-opening).  A node is kept exactly if no node with the same slot and bit string
was inserted before. -/
theorem C27_no_reopening (hc : c.noCheck = false) (hno : c.noReopen = true) {l tb} (hr : VisRun c l tb)
    {h x tb' r} (hi : insVisi c tb h x = some (tb', r)) :
    ∃ k, keyOf c h x.node = some k ∧ (r = true ↔ ∀ e ∈ l, keyOf c e.1 e.2.1.node ≠ some k) := by
  have hinv : TWF tb ∧ ∀ i bs, bs ≠ [] →
      (cell tb i (state2Int bs) = 0 ↔ ∀ e ∈ l, keyOf c e.1 e.2.1.node ≠ some (i, bs)) := by
    clear hi
    induction hr with
    | nil => exact ⟨fun _ => trivial, fun i bs _ => ⟨fun _ => by simp, fun _ => rfl⟩⟩
    | @snoc l tb h x tb' r hr hi ih =>
      obtain ⟨w, hcell⟩ := ih
      obtain ⟨k, bs, f, hv, old, hk, -, rfl, hne, ha, hacc⟩ := insVisi_some hc hi
      obtain ⟨a1, a2, a3, a4⟩ := access_ok w (keyOK_of_ne hne) ha
      refine ⟨a1, fun i bs' hne' => ?_⟩
      by_cases hkey : i = slot hv ∧ bs' = bs
      · obtain ⟨rfl, rfl⟩ := hkey
        rw [a3]
        unfold payNew
        rw [if_pos hno]
        exact ⟨fun h0 => absurd h0 (by decide), fun h0 => absurd hk (h0 (h, x, r) (by simp))⟩
      · rw [a4 i _ (keyOK_of_ne hne') (fun h0 => hkey ⟨h0.1, state2Int_inj h0.2⟩), hcell i bs' hne']
        constructor
        · intro h0 e he
          rcases List.mem_append.1 he with he | he
          · exact h0 e he
          · rw [List.mem_singleton] at he
            subst he
            show keyOf c h x.node ≠ _
            rw [hk]; intro h0
            simp only [Option.some.injEq, Prod.mk.injEq] at h0
            exact hkey ⟨h0.1.symm, h0.2.symm⟩
        · exact fun h0 e he => h0 e (List.mem_append_left _ he)
  obtain ⟨k, bs, f, hv, old, hk, -, rfl, hne, ha, hacc⟩ := insVisi_some hc hi
  refine ⟨_, hk, ?_⟩
  obtain ⟨-, a2, -, -⟩ := access_ok hinv.1 (keyOK_of_ne hne) ha
  unfold payAccept at hacc
  rw [if_pos hno, a2] at hacc
  rw [hacc, decide_eq_true_eq, hinv.2 _ _ hne]

/-! ## The search with visited list -/

variable {o : Opts}

theorem vis_keeps {F H : Type} {E : Env (Option (Table Int)) F H} {J : Heap → H → Prop} (hP : P.WF) (hcfg : cfg.Ok) (hm : ModeOK P c) (eval) :
    Keeps P cfg E eval (NodeVis P c) (fun h x => NodeVis P c h x.node) J := by
  obtain ⟨c0, c1, c2⟩ := nodeVis_keeps hP hcfg hm
  exact ⟨c0, fun _ _ h => h, c1, c2, fun h h' x hp hh' hi hc => hc.ext hp hh' hi.good,
    fun h h' n hp hh' hi hc => hc.ext hp hh' hi.good, fun _ _ _ _ _ _ h _ => h, fun _ _ _ _ h => h⟩

/-- **C02** with duplicate detection, totally ordered or parallel-sequences instances: if the fringe
runs empty, and there was no undefined behaviour, the problem is unsolvable. -/
theorem C02_visited_list_search (hP : P.WF) (hcfg : cfg.Ok) (hm : ModeOK P c) {fuel s' tb}
    (h : search P cfg (o.env (insVis c)) fuel emptyVis emptyFringe () = some (.unsolvable, s'))
    (_ : s'.vis = some tb) : ∀ π, ¬ IsSolution P π :=
  C02_unsolvable_is_correct hP hcfg (opts_fringe o (insVis c)) (vis_keeps hP hcfg hm _)
    (insVis_sound hm rfl fun _ _ h => h) (opts_heurSafe _ _ _) (HeurInv.trivial _ _ _) h

/-- **C21** for uniform cost search with duplicate detection and re-opening, totally ordered or
parallel-sequences instances: the plan found is optimal, if there was no undefined behaviour. -/
theorem C21_visited_list_search (hP : P.WF) (hcfg : cfg.Ok) (hm : ModeOK P c) (hno : c.noReopen = false)
    (ho : o.subopt = false) (ha : o.aStar = .action) (hw : o.weight = 1)
    (hz : o.heurs.head? = some .zero) {fuel n s' tb}
    (h : search P cfg (o.env (insVis c)) fuel emptyVis emptyFringe () = some (.solved n, s'))
    (_ : s'.vis = some tb) :
    IsSolution P (planOf n.node.sol) ∧
      ∀ π, IsSolution P π → P.planCost (planOf n.node.sol) ≤ P.planCost π := by
  obtain ⟨hs, hh⟩ : ∃ hs, o.heurs = .zero :: hs := by
    cases hc : o.heurs with
    | nil => simp [hc] at hz
    | cons a hs => rw [hc] at hz; simp at hz; exact ⟨hs, by rw [hz]⟩
  have k1 := vis_keeps (E := o.env (insVis c)) (J := noState) hP hcfg hm o.eval
  have k2 := zero_keeps (P := P) (cfg := cfg) (ins := insVis c) ho ha hw hz
  let Q : Heap → SNode → Prop := fun h x => NodeVis P c h x.node ∧ AStarQ P h x ∧ h0 x = 0
  have hz0 : ∀ x : SNode, x.hv.head? = some 0 → h0 x = 0 := by
    intro x hx
    unfold h0
    cases hv : x.hv with
    | nil => rw [hv] at hx; simp at hx
    | cons v vs => rw [hv] at hx; simp at hx; simp [hx]
  have hK : Keeps P cfg (o.env (insVis c)) o.eval (NodeVis P c) Q noState := by
    refine ⟨⟨k1.root, k2.root, hz0 _ ?_⟩, fun _ _ h => h.1, k1.app, k1.dec, ?_, k1.extK, ?_, ?_⟩
    · simp [Opts.env, hh, rootNode, List.replicate_succ]
    · rintro h h' x hp hh' hi ⟨q1, q2, q3⟩
      exact ⟨k1.ext h h' x hp hh' hi q1, k2.ext h h' x hp hh' hi q2, q3⟩
    · intro hs h par n2 hj hn hk hr
      exact ⟨k1.heur hs h par n2 hj hn hk hr, k2.heur hs h par n2 hj hn trivial hr,
        hz0 _ (by simp [Opts.env, hh, SimpleH.value])⟩
    · intro h; simp [Opts.env, ho] at h
  refine C21_astar_optimal hP hcfg (opts_fringe o (insVis c)) ho (fun _ _ _ hp => wfringe_min hp)
    hK (fun _ _ h => h.2.1) (insVis_sound_cost hm rfl hno (fun _ _ h => h.1) ?_) (opts_heurSafe _ _ _)
    (HeurInv.trivial _ _ _) h
  rintro h x h' y fx fy ⟨-, qx, zx⟩ ⟨-, qy, zy⟩ - - - - hfx hfy hle
  have e1 := qx.f
  have e2 := qy.f
  rw [hfx, Option.some.injEq] at e1
  rw [hfy, Option.some.injEq] at e2
  omega

/-! ## Examples -/

/-- `A → a, A` and `A → a`, with unreachable goal: without duplicate detection, the search does not end. -/
def loopP : Problem where
  numFacts := 1
  prim t := t == 1
  prec _ := []
  add _ := []
  del _ := []
  cost _ := 1
  numMethods := 2
  head _ := 0
  sub m := if m = 0 then [1, 0] else [1]
  ord m := if m = 0 then [(0, 1)] else []
  init := 0
  s0 := []
  goal := [0]

theorem loopP_wf : loopP.WF where
  ord_lt := by
    intro m _ i j h
    simp only [loopP] at h ⊢
    split_ifs at h ⊢ <;> simp_all
  ord_acyclic := by
    intro m _
    refine ⟨fun i => i, fun i j h => ?_⟩
    simp only [loopP] at h
    split_ifs at h <;> simp_all
  sub_ne := by
    intro m _
    simp only [loopP]
    split_ifs <;> simp
  head_abs := by intro m _; simp [loopP]
  init_abs := by simp [loopP]
  prec_lt := by simp [loopP]
  add_lt := by simp [loopP]
  del_lt := by simp [loopP]
  s0_lt := by simp [loopP]
  goal_lt := by simp [loopP]

theorem loopP_tot : TotOrd loopP := by
  have hr : ∀ {i j : Nat}, loopP.OrdRel 0 i j ↔ i = 0 ∧ j = 1 := by
    intro i j; simp [Problem.OrdRel, loopP]
  have h1 : TransGen (loopP.OrdRel 0) 0 1 := .single (hr.2 ⟨rfl, rfl⟩)
  intro m hm
  rcases Nat.eq_zero_or_pos m with rfl | hpos
  · refine ⟨?_, ?_, by decide⟩
    · intro i j hi hj hne
      have hi : i < 2 := hi
      have hj : j < 2 := hj
      rcases (by omega : (i = 0 ∧ j = 1) ∨ (i = 1 ∧ j = 0)) with h | h <;> obtain ⟨rfl, rfl⟩ := h
      · exact .inl h1
      · exact .inr h1
    · have hlt : ∀ {a b}, TransGen (loopP.OrdRel 0) a b → a = 0 ∧ b = 1 := by
        intro a b hab
        induction hab with
        | single h => exact hr.1 h
        | tail _ h ih => exact ⟨ih.1, (hr.1 h).2⟩
      rintro i j h k ⟨h3, h4⟩
      have h5 := hlt h3
      have h6 := hlt h4
      omega
  · have hm1 : m = 1 := by have : m < 2 := hm; omega
    subst hm1
    refine ⟨?_, ?_, by decide⟩
    · intro i j hi hj hne
      have hi : i < 1 := hi
      have hj : j < 1 := hj
      omega
    · intro i j h; simp [loopP] at h

/-- A visited list in total order mode, with all hash functions; `sq`: sequences mode, too. -/
def exVis (sq reop : Bool) : VisCfg where
  noCheck := false
  noReopen := !reop
  totalOrder := true
  seqMode := sq
  taskHash := true
  seqHash := true
  topo := true
  numTasks := 3
  prime i := 2 * i + 3

theorem exVis_loopP (sq reop) : ModeOK loopP (exVis sq reop) where
  tot _ := loopP_tot
  par _ := loopP_tot.parSeq loopP_wf
  mode := .inl rfl
  topo := rfl
  init_lt := by show (0 : Nat) < 3; decide
  sub_lt := by
    intro m _ t ht
    simp only [loopP] at ht
    show t < 3
    split_ifs at ht <;> simp at ht <;> omega

theorem exVis_toP (sq reop) : ModeOK toP (exVis sq reop) where
  tot _ := toP_tot
  par _ := toP_tot.parSeq toP_wf
  mode := .inl rfl
  topo := rfl
  init_lt := by show (0 : Nat) < 3; decide
  sub_lt := by
    intro m _ t ht
    simp only [toP] at ht
    show t < 3
    split_ifs at ht <;> simp at ht <;> omega

/-- The search with visited list ends, without undefined behaviour, reporting unsolvable; so that the
hypotheses of C02 and (by the calls made) of C27 are met. -/
example : ((search loopP exCfg ((exOpts false).env (insVis (exVis true true))) 40 emptyVis emptyFringe ()).map fun r =>
      match r.1 with
      | .unsolvable => r.2.vis.isSome
      | _ => false) = some true := by decide +kernel

/-- Without visited list, it does not. -/
example : ((search loopP exCfg ((exOpts false).env insNone) 40 () emptyFringe ()).map fun r =>
      match r.1 with
      | .unsolvable => true
      | _ => false) ≠ some true := by decide +kernel

/-- The search with visited list finds the plan `a, a, b`: the hypotheses of C21 are met. -/
example : ((search toP exCfg ((exOpts false).env (insVis (exVis false true))) 40 emptyVis emptyFringe ()).map fun r =>
      match r.1 with
      | .solved n => (planOf n.node.sol, r.2.vis.isSome)
      | _ => ([], false)) = some ([1, 1, 2], true) := by decide +kernel

/-- C23: the same network is reached again by `A → a, A` and applying `a`; the keys are equal, and
differ from that of the node before applying `a`. -/
example : ∃ g n g' n' b s s', Reached loopP exCfg g n ∧ Reached loopP exCfg g' n' ∧
    (exVis true true).bits = some b ∧ visSeq (exVis true true) g.heap n = some s ∧
    visSeq (exVis true true) g'.heap n' = some s' ∧ s = [1, 0, 1, 0] ∧ s' = [0, 0] ∧
    keyBits (exVis true true) b n s ≠ keyBits (exVis true true) b n' s' := by
  have h : ∃ r, decompose loopP exCfg 50 (initNode loopP exCfg).1 (initNode loopP exCfg).2 0 0 = some r ∧
      visSeq (exVis true true) r.1.heap r.2 = some [1, 0, 1, 0] ∧
      visSeq (exVis true true) (initNode loopP exCfg).1.heap (initNode loopP exCfg).2 = some [0, 0] ∧
      (exVis true true).bits = some 2 ∧
      keyBits (exVis true true) 2 r.2 [1, 0, 1, 0] ≠ keyBits (exVis true true) 2 (initNode loopP exCfg).2 [0, 0] := by
    refine ⟨_, rfl, ?_, ?_, ?_, ?_⟩ <;> decide +kernel
  obtain ⟨⟨g, n⟩, h1, h2, h3, h4, h5⟩ := h
  exact ⟨g, n, _, _, 2, _, _, .dec .init (u := 0) (by decide) (m := 0) (by decide) h1, .init, h4, h2, h3, rfl, rfl, h5⟩

/-- C27: the initial node is accepted with evaluation 5, rejected with 5, and accepted again with 3. -/
example : ∃ l tb, VisRun (exVis true true) l tb ∧ l.map (fun e => (e.2.1.f, e.2.2)) =
    [(some 5, true), (some 5, false), (some 3, true)] := by
  let x (f : Int) : SNode := ⟨(initNode toP exCfg).2, [], some f⟩
  let hp := (initNode toP exCfg).1.heap
  have h1 : ((insVisi (exVis true true) (fun _ => .nil) hp (x 5)).bind fun r =>
      (insVisi (exVis true true) r.1 hp (x 5)).bind fun r' =>
      (insVisi (exVis true true) r'.1 hp (x 3)).map fun r'' => (r.2, r'.2, r''.2)) = some (true, false, true) := by
    decide +kernel
  obtain ⟨⟨tb, r⟩, h2, h3⟩ := Option.bind_eq_some_iff.1 h1
  obtain ⟨⟨tb', r'⟩, h4, h5⟩ := Option.bind_eq_some_iff.1 h3
  obtain ⟨⟨tb'', r''⟩, h6, h7⟩ := Option.map_eq_some_iff.1 h5
  simp only [Prod.mk.injEq] at h7
  obtain ⟨rfl, rfl, rfl⟩ := h7
  exact ⟨_, tb'', .snoc (.snoc (.snoc .nil h2) h4) h6, rfl⟩

/-- **C27**, limits.  With evaluation -1 (a node whose successors have not been evaluated) the payload
stays 0, and the same node is accepted again: the hypothesis on evaluations is needed. -/
theorem C27_negative_violated : ∃ (x : SNode) (tb tb' : Table Int), x.f = some (-1) ∧
    insVisi (exVis false true) (fun _ => .nil) (initNode toP exCfg).1.heap x = some (tb, true) ∧
    insVisi (exVis false true) tb (initNode toP exCfg).1.heap x = some (tb', true) := by
  let x : SNode := ⟨(initNode toP exCfg).2, [], some (-1)⟩
  have h1 : ((insVisi (exVis false true) (fun _ => .nil) (initNode toP exCfg).1.heap x).bind fun r =>
      (insVisi (exVis false true) r.1 (initNode toP exCfg).1.heap x).map fun r' => (r.2, r'.2)) = some (true, true) := by
    decide +kernel
  obtain ⟨⟨tb, r⟩, h2, h3⟩ := Option.bind_eq_some_iff.1 h1
  obtain ⟨⟨tb', r'⟩, h4, h5⟩ := Option.map_eq_some_iff.1 h3
  simp only [Prod.mk.injEq] at h5
  obtain ⟨rfl, rfl⟩ := h5
  exact ⟨x, tb, tb', rfl, h2, h4⟩

end Verif.Props
