import Verif.Reached
import Verif.Iso

/-! # Networks that consist of chains: totally ordered and parallel-sequence instances -/

namespace Verif.Prog

open Verif.Htn Verif.TaskCounter Relation

variable {P : Problem} {cfg : Cfg}

/-! ## Methods -/

/-- The method orders every pair of subtasks. -/
def MTotal (P : Problem) (m : Nat) : Prop :=
  ∀ i j, i < (P.sub m).length → j < (P.sub m).length → i ≠ j →
    TransGen (P.OrdRel m) i j ∨ TransGen (P.OrdRel m) j i

/-- No ordering constraint of the method is implied by others. -/
def MReduced (P : Problem) (m : Nat) : Prop :=
  ∀ i j, (i, j) ∈ P.ord m → ∀ k, ¬ (TransGen (P.OrdRel m) i k ∧ TransGen (P.OrdRel m) k j)

/-- Every subtask has at most one direct successor and at most one direct predecessor. -/
structure ChainMethod (P : Problem) (m : Nat) : Prop where
  nodup : (P.ord m).Nodup
  succ1 : ∀ i j j', (i, j) ∈ P.ord m → (i, j') ∈ P.ord m → j = j'
  pred1 : ∀ i i' j, (i, j) ∈ P.ord m → (i', j) ∈ P.ord m → i = i'

/-- At most one subtask has no successor. -/
def OneLast (P : Problem) (m : Nat) : Prop :=
  ∀ i i', i < (P.sub m).length → i' < (P.sub m).length → isLast P m i = true → isLast P m i' = true → i = i'

/-- All methods are totally ordered; the constraints are transitively reduced and listed once. -/
def TotOrd (P : Problem) : Prop := ∀ m < P.numMethods, MTotal P m ∧ MReduced P m ∧ (P.ord m).Nodup

/-- Every method consists of chains, and is one chain unless it belongs to the initial task, which
in this case is not a subtask of any method. -/
structure ParSeq (P : Problem) : Prop where
  chain : ∀ m < P.numMethods, ChainMethod P m
  ends : ∀ m < P.numMethods, OneLast P m ∨ (P.head m = P.init ∧ ∀ m' < P.numMethods, P.init ∉ P.sub m')

theorem ChainMethod.of_total {m} (hP : P.WF) (hm : m < P.numMethods) (ht : MTotal P m) (hr : MReduced P m)
    (hnd : (P.ord m).Nodup) : ChainMethod P m := by
  refine ⟨hnd, ?_, ?_⟩
  · intro i j j' h h'
    by_contra hne
    rcases ht j j' (hP.ord_lt m hm _ _ h).2 (hP.ord_lt m hm _ _ h').2 hne with hj | hj
    · exact hr i j' h' j ⟨.single h, hj⟩
    · exact hr i j h j' ⟨.single h', hj⟩
  · intro i i' j h h'
    by_contra hne
    rcases ht i i' (hP.ord_lt m hm _ _ h).1 (hP.ord_lt m hm _ _ h').1 hne with hj | hj
    · exact hr i j h i' ⟨hj, .single h'⟩
    · exact hr i' j h' i ⟨hj, .single h⟩

theorem OneLast.of_total {m} (ht : MTotal P m) : OneLast P m := by
  intro i i' hi hi' hl hl'
  by_contra hne
  rcases ht i i' hi hi' hne with h | h
  · obtain ⟨k, hk, -⟩ := TransGen.head'_iff.1 h
    exact isLast_iff.1 hl k hk
  · obtain ⟨k, hk, -⟩ := TransGen.head'_iff.1 h
    exact isLast_iff.1 hl' k hk

theorem TotOrd.parSeq (hP : P.WF) (h : TotOrd P) : ParSeq P :=
  ⟨fun m hm => .of_total hP hm (h m hm).1 (h m hm).2.1 (h m hm).2.2, fun m hm => .inl (.of_total (h m hm).1)⟩

/-! ## Nodes -/

/-- Every step has at most one direct successor and predecessor. -/
structure ChainNode (P : Problem) (h : Heap) (n : Node) : Prop where
  one : ∀ u ∈ live h n, (succsOf h u).length ≤ 1
  pred1 : ∀ u ∈ live h n, ∀ u' ∈ live h n, ∀ v, Edge h u v → Edge h u' v → u = u'
  init : (∃ m < P.numMethods, ¬ OneLast P m) → ∀ u ∈ live h n, taskOf h u = P.init → ∀ v, ¬ Edge h u v

/-- The steps of the network are totally ordered. -/
def TotNode (h : Heap) (n : Node) : Prop :=
  ∀ u ∈ live h n, ∀ v ∈ live h n, u ≠ v → TransGen (Edge h) u v ∨ TransGen (Edge h) v u

theorem ChainNode.succ1 {h n} (hc : ChainNode P h n) : ∀ u ∈ live h n, ∀ v v', Edge h u v → Edge h u v' → v = v' := by
  intro u hu v v' h1 h2
  have h3 := hc.one u hu
  rw [← mem_succsOf] at h1 h2
  match succsOf h u, h3, h1, h2 with
  | [a], _, h1, h2 => simp at h1 h2; rw [h1, h2]

theorem ChainNode.sub {h n n'} (hc : ChainNode P h n) (hs : live h n' ⊆ live h n) : ChainNode P h n' :=
  ⟨fun u hu => hc.one u (hs hu), fun u hu u' hu' => hc.pred1 u (hs hu) u' (hs hu'),
    fun hm u hu => hc.init hm u (hs hu)⟩

theorem TotNode.sub {h n n'} (hc : TotNode h n) (hs : live h n' ⊆ live h n) : TotNode h n' :=
  fun u hu v hv => hc u (hs hu) v (hs hv)

theorem AStep.live_sub (hP : P.WF) (hcfg : cfg.Ok) {h inst n u n'} (hg : Good P cfg h n)
    (a : AStep P cfg h inst n u n') : live h n' ⊆ live h n := by
  obtain ⟨-, -, hl, -⟩ := a.inv hP hcfg hg
  rw [hl]; exact Finset.erase_subset _ _

theorem Chain.live_sub (hP : P.WF) (hcfg : cfg.Ok) {h i n us j n'} (hg : Good P cfg h n)
    (c : Chain P cfg h i n us j n') : live h n' ⊆ live h n := by
  induction c with
  | nil => exact Finset.Subset.refl _
  | step a _ _ ih => exact (ih (a.inv hP hcfg hg).2.1).trans (a.live_sub hP hcfg hg)
  | flag _ _ ih => exact ih hg.flag

theorem apply_live_sub (hP : P.WF) (hcfg : cfg.Ok) {f g n i u g' n2} (hg : Good P cfg g.heap n)
    (hu : n.prims[i]? = some u) (happ : P.Applicable (holds n.state) (taskOf g.heap u))
    (h : apply P cfg f g n i = some (g', n2)) : g'.heap = g.heap ∧ live g.heap n2 ⊆ live g.heap n := by
  obtain ⟨h1, -, n1, us, a, c⟩ := apply_chain f g n i g' n2 u hu happ h
  exact ⟨h1, (c.live_sub hP hcfg (a.inv hP hcfg hg).2.1).trans (a.live_sub hP hcfg hg)⟩

theorem decomposeBase_chain (hP : P.WF) (hS : ParSeq P) {g g' : Glob} {n n' : Node} {j m u : Nat}
    (hg : Good P cfg g.heap n) (hc : ChainNode P g.heap n) (hu : n.abs[j]? = some u)
    (hm : m ∈ methodsOf P (taskOf g.heap u)) (hd : decomposeBase P cfg g n j m = some (g', n')) :
    ChainNode P g'.heap n' := by
  simp only [methodsOf, List.mem_filter, List.mem_range, beq_iff_eq] at hm
  obtain ⟨hm, hhead⟩ := hm
  obtain ⟨hh', hn', -, S⟩ := decomposeBase_inv hP hg.heap hg.node hm hd hu
  obtain ⟨u', ps, c, hu', hps, -, hheap, -⟩ := decomposeBase_some hd
  obtain rfl : u = u' := by rw [hu] at hu'; exact Option.some.inj hu'
  have hul : u ∈ live g.heap n :=
    (hg.node.first_min hg.heap (List.mem_append_right _ (List.mem_of_getElem? hu))).1
  have houter : ∀ v, v ∈ ps.succs ↔ Edge g.heap u v := fun v => edge_succs hps
  have hlt : ∀ {x v}, Edge g.heap x v → v < g.heap.length := fun he => hg.heap.succ_lt _ _ he
  rw [hheap] at S ⊢
  have hold : ∀ x, x ∈ live g.heap n → ∀ v, Edge (extHeap P g.heap m g.inst ps.succs) x v ↔ Edge g.heap x v :=
    fun x hx v => edge_old (live_lt hx)
  constructor
  · intro x hx
    rcases (S.mem x).1 hx with ⟨hx, -⟩ | ⟨i, hi, rfl⟩
    · unfold succsOf
      rw [extHeap_old (live_lt hx)]
      exact hc.one x hx
    · unfold succsOf
      rw [extHeap_new hi]
      simp only [Option.map_some, Option.getD_some]
      split
      · have := hc.one u hul
        simpa [succsOf, hps] using this
      · rw [List.length_map]
        have hnd := (hS.chain m hm).nodup.filter (fun o : Nat × Nat => o.1 == i)
        have hall : ∀ o ∈ (P.ord m).filter (fun o : Nat × Nat => o.1 == i),
            ∀ o' ∈ (P.ord m).filter (fun o : Nat × Nat => o.1 == i), o = o' := by
          rintro ⟨a, b⟩ ho ⟨a', b'⟩ ho'
          simp only [List.mem_filter, beq_iff_eq] at ho ho'
          obtain ⟨ho, rfl⟩ := ho
          obtain ⟨ho', rfl⟩ := ho'
          rw [(hS.chain m hm).succ1 _ b b' ho ho']
        match (P.ord m).filter (fun o : Nat × Nat => o.1 == i), hnd, hall with
        | [], _, _ => simp
        | [_], _, _ => simp
        | a :: b :: l, hnd, hall =>
          have := hall a (by simp) b (by simp)
          subst this
          simp at hnd
  · intro x hx x' hx' v h h'
    have mixed : ∀ {x i}, x ∈ live g.heap n → x ≠ u → i < (P.sub m).length → Edge g.heap x v →
        Edge (extHeap P g.heap m g.inst ps.succs) (g.heap.length + i) v → False := by
      intro x i hx hxu hi he hi'
      rcases (edge_new hi).1 hi' with ⟨hl, hv⟩ | ⟨k, hk, rfl⟩
      · exact hxu (hc.pred1 x hx u hul v he ((houter v).1 hv))
      · have := hlt he; omega
    rcases (S.mem x).1 hx with ⟨hx, hxu⟩ | ⟨i, hi, rfl⟩ <;>
      rcases (S.mem x').1 hx' with ⟨hx', hxu'⟩ | ⟨i', hi', rfl⟩
    · exact hc.pred1 x hx x' hx' v ((hold x hx v).1 h) ((hold x' hx' v).1 h')
    · exact (mixed hx hxu hi' ((hold x hx v).1 h) h').elim
    · exact (mixed hx' hxu' hi ((hold x' hx' v).1 h') h).elim
    · rcases (edge_new hi).1 h with ⟨hl, hv⟩ | ⟨k, hk, hkv⟩ <;>
        rcases (edge_new hi').1 h' with ⟨hl', hv'⟩ | ⟨k', hk', hkv'⟩
      · rcases hS.ends m hm with h1 | ⟨h1, h2⟩
        · rw [h1 i i' hi hi' hl hl']
        · by_cases h3 : OneLast P m
          · rw [h3 i i' hi hi' hl hl']
          · exact absurd ((houter v).1 hv) (hc.init ⟨m, hm, h3⟩ u hul (by rw [← hhead, h1]) v)
      · have := hlt ((houter v).1 hv); omega
      · have := hlt ((houter v).1 hv'); omega
      · obtain rfl : k = k' := by omega
        rw [(hS.chain m hm).pred1 i i' k hk hk']
  · rintro ⟨m0, hm0, hno⟩ x hx ht v he
    rcases (S.mem x).1 hx with ⟨hx, hxu⟩ | ⟨i, hi, rfl⟩
    · rw [S.lab_old x hx hxu] at ht
      exact hc.init ⟨m0, hm0, hno⟩ x hx ht v ((hold x hx v).1 he)
    · rcases hS.ends m0 hm0 with h1 | ⟨-, h2⟩
      · exact hno h1
      · rw [S.lab_new i _ (List.getElem?_eq_getElem hi)] at ht
        exact h2 m hm (ht ▸ List.getElem_mem hi)

theorem decomposeBase_tot (hP : P.WF) (hT : TotOrd P) {g g' : Glob} {n n' : Node} {j m u : Nat}
    (hg : Good P cfg g.heap n) (hc : TotNode g.heap n) (hu : n.abs[j]? = some u)
    (hm : m ∈ methodsOf P (taskOf g.heap u)) (hd : decomposeBase P cfg g n j m = some (g', n')) :
    TotNode g'.heap n' := by
  simp only [methodsOf, List.mem_filter, List.mem_range, beq_iff_eq] at hm
  obtain ⟨hm, hhead⟩ := hm
  obtain ⟨hh', hn', -, S⟩ := decomposeBase_inv hP hg.heap hg.node hm hd hu
  have hul : u ∈ live g.heap n :=
    (hg.node.first_min hg.heap (List.mem_append_right _ (List.mem_of_getElem? hu))).1
  intro x hx y hy hne
  rcases (S.mem x).1 hx with ⟨hx, hxu⟩ | ⟨i, hi, rfl⟩ <;>
    rcases (S.mem y).1 hy with ⟨hy, hyu⟩ | ⟨i', hi', rfl⟩
  · rw [S.lt_old x hx y hy hxu hyu, S.lt_old y hy x hx hyu hxu]
    exact hc x hx y hy hne
  · rw [S.lt_old_new x i' hx hxu hi', S.lt_new_old i' x hi' hx hxu]
    exact hc x hx u hul hxu
  · rw [S.lt_old_new y i hy hyu hi, S.lt_new_old i y hi hy hyu]
    exact (hc y hy u hul hyu).symm
  · rw [S.lt_new i i' hi hi', S.lt_new i' i hi' hi]
    exact (hT m hm).1 i i' hi hi' (by omega)

theorem Good.decomposeBase (hP : P.WF) {g g' : Glob} {n n' : Node} {j m u : Nat}
    (hg : Good P cfg g.heap n) (hu : n.abs[j]? = some u)
    (hm : m ∈ methodsOf P (taskOf g.heap u)) (hd : decomposeBase P cfg g n j m = some (g', n')) :
    Good P cfg g'.heap n' := by
  simp only [methodsOf, List.mem_filter, List.mem_range, beq_iff_eq] at hm
  obtain ⟨hm, hhead⟩ := hm
  obtain ⟨hh', hn', -, S⟩ := decomposeBase_inv hP hg.heap hg.node hm hd hu
  exact ⟨hh', hn', fun ht => decomposeBase_counter hP hg.heap hg.node hm hd hu hhead ht (hg.counter ht)⟩

theorem ChainNode.ext {h h' : Heap} (hp : h <+: h') (hh' : HeapOK h') {n : Node} (hg : Good P cfg h n)
    (hc : ChainNode P h n) : ChainNode P h' n := by
  have hl := prefix_live hp hg.heap hh' hg.node.lt
  have he : ∀ u ∈ live h n, ∀ v, Edge h' u v ↔ Edge h u v := fun u hu v => prefix_edge hp (live_lt hu)
  refine ⟨?_, ?_, ?_⟩ <;> rw [hl]
  · intro u hu
    unfold succsOf
    rw [prefix_get hp (live_lt hu)]
    exact hc.one u hu
  · exact fun u hu u' hu' v h1 h2 => hc.pred1 u hu u' hu' v ((he u hu v).1 h1) ((he u' hu' v).1 h2)
  · intro hm u hu ht v h1
    rw [prefix_taskOf hp (live_lt hu)] at ht
    exact hc.init hm u hu ht v ((he u hu v).1 h1)

theorem TotNode.ext {h h' : Heap} (hp : h <+: h') (hh' : HeapOK h') {n : Node} (hg : Good P cfg h n)
    (hc : TotNode h n) : TotNode h' n := by
  unfold TotNode
  rw [prefix_live hp hg.heap hh' hg.node.lt]
  intro u hu v hv hne
  rw [prefix_trans hp hg.heap (live_lt hu), prefix_trans hp hg.heap (live_lt hv)]
  exact hc u hu v hv hne

/-- Both invariants are kept by the operations of the search. -/
theorem chain_keeps (hP : P.WF) (hcfg : cfg.Ok) (hS : ParSeq P) :
    ChainNode P (initNode P cfg).1.heap (initNode P cfg).2 ∧
    (∀ f g n i u g' n2, NInv P cfg g.heap n → ChainNode P g.heap n → n.prims[i]? = some u →
      P.Applicable (holds n.state) (taskOf g.heap u) → apply P cfg f g n i = some (g', n2) →
      ChainNode P g'.heap n2) ∧
    (∀ f g n d u m g' n2, NInv P cfg g.heap n → ChainNode P g.heap n → n.abs[d]? = some u →
      m ∈ methodsOf P (taskOf g.heap u) → decompose P cfg f g n d m = some (g', n2) →
      ChainNode P g'.heap n2) := by
  refine ⟨?_, ?_, ?_⟩
  · have hno : ∀ u v, ¬ Edge (initNode P cfg).1.heap u v := by
      rintro u v ⟨st, hst, hv⟩
      cases u with
      | zero => simp [initNode] at hst; subst hst; simp at hv
      | succ u => simp [initNode] at hst
    have hone : ∀ u, succsOf (initNode P cfg).1.heap u = [] := fun u =>
      List.eq_nil_iff_forall_not_mem.2 fun v hv => hno u v (mem_succsOf.1 hv)
    exact ⟨fun u _ => by rw [hone]; simp, fun u _ u' _ v h => absurd h (hno _ _),
      fun _ u _ _ v => hno _ _⟩
  · intro f g n i u g' n2 hn hc hu happ h
    obtain ⟨h1, h2⟩ := apply_live_sub hP hcfg hn.good hu happ h
    rw [h1]; exact hc.sub h2
  · intro f g n d u m g' n2 hn hc hu hm h
    obtain ⟨g1, n1, us, h1, h2, h3⟩ := decompose_chain h
    rw [h2]
    exact (decomposeBase_chain hP hS hn.good hc hu hm h1).sub
      (h3.live_sub hP hcfg (hn.good.decomposeBase hP hu hm h1))

theorem tot_keeps (hP : P.WF) (hcfg : cfg.Ok) (hT : TotOrd P) :
    TotNode (initNode P cfg).1.heap (initNode P cfg).2 ∧
    (∀ f g n i u g' n2, NInv P cfg g.heap n → TotNode g.heap n → n.prims[i]? = some u →
      P.Applicable (holds n.state) (taskOf g.heap u) → apply P cfg f g n i = some (g', n2) →
      TotNode g'.heap n2) ∧
    (∀ f g n d u m g' n2, NInv P cfg g.heap n → TotNode g.heap n → n.abs[d]? = some u →
      m ∈ methodsOf P (taskOf g.heap u) → decompose P cfg f g n d m = some (g', n2) →
      TotNode g'.heap n2) := by
  refine ⟨?_, ?_, ?_⟩
  · intro u hu v hv hne
    have h1 := live_lt hu
    have h2 := live_lt hv
    simp [initNode] at h1 h2
    omega
  · intro f g n i u g' n2 hn hc hu happ h
    obtain ⟨h1, h2⟩ := apply_live_sub hP hcfg hn.good hu happ h
    rw [h1]; exact hc.sub h2
  · intro f g n d u m g' n2 hn hc hu hm h
    obtain ⟨g1, n1, us, h1, h2, h3⟩ := decompose_chain h
    rw [h2]
    exact (decomposeBase_tot hP hT hn.good hc hu hm h1).sub
      (h3.live_sub hP hcfg (hn.good.decomposeBase hP hu hm h1))

/-- An invariant kept by the operations of the search holds in all reached nodes. -/
theorem Reached.invariant (hP : P.WF) (hcfg : cfg.Ok) {K : Heap → Node → Prop}
    (h0 : K (initNode P cfg).1.heap (initNode P cfg).2)
    (ha : ∀ f g n i u g' n2, NInv P cfg g.heap n → K g.heap n → n.prims[i]? = some u →
      P.Applicable (holds n.state) (taskOf g.heap u) → apply P cfg f g n i = some (g', n2) → K g'.heap n2)
    (hd : ∀ f g n d u m g' n2, NInv P cfg g.heap n → K g.heap n → n.abs[d]? = some u →
      m ∈ methodsOf P (taskOf g.heap u) → decompose P cfg f g n d m = some (g', n2) → K g'.heap n2)
    (he : ∀ h h' n, h <+: h' → HeapOK h' → NInv P cfg h n → K h n → K h' n)
    {g n} (h : Reached P cfg g n) : K g.heap n := by
  induction h with
  | init => exact h0
  | app hr hu hap h ih => exact ha _ _ _ _ _ _ _ (hr.ninv hP hcfg) ih hu (isApplicable_iff.1 hap) h
  | dec hr hu hm h ih => exact hd _ _ _ _ _ _ _ _ (hr.ninv hP hcfg) ih hu hm h
  | otherApp hr ho hu hap h ih _ =>
    rw [(apply_step hP hcfg (ho.ninv hP hcfg) hu (isApplicable_iff.1 hap) h).1]; exact ih
  | otherDec hr ho hu hm h ih _ =>
    obtain ⟨e1, e2, -⟩ := decompose_step hP hcfg (ho.ninv hP hcfg) hu hm h
    exact he _ _ _ e1 e2 (hr.ninv hP hcfg) ih

/-! ## Following single successors -/

/-- `to_dfs` (src/VisitedList.cpp 150-155), listing the steps instead of their tasks.  The assertion
that there is at most one successor is not modelled; it holds by `ChainNode.one`.  Outcome `none`:
out of fuel or dangling pointer. -/
def toDfs (h : Heap) : Nat → Nat → Option (List Nat)
  | 0, _ => none
  | f + 1, u =>
    match h[u]? with
    | none => none
    | some st =>
      match st.succs with
      | [] => some [u]
      | v :: _ => (toDfs h f v).map (u :: ·)

theorem toDfs_total {h : Heap} (hh : HeapOK h) : ∀ f u (S : Finset Nat), u < h.length →
    (∀ s ∈ S, s < h.length ∧ TransGen (Edge h) s u) → h.length < S.card + f → ∃ l, toDfs h f u = some l := by
  intro f
  induction f with
  | zero =>
    intro u S hu hS hc
    have : S.card ≤ (Finset.range h.length).card :=
      Finset.card_le_card fun s hs => Finset.mem_range.2 (hS s hs).1
    simp at this; omega
  | succ f ih =>
    intro u S hu hS hc
    obtain ⟨st, hst⟩ : ∃ st, h[u]? = some st := ⟨h[u], List.getElem?_eq_getElem hu⟩
    simp only [toDfs, hst]
    cases hs : st.succs with
    | nil => exact ⟨_, rfl⟩
    | cons v vs =>
      have he : Edge h u v := ⟨st, hst, by simp [hs]⟩
      have hns : u ∉ S := fun hu' => hh.irrefl (hS u hu').2
      obtain ⟨l, hl⟩ := ih v (insert u S) (hh.succ_lt _ _ he) (by
        intro s hs'
        rcases Finset.mem_insert.1 hs' with rfl | hs'
        · exact ⟨hu, .single he⟩
        · exact ⟨(hS s hs').1, (hS s hs').2.tail he⟩) (by
        rw [Finset.card_insert_of_notMem hns]; omega)
      exact ⟨u :: l, by simp [hl]⟩

/-- The result is a maximal path. -/
theorem toDfs_path {h : Heap} : ∀ f u l, toDfs h f u = some l →
    l[0]? = some u ∧ (∀ i x y : Nat, l[i]? = some x → l[i + 1]? = some y → Edge h x y) ∧
      (∀ i x : Nat, l[i]? = some x → l[i + 1]? = none → ∀ y, ¬ Edge h x y) := by
  intro f
  induction f with
  | zero => intro u l h; simp [toDfs] at h
  | succ f ih =>
    intro u l hl
    simp only [toDfs] at hl
    cases hst : h[u]? with
    | none => simp [hst] at hl
    | some st =>
      simp only [hst] at hl
      cases hs : st.succs with
      | nil =>
        simp only [hs, Option.some.injEq] at hl
        subst hl
        refine ⟨rfl, fun i x y _ hy => by simp at hy, fun i x hx _ y he => ?_⟩
        cases i with
        | zero =>
          simp at hx; subst hx
          obtain ⟨st', h1, h2⟩ := he
          rw [hst] at h1; cases h1; simp [hs] at h2
        | succ i => simp at hx
      | cons v vs =>
        simp only [hs, Option.map_eq_some_iff] at hl
        obtain ⟨l', hl', rfl⟩ := hl
        obtain ⟨h1, h2, h3⟩ := ih v l' hl'
        refine ⟨rfl, fun i x y hx hy => ?_, fun i x hx hy => ?_⟩
        · cases i with
          | zero =>
            simp only [List.getElem?_cons_zero, Option.some.injEq, Nat.zero_add, List.getElem?_cons_succ] at hx hy
            subst hx
            rw [h1, Option.some.injEq] at hy
            subst hy
            exact ⟨st, hst, by simp [hs]⟩
          | succ i =>
            simp only [List.getElem?_cons_succ] at hx hy
            exact h2 i x y hx hy
        · cases i with
          | zero => simp [h1] at hy
          | succ i =>
            simp only [List.getElem?_cons_succ] at hx hy
            exact h3 i x hx hy

theorem toDfs_lt {h : Heap} {f u l} (hl : toDfs h f u = some l) : ∀ i j x y : Nat, l[i]? = some x → l[j]? = some y →
    i < j → TransGen (Edge h) x y := by
  obtain ⟨-, h2, -⟩ := toDfs_path f u l hl
  intro i j
  induction j with
  | zero => intro x y _ _ h; omega
  | succ j ih =>
    intro x y hx hy hij
    have hjl : j < l.length := by
      have := (List.getElem?_eq_some_iff.1 hy).1; omega
    have hz := List.getElem?_eq_getElem hjl
    rcases Nat.lt_or_ge i j with h | h
    · exact (ih x _ hx hz h).tail (h2 j _ _ hz hy)
    · obtain rfl : i = j := by omega
      exact .single (h2 i x y hx hy)

/-- With unique successors the result lists exactly what can be reached. -/
theorem toDfs_mem {h : Heap} {f u l} (hl : toDfs h f u = some l)
    (hs : ∀ x, ReflTransGen (Edge h) u x → ∀ v v', Edge h x v → Edge h x v' → v = v') (x : Nat) :
    x ∈ l ↔ ReflTransGen (Edge h) u x := by
  obtain ⟨h1, h2, h3⟩ := toDfs_path f u l hl
  constructor
  · intro hx
    obtain ⟨i, hi⟩ := List.getElem?_of_mem hx
    cases i with
    | zero => rw [h1] at hi; cases hi; exact .refl
    | succ i => exact (toDfs_lt hl 0 (i + 1) u x h1 hi (by omega)).to_reflTransGen
  · intro hr
    induction hr with
    | refl => exact List.mem_of_getElem? h1
    | @tail b c hb he ih =>
      obtain ⟨i, hi⟩ := List.getElem?_of_mem ih
      cases hn : l[i + 1]? with
      | none => exact absurd he (h3 i b hi hn c)
      | some d =>
        rw [hs b hb c d he (h2 i b d hi hn)]
        exact List.mem_of_getElem? hn

theorem toDfs_nodup {h : Heap} (hh : HeapOK h) {f u l} (hl : toDfs h f u = some l) : l.Nodup := by
  rw [List.nodup_iff_getElem?_ne_getElem?]
  intro i j hij hj heq
  have hy := List.getElem?_eq_getElem hj
  rw [hy] at heq
  exact hh.irrefl (toDfs_lt hl i j _ _ heq hy hij)

/-- Two steps with a common descendant are comparable. -/
theorem ChainNode.comparable {h n} (hh : HeapOK h) (hn : NodeOK P h n) (hc : ChainNode P h n) {a b v}
    (ha : a ∈ live h n) (hb : b ∈ live h n) (h1 : ReflTransGen (Edge h) a v) (h2 : ReflTransGen (Edge h) b v) :
    ReflTransGen (Edge h) a b ∨ ReflTransGen (Edge h) b a := by
  have hup : ∀ {x y}, x ∈ live h n → ReflTransGen (Edge h) x y → y ∈ live h n := by
    intro x y hx hxy
    obtain ⟨w, hw, hwx⟩ := (mem_live hh hn.lt).1 hx
    exact (mem_live hh hn.lt).2 ⟨w, hw, hwx.trans hxy⟩
  induction h1 with
  | refl => exact .inr h2
  | @tail w v hw he ih =>
    rcases ReflTransGen.cases_tail h2 with rfl | ⟨w', hw', he'⟩
    · exact .inl (hw.tail he)
    · obtain rfl := hc.pred1 w (hup ha hw) w' (hup hb hw') v he he'
      exact ih hw'

/-- The sequences of steps following the unconstrained steps. -/
def chainsOf (h : Heap) (us : List Nat) : Option (List (List Nat)) :=
  us.mapM (toDfs h (h.length + 1))

theorem chainsOf_total {h : Heap} (hh : HeapOK h) {us : List Nat} (hu : ∀ u ∈ us, u < h.length) :
    ∃ cs, chainsOf h us = some cs := by
  unfold chainsOf
  induction us with
  | nil => exact ⟨[], rfl⟩
  | cons u us ih =>
    obtain ⟨cs, hcs⟩ := ih fun v hv => hu v (List.mem_cons_of_mem _ hv)
    obtain ⟨l, hl⟩ := toDfs_total hh (h.length + 1) u ∅ (hu u List.mem_cons_self) (by simp) (by simp)
    exact ⟨l :: cs, by simp [List.mapM_cons, hl, hcs]⟩

theorem chainsOf_get {h : Heap} : ∀ {us : List Nat} {cs}, chainsOf h us = some cs →
    cs.length = us.length ∧ ∀ i u : Nat, us[i]? = some u →
      ∃ l, cs[i]? = some l ∧ toDfs h (h.length + 1) u = some l := by
  intro us
  unfold chainsOf
  induction us with
  | nil => intro cs hcs; simp at hcs; subst hcs; simp
  | cons u us ih =>
    intro cs hcs
    simp only [List.mapM_cons, Option.bind_eq_bind, Option.bind_eq_some_iff, Option.pure_def,
      Option.some.injEq] at hcs
    obtain ⟨l, hl, cs', hcs', rfl⟩ := hcs
    obtain ⟨h1, h2⟩ := ih hcs'
    refine ⟨by simp [h1], fun i v hv => ?_⟩
    cases i with
    | zero => simp at hv; subst hv; exact ⟨l, rfl, hl⟩
    | succ i => simpa using h2 i v (by simpa using hv)

/-- The network of a node consists of the chains that start with the unconstrained steps. -/
theorem ChainNode.chainNet {h n} (hh : HeapOK h) (hn : NodeOK P h n) (hc : ChainNode P h n) {us cs}
    (hus : us.Perm n.firsts) (hcs : chainsOf h us = some cs) :
    ChainNet (live h n) (TransGen (Edge h)) cs := by
  obtain ⟨hlen, hget⟩ := chainsOf_get hcs
  have hmemu : ∀ {u}, u ∈ us ↔ u ∈ n.firsts := hus.mem_iff
  have hnd : us.Nodup := hus.nodup_iff.2 hn.nodup
  have hreach : ∀ {u x}, u ∈ us → ReflTransGen (Edge h) u x → x ∈ live h n :=
    fun hu hx => (mem_live hh hn.lt).2 ⟨_, hmemu.1 hu, hx⟩
  have hmem : ∀ {u l}, u ∈ us → toDfs h (h.length + 1) u = some l → ∀ x, x ∈ l ↔ ReflTransGen (Edge h) u x :=
    fun hu hl x => toDfs_mem hl (fun y hy v v' => hc.succ1 y (hreach hu hy) v v') x
  -- chain `i` belongs to first step `i`
  have hci : ∀ (i : Nat) l, cs[i]? = some l → ∃ u, us[i]? = some u ∧ toDfs h (h.length + 1) u = some l := by
    intro i l hl
    have hi : i < us.length := by rw [← hlen]; exact (List.getElem?_eq_some_iff.1 hl).1
    obtain ⟨l', h1, h2⟩ := hget i _ (List.getElem?_eq_getElem hi)
    rw [hl] at h1; cases h1
    exact ⟨_, List.getElem?_eq_getElem hi, h2⟩
  -- different chains are disjoint
  have hdisj : ∀ i i' u u' x : Nat, us[i]? = some u → us[i']? = some u' → ReflTransGen (Edge h) u x →
      ReflTransGen (Edge h) u' x → i = i' := by
    intro i i' u u' x hi hi' h1 h2
    have hu := List.mem_of_getElem? hi
    have hu' := List.mem_of_getElem? hi'
    by_cases he : u = u'
    · subst he
      obtain ⟨a1, a2⟩ := List.getElem?_eq_some_iff.1 hi
      obtain ⟨b1, b2⟩ := List.getElem?_eq_some_iff.1 hi'
      exact (List.Nodup.getElem_inj_iff hnd).1 (a2.trans b2.symm)
    · exfalso
      rcases hc.comparable hh hn (hreach hu .refl) (hreach hu' .refl) h1 h2 with h3 | h3
      · rcases reflTransGen_iff_eq_or_transGen.1 h3 with h4 | h4
        · exact he h4.symm
        · exact hn.min u (hmemu.1 hu) u' (hmemu.1 hu') h4
      · rcases reflTransGen_iff_eq_or_transGen.1 h3 with h4 | h4
        · exact he h4
        · exact hn.min u' (hmemu.1 hu') u (hmemu.1 hu) h4
  have hsplit : ∀ i j v : Nat, (cs[i]?.bind (·[j]?)) = some v →
      ∃ u l, us[i]? = some u ∧ cs[i]? = some l ∧ toDfs h (h.length + 1) u = some l ∧ l[j]? = some v ∧
        ReflTransGen (Edge h) u v := by
    intro i j v hv
    cases hl : cs[i]? with
    | none => simp [hl] at hv
    | some l =>
      rw [hl] at hv
      obtain ⟨u, h1, h2⟩ := hci i l hl
      exact ⟨u, l, h1, rfl, h2, hv, (hmem (List.mem_of_getElem? h1) h2 v).1 (List.mem_of_getElem? hv)⟩
  refine ⟨?_, ?_, ?_⟩
  · rw [List.nodup_flatten]
    constructor
    · intro l hl
      obtain ⟨i, hi⟩ := List.getElem?_of_mem hl
      obtain ⟨u, -, h2⟩ := hci i l hi
      exact toDfs_nodup hh h2
    · rw [List.pairwise_iff_getElem]
      intro i j hi hj hij x hx hx'
      obtain ⟨u, h1, h2⟩ := hci i _ (List.getElem?_eq_getElem hi)
      obtain ⟨u', h1', h2'⟩ := hci j _ (List.getElem?_eq_getElem hj)
      have := hdisj i j u u' x h1 h1' ((hmem (List.mem_of_getElem? h1) h2 x).1 hx)
        ((hmem (List.mem_of_getElem? h1') h2' x).1 hx')
      omega
  · intro v
    constructor
    · intro hv
      obtain ⟨u, hu, huv⟩ := (mem_live hh hn.lt).1 hv
      obtain ⟨i, hi⟩ := List.getElem?_of_mem (hmemu.2 hu)
      obtain ⟨l, h1, h2⟩ := hget i u hi
      obtain ⟨j, hj⟩ := List.getElem?_of_mem ((hmem (hmemu.2 hu) h2 v).2 huv)
      exact ⟨i, j, by simp [h1, hj]⟩
    · rintro ⟨i, j, hij⟩
      obtain ⟨u, l, h1, -, -, -, h5⟩ := hsplit i j v hij
      exact hreach (List.mem_of_getElem? h1) h5
  · intro i j i' j' u v hu hv
    obtain ⟨a, l, h1, h2, h3, h4, h5⟩ := hsplit i j u hu
    obtain ⟨a', l', h1', h2', h3', h4', h5'⟩ := hsplit i' j' v hv
    constructor
    · intro hlt
      have hii := hdisj i i' a a' v h1 h1' (h5.trans hlt.to_reflTransGen) h5'
      subst hii
      rw [h2] at h2'; cases h2'
      refine ⟨rfl, ?_⟩
      by_contra hge
      rcases Nat.lt_or_ge j' j with h | h
      · exact hh.irrefl (hlt.trans (toDfs_lt h3 j' j v u h4' h4 h))
      · obtain rfl : j = j' := by omega
        rw [h4] at h4'; cases h4'
        exact hh.irrefl hlt
    · rintro ⟨rfl, hjj⟩
      rw [h2] at h2'; cases h2'
      exact toDfs_lt h3 j j' u v h4 h4' hjj

/-- A totally ordered network has at most one unconstrained step. -/
theorem TotNode.one_first {h n} (hh : HeapOK h) (hn : NodeOK P h n) (hc : TotNode h n) : n.firsts.length ≤ 1 := by
  by_contra hgt
  have h0 : 0 < n.firsts.length := by omega
  have h1 : 1 < n.firsts.length := by omega
  have hne : n.firsts[0] ≠ n.firsts[1] := fun he => by
    have := (List.Nodup.getElem_inj_iff hn.nodup).1 he; omega
  have m0 := List.getElem_mem h0
  have m1 := List.getElem_mem h1
  rcases hc _ (hn.first_min hh m0).1 _ (hn.first_min hh m1).1 hne with h | h
  · exact hn.min _ m0 _ m1 h
  · exact hn.min _ m1 _ m0 h

end Verif.Prog
