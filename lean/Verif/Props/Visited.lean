import Verif.Chains
import Verif.Trie
import Verif.TopSort
import Verif.Props.Example

/-! # C12, C24, C25, C41: building blocks of the visited list -/

namespace Verif.Props

open Verif.Htn Verif.Prog Verif.TaskCounter Verif.Bits Verif.CST Relation

/-! ## C12: networks of totally ordered instances -/

section c12

variable {P : Problem} {cfg : Cfg}

/-- **C12.**  If all methods are totally ordered, every node the search can generate has at most one
unconstrained step, every step has at most one direct successor, the steps are totally ordered, and
`to_dfs` started in the unconstrained step lists every step exactly once, in order. -/
theorem C12_total_order_is_chain (hP : P.WF) (hcfg : cfg.Ok) (hT : TotOrd P) {g n} (h : Reached P cfg g n) :
    (n.prims ++ n.abs).length ≤ 1 ∧
    (∀ u ∈ live g.heap n, (succsOf g.heap u).length ≤ 1) ∧
    (∀ u ∈ live g.heap n, ∀ v ∈ live g.heap n, u ≠ v →
      TransGen (Edge g.heap) u v ∨ TransGen (Edge g.heap) v u) ∧
    (∀ u ∈ n.prims ++ n.abs, ∃ l, toDfs g.heap (g.heap.length + 1) u = some l ∧ l.Nodup ∧
      (∀ v, v ∈ l ↔ v ∈ live g.heap n) ∧ l.Pairwise (TransGen (Edge g.heap))) := by
  have hS := hT.parSeq hP
  obtain ⟨c0, c1, c2⟩ := chain_keeps hP hcfg hS
  obtain ⟨t0, t1, t2⟩ := tot_keeps hP hcfg hT
  have hi := h.ninv hP hcfg
  have hh := hi.good.heap
  have hn := hi.good.node
  have hc : ChainNode P g.heap n := Reached.invariant hP hcfg c0 c1 c2
    (fun h h' n hp hh' hi hc => hc.ext hp hh' hi.good) h
  have ht : TotNode g.heap n := Reached.invariant (K := TotNode) hP hcfg t0 t1 t2
    (fun h h' n hp hh' hi hc => hc.ext hp hh' hi.good) h
  refine ⟨ht.one_first hh hn, hc.one, ht, fun u hu => ?_⟩
  obtain ⟨l, hl⟩ := toDfs_total hh (g.heap.length + 1) u ∅ (hn.lt u hu) (by simp) (by simp)
  have hmem := toDfs_mem hl (fun y hy v v' => hc.succ1 y ((mem_live hh hn.lt).2 ⟨u, hu, hy⟩) v v')
  refine ⟨l, hl, toDfs_nodup hh hl, fun v => ?_, ?_⟩
  · rw [hmem]
    constructor
    · intro hv; exact (mem_live hh hn.lt).2 ⟨u, hu, hv⟩
    · intro hv
      obtain ⟨s, hs, hsv⟩ := (mem_live hh hn.lt).1 hv
      have h1 := ht.one_first hh hn
      have : s = u := by
        obtain ⟨i, hi', rfl⟩ := List.mem_iff_getElem.1 hs
        obtain ⟨j, hj', rfl⟩ := List.mem_iff_getElem.1 hu
        have hi0 : i = 0 := by have : i < n.firsts.length := hi'; omega
        have hj0 : j = 0 := by have : j < n.firsts.length := hj'; omega
        subst hi0; subst hj0; rfl
      rw [← this]; exact hsv
  · rw [List.pairwise_iff_getElem]
    intro i j hi' hj' hij
    exact toDfs_lt hl i j _ _ (List.getElem?_eq_getElem hi') (List.getElem?_eq_getElem hj') hij

/-- **C12** (parallel sequences).  If every method consists of chains, and of a single chain unless it
belongs to an initial task that is no subtask, then every step of every node has at most one
direct predecessor and at most one direct successor, and the sequences found by `to_dfs` from the
unconstrained steps list every step of the network exactly once. -/
theorem C12_parallel_sequences_are_chains (hP : P.WF) (hcfg : cfg.Ok) (hS : ParSeq P) {g n} (h : Reached P cfg g n) :
    (∀ u ∈ live g.heap n, (succsOf g.heap u).length ≤ 1) ∧
    (∀ u ∈ live g.heap n, ∀ u' ∈ live g.heap n, ∀ v, Edge g.heap u v → Edge g.heap u' v → u = u') ∧
    (∃ cs, (n.abs ++ n.prims).mapM (toDfs g.heap (g.heap.length + 1)) = some cs ∧ cs.flatten.Nodup ∧
      (∀ v, v ∈ cs.flatten ↔ v ∈ live g.heap n)) := by
  obtain ⟨c0, c1, c2⟩ := chain_keeps hP hcfg hS
  have hi := h.ninv hP hcfg
  have hh := hi.good.heap
  have hn := hi.good.node
  have hc : ChainNode P g.heap n := Reached.invariant hP hcfg c0 c1 c2
    (fun h h' n hp hh' hi hc => hc.ext hp hh' hi.good) h
  have hp : (n.abs ++ n.prims).Perm n.firsts := List.perm_append_comm
  obtain ⟨cs, hcs⟩ := chainsOf_total hh (us := n.abs ++ n.prims) fun u hu => hn.lt u (hp.mem_iff.1 hu)
  have hcn := hc.chainNet hh hn hp hcs
  refine ⟨hc.one, hc.pred1, cs, hcs, hcn.nodup, fun v => ?_⟩
  rw [hcn.mem, List.mem_flatten]
  constructor
  · rintro ⟨l, hl, hv⟩
    obtain ⟨i, hi⟩ := List.mem_iff_getElem?.1 hl
    obtain ⟨j, hj⟩ := List.mem_iff_getElem?.1 hv
    exact ⟨i, j, by rw [hi]; exact hj⟩
  · rintro ⟨i, j, hij⟩
    obtain ⟨l, hi, hj⟩ := Option.bind_eq_some_iff.1 hij
    exact ⟨l, List.mem_of_getElem? hi, List.mem_of_getElem? hj⟩

/-- A totally ordered problem: `A -> a, A, b | a`. -/
def toP : Problem where
  numFacts := 1
  prim t := t == 1 || t == 2
  prec _ := []
  add t := if t = 2 then [0] else []
  del _ := []
  cost _ := 1
  numMethods := 2
  head _ := 0
  sub m := if m = 0 then [1, 0, 2] else [1]
  ord m := if m = 0 then [(0, 1), (1, 2)] else []
  init := 0
  s0 := []
  goal := [0]

theorem toP_wf : toP.WF where
  ord_lt := by
    intro m _ i j h
    simp only [toP] at h ⊢
    split_ifs at h ⊢ <;> simp_all <;> omega
  ord_acyclic := by
    intro m _
    refine ⟨fun i => i, fun i j h => ?_⟩
    simp only [toP] at h
    split_ifs at h <;> simp_all <;> omega
  sub_ne := by
    intro m _
    simp only [toP]
    split_ifs <;> simp
  head_abs := by intro m _; simp [toP]
  init_abs := by simp [toP]
  prec_lt := by simp [toP]
  add_lt := by
    intro a f h
    simp only [toP] at h ⊢
    split_ifs at h <;> simp_all
  del_lt := by simp [toP]
  s0_lt := by simp [toP]
  goal_lt := by simp [toP]

theorem toP_ordRel {i j : Nat} : toP.OrdRel 0 i j ↔ (i, j) = (0, 1) ∨ (i, j) = (1, 2) := by
  simp [Problem.OrdRel, toP]

theorem toP_tot : TotOrd toP := by
  have h1 : TransGen (toP.OrdRel 0) 0 1 := .single (toP_ordRel.2 (by simp))
  have h2 : TransGen (toP.OrdRel 0) 1 2 := .single (toP_ordRel.2 (by simp))
  intro m hm
  rcases Nat.eq_zero_or_pos m with rfl | hpos
  · refine ⟨?_, ?_, by decide⟩
    · intro i j hi hj hne
      have hi : i < 3 := hi
      have hj : j < 3 := hj
      rcases (by omega : (i = 0 ∧ j = 1) ∨ (i = 0 ∧ j = 2) ∨ (i = 1 ∧ j = 2) ∨ (i = 1 ∧ j = 0) ∨
        (i = 2 ∧ j = 0) ∨ (i = 2 ∧ j = 1)) with h | h | h | h | h | h <;> obtain ⟨rfl, rfl⟩ := h
      · exact .inl h1
      · exact .inl (h1.trans h2)
      · exact .inl h2
      · exact .inr h1
      · exact .inr (h1.trans h2)
      · exact .inr h2
    · have hlt : ∀ {a b}, TransGen (toP.OrdRel 0) a b → a < b := by
        intro a b hab
        induction hab with
        | single h =>
          rcases toP_ordRel.1 h with h | h <;> obtain ⟨rfl, rfl⟩ := Prod.mk.inj h <;> omega
        | tail _ h ih =>
          rcases toP_ordRel.1 h with h | h <;> obtain ⟨rfl, rfl⟩ := Prod.mk.inj h <;> omega
      rintro i j h k ⟨h3, h4⟩
      have h5 := hlt h3
      have h6 := hlt h4
      rcases toP_ordRel.1 h with h | h <;> obtain ⟨rfl, rfl⟩ := Prod.mk.inj h <;> omega
  · have hm1 : m = 1 := by have : m < 2 := hm; omega
    subst hm1
    refine ⟨?_, ?_, by decide⟩
    · intro i j hi hj hne
      have hi : i < 1 := hi
      have hj : j < 1 := hj
      omega
    · intro i j h; simp [toP] at h

/-- A node with the chain `a, A, b` is reached, so that the hypotheses of C12 are met. -/
example : ∃ g n, Reached toP exCfg g n ∧ n.prims ++ n.abs = [1] ∧
    toDfs g.heap (g.heap.length + 1) 1 = some [1, 2, 3] := by
  have h : ∃ r, decompose toP exCfg 50 (initNode toP exCfg).1 (initNode toP exCfg).2 0 0 = some r ∧
      r.2.prims ++ r.2.abs = [1] ∧ toDfs r.1.heap (r.1.heap.length + 1) 1 = some [1, 2, 3] := by
    refine ⟨_, rfl, ?_, ?_⟩ <;> decide
  obtain ⟨⟨g, n⟩, h1, h2, h3⟩ := h
  exact ⟨g, n, .dec .init (u := 0) (by decide) (m := 0) (by decide) h1, h2, h3⟩

end c12

/-! ## C41: the topological ordering -/

/-- **C41.**  For every node the search can generate, `topSort` terminates and lists the tasks of the
steps of the network, every step exactly once, in an order that respects the ordering. -/
theorem C41_topological_order {P : Problem} {cfg : Cfg} (hP : P.WF) (hcfg : cfg.Ok) {g n} (h : Reached P cfg g n) :
    ∃ us : List Nat, topSort g.heap n = some (us.map (taskOf g.heap)) ∧ us.Nodup ∧
      (∀ v, v ∈ us ↔ v ∈ live g.heap n) ∧
      ∀ (i j : Nat) u v, us[i]? = some u → us[j]? = some v → TransGen (Edge g.heap) u v → i < j := by
  have hi := h.ninv hP hcfg
  obtain ⟨r, h1, h2, h3, h4, h5⟩ := topSortIds_spec hi.good.heap hi.good.node
  refine ⟨r.map Prod.snd, ?_, h3, h4, ?_⟩
  · unfold topSort
    rw [h1, Option.map_some, List.map_map]
    congr 1
    exact List.map_congr_left fun p hp => h2 p hp
  · intro i j u v hu hv huv
    by_contra hji
    rcases Nat.lt_or_ge j i with hlt | hge
    · obtain ⟨hj', e1⟩ := List.getElem?_eq_some_iff.1 hv
      obtain ⟨hi', e2⟩ := List.getElem?_eq_some_iff.1 hu
      have := List.pairwise_iff_getElem.1 h5 j i hj' hi' hlt
      rw [e1, e2] at this
      exact this huv
    · obtain rfl : i = j := by omega
      rw [hu] at hv
      cases hv
      exact hi.good.heap.irrefl huv

/-- Decomposing `A -> a, B, e` with `a < B`: the tasks in the order `a = 1`, `e = 3`, `B = 4`. -/
example : ∃ g n, Reached exP exCfg g n ∧ topSort g.heap n = some [1, 3, 4] := by
  have h : ∃ r, decompose exP exCfg 50 (initNode exP exCfg).1 (initNode exP exCfg).2 0 0 = some r ∧
      topSort r.1.heap r.2 = some [1, 3, 4] := ⟨_, rfl, by decide +kernel⟩
  obtain ⟨⟨g, n⟩, h1, h2⟩ := h
  exact ⟨g, n, .dec .init (u := 0) (by decide) (m := 0) (by decide) h1, h2⟩

/-! ## C24: packing of bits -/

/-- **C24.**  The words of `state2Int` contain the bits of the argument, followed by as many zeros as
the padding says, less than a word. -/
theorem C24_packed_bits (bs : List Bool) :
    (state2Int bs).2 < 64 ∧ bs.length + (state2Int bs).2 = 64 * (state2Int bs).1.length ∧
    ∀ i q, q < 64 → ((state2Int bs).1[i]?.getD 0#64).getLsbD q = bs[64 * i + q]?.getD false := by
  obtain ⟨h1, h2, h3⟩ := state2Int_spec bs
  exact ⟨h1, h2, fun i q hq => by rw [← gbit_block _ _ _ hq, h3]⟩

/-- **C24.**  Different bit strings are packed differently. -/
theorem C24_packing_injective {bs cs : List Bool} (h : state2Int bs = state2Int cs) : bs = cs :=
  state2Int_inj h

example : (state2Int (List.replicate 64 true)).1 = [BitVec.allOnes 64] ∧ (state2Int (List.replicate 64 true)).2 = 0 ∧
    state2Int (List.replicate 65 true) = ([BitVec.allOnes 64, 1#64], 63) := by decide +kernel

/-! ## C25: the hash table of tries -/

section c25

variable {α : Type} [Inhabited α]

/-- An access to the table: hash value, bit string, and what happens to the cell. -/
structure Acc (α : Type) where
  hash : Nat
  bits : List Bool
  upd : α → α

/-- The accesses performed by the code, with the old contents of the accessed cells. -/
def runTable : List (Acc α) → Table α → Option (Table α × List α)
  | [], tb => some (tb, [])
  | a :: as, tb =>
    match access tb a.hash (state2Int a.bits) a.upd with
    | none => none
    | some (tb, old) => (runTable as tb).map fun r => (r.1, old :: r.2)

/-- The same accesses performed on a map from pairs of slot and bit string to cells. -/
def runMap : List (Acc α) → (Nat → List Bool → α) → (Nat → List Bool → α) × List α
  | [], m => (m, [])
  | a :: as, m =>
    let s := a.hash % 16777213
    let r := runMap as fun i bs => if i = s ∧ bs = a.bits then a.upd (m s a.bits) else m i bs
    (r.1, m s a.bits :: r.2)

theorem keyOK_state2Int {bs : List Bool} (h : bs ≠ []) :
    KeyOK (state2Int bs).1 (state2Int bs).2 ∧ klen (state2Int bs).1 (state2Int bs).2 = bs.length := by
  obtain ⟨h1, h2, h3⟩ := state2Int_spec bs
  have := List.length_pos_iff.2 h
  refine ⟨⟨fun h0 => by rw [h0, List.length_nil] at h2; omega, h1, fun g hg => ?_⟩, by unfold klen; omega⟩
  rw [h3, List.getElem?_eq_none (by omega)]; rfl

/-- The table represents the map. -/
def Repr (tb : Table α) (m : Nat → List Bool → α) : Prop :=
  TWF tb ∧ ∀ i bs, bs ≠ [] → cell tb i (state2Int bs) = m i bs

theorem access_nonempty {tb : Table α} {h : Nat} {bs : List Bool} {f : α → α} {r} (ha : access tb h (state2Int bs) f = some r) :
    bs ≠ [] := by
  rintro rfl
  have : (state2Int []).1 = [] := by decide
  simp [access, this] at ha

theorem access_repr {tb tb' : Table α} {m : Nat → List Bool → α} {a : Acc α} {old : α} (hr : Repr tb m)
    (ha : access tb a.hash (state2Int a.bits) a.upd = some (tb', old)) :
    old = m (a.hash % 16777213) a.bits ∧
    Repr tb' fun i bs => if i = a.hash % 16777213 ∧ bs = a.bits then a.upd (m (a.hash % 16777213) a.bits) else m i bs := by
  have hne := access_nonempty ha
  obtain ⟨h1, h2, h3, h4⟩ := access_ok hr.1 (keyOK_state2Int hne).1 ha
  have hold : old = m (a.hash % 16777213) a.bits := h2.trans (hr.2 _ _ hne)
  refine ⟨hold, h1, fun i bs hbs => ?_⟩
  show _ = if i = a.hash % 16777213 ∧ bs = a.bits then a.upd (m (a.hash % 16777213) a.bits) else m i bs
  by_cases hk : i = a.hash % 16777213 ∧ bs = a.bits
  · rw [if_pos hk]
    obtain ⟨rfl, rfl⟩ := hk
    exact h3.trans (by rw [hold])
  · rw [if_neg hk, h4 i _ (keyOK_state2Int hbs).1 (fun h0 => hk ⟨h0.1, state2Int_inj h0.2⟩)]
    exact hr.2 i bs hbs

theorem run_repr : ∀ (as : List (Acc α)) (tb : Table α) (m : Nat → List Bool → α) tb' olds, Repr tb m →
    runTable as tb = some (tb', olds) → Repr tb' (runMap as m).1 ∧ olds = (runMap as m).2 := by
  intro as
  induction as with
  | nil => intro tb m tb' olds hr h; simp [runTable] at h; obtain ⟨rfl, rfl⟩ := h; exact ⟨hr, rfl⟩
  | cons a as ih =>
    intro tb m tb' olds hr h
    rw [runTable] at h
    cases ha : access tb a.hash (state2Int a.bits) a.upd with
    | none => rw [ha] at h; simp at h
    | some p =>
      obtain ⟨tb1, old⟩ := p
      rw [ha] at h
      simp only [Option.map_eq_some_iff] at h
      obtain ⟨⟨tb2, olds'⟩, h1, h2⟩ := h
      obtain ⟨rfl, rfl⟩ := Prod.mk.inj h2
      obtain ⟨h3, h4⟩ := access_repr hr ha
      obtain ⟨h5, h6⟩ := ih _ _ _ _ h4 h1
      exact ⟨h5, by rw [runMap, h3, h6]⟩

theorem repr_empty : Repr (fun _ => Trie.nil) (fun _ _ => (default : α)) :=
  ⟨fun _ => trivial, fun _ _ _ => rfl⟩

/-- **C25.**  Starting from the empty table, every sequence of accesses without undefined behaviour
behaves as on a map whose cells are addressed by slot and bit string: equal bit strings get the
same cell, different ones get different cells that are empty at first.  Partial: the full statement
has no hypothesis on undefined behaviour; it is false by `C25_prefix_violated`, and `C25_defined`
says exactly which accesses can be undefined. -/
theorem C25_table_is_map_partial {as : List (Acc α)} {tb' olds} (h : runTable as (fun _ => .nil) = some (tb', olds)) :
    olds = (runMap as fun _ _ => default).2 :=
  (run_repr as _ _ _ _ repr_empty h).2

/-- The tries contain no superfluous nodes. -/
theorem run_full : ∀ (as : List (Acc α)) (tb tb' : Table α) olds, (∀ a ∈ as, ∀ x, a.upd x ≠ default) →
    (∀ i, Full (tb i)) → runTable as tb = some (tb', olds) → ∀ i, Full (tb' i) := by
  intro as
  induction as with
  | nil => intro tb tb' olds _ hf h; simp [runTable] at h; obtain ⟨rfl, rfl⟩ := h; exact hf
  | cons a as ih =>
    intro tb tb' olds hu hf h
    rw [runTable] at h
    cases ha : access tb a.hash (state2Int a.bits) a.upd with
    | none => rw [ha] at h; simp at h
    | some p =>
      obtain ⟨tb1, old⟩ := p
      rw [ha] at h
      simp only [Option.map_eq_some_iff] at h
      obtain ⟨⟨tb2, olds'⟩, h1, h2⟩ := h
      obtain ⟨rfl, rfl⟩ := Prod.mk.inj h2
      refine ih tb1 tb2 olds' (fun b hb => hu b (List.mem_cons_of_mem _ hb)) ?_ h1
      have hua := hu a List.mem_cons_self
      unfold access at ha
      split at ha
      · simp at ha
      · split at ha
        · obtain ⟨rfl, rfl⟩ := Prod.mk.inj (Option.some.inj ha)
          intro i
          by_cases hi : i = slot a.hash
          · subst hi; rw [Function.update_self]; exact ⟨.inl (hua _), trivial, trivial⟩
          · rw [Function.update_of_ne hi]; exact hf i
        · rw [Option.map_eq_some_iff] at ha
          obtain ⟨⟨t, old'⟩, h5, h6⟩ := ha
          obtain ⟨rfl, rfl⟩ := Prod.mk.inj h6
          intro i
          by_cases hi : i = slot a.hash
          · subst hi; rw [Function.update_self]; exact (insert_full hua _ _ _ (hf _) h5).2
          · rw [Function.update_of_ne hi]; exact hf i

theorem runMap_default : ∀ (as : List (Acc α)) (m : Nat → List Bool → α) i bs, (runMap as m).1 i bs ≠ default →
    m i bs ≠ default ∨ ∃ a ∈ as, a.hash % 16777213 = i ∧ a.bits = bs := by
  intro as
  induction as with
  | nil => intro m i bs h; exact .inl h
  | cons a as ih =>
    intro m i bs h
    rcases ih _ i bs h with h1 | ⟨b, hb, h2⟩
    · by_cases hk : i = a.hash % 16777213 ∧ bs = a.bits
      · exact .inr ⟨a, List.mem_cons_self, hk.1.symm, hk.2.symm⟩
      · rw [if_neg hk] at h1; exact .inl h1
    · exact .inr ⟨b, List.mem_cons_of_mem _ hb, h2⟩

/-- **C25** (definedness).  If accesses leave no cell empty, an access to a non-empty bit string has
undefined behaviour only if the length of the bit string is a multiple of 64 and a proper extension
of it was accessed before in the same slot. -/
theorem C25_defined {as : List (Acc α)} {a : Acc α} {tb' olds} (hu : ∀ a ∈ as, ∀ x, a.upd x ≠ default)
    (h : runTable as (fun _ => .nil) = some (tb', olds)) (hne : a.bits ≠ [])
    (hub : access tb' a.hash (state2Int a.bits) a.upd = none) :
    a.bits.length % 64 = 0 ∧
    ∃ b ∈ as, b.hash % 16777213 = a.hash % 16777213 ∧ a.bits <+: b.bits ∧ a.bits.length < b.bits.length := by
  obtain ⟨hr, -⟩ := run_repr as _ _ _ _ (repr_empty (α := α)) h
  have hf := run_full as (fun _ => .nil) _ _ hu (fun _ => trivial) h
  obtain ⟨hk, hkl⟩ := keyOK_state2Int hne
  obtain ⟨s1, s2, s3⟩ := state2Int_spec a.bits
  unfold access at hub
  rw [if_neg (by simpa using hk.ne)] at hub
  by_cases hnil : (tb' (slot a.hash)).isNil = true
  · rw [if_pos hnil] at hub; simp at hub
  · rw [if_neg hnil, Option.map_eq_none_iff] at hub
    obtain ⟨hp, S, L, k1, k2, -, k4⟩ := insert_none hk _ 0 none (hr.1 _) (by simpa using hnil) (hf _) (by simp) hub
    refine ⟨by omega, ?_⟩
    have hlen : ((List.range L).map S).length = L := by simp
    have hne' : (List.range L).map S ≠ [] := fun h0 => by rw [h0] at hlen; simp at hlen; omega
    have hget : ∀ g, g < L → ((List.range L).map S)[g]? = some (S g) := fun g hg => by
      simp [List.getElem?_range hg]
    obtain ⟨hk', hkl'⟩ := keyOK_state2Int hne'
    have hcell : cell tb' (slot a.hash) (state2Int ((List.range L).map S)) = look S L (tb' (slot a.hash)) := by
      unfold cell
      rw [hkl', hlen]
      refine look_ext _ fun g hg => ?_
      rw [(state2Int_spec _).2.2, hget g hg]; rfl
    rw [← hcell, hr.2 _ _ hne'] at k2
    rcases runMap_default as _ _ _ k2 with h0 | ⟨b, hb, h1, h2⟩
    · exact absurd rfl h0
    · refine ⟨b, hb, h1, ?_, by rw [h2, hlen]; omega⟩
      rw [h2, List.prefix_iff_eq_take]
      refine List.ext_getElem? fun g => ?_
      rw [List.getElem?_take]
      by_cases hg : g < a.bits.length
      · rw [if_pos hg, hget g (by omega), k4 g (by omega), s3 g, List.getElem?_eq_getElem hg]; rfl
      · rw [if_neg hg, List.getElem?_eq_none (by omega)]

/-- Accesses to seven bit strings, five different ones, in one slot: counters. -/
def exAccs : List (Acc Nat) :=
  [⟨5, List.replicate 70 true, (· + 1)⟩, ⟨5, List.replicate 70 true ++ [false], (· + 1)⟩,
   ⟨5, List.replicate 65 true, (· + 1)⟩, ⟨5, List.replicate 70 true, (· + 1)⟩,
   ⟨5, List.replicate 3 true ++ [false], (· + 1)⟩, ⟨5, List.replicate 65 true, (· + 1)⟩,
   ⟨16777218, List.replicate 70 true, (· + 1)⟩]

/-- The hypothesis of C25 is met: the counters count per bit string and slot. -/
example : (runTable exAccs fun _ => .nil).map (·.2) = some [0, 0, 0, 1, 0, 1, 2] := by decide +kernel

/-- **C25 (violated).**  After a bit string of length 65, access to its first 64 bits has undefined
behaviour (a shift by 64 in `split_me_at`). -/
theorem C25_prefix_violated :
    (runTable [⟨5, List.replicate 65 true, (· + 1)⟩, ⟨5, List.replicate 64 true, (· + 1)⟩]
      (fun _ => (Trie.nil : Trie Nat))).isNone = true := by decide +kernel

/-- In the other order there is no undefined behaviour. -/
example : (runTable [⟨5, List.replicate 64 true, (· + 1)⟩, ⟨5, List.replicate 65 true, (· + 1)⟩]
      (fun _ => (Trie.nil : Trie Nat))).map (·.2) = some [0, 0] := by decide +kernel

end c25

end Verif.Props
