import Verif.Matching

/-! # Model of `VisitedList::insertVisi` for partially ordered instances

Modelled: src/VisitedList.cpp 137-147, 388-596, for instances that are neither totally ordered nor
parallel sequences.  Fields `totalOrder` and `seqMode` of the configuration are off. -/

namespace Verif.Prog

open Verif.Htn Verif.TaskCounter Verif.Bits Verif.CST Relation

variable {P : Problem} {cfg : Cfg}

/-- Configuration of a visited list for partially ordered instances (src/VisitedList.cpp 80-103). -/
structure PoCfg extends VisCfg where
  orderPairs : Bool
  layers : Bool
  /-- order in which the steps of the first network are processed -/
  ordA : List Nat → List Nat
  /-- order of candidates -/
  ordB : List Nat → List Nat

/-- The orders are permutations; partial order mode. -/
structure PoCfg.Ok (c : PoCfg) : Prop where
  permA : ∀ l, (c.ordA l).Perm l
  permB : ∀ l, (c.ordB l).Perm l
  tot : c.totalOrder = false
  seq : c.seqMode = false

/-- Visited steps with their depth, and pairs of ordered tasks. -/
structure DS where
  seen : List (Nat × Nat)
  pairs : List (Nat × Nat)

/-- `dfsdfs` (src/VisitedList.cpp 137-147).  Outcome `none`: out of fuel. -/
def dfsdfs (h : Heap) : Nat → Nat → Nat → DS → Option DS
  | 0, _, _, _ => none
  | f + 1, d, u, s =>
    if s.seen.any (fun p => p.1 == u) then some s
    else (succsOf h u).foldlM (fun s v => dfsdfs h f (d + 1) v { s with pairs := (taskOf h u, taskOf h v) :: s.pairs })
      { s with seen := (u, d) :: s.seen }

/-- Comparison of pairs, as used by `std::set`. -/
def pairLe (p q : Nat × Nat) : Prop := p.1 < q.1 ∨ (p.1 = q.1 ∧ p.2 ≤ q.2)

instance : DecidableRel pairLe := fun p q => inferInstanceAs (Decidable (p.1 < q.1 ∨ (p.1 = q.1 ∧ p.2 ≤ q.2)))

/-- The order pairs in the key (src/VisitedList.cpp 443-456). -/
def pairBits (c : PoCfg) (b : Nat) (s : DS) : List Bool :=
  ((s.pairs.dedup.insertionSort pairLe).flatMap fun p => taskBits b p.1 ++ taskBits b p.2) ++ taskBits b c.numTasks

/-- The number of steps with a task in one layer (src/VisitedList.cpp 488-501): at most 255, three
bits for its length, and the bits below the leading one. -/
def countBits (k : Nat) : List Bool :=
  let k := min k 255
  taskBits 3 (Nat.log2 k) ++ taskBits (Nat.log2 k) k

/-- One layer (src/VisitedList.cpp 483-502). -/
def layerBits (b : Nat) (ts : List Nat) : List Bool :=
  (ts.dedup.insertionSort (· ≤ ·)).flatMap fun t => taskBits b t ++ countBits (ts.count t)

/-- The layers in the key (src/VisitedList.cpp 459-503); every step is in one layer only, so that the
second filtering (463-469) changes nothing. -/
def layersBits (c : PoCfg) (b : Nat) (h : Heap) (s : DS) : List Bool :=
  let depth := (s.seen.map fun p => p.2 + 1).foldl max 0
  (List.intercalate (taskBits b c.numTasks)
    ((List.range depth).map fun d : Nat => layerBits b ((s.seen.filter fun p => p.2 == d).map fun p => taskOf h p.1)))

/-- `exactBitString` and slot of a node (src/VisitedList.cpp 388-514).  Outcome `none`: undefined
behaviour. -/
def poKey (c : PoCfg) (h : Heap) (n : Node) : Option (Nat × List Bool) :=
  match c.bits, visSeq c.toVisCfg h n,
    (n.abs ++ n.prims).foldlM (fun s u => dfsdfs h (h.length + 1) 0 u s) (⟨[], []⟩ : DS) with
  | some b, some seq, some s =>
    some (visHash c.toVisCfg n seq, keyBits c.toVisCfg b n seq ++
      ((if c.orderPairs then pairBits c b s else []) ++ if c.layers then layersBits c b h s else []))
  | _, _, _ => none

/-- The loop over the stored nodes (src/VisitedList.cpp 566-580); `tr` is `toRemove`.  Outcomes: `none`
undefined behaviour (evaluation not set), `some none` the node is rejected, `some (some tr)` accepted. -/
def giScan (mt : SNode → Option Bool) (x : SNode) : List SNode → Option SNode → Option (Option (Option SNode))
  | [], tr => some (some tr)
  | y :: ys, tr =>
    match mt y with
    | none => none
    | some false => giScan mt x ys tr
    | some true =>
      match y.f, x.f with
      | some fy, some fx => if fx < fy then giScan mt x ys (some y) else some none
      | _, _ => none

/-- The stored nodes after the insertion (src/VisitedList.cpp 582-592). -/
def giNew (mt : SNode → Option Bool) (x : SNode) (old : List SNode) : List SNode :=
  match giScan mt x old none with
  | some (some (some z)) => old.filter (fun y => y != z) ++ [x]
  | some (some none) => old ++ [x]
  | _ => old

/-- `insertVisi` (src/VisitedList.cpp 380-596) in partial order mode with comparison of networks. -/
def insGi (c : PoCfg) (tb : Table (List SNode)) (h : Heap) (x : SNode) : Option (Table (List SNode) × Bool) :=
  if c.noCheck then some (tb, true)
  else
    match poKey c h x.node with
    | none => none
    | some (hv, bs) =>
      let mt := fun y : SNode => matching c.ordA c.ordB h (h.length + 1) x.node y.node
      match access tb hv (state2Int bs) (giNew mt x) with
      | none => none
      | some (tb', old) =>
        match giScan mt x old none with
        | none => none
        | some r => some (tb', r.isSome)

/-- `insertVisi` (src/VisitedList.cpp 380-558) in partial order mode without comparison of networks. -/
def insNoGi (c : PoCfg) (tb : Table Int) (h : Heap) (x : SNode) : Option (Table Int × Bool) :=
  if c.noCheck then some (tb, true)
  else
    match poKey c h x.node, (if c.noReopen then some 0 else x.f) with
    | some (hv, bs), some f =>
      match access tb hv (state2Int bs) (payNew c.toVisCfg f) with
      | none => none
      | some (tb', old) => some (tb', payAccept c.toVisCfg f old)
    | _, _ => none

/-- The visited list in the form needed by the search; after undefined behaviour everything is
accepted. -/
def insTotal {α : Type} (ins : Table α → Heap → SNode → Option (Table α × Bool)) (v : Option (Table α)) (h : Heap)
    (x : SNode) : Option (Table α) × Bool :=
  match v with
  | none => (none, true)
  | some tb =>
    match ins tb h x with
    | none => (none, true)
    | some (tb', r) => (some tb', r)

/-- The empty visited list. -/
def emptyTab {α : Type} : Option (Table α) := some fun _ => .nil

/-! ## What the table remembers -/

theorem access_ne' {α : Type} [Inhabited α] {tb : Table α} {h : Nat} {bs : List Bool} {f : α → α} {r}
    (ha : access tb h (state2Int bs) f = some r) : bs ≠ [] := by
  rintro rfl
  have : (state2Int []).1 = [] := by decide
  simp [access, this] at ha

theorem insGi_some {c : PoCfg} {tb tb' : Table (List SNode)} {h : Heap} {x : SNode} {r : Bool} (hc : c.noCheck = false)
    (hi : insGi c tb h x = some (tb', r)) :
    ∃ hv bs old r', poKey c h x.node = some (hv, bs) ∧ bs ≠ [] ∧
      access tb hv (state2Int bs) (giNew (fun y : SNode => matching c.ordA c.ordB h (h.length + 1) x.node y.node) x) =
        some (tb', old) ∧
      giScan (fun y : SNode => matching c.ordA c.ordB h (h.length + 1) x.node y.node) x old none = some r' ∧
      r = r'.isSome := by
  unfold insGi at hi
  rw [hc] at hi
  simp only [Bool.false_eq_true, if_false] at hi
  cases hk : poKey c h x.node with
  | none => rw [hk] at hi; simp at hi
  | some k =>
    obtain ⟨hv, bs⟩ := k
    rw [hk] at hi
    simp only at hi
    split at hi
    · simp at hi
    · rename_i tb1 old ha
      split at hi
      · simp at hi
      · rename_i r' hs
        simp only [Option.some.injEq, Prod.mk.injEq] at hi
        obtain ⟨rfl, rfl⟩ := hi
        exact ⟨hv, bs, old, r', rfl, access_ne' ha, ha, hs, rfl⟩

theorem giNew_mem {mt x old y} (h : y ∈ giNew mt x old) :
    y ∈ old ∨ (y = x ∧ ∃ tr, giScan mt x old none = some (some tr)) := by
  unfold giNew at h
  split at h
  · rename_i z hz
    rcases List.mem_append.1 h with h | h
    · exact .inl (List.mem_filter.1 h).1
    · exact .inr ⟨List.mem_singleton.1 h, _, hz⟩
  · rename_i hz
    rcases List.mem_append.1 h with h | h
    · exact .inl h
    · exact .inr ⟨List.mem_singleton.1 h, _, hz⟩
  · exact .inl h

theorem giScan_rejected {mt x} : ∀ {old tr}, giScan mt x old tr = some none →
    ∃ y ∈ old, mt y = some true ∧ ∃ fy fx, y.f = some fy ∧ x.f = some fx ∧ fy ≤ fx := by
  intro old
  induction old with
  | nil => intro tr h; simp [giScan] at h
  | cons y ys ih =>
    intro tr h
    unfold giScan at h
    cases hm : mt y with
    | none => rw [hm] at h; simp at h
    | some b =>
      rw [hm] at h
      cases b with
      | false =>
        obtain ⟨z, h1, h2⟩ := ih h
        exact ⟨z, List.mem_cons_of_mem _ h1, h2⟩
      | true =>
        simp only at h
        split at h
        · rename_i fy fx hy hx
          split at h
          · obtain ⟨z, h1, h2⟩ := ih h
            exact ⟨z, List.mem_cons_of_mem _ h1, h2⟩
          · exact ⟨y, by simp, hm, fy, fx, hy, hx, by omega⟩
        · simp at h

/-- Every stored node is an accepted one with the key of the cell. -/
theorem giTab {F H : Type} {c : PoCfg} {E : Env (Option (Table (List SNode))) F H} (hE : E.ins = insTotal (insGi c))
    (hc : c.noCheck = false) : ∀ (hist : List (Heap × SNode)) tb, runIns E emptyTab hist = some tb →
      TWF tb ∧ ∀ i bs, bs ≠ [] → ∀ y ∈ cell tb i (state2Int bs),
        ∃ pre hy post hv, hist = pre ++ (hy, y) :: post ∧ (E.ins (runIns E emptyTab pre) hy y).2 = true ∧
          poKey c hy y.node = some (hv, bs) ∧ slot hv = i := by
  intro hist
  induction hist using List.reverseRecOn with
  | nil =>
    intro tb h
    simp only [runIns, emptyTab, List.foldl_nil, Option.some.injEq] at h
    subst h
    refine ⟨fun _ => trivial, fun i bs _ y hy => ?_⟩
    exact absurd hy (by show y ∉ ([] : List SNode); simp)
  | append_singleton hist y ih =>
    intro tb h
    rw [runIns_append, hE] at h
    unfold insTotal at h
    cases hr : runIns E emptyTab hist with
    | none => rw [hr] at h; simp at h
    | some tb0 =>
      rw [hr] at h
      simp only at h
      cases hi : insGi c tb0 y.1 y.2 with
      | none => rw [hi] at h; simp at h
      | some p =>
        obtain ⟨tb1, r⟩ := p
        rw [hi] at h
        simp only [Option.some.injEq] at h
        subst h
        obtain ⟨hv, bs, old, r', hk, hne, ha, hs, rfl⟩ := insGi_some hc hi
        obtain ⟨w, h0⟩ := ih tb0 hr
        obtain ⟨a1, a2, a3, a4⟩ := access_ok w (keyOK_of_ne hne) ha
        have hins : (E.ins (runIns E emptyTab hist) y.1 y.2).2 = r'.isSome := by
          rw [hr, hE]; unfold insTotal; simp only [hi]
        have hlift : ∀ i bs', bs' ≠ [] → ∀ z ∈ cell tb0 i (state2Int bs'),
            ∃ pre hy post hv, hist ++ [y] = pre ++ (hy, z) :: post ∧ (E.ins (runIns E emptyTab pre) hy z).2 = true ∧
              poKey c hy z.node = some (hv, bs') ∧ slot hv = i := by
          intro i bs' hne' z hz
          obtain ⟨pre, hy, post, hv', h1, h2⟩ := h0 i bs' hne' z hz
          exact ⟨pre, hy, post ++ [y], hv', by rw [h1]; simp, h2⟩
        refine ⟨a1, fun i bs' hne' z hz => ?_⟩
        by_cases hkey : i = slot hv ∧ state2Int bs' = state2Int bs
        · obtain ⟨rfl, hb'⟩ := hkey
          obtain rfl := state2Int_inj hb'
          rw [a3] at hz
          rcases giNew_mem hz with hz | ⟨rfl, tr, htr⟩
          · rw [a2] at hz; exact hlift _ _ hne' z hz
          · rw [hs, Option.some.injEq] at htr
            subst htr
            exact ⟨hist, y.1, [], hv, rfl, hins, hk, rfl⟩
        · rw [a4 i _ (keyOK_of_ne hne') hkey] at hz
          exact hlift _ _ hne' z hz

/-- A rejected node was found equal to a node accepted earlier that has the same key and no higher
evaluation. -/
theorem insGi_rejected {F H : Type} {c : PoCfg} {E : Env (Option (Table (List SNode))) F H}
    (hE : E.ins = insTotal (insGi c)) {hist : List (Heap × SNode)} {h : Heap} {x : SNode}
    (hr : (E.ins (runIns E emptyTab hist) h x).2 = false) :
    ∃ pre y post hv hv' bs, hist = pre ++ y :: post ∧ (E.ins (runIns E emptyTab pre) y.1 y.2).2 = true ∧
      poKey c y.1 y.2.node = some (hv, bs) ∧ poKey c h x.node = some (hv', bs) ∧
      matching c.ordA c.ordB h (h.length + 1) x.node y.2.node = some true ∧
      ∃ fy fx, y.2.f = some fy ∧ x.f = some fx ∧ fy ≤ fx := by
  rw [hE] at hr
  unfold insTotal at hr
  cases hv : runIns E emptyTab hist with
  | none => rw [hv] at hr; simp at hr
  | some tb =>
    rw [hv] at hr
    simp only at hr
    by_cases hc : c.noCheck = true
    · unfold insGi at hr; simp [hc] at hr
    · have hc : c.noCheck = false := by simpa using hc
      cases hi : insGi c tb h x with
      | none => rw [hi] at hr; simp at hr
      | some p =>
        obtain ⟨tb1, r⟩ := p
        rw [hi] at hr
        simp only at hr
        subst hr
        obtain ⟨hv', bs, old, r', hk, hne, ha, hs, hr'⟩ := insGi_some hc hi
        obtain ⟨w, h0⟩ := giTab hE hc hist tb hv
        obtain ⟨-, a2, -⟩ := access_ok w (keyOK_of_ne hne) ha
        cases r' with
        | some tr => simp at hr'
        | none =>
          obtain ⟨y, h1, h2, h3⟩ := giScan_rejected hs
          rw [a2] at h1
          obtain ⟨pre, hy, post, hv2, h4, h5, h6, -⟩ := h0 _ _ hne y h1
          exact ⟨pre, (hy, y), post, hv2, hv', bs, h4, h5, h6, hk, h2, h3⟩

theorem poKey_state {c : PoCfg} {h h' : Heap} {n n' : Node} {hv hv' bs} (hk : poKey c h n = some (hv, bs))
    (hk' : poKey c h' n' = some (hv', bs)) (hl : n.state.length = n'.state.length) : n.state = n'.state := by
  have key : ∀ {h : Heap} {n : Node} {hv}, poKey c h n = some (hv, bs) → ∃ l, bs = n.state ++ l := by
    intro h n hv hk
    unfold poKey at hk
    split at hk
    · simp only [Option.some.injEq, Prod.mk.injEq, keyBits, List.append_assoc] at hk
      exact ⟨_, hk.2.symm⟩
    · simp at hk
  obtain ⟨l, h1⟩ := key hk
  obtain ⟨l', h2⟩ := key hk'
  rw [h1] at h2
  exact (List.append_inj h2 hl).1

/-! ## Instances whose networks are forests -/

/-- In every method, every subtask has at most one direct predecessor; methods have one last task,
except those of the initial task, which in this case is not a subtask of any method. -/
structure ForestP (P : Problem) : Prop where
  pred1 : ∀ m < P.numMethods, ∀ i i' j, (i, j) ∈ P.ord m → (i', j) ∈ P.ord m → i = i'
  ends : ∀ m < P.numMethods, OneLast P m ∨ (P.head m = P.init ∧ ∀ m' < P.numMethods, P.init ∉ P.sub m')

/-- The invariant kept by the search. -/
structure ForestInv (P : Problem) (h : Heap) (n : Node) : Prop where
  forest : ForestNode h n
  init : (∃ m < P.numMethods, ¬ OneLast P m) → ∀ u ∈ live h n, taskOf h u = P.init → ∀ v, ¬ Edge h u v

theorem ForestInv.sub {h n n'} (hc : ForestInv P h n) (hs : live h n' ⊆ live h n) : ForestInv P h n' :=
  ⟨fun u hu u' hu' => hc.forest u (hs hu) u' (hs hu'), fun hm u hu => hc.init hm u (hs hu)⟩

theorem ForestNode.ext {h h' : Heap} (hp : h <+: h') (hh' : HeapOK h') {n : Node} (hg : Good P cfg h n)
    (hc : ForestNode h n) : ForestNode h' n := by
  unfold ForestNode
  rw [prefix_live hp hg.heap hh' hg.node.lt]
  intro u hu u' hu' v h1 h2
  exact hc u hu u' hu' v ((prefix_edge hp (live_lt hu)).1 h1) ((prefix_edge hp (live_lt hu')).1 h2)

theorem ForestInv.ext {h h' : Heap} (hp : h <+: h') (hh' : HeapOK h') {n : Node} (hg : Good P cfg h n)
    (hc : ForestInv P h n) : ForestInv P h' n := by
  refine ⟨hc.forest.ext hp hh' hg, ?_⟩
  rw [prefix_live hp hg.heap hh' hg.node.lt]
  intro hm u hu ht v h1
  rw [prefix_taskOf hp (live_lt hu)] at ht
  exact hc.init hm u hu ht v ((prefix_edge hp (live_lt hu)).1 h1)

theorem decomposeBase_forest (hP : P.WF) (hS : ForestP P) {g g' : Glob} {n n' : Node} {j m u : Nat}
    (hg : Good P cfg g.heap n) (hc : ForestInv P g.heap n) (hu : n.abs[j]? = some u)
    (hm : m ∈ methodsOf P (taskOf g.heap u)) (hd : decomposeBase P cfg g n j m = some (g', n')) :
    ForestInv P g'.heap n' := by
  simp only [methodsOf, List.mem_filter, List.mem_range, beq_iff_eq] at hm
  obtain ⟨hm, hhead⟩ := hm
  obtain ⟨hh', hn', -, S⟩ := decomposeBase_inv hP hg.heap hg.node hm hd hu
  obtain ⟨u', ps, c, hu', hps, -, hheap, -⟩ := decomposeBase_some hd
  obtain rfl : u = u' := by rw [hu] at hu'; exact Option.some.inj hu'
  have hul : u ∈ live g.heap n :=
    (hg.node.first_min hg.heap (List.mem_append_right _ (List.mem_of_getElem? hu))).1
  have houter : ∀ v, v ∈ ps.succs ↔ Edge g.heap u v := fun v => edge_succs hps
  have hlt : ∀ {x v}, Edge g.heap x v → v < g.heap.length := fun he => hg.heap.succ_lt _ _ he
  rw [hheap] at S ⊢
  have hold : ∀ x, x ∈ live g.heap n → ∀ v, Edge (extHeap P g.heap m g.inst ps.succs) x v ↔ Edge g.heap x v :=
    fun x hx v => edge_old (live_lt hx)
  constructor
  · intro x hx x' hx' v h h'
    have mixed : ∀ {x i}, x ∈ live g.heap n → x ≠ u → i < (P.sub m).length → Edge g.heap x v →
        Edge (extHeap P g.heap m g.inst ps.succs) (g.heap.length + i) v → False := by
      intro x i hx hxu hi he hi'
      rcases (edge_new hi).1 hi' with ⟨hl, hv⟩ | ⟨k, hk, rfl⟩
      · exact hxu (hc.forest x hx u hul v he ((houter v).1 hv))
      · have := hlt he; omega
    rcases (S.mem x).1 hx with ⟨hx, hxu⟩ | ⟨i, hi, rfl⟩ <;>
      rcases (S.mem x').1 hx' with ⟨hx', hxu'⟩ | ⟨i', hi', rfl⟩
    · exact hc.forest x hx x' hx' v ((hold x hx v).1 h) ((hold x' hx' v).1 h')
    · exact (mixed hx hxu hi' ((hold x hx v).1 h) h').elim
    · exact (mixed hx' hxu' hi ((hold x' hx' v).1 h') h).elim
    · rcases (edge_new hi).1 h with ⟨hl, hv⟩ | ⟨k, hk, hkv⟩ <;>
        rcases (edge_new hi').1 h' with ⟨hl', hv'⟩ | ⟨k', hk', hkv'⟩
      · rcases hS.ends m hm with h1 | ⟨h1, h2⟩
        · rw [h1 i i' hi hi' hl hl']
        · by_cases h3 : OneLast P m
          · rw [h3 i i' hi hi' hl hl']
          · exact absurd ((houter v).1 hv) (hc.init ⟨m, hm, h3⟩ u hul (by rw [← hhead, h1]) v)
      · have := hlt ((houter v).1 hv); omega
      · have := hlt ((houter v).1 hv'); omega
      · obtain rfl : k = k' := by omega
        rw [hS.pred1 m hm i i' k hk hk']
  · rintro ⟨m0, hm0, hno⟩ x hx ht v he
    rcases (S.mem x).1 hx with ⟨hx, hxu⟩ | ⟨i, hi, rfl⟩
    · rw [S.lab_old x hx hxu] at ht
      exact hc.init ⟨m0, hm0, hno⟩ x hx ht v ((hold x hx v).1 he)
    · rcases hS.ends m0 hm0 with h1 | ⟨-, h2⟩
      · exact hno h1
      · rw [S.lab_new i _ (List.getElem?_eq_getElem hi)] at ht
        exact h2 m hm (ht ▸ List.getElem_mem hi)

theorem forest_keeps (hP : P.WF) (hcfg : cfg.Ok) (hS : ForestP P) :
    ForestInv P (initNode P cfg).1.heap (initNode P cfg).2 ∧
    (∀ f g n i u g' n2, NInv P cfg g.heap n → ForestInv P g.heap n → n.prims[i]? = some u →
      P.Applicable (holds n.state) (taskOf g.heap u) → apply P cfg f g n i = some (g', n2) →
      ForestInv P g'.heap n2) ∧
    (∀ f g n d u m g' n2, NInv P cfg g.heap n → ForestInv P g.heap n → n.abs[d]? = some u →
      m ∈ methodsOf P (taskOf g.heap u) → decompose P cfg f g n d m = some (g', n2) →
      ForestInv P g'.heap n2) := by
  refine ⟨?_, ?_, ?_⟩
  · have hno : ∀ u v, ¬ Edge (initNode P cfg).1.heap u v := by
      rintro u v ⟨st, hst, hv⟩
      cases u with
      | zero => simp [initNode] at hst; subst hst; simp at hv
      | succ u => simp [initNode] at hst
    exact ⟨fun u _ u' _ v h => absurd h (hno _ _), fun _ u _ _ v => hno _ _⟩
  · intro f g n i u g' n2 hn hc hu happ h
    obtain ⟨h1, h2⟩ := apply_live_sub hP hcfg hn.good hu happ h
    rw [h1]; exact hc.sub h2
  · intro f g n d u m g' n2 hn hc hu hm h
    obtain ⟨g1, n1, us, h1, h2, h3⟩ := decompose_chain h
    rw [h2]
    exact (decomposeBase_forest hP hS hn.good hc hu hm h1).sub
      (h3.live_sub hP hcfg (hn.good.decomposeBase hP hu hm h1))

/-- For forests, a rejected node is isomorphic to an accepted one. -/
theorem insGi_iso {F H : Type} {c : PoCfg} (hok : c.Ok) {E : Env (Option (Table (List SNode))) F H}
    (hE : E.ins = insTotal (insGi c)) {Q : Heap → SNode → Prop} (hQ : ∀ h x, Q h x → ForestNode h x.node)
    {hist : List (Heap × SNode)} {h : Heap} {x : SNode}
    (hh : ∀ y ∈ hist, y.1 <+: h ∧ Good P cfg y.1 y.2.node ∧ Q y.1 y.2) (hg : Good P cfg h x.node) (hq : Q h x)
    (hr : (E.ins (runIns E emptyTab hist) h x).2 = false) :
    ∃ pre y post, hist = pre ++ y :: post ∧ (E.ins (runIns E emptyTab pre) y.1 y.2).2 = true ∧
      x.node.state = y.2.node.state ∧
      (∃ e g, NetIso (live h x.node) (live y.1 y.2.node) (taskOf h) (taskOf y.1) (TransGen (Edge h))
        (TransGen (Edge y.1)) e g) ∧
      ∃ fy fx, y.2.f = some fy ∧ x.f = some fx ∧ fy ≤ fx := by
  obtain ⟨pre, y, post, hv, hv', bs, h1, h2, h3, h4, h5, h6⟩ := insGi_rejected hE hr
  obtain ⟨y1, y2, y3⟩ := hh y (by rw [h1]; simp)
  have y2' := y2.ext y1 hg.heap
  obtain ⟨e, g, hi⟩ := matching_forest hok.permA hok.permB hg y2' (hQ _ _ hq) ((hQ _ _ y3).ext y1 hg.heap y2) h5
  have hl := prefix_live y1 y2.heap hg.heap y2.node.lt
  rw [hl] at hi
  refine ⟨pre, y, post, h1, h2, ?_, ⟨e, g, hi.e_mem, hi.g_mem, hi.ge, hi.eg, ?_, ?_⟩, h6⟩
  · exact poKey_state h4 h3 (by rw [hg.node.state_len, y2.node.state_len])
  · intro u hu
    rw [← prefix_taskOf y1 (live_lt (hi.e_mem u hu))]
    exact hi.lab u hu
  · intro u hu v hv
    rw [← prefix_trans y1 y2.heap (live_lt (hi.e_mem u hu))]
    exact hi.lt u hu v hv

theorem insGi_sound {F H : Type} {c : PoCfg} (hok : c.Ok) {E : Env (Option (Table (List SNode))) F H}
    (hE : E.ins = insTotal (insGi c)) {Q : Heap → SNode → Prop} (hQ : ∀ h x, Q h x → ForestNode h x.node) :
    VisSound P cfg E emptyTab Q 0 := by
  intro hist h x hh hg hq hr
  obtain ⟨pre, y, post, h1, h2, h3, ⟨e, g, h4⟩, -⟩ := insGi_iso hok hE hQ hh hg hq hr
  refine ⟨pre, y, post, h1, h2, fun π d hs => ⟨π, d, ?_, by simp, Nat.le_refl _⟩⟩
  unfold NodeSol at hs ⊢
  rw [← h3]
  exact (solvesN_iso_iff h4).1 hs

end Verif.Prog
