import Verif.Chains
import Verif.Trie
import Verif.TopSort
import Verif.SimpleHeur
import Mathlib.Data.List.Lex
import Mathlib.Data.List.Sort
import Mathlib.Data.Nat.Bitwise

/-! # Model of `VisitedList::insertVisi` for totally ordered and parallel-sequence instances

Modelled: src/VisitedList.cpp 380-427 (key), 507-516 (hash values), 517-558 (access and payload).
The additional information for partially ordered instances (lines 430-505) and the comparison of
networks (lines 559-596) belong to other modules. -/

namespace Verif.Prog

open Verif.Htn Verif.TaskCounter Verif.Bits Verif.CST Relation

/-- Configuration of a visited list (src/VisitedList.cpp 80-103). -/
structure VisCfg where
  /-- `noVisitedCheck` -/
  noCheck : Bool
  /-- `noReopening` -/
  noReopen : Bool
  /-- `useTotalOrderMode` -/
  totalOrder : Bool
  /-- `useSequencesMode` -/
  seqMode : Bool
  taskHash : Bool
  /-- `sequenceHash` -/
  seqHash : Bool
  /-- `topologicalOrdering` -/
  topo : Bool
  numTasks : Nat
  /-- `getPrime` -/
  prime : Nat → Nat

/-- `bitsNeededPerTask` (src/VisitedList.cpp 100-103): 32 minus the number of leading zeros; `none`:
`__builtin_clz(0)` is undefined. -/
def VisCfg.bits (c : VisCfg) : Option Nat :=
  let x := if c.seqMode then c.numTasks else c.numTasks - 1
  if x = 0 then none else some (Nat.log2 x + 1)

/-- The bits pushed for a task (src/VisitedList.cpp 423-426). -/
def taskBits (b t : Nat) : List Bool := (List.range b).map fun i => t.testBit i

/-- Sequences separated by `numTasks` (src/VisitedList.cpp 412-418). -/
def joinSep (sep : Nat) : List (List Nat) → List Nat
  | [] => []
  | [s] => s
  | s :: t :: ss => s ++ sep :: joinSep sep (t :: ss)

/-- `std::sort` on sequences (src/VisitedList.cpp 411). -/
def sortSeqs (ss : List (List Nat)) : List (List Nat) := ss.insertionSort (· ≤ ·)

/-- `to_dfs` from the first element of a list, if there is one (src/VisitedList.cpp 397-398). -/
def dfsHead (h : Heap) : List Nat → Option (List Nat)
  | [] => some []
  | u :: _ => (toDfs h (h.length + 1) u).map fun l => l.map (taskOf h)

/-- `sequenceForHashing` (src/VisitedList.cpp 393-421).  As in the code, there is no `else` between
the two modes: in totally ordered instances, with sequences mode switched on, the sequence is
recorded twice. -/
def visSeq (c : VisCfg) (h : Heap) (n : Node) : Option (List Nat) :=
  if c.topo || c.seqHash then
    match (if c.totalOrder then dfsHead h n.prims else some []),
      (if c.totalOrder then dfsHead h n.abs else some []) with
    | some s1, some s2 =>
      if c.seqMode then
        match chainsOf h (n.abs ++ n.prims) with
        | none => none
        | some cs => some (s1 ++ s2 ++ joinSep c.numTasks (sortSeqs (cs.map fun l => l.map (taskOf h))))
      else topSort h n
    | _, _ => none
  else some []

/-- `exactBitString` (src/VisitedList.cpp 388-427). -/
def keyBits (c : VisCfg) (b : Nat) (n : Node) (seq : List Nat) : List Bool :=
  n.state ++ if c.topo then seq.flatMap (taskBits b) else []

/-- `hash_state_sequence` (src/VisitedList.cpp 63-76), arithmetic modulo 2^64. -/
def stateHash (ws : List W) : W :=
  ws.foldl (fun r x =>
    [x &&& 65535#64, (x >>> 16) &&& 65535#64, (x >>> 32) &&& 65535#64, (x >>> 48) &&& 65535#64].foldl
      (fun r blk => r * 65537#64 + blk) r) 0#64

/-- `taskCountHash` (src/VisitedList.cpp 350-366); the index of the prime number is computed with
`unsigned int`. -/
def taskCountHash (c : VisCfg) (cont : Counter) : Nat :=
  cont.foldl (fun r e =>
    (List.range e.2).foldl (fun r j => r * (c.prime ((j * c.numTasks + e.1) % 4294967296)) % 104729) r) 1

/-- `taskSequenceHash` (src/VisitedList.cpp 368-376). -/
def taskSeqHash (c : VisCfg) (seq : List Nat) : Nat :=
  seq.foldl (fun r t => r * (c.numTasks + 1) % 2147483647 + t) 0

/-- The hash value (src/VisitedList.cpp 512-514). -/
def visHash (c : VisCfg) (n : Node) (seq : List Nat) : Nat :=
  (stateHash (state2Int n.state).1 ^^^ (if c.taskHash then BitVec.ofNat 64 (taskCountHash c n.contained) else 0#64) ^^^
    (if c.seqHash then BitVec.ofNat 64 (taskSeqHash c seq) else 0#64)).toNat

/-- The value returned by `insertVisi`, given the old payload (src/VisitedList.cpp 539-551); `f` is the
evaluation of the node. -/
def payAccept (c : VisCfg) (f old : Int) : Bool :=
  if c.noReopen then decide (old = 0) else decide (old = 0 ∨ f + 1 < old)

/-- The new payload (src/VisitedList.cpp 541-551). -/
def payNew (c : VisCfg) (f old : Int) : Int :=
  if c.noReopen then 1 else if payAccept c f old then f + 1 else old

/-- `insertVisi` (src/VisitedList.cpp 380-558) in total order or sequences mode.  Outcome `none`:
undefined behaviour (in the trie, `__builtin_clz(0)`, or an evaluation that was not set). -/
def insVisi (c : VisCfg) (tb : Table Int) (h : Heap) (x : SNode) : Option (Table Int × Bool) :=
  if c.noCheck then some (tb, true)
  else
    match c.bits, visSeq c h x.node, (if c.noReopen then some 0 else x.f) with
    | some b, some seq, some f =>
      match access tb (visHash c x.node seq) (state2Int (keyBits c b x.node seq)) (payNew c f) with
      | none => none
      | some (tb', old) => some (tb', payAccept c f old)
    | _, _, _ => none

/-- The visited list in the form needed by the search; after undefined behaviour (`none`) everything
is accepted, so that nothing can be concluded from rejections. -/
def insVis (c : VisCfg) (v : Option (Table Int)) (h : Heap) (x : SNode) : Option (Table Int) × Bool :=
  match v with
  | none => (none, true)
  | some tb =>
    match insVisi c tb h x with
    | none => (none, true)
    | some (tb', r) => (some tb', r)

/-- The empty visited list. -/
def emptyVis : Option (Table Int) := some fun _ => .nil

/-! ## Recovering the sequence from the bits -/

theorem taskBits_length (b t : Nat) : (taskBits b t).length = b := by simp [taskBits]

theorem taskBits_inj {b t t' : Nat} (h : t < 2 ^ b) (h' : t' < 2 ^ b) (he : taskBits b t = taskBits b t') : t = t' := by
  refine Nat.eq_of_testBit_eq fun i => ?_
  rcases Nat.lt_or_ge i b with hi | hi
  · have := congrArg (fun l : List Bool => l[i]?) he
    simpa [taskBits, List.getElem?_range hi] using this
  · rw [Nat.testBit_eq_false_of_lt (Nat.lt_of_lt_of_le h (Nat.pow_le_pow_right (by omega) hi)),
      Nat.testBit_eq_false_of_lt (Nat.lt_of_lt_of_le h' (Nat.pow_le_pow_right (by omega) hi))]

theorem flatMap_taskBits_inj {b : Nat} (hb : 0 < b) : ∀ {s s' : List Nat}, (∀ t ∈ s, t < 2 ^ b) → (∀ t ∈ s', t < 2 ^ b) →
    s.flatMap (taskBits b) = s'.flatMap (taskBits b) → s = s' := by
  intro s
  have hne : ∀ (t : Nat) (l : List Bool), taskBits b t ++ l ≠ [] := fun t l h0 => by
    have := congrArg List.length h0
    rw [List.length_append, taskBits_length] at this
    simp at this; omega
  induction s with
  | nil =>
    intro s' _ _ h
    cases s' with
    | nil => rfl
    | cons t s' => rw [List.flatMap_nil, List.flatMap_cons] at h; exact absurd h.symm (hne _ _)
  | cons t s ih =>
    intro s' h1 h2 h
    cases s' with
    | nil => rw [List.flatMap_nil, List.flatMap_cons] at h; exact absurd h (hne _ _)
    | cons t' s' =>
      rw [List.flatMap_cons, List.flatMap_cons] at h
      obtain ⟨e1, e2⟩ := List.append_inj h (by rw [taskBits_length, taskBits_length])
      rw [taskBits_inj (h1 t List.mem_cons_self) (h2 t' List.mem_cons_self) e1,
        ih (fun x hx => h1 x (List.mem_cons_of_mem _ hx)) (fun x hx => h2 x (List.mem_cons_of_mem _ hx)) e2]

theorem VisCfg.bits_spec {c : VisCfg} {b : Nat} (h : c.bits = some b) :
    0 < b ∧ (∀ t, t < c.numTasks → t < 2 ^ b) ∧ (c.seqMode = true → c.numTasks < 2 ^ b) := by
  have key : ∀ x : Nat, (if x = 0 then none else some (Nat.log2 x + 1)) = some b → 0 < b ∧ x < 2 ^ b := by
    intro x hx
    split at hx
    · simp at hx
    · obtain rfl := Option.some.inj hx
      exact ⟨by omega, Nat.lt_log2_self⟩
  obtain ⟨h1, h2⟩ := key _ h
  refine ⟨h1, fun t ht => ?_, fun hs => ?_⟩
  · split at h2 <;> omega
  · rwa [if_pos hs] at h2

theorem split_at_sep {sep : Nat} : ∀ {s s' r r' : List Nat}, sep ∉ s → sep ∉ s' → s ++ sep :: r = s' ++ sep :: r' →
    s = s' ∧ r = r' := by
  intro s
  induction s with
  | nil =>
    intro s' r r' _ h' h
    cases s' with
    | nil => simpa using h
    | cons a s' => simp at h; exact absurd h.1 (fun h0 => h' (by simp [h0]))
  | cons a s ih =>
    intro s' r r' h1 h' h
    cases s' with
    | nil => simp at h; exact absurd h.1.symm (fun h0 => h1 (by simp [h0]))
    | cons a' s' =>
      simp only [List.cons_append, List.cons.injEq] at h
      obtain ⟨rfl, h⟩ := h
      obtain ⟨h2, h3⟩ := ih (fun h0 => h1 (List.mem_cons_of_mem _ h0)) (fun h0 => h' (List.mem_cons_of_mem _ h0)) h
      exact ⟨by rw [h2], h3⟩

theorem joinSep_inj {sep : Nat} : ∀ (ss ss' : List (List Nat)), (∀ s ∈ ss, sep ∉ s ∧ s ≠ []) → (∀ s ∈ ss', sep ∉ s ∧ s ≠ []) →
    joinSep sep ss = joinSep sep ss' → ss = ss' := by
  intro ss
  induction ss with
  | nil =>
    intro ss' _ h' h
    match ss', h', h with
    | [], _, _ => rfl
    | [s], h', h => exact absurd h.symm (h' s (by simp)).2
    | s :: t :: ss', _, h => simp [joinSep] at h
  | cons s ss ih =>
    intro ss' h1 h' h
    match ss, ss', ih, h1, h', h with
    | [], [], _, h1, _, h => exact absurd h (h1 s (by simp)).2
    | _ :: _, [], _, _, _, h => simp [joinSep] at h
    | [], [s'], _, _, _, h => simp only [joinSep] at h; rw [h]
    | [], s' :: t' :: ss', _, h1, _, h =>
      simp only [joinSep] at h
      exact absurd (by rw [h]; simp) (h1 s (by simp)).1
    | t :: ss, [s'], _, _, h', h =>
      simp only [joinSep] at h
      exact absurd (by rw [← h]; simp) (h' s' (by simp)).1
    | t :: ss, s' :: t' :: ss', ih, h1, h', h =>
      simp only [joinSep] at h
      obtain ⟨e1, e2⟩ := split_at_sep (h1 s (by simp)).1 (h' s' (by simp)).1 h
      rw [e1, ih (t' :: ss') (fun x hx => h1 x (List.mem_cons_of_mem _ hx))
        (fun x hx => h' x (List.mem_cons_of_mem _ hx)) e2]

theorem sortSeqs_perm (ss : List (List Nat)) : (sortSeqs ss).Perm ss := List.perm_insertionSort _ _

theorem sortSeqs_eq {ss ss' : List (List Nat)} (h : ss.Perm ss') : sortSeqs ss = sortSeqs ss' := by
  have hp : (sortSeqs ss).Perm (sortSeqs ss') := (sortSeqs_perm ss).trans (h.trans (sortSeqs_perm ss').symm)
  have hs : ∀ l : List (List Nat), (sortSeqs l).Pairwise (· ≤ ·) := by
    intro l
    exact List.pairwise_insertionSort _ l
  exact hp.eq_of_pairwise (fun a b _ _ h1 h2 => le_antisymm h1 h2) (hs _) (hs _)

/-! ## What the table remembers -/

/-- Key and slot of a node. -/
def keyOf (c : VisCfg) (h : Heap) (n : Node) : Option (Nat × List Bool) :=
  match c.bits, visSeq c h n with
  | some b, some seq => some (slot (visHash c n seq), keyBits c b n seq)
  | _, _ => none

/-- The table after the insertions `hist`: every cell is empty or was written by an accepted node, the
last accepted one with this key. -/
structure TabOK {F H : Type} (c : VisCfg) (E : Env (Option (Table Int)) F H) (hist : List (Heap × SNode))
    (tb : Table Int) : Prop where
  wf : TWF tb
  cell : ∀ i bs, bs ≠ [] → cell tb i (state2Int bs) = 0 ∨
    ∃ pre y post, hist = pre ++ y :: post ∧ (E.ins (runIns E emptyVis pre) y.1 y.2).2 = true ∧
      keyOf c y.1 y.2.node = some (i, bs) ∧
      (c.noReopen = false → ∃ f, y.2.f = some f ∧ Verif.CST.cell tb i (state2Int bs) = f + 1)

theorem keyOK_of_ne {bs : List Bool} (h : bs ≠ []) : KeyOK (state2Int bs).1 (state2Int bs).2 := by
  obtain ⟨h1, h2, h3⟩ := state2Int_spec bs
  have := List.length_pos_iff.2 h
  refine ⟨fun h0 => by rw [h0, List.length_nil] at h2; omega, h1, fun g hg => ?_⟩
  rw [h3, List.getElem?_eq_none (by omega)]; rfl

theorem access_ne {tb : Table Int} {h : Nat} {bs : List Bool} {f : Int → Int} {r}
    (ha : access tb h (state2Int bs) f = some r) : bs ≠ [] := by
  rintro rfl
  have : (state2Int []).1 = [] := by decide
  simp [access, this] at ha

/-- The parts of a call of `insertVisi` that has defined behaviour. -/
theorem insVisi_some {c : VisCfg} {tb tb' : Table Int} {h : Heap} {x : SNode} {r : Bool} (hc : c.noCheck = false)
    (hi : insVisi c tb h x = some (tb', r)) :
    ∃ k bs f hv old, keyOf c h x.node = some (k, bs) ∧ (c.noReopen = false → x.f = some f) ∧ slot hv = k ∧ bs ≠ [] ∧
      access tb hv (state2Int bs) (payNew c f) = some (tb', old) ∧ r = payAccept c f old := by
  unfold insVisi at hi
  rw [hc] at hi
  simp only [Bool.false_eq_true, if_false] at hi
  cases hb : c.bits with
  | none => rw [hb] at hi; simp at hi
  | some b =>
    cases hs : visSeq c h x.node with
    | none => rw [hb, hs] at hi; simp at hi
    | some seq =>
      cases hf : (if c.noReopen then some 0 else x.f) with
      | none => rw [hb, hs, hf] at hi; simp at hi
      | some f =>
        rw [hb, hs, hf] at hi
        simp only at hi
        cases ha : access tb (visHash c x.node seq) (state2Int (keyBits c b x.node seq)) (payNew c f) with
        | none => rw [ha] at hi; simp at hi
        | some p =>
          obtain ⟨tb1, old⟩ := p
          rw [ha] at hi
          simp only [Option.some.injEq, Prod.mk.injEq] at hi
          obtain ⟨rfl, rfl⟩ := hi
          refine ⟨_, _, f, visHash c x.node seq, old, ?_, ?_, rfl, access_ne ha, ha, rfl⟩
          · unfold keyOf; rw [hb, hs]
          · intro h0; rw [h0] at hf; simpa using hf

theorem tabOK {F H : Type} {c : VisCfg} {E : Env (Option (Table Int)) F H} (hE : E.ins = insVis c)
    (hc : c.noCheck = false) : ∀ (hist : List (Heap × SNode)) tb, runIns E emptyVis hist = some tb → TabOK c E hist tb := by
  intro hist
  induction hist using List.reverseRecOn with
  | nil =>
    intro tb h
    simp only [runIns, emptyVis, List.foldl_nil, Option.some.injEq] at h
    subst h
    exact ⟨fun _ => trivial, fun _ _ _ => .inl rfl⟩
  | append_singleton hist y ih =>
    intro tb h
    rw [runIns_append, hE] at h
    unfold insVis at h
    cases hr : runIns E emptyVis hist with
    | none => rw [hr] at h; simp at h
    | some tb0 =>
      rw [hr] at h
      simp only at h
      cases hi : insVisi c tb0 y.1 y.2 with
      | none => rw [hi] at h; simp at h
      | some p =>
        obtain ⟨tb1, r⟩ := p
        rw [hi] at h
        simp only [Option.some.injEq] at h
        subst h
        obtain ⟨k, bs, f, hv, old, hk, hf, rfl, hne, ha, rfl⟩ := insVisi_some hc hi
        have h0 := ih tb0 hr
        obtain ⟨a1, a2, a3, a4⟩ := access_ok h0.wf (keyOK_of_ne hne) ha
        have hins : (E.ins (runIns E emptyVis hist) y.1 y.2).2 = payAccept c f old := by
          rw [hr, hE]; unfold insVis; simp only [hi]
        -- cells written before
        have hlift : ∀ i bs', bs' ≠ [] → Verif.CST.cell tb1 i (state2Int bs') = Verif.CST.cell tb0 i (state2Int bs') →
            Verif.CST.cell tb1 i (state2Int bs') = 0 ∨
            ∃ pre z post, hist ++ [y] = pre ++ z :: post ∧ (E.ins (runIns E emptyVis pre) z.1 z.2).2 = true ∧
              keyOf c z.1 z.2.node = some (i, bs') ∧
              (c.noReopen = false → ∃ f, z.2.f = some f ∧ Verif.CST.cell tb1 i (state2Int bs') = f + 1) := by
          intro i bs' hne' he
          rw [he]
          rcases h0.cell i bs' hne' with h1 | ⟨pre, z, post, h1, h2, h3, h4⟩
          · exact .inl h1
          · exact .inr ⟨pre, z, post ++ [y], by rw [h1]; simp, h2, h3, h4⟩
        refine ⟨a1, fun i bs' hne' => ?_⟩
        by_cases hkey : i = slot hv ∧ state2Int bs' = state2Int bs
        · obtain ⟨rfl, hb'⟩ := hkey
          obtain rfl := state2Int_inj hb'
          by_cases hacc : payAccept c f old = true
          · refine .inr ⟨hist, y, [], rfl, hins.trans hacc, hk, fun hno => ⟨f, hf hno, ?_⟩⟩
            rw [a3]; unfold payNew
            rw [hno, hacc]; simp
          · by_cases hno : c.noReopen = true
            · -- not accepted without reopening: the cell was filled before
              have hold : old ≠ 0 := by
                intro h1; apply hacc; unfold payAccept; rw [hno, h1]; simp
              rcases h0.cell (slot hv) bs' hne' with h1 | ⟨pre, z, post, h1, h2, h3, h4⟩
              · exact absurd (a2.trans h1) hold
              · exact .inr ⟨pre, z, post ++ [y], by rw [h1]; simp, h2, h3, fun h5 => by rw [hno] at h5; simp at h5⟩
            · refine hlift _ _ hne' ?_
              rw [a3, ← a2]
              unfold payNew
              simp [hno, hacc]
        · exact hlift i bs' hne' (a4 i _ (keyOK_of_ne hne') hkey)

/-- A rejected node has the key of a node accepted earlier, with an evaluation that is not higher if
re-opening is switched on. -/
theorem insVis_rejected {F H : Type} {c : VisCfg} {E : Env (Option (Table Int)) F H} (hE : E.ins = insVis c)
    {hist : List (Heap × SNode)} {h : Heap} {x : SNode}
    (hr : (E.ins (runIns E emptyVis hist) h x).2 = false) :
    ∃ pre y post k, hist = pre ++ y :: post ∧ (E.ins (runIns E emptyVis pre) y.1 y.2).2 = true ∧
      keyOf c y.1 y.2.node = some k ∧ keyOf c h x.node = some k ∧
      (c.noReopen = false → ∃ fy fx, y.2.f = some fy ∧ x.f = some fx ∧ fy ≤ fx) := by
  rw [hE] at hr
  unfold insVis at hr
  cases hv : runIns E emptyVis hist with
  | none => rw [hv] at hr; simp at hr
  | some tb =>
    rw [hv] at hr
    simp only at hr
    by_cases hc : c.noCheck = true
    · unfold insVisi at hr; simp [hc] at hr
    · have hc : c.noCheck = false := by simpa using hc
      cases hi : insVisi c tb h x with
      | none => rw [hi] at hr; simp at hr
      | some p =>
        obtain ⟨tb1, r⟩ := p
        rw [hi] at hr
        simp only at hr
        subst hr
        obtain ⟨k, bs, f, hv', old, hk, hf, rfl, hne, ha, hacc⟩ := insVisi_some hc hi
        have h0 := tabOK hE hc hist tb hv
        obtain ⟨-, a2, -⟩ := access_ok h0.wf (keyOK_of_ne hne) ha
        have hold : old ≠ 0 := by
          intro h1; unfold payAccept at hacc; subst h1; split at hacc <;> simp at hacc
        rcases h0.cell _ bs hne with h1 | ⟨pre, y, post, h1, h2, h3, h4⟩
        · exact absurd (a2.trans h1) hold
        · refine ⟨pre, y, post, _, h1, h2, h3, hk, fun hno => ?_⟩
          obtain ⟨fy, h5, h6⟩ := h4 hno
          refine ⟨fy, f, h5, hf hno, ?_⟩
          rw [a2] at hacc
          unfold payAccept at hacc
          rw [hno, h6] at hacc
          simp at hacc
          omega

end Verif.Prog
