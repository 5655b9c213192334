import Verif.WriteHddl
import Mathlib.Data.List.Permutation

/-! # C92: methods written as HDDL (`Model::writeToPDDL`)

A problem which has been read can be written as HDDL again.  A subtask whose name begins with `__method_precondition`
becomes a precondition of the method, and subtasks whose names begin with `__noop` are left out.  We compare the
sequences of tasks which a method allows with those which the written method allows. -/

namespace Verif.Props

open Relation WriteHddl MethodOrder

/-- Subtask `j` has a name which begins with `__noop`. -/
def NoopAt (names : Nat → List Char) (sub : List Nat) (j : Nat) : Prop :=
  ∃ t, sub[j]? = some t ∧ "__noop".toList <+: names t

/-- Subtask `p` is the only one with a name which begins with `__method_precondition`, and the orderings demand that it
is before all others. -/
def PreAt (names : Nat → List Char) (sub : List Nat) (ord : List (Nat × Nat)) (p : Nat) : Prop :=
  (∃ t, sub[p]? = some t ∧ "__method_precondition".toList <+: names t) ∧
  (∀ j t, sub[j]? = some t → "__method_precondition".toList <+: names t → j = p) ∧
  ∀ j < sub.length, j ≠ p → TransGen (fun a b => (a, b) ∈ ord) p j

/-- The sequences of tasks which a method allows, without the subtasks in `drop`. -/
def MethodAllows (sub : List Nat) (ord : List (Nat × Nat)) (drop : Nat → Prop) (ts : List Nat) : Prop :=
  open Classical in
  ∃ l : List Nat, l.Perm (List.range sub.length) ∧ l.Pairwise (fun a b => (b, a) ∉ ord) ∧
    (l.filter fun j => decide (¬ drop j)).map (fun j => sub[j]?) = ts.map some

theorem isPre_iff {names : Nat → List Char} {sub : List Nat} {ord : List (Nat × Nat)} {p : Nat} :
    IsPre (fun j => isPreName (names (sub.getD j 0))) sub.length ord p ↔ PreAt names sub ord p := by
  have key : ∀ j t, sub[j]? = some t ↔ j < sub.length ∧ sub.getD j 0 = t := fun j t => by
    by_cases h : j < sub.length
    · simp [List.getD, h]
    · simp [h]
  simp only [IsPre, PreAt, isPreName, List.isPrefixOf_iff_prefix, key]
  constructor
  · rintro ⟨h1, h2, h3, h4⟩
    exact ⟨⟨_, ⟨h1, rfl⟩, h2⟩, fun j t h h' => h3 j h.1 (by rw [h.2]; exact h'), h4⟩
  · rintro ⟨⟨t, ⟨h1, rfl⟩, h2⟩, h3, h4⟩
    exact ⟨h1, h2, fun j hj h => h3 j _ ⟨hj, rfl⟩ h, h4⟩

theorem noopAt_iff {names : Nat → List Char} {sub : List Nat} {j : Nat} (hj : j < sub.length) :
    isNoopName (names (sub.getD j 0)) = true ↔ NoopAt names sub j := by
  simp [NoopAt, isNoopName, List.isPrefixOf_iff_prefix, List.getD, hj]

theorem map_task_iff {sub l ts : List Nat} (h : ∀ j ∈ l, j < sub.length) :
    l.map (fun j => sub[j]?) = ts.map some ↔ ts = l.map fun j => sub.getD j 0 := by
  have e : l.map (fun j => sub[j]?) = (l.map fun j => sub.getD j 0).map some := by
    rw [List.map_map]
    refine List.map_congr_left fun j hj => ?_
    simp [List.getD, h j hj]
  rw [e]
  exact ⟨fun h => (List.map_injective_iff.2 (Option.some_injective _) h).symm, fun h => by rw [h]⟩

theorem some_bne {p : Option Nat} {j : Nat} : (some j != p) = true ↔ p ≠ some j := by
  rw [bne_iff_ne]; exact ne_comm

/-- C92: writing a method with acyclic orderings succeeds.  It has a precondition iff exactly one subtask has the name of
a precondition and this one must be before all others; its facts are the preconditions of that subtask.  If the method is
totally ordered, or if its orderings (those of the precondition aside) do not concern `__noop` subtasks nor begin with
one whose successor in number is a `__noop` subtask, then the written method allows exactly the sequences of tasks which
the method allows, the subtask for the precondition and `__noop` subtasks left out.  The full statement, without this
condition, is false, see below. -/
theorem C92_methods_exact_partial (names : Nat → List Char) (precLists : Nat → List Nat) (sub : List Nat)
    (ord : List (Nat × Nat)) (adj : Nat → List Nat) (hb : ∀ o ∈ ord, o.1 < sub.length ∧ o.2 < sub.length)
    (hac : ∃ rank : Nat → Nat, ∀ o ∈ ord, rank o.1 < rank o.2) (hadj : ∀ a b, b ∈ adj a ↔ (a, b) ∈ ord) :
    ∃ w, writeMethod names precLists sub ord adj = some w ∧
      (∀ p t, PreAt names sub ord p → sub[p]? = some t → w.precs = some (precLists t)) ∧
      ((∀ p, ¬ PreAt names sub ord p) → w.precs = none) ∧
      (((∀ a < sub.length, ∀ b < sub.length, a ≠ b → TransGen (fun x y => (x, y) ∈ ord) a b ∨ TransGen (fun x y => (x, y) ∈ ord) b a) ∨
          ∀ o ∈ ord, PreAt names sub ord o.1 ∨ ¬ NoopAt names sub o.1 ∧ ¬ NoopAt names sub o.2 ∧ ¬ NoopAt names sub (o.1 + 1)) →
        ∀ ts, w.body.Allows ts ↔ MethodAllows sub ord (fun j => PreAt names sub ord j ∨ NoopAt names sub j) ts) := by
  classical
  obtain ⟨rank, hr⟩ := hac
  obtain ⟨tot, flag, ht, h2, h3, h4, h5⟩ := total_spec hb hadj hr
  obtain ⟨p, hp, hps⟩ := methodPre_spec (pre := fun j => isPreName (names (sub.getD j 0))) hb
  simp only [isPre_iff] at hps
  rw [writeMethod]
  simp only [hp, ht]
  have hkeep : ∀ l : List Nat, (∀ j ∈ l, j < sub.length) →
      (l.filter fun j => decide (¬ (PreAt names sub ord j ∨ NoopAt names sub j))) =
        l.filter fun j => some j != p && !isNoopName (names (sub.getD j 0)) := by
    intro l hl
    refine List.filter_congr fun j hj => ?_
    rw [Bool.eq_iff_iff, decide_eq_true_iff, not_or, ← hps, ← noopAt_iff (hl j hj), Bool.and_eq_true, some_bne, Bool.not_eq_true',
      Bool.not_eq_true]
  have hlt : ∀ l : List Nat, l.Perm (List.range sub.length) → ∀ j ∈ l, j < sub.length := fun l hl j hj =>
    List.mem_range.1 (hl.mem_iff.1 hj)
  have hMA : ∀ ts, MethodAllows sub ord (fun j => PreAt names sub ord j ∨ NoopAt names sub j) ts ↔
      ∃ l : List Nat, l.Perm (List.range sub.length) ∧ l.Pairwise (fun a b => (b, a) ∉ ord) ∧
        ts = (l.filter fun j => some j != p && !isNoopName (names (sub.getD j 0))).map fun j => sub.getD j 0 := by
    intro ts
    unfold MethodAllows
    refine exists_congr fun l => and_congr_right fun hl => and_congr_right fun _ => ?_
    rw [← map_task_iff (fun j hj => hlt l hl j (List.mem_of_mem_filter hj)), ← hkeep l (hlt l hl)]
    constructor <;> intro h <;> convert h
  refine ⟨_, rfl, fun q t hq hqt => ?_, fun hn => ?_, fun hcond ts => ?_⟩
  · simp [(hps q).2 hq, List.getD, hqt]
  · cases p with
    | none => rfl
    | some q => exact absurd ((hps q).1 rfl) (hn q)
  rw [hMA]
  cases hflag : flag with
  | true =>
    simp only [if_true, Body.Allows]
    constructor
    · rintro rfl
      exact ⟨tot, h2, h3, rfl⟩
    · rintro ⟨l, k1, k2, rfl⟩
      rw [chain_unique hb hr h2 (h4 hflag) k1 k2]
  | false =>
    have hc : ∀ o ∈ ord, PreAt names sub ord o.1 ∨ ¬ NoopAt names sub o.1 ∧ ¬ NoopAt names sub o.2 ∧ ¬ NoopAt names sub (o.1 + 1) := by
      rcases hcond with h | h
      · rw [h5 h] at hflag; simp at hflag
      · exact h
    set written : Nat → Bool := fun j => some j != p && !isNoopName (names (sub.getD j 0)) with hwr
    set ords := ord.filter fun o => !(some o.1 == p || ((List.range sub.length).filter fun j => some j != p && isNoopName (names (sub.getD j 0))).contains o.1 ||
        ((List.range sub.length).filter fun j => some j != p && isNoopName (names (sub.getD j 0))).contains (o.1 + 1)) with hords
    have hmo : ∀ o, o ∈ ords ↔ o ∈ ord ∧ p ≠ some o.1 := by
      intro o
      rw [hords, List.mem_filter]
      refine and_congr_right fun ho => ?_
      constructor
      · intro h he
        simp [he] at h
      · intro h
        rcases hc o ho with h' | ⟨h1', -, h3'⟩
        · exact absurd ((hps _).2 h') h
        · have e1 : ¬ isNoopName (names (sub.getD o.1 0)) = true := fun h => h1' ((noopAt_iff (hb o ho).1).1 h)
          have e3 : o.1 + 1 < sub.length → ¬ isNoopName (names (sub.getD (o.1 + 1) 0)) = true := fun hl h => h3' ((noopAt_iff hl).1 h)
          simp only [Bool.not_eq_true] at e1 e3
          simp only [Bool.not_eq_true', Bool.or_eq_false_iff, beq_eq_false_iff_ne, ne_eq, List.contains_eq_mem, decide_eq_false_iff_not,
            List.mem_filter, List.mem_range, Bool.and_eq_true, not_and]
          exact ⟨⟨fun he => h he.symm, fun _ _ => by rw [e1]; simp⟩, fun hl _ => by rw [e3 hl]; simp⟩
    have hnotp : ∀ a q, p = some q → (a, q) ∉ ord := by
      intro a q hq ha
      have hq' := (hps q).1 hq
      by_cases haq : a = q
      · subst haq; exact absurd (hr _ ha) (lt_irrefl _)
      · have r1 := ord_rank hr (hq'.2.2 a (hb _ ha).1 haq)
        have r2 := hr _ ha
        simp only at r2
        omega
    have hwn : ∀ j, written j = true ↔ p ≠ some j ∧ isNoopName (names (sub.getD j 0)) = false := fun j => by
      rw [hwr, Bool.and_eq_true, some_bne, Bool.not_eq_true']
    simp only [Bool.false_eq_true, if_false, Body.Allows]
    have hfst : ((List.range sub.length).filter written).map (Prod.fst ∘ fun j => (j, sub.getD j 0)) =
        (List.range sub.length).filter written := by
      conv_rhs => rw [← List.map_id ((List.range sub.length).filter written)]
      rfl
    constructor
    · rintro ⟨-, ks, k1, k2, rfl⟩
      set noops := (List.range sub.length).filter fun j => some j != p && isNoopName (names (sub.getD j 0)) with hno
      have hks : ∀ k ∈ ks, k.1 < sub.length ∧ written k.1 = true ∧ k.2 = sub.getD k.1 0 := by
        intro k hk
        have := k1.mem_iff.1 hk
        rw [List.mem_map] at this
        obtain ⟨j, hj, rfl⟩ := this
        rw [List.mem_filter, List.mem_range] at hj
        exact ⟨hj.1, hj.2, rfl⟩
      have hk1 : (ks.map Prod.fst).Perm ((List.range sub.length).filter written) := by
        have := k1.map Prod.fst
        rwa [List.map_map, hfst] at this
      have hmn : ∀ j, j ∈ noops ↔ j < sub.length ∧ p ≠ some j ∧ isNoopName (names (sub.getD j 0)) = true := fun j => by
        rw [hno, List.mem_filter, List.mem_range, Bool.and_eq_true, some_bne]
      have hmk : ∀ j, j ∈ ks.map Prod.fst ↔ j < sub.length ∧ p ≠ some j ∧ isNoopName (names (sub.getD j 0)) = false := fun j => by
        rw [hk1.mem_iff, List.mem_filter, List.mem_range, hwn]
      refine ⟨p.toList ++ (ks.map Prod.fst ++ noops), ?_, ?_, ?_⟩
      · rw [List.perm_ext_iff_of_nodup _ List.nodup_range]
        · intro j
          rw [List.mem_append, List.mem_append, hmk, hmn, List.mem_range, Option.mem_toList]
          constructor
          · rintro (h | h | h)
            · exact (isPre_iff.2 ((hps j).1 h)).1
            · exact h.1
            · exact h.1
          · intro h
            by_cases hj : p = some j
            · exact .inl hj
            · cases hn : isNoopName (names (sub.getD j 0))
              · exact .inr (.inl ⟨h, hj, rfl⟩)
              · exact .inr (.inr ⟨h, hj, rfl⟩)
        · refine List.nodup_append.2 ⟨by cases p <;> simp, List.nodup_append.2 ⟨hk1.nodup_iff.2 (List.nodup_range.filter _),
            List.nodup_range.filter _, ?_⟩, ?_⟩
          · rintro a ha b hb' rfl
            rw [hmk] at ha; rw [hmn] at hb'
            rw [ha.2.2] at hb'; simp at hb'
          · rintro a ha b hb' rfl
            rw [Option.mem_toList] at ha
            rw [List.mem_append, hmk, hmn] at hb'
            rcases hb' with h | h
            · exact h.2.1 ha
            · exact h.2.1 ha
      · have hnoop : ∀ a b, b ∈ noops → (b, a) ∉ ord := by
          intro a b hb' hab
          rw [hmn] at hb'
          rcases hc _ hab with h | h
          · exact hb'.2.1 ((hps _).2 h)
          · exact h.1 ((noopAt_iff hb'.1).1 hb'.2.2)
        refine List.pairwise_append.2 ⟨by cases p <;> simp, List.pairwise_append.2 ⟨?_, ?_, fun a _ b hb' => hnoop a b hb'⟩,
          fun a ha b _ => hnotp b a (by simpa using ha)⟩
        · rw [List.pairwise_map]
          refine k2.imp_of_mem fun {a b} ha hb' h h' => h ((hmo _).2 ⟨h', ?_⟩)
          exact ((hwn _).1 (hks b hb').2.1).1
        · exact List.pairwise_of_forall_mem_list fun a _ b hb' => hnoop a b hb'
      · rw [List.filter_append, List.filter_append]
        have f1 : p.toList.filter written = [] := by
          rw [List.filter_eq_nil_iff]
          intro j hj hw
          exact ((hwn j).1 hw).1 (by simpa using hj)
        have f2 : (ks.map Prod.fst).filter written = ks.map Prod.fst := by
          rw [List.filter_eq_self]
          intro j hj
          exact (hwn j).2 ((hmk j).1 hj).2
        have f3 : noops.filter written = [] := by
          rw [List.filter_eq_nil_iff]
          intro j hj hw
          have := ((hwn j).1 hw).2
          rw [((hmn j).1 hj).2.2] at this; simp at this
        rw [f1, f2, f3, List.nil_append, List.append_nil, List.map_map]
        exact List.map_congr_left fun k hk => (hks k hk).2.2
    · rintro ⟨l, k1, k2, rfl⟩
      refine ⟨fun o ho => ?_, (l.filter written).map fun j => (j, sub.getD j 0), (k1.filter _).map _, ?_, ?_⟩
      · obtain ⟨ho1, ho2⟩ := (hmo o).1 ho
        refine ⟨fun he => ?_, ?_, ?_⟩
        · have := hr o ho1; rw [he] at this; exact absurd this (lt_irrefl _)
        all_goals
          rw [List.map_map, hfst, List.mem_filter, List.mem_range, hwn]
          rcases hc o ho1 with h | h
          · exact absurd ((hps _).2 h) ho2
        · refine ⟨(hb o ho1).1, ho2, ?_⟩
          rw [← Bool.not_eq_true, noopAt_iff (hb o ho1).1]; exact h.1
        · refine ⟨(hb o ho1).2, fun hp2 => hnotp o.1 o.2 hp2 ho1, ?_⟩
          rw [← Bool.not_eq_true, noopAt_iff (hb o ho1).2]; exact h.2.1
      · rw [List.pairwise_map]
        exact (k2.sublist List.filter_sublist).imp fun h h' => h ((hmo _).1 h').1
      · rw [List.map_map]; rfl

/-! ## What is wrong -/

/-- Names for examples: 0 is `a`, 1 is `__noop`, 2 is `b`, 3 is a precondition. -/
def hddlNames : Nat → List Char
  | 0 => "a".toList
  | 1 => "__noop".toList
  | 2 => "b".toList
  | 3 => "__method_precondition_m".toList
  | _ => "t".toList

theorem order_02 : isMethodTotallyOrdered 3 (fun a => if a = 0 then [2] else []) = some ([1, 0, 2], false) := by
  simp [isMethodTotallyOrdered, methodOrder, outer, dfs, dfsAll, List.range_succ, consecutive, Function.update]

theorem order_120 : isMethodTotallyOrdered 3 (fun a => if a = 1 then [2, 0] else []) = some ([1, 2, 0], false) := by
  simp [isMethodTotallyOrdered, methodOrder, outer, dfs, dfsAll, List.range_succ, consecutive, Function.update]

theorem order_210 : isMethodTotallyOrdered 3 (fun a => if a = 2 then [1] else if a = 1 then [0] else []) = some ([2, 1, 0], true) := by
  simp [isMethodTotallyOrdered, methodOrder, outer, dfs, dfsAll, List.range_succ, consecutive, Function.update]

theorem order_012 : isMethodTotallyOrdered 3 (fun a => if a = 0 then [1] else if a = 1 then [2] else []) = some ([0, 1, 2], true) := by
  simp [isMethodTotallyOrdered, methodOrder, outer, dfs, dfsAll, List.range_succ, consecutive, Function.update]

theorem order_0 : isMethodTotallyOrdered 1 (fun _ => []) = some ([0], true) := by
  simp [isMethodTotallyOrdered, methodOrder, outer, dfs, dfsAll, List.range_succ, consecutive, Function.update]

/-- The statement without the condition on `__noop` subtasks is false: of the subtasks `a`, `__noop` and `b`, where `a`
must be before `b`, the order is lost, since the first subtask of an ordering plus one is looked up instead of the second
subtask.  The written method allows `b` before `a`. -/
theorem C92_order_lost_violated : ∃ w, writeMethod hddlNames (fun _ => []) [0, 1, 2] [(0, 2)] (fun a => if a = 0 then [2] else []) = some w ∧
    w.body.Allows [2, 0] ∧ ∀ drop : Nat → Prop, ¬ drop 0 → drop 1 → ¬ drop 2 → ¬ MethodAllows [0, 1, 2] [(0, 2)] drop [2, 0] := by
  refine ⟨⟨none, .net [(0, 0), (2, 2)] []⟩, by unfold writeMethod; rw [show List.length _ = 3 from rfl, order_02]; decide +kernel, ⟨by simp, [(2, 2), (0, 0)], List.Perm.swap _ _ _, by simp, rfl⟩, ?_⟩
  rintro drop h0 h1 h2 ⟨l, hl, hp, he⟩
  have hmem : l ∈ (List.range 3).permutations' := List.mem_permutations'.2 hl
  rw [show (List.range 3).permutations' = [[0, 1, 2], [1, 0, 2], [1, 2, 0], [0, 2, 1], [2, 0, 1], [2, 1, 0]] by decide +kernel] at hmem
  simp only [List.mem_cons, List.not_mem_nil, or_false] at hmem
  rcases hmem with rfl | rfl | rfl | rfl | rfl | rfl <;> simp [h0, h1, h2] at he hp

/-- Nor need the written file be well-formed: if `a` must be before `__noop`, and `b` is not ordered, an ordering with
the label of the `__noop` subtask is written, though this subtask is not. -/
theorem C92_dangling_violated : ∃ w, writeMethod hddlNames (fun _ => []) [0, 2, 1] [(0, 2)] (fun a => if a = 0 then [2] else []) = some w ∧
    w.body = .net [(0, 0), (1, 2)] [(0, 2)] ∧ (∀ ts, ¬ w.body.Allows ts) ∧
    ∀ drop : Nat → Prop, ¬ drop 0 → ¬ drop 1 → drop 2 → MethodAllows [0, 2, 1] [(0, 2)] drop [0, 2] := by
  refine ⟨⟨none, .net [(0, 0), (1, 2)] [(0, 2)]⟩, by unfold writeMethod; rw [show List.length _ = 3 from rfl, order_02]; decide +kernel, rfl, fun ts h => ?_, fun drop h0 h1 h2 => ⟨[0, 1, 2], List.Perm.refl _, by simp, ?_⟩⟩
  · have := h.1 (0, 2) (by simp)
    simp at this
  · simp [h0, h1, h2]

/-- Different names are written alike: the facts `on[a,b_c]` and `on[a_b,c]` get the same name. -/
theorem C92_names_violated : ∃ s t : String, s ≠ t ∧ cleanStr s.toList = cleanStr t.toList :=
  ⟨"on[a,b_c]", "on[a_b,c]", by decide, by decide +kernel⟩

/-- C92: names without the replaced characters which do not begin with `_` are written as they are. -/
theorem C92_names_kept (s : List Char) (h : ∀ c ∈ s, c ∉ [',', ';', ']', '[', '|', '!', '(', ')', '?', '<', '>', '+', '-'])
    (h0 : s.head? ≠ some '_') : cleanStr s = s := by
  have hm : s.map cleanChar = s := by
    conv_rhs => rw [← List.map_id s]
    refine List.map_congr_left fun c hc => ?_
    have := h c hc
    simp only [List.mem_cons, List.not_mem_nil, or_false, not_or] at this
    simp [cleanChar, this]
  rw [cleanStr, hm]
  cases s with
  | nil => rfl
  | cons a l =>
    have : a ≠ '_' := fun he => h0 (by rw [he]; rfl)
    split
    · rename_i l' he
      exact absurd (List.cons.inj he).1 this
    · rfl

/-! ## The domain -/

/-- C92: every task in a written method is declared: it is an abstract task written or an action written; only actions
which occur in a written method are declared, each once; and a method is written for each method, for the same task. -/
theorem C92_domain_closed (names : Nat → List Char) (precLists : Nat → List Nat) (numActions numTasks : Nat)
    (ms : List (Nat × List Nat × List (Nat × Nat) × (Nat → List Nat)))
    (hms : ∀ m ∈ ms, (∀ t ∈ m.2.1, t < numTasks) ∧ (∀ o ∈ m.2.2.1, o.1 < m.2.1.length ∧ o.2 < m.2.1.length) ∧
      (∃ rank : Nat → Nat, ∀ o ∈ m.2.2.1, rank o.1 < rank o.2) ∧ ∀ a b, b ∈ m.2.2.2 a ↔ (a, b) ∈ m.2.2.1) :
    ∃ d, writeDomain names precLists numActions numTasks ms = some d ∧ d.methods.map Prod.fst = ms.map Prod.fst ∧
      (d.tasks ++ d.actions).Nodup ∧ (∀ m ∈ d.methods, ∀ t ∈ m.2.body.tasks, t ∈ d.tasks ++ d.actions) ∧
      ∀ a ∈ d.actions, ∃ m ∈ d.methods, a ∈ m.2.body.tasks := by
  have key : ∀ m ∈ ms, ∃ w, writeMethod names precLists m.2.1 m.2.2.1 m.2.2.2 = some w ∧ ∀ t ∈ w.body.tasks, t < numTasks := by
    intro m hm
    obtain ⟨h1, h2, ⟨rank, h3⟩, h4⟩ := hms m hm
    obtain ⟨tot, flag, ht, hperm, -⟩ := total_spec h2 h4 h3
    obtain ⟨p, hp, -⟩ := methodPre_spec (pre := fun j => isPreName (names (m.2.1.getD j 0))) h2
    have hlt : ∀ j < m.2.1.length, m.2.1.getD j 0 < numTasks := fun j hj => by
      have := h1 _ (List.getElem_mem hj)
      simpa [List.getD, hj] using this
    rw [writeMethod]
    simp only [hp, ht]
    refine ⟨_, rfl, fun t hmem => ?_⟩
    cases flag
    · simp only [Bool.false_eq_true, if_false, Body.tasks, List.map_map, List.mem_map, List.mem_filter, List.mem_range] at hmem
      obtain ⟨j, ⟨hj, -⟩, rfl⟩ := hmem
      exact hlt j hj
    · simp only [if_true, Body.tasks, List.mem_map, List.mem_filter] at hmem
      obtain ⟨j, ⟨hj, -⟩, rfl⟩ := hmem
      exact hlt j (List.mem_range.1 (hperm.mem_iff.1 hj))
  have hmap : ∃ l, (ms.mapM fun m => (writeMethod names precLists m.2.1 m.2.2.1 m.2.2.2).map fun w => (m.1, w)) = some l ∧
      l.map Prod.fst = ms.map Prod.fst ∧ ∀ m ∈ l, ∀ t ∈ m.2.body.tasks, t < numTasks := by
    clear hms
    induction ms with
    | nil => exact ⟨[], rfl, rfl, by simp⟩
    | cons m ms ih =>
      obtain ⟨l, h1, h2, h3⟩ := ih fun m' hm' => key m' (List.mem_cons_of_mem _ hm')
      obtain ⟨w, hw, hw'⟩ := key m List.mem_cons_self
      refine ⟨(m.1, w) :: l, ?_, by simp [h2], ?_⟩
      · rw [List.mapM_cons, hw, h1]; rfl
      · intro m' hm'
        rcases List.mem_cons.1 hm' with rfl | hm'
        · exact hw'
        · exact h3 m' hm'
  obtain ⟨l, h1, h2, h3⟩ := hmap
  have hact : ∀ a, a ∈ writtenActions numActions (l.map Prod.snd) ↔ a < numActions ∧ ∃ m ∈ l, a ∈ m.2.body.tasks := fun a => by
    simp [writtenActions]
  refine ⟨_, by rw [writeDomain, h1]; rfl, h2, ?_, fun m hm t ht => ?_, fun a ha => ((hact a).1 ha).2⟩
  · refine List.nodup_append.2 ⟨List.nodup_range', List.nodup_range.filter _, ?_⟩
    rintro a ha b hb rfl
    have := ((hact a).1 hb).1
    rw [List.mem_range'_1] at ha
    omega
  · have hlt := h3 m hm t ht
    rw [List.mem_append, hact, List.mem_range'_1]
    by_cases h : t < numActions
    · exact .inr ⟨h, m, hm, ht⟩
    · exact .inl (by omega)

/-! ## Concrete cases -/

/-- The hypotheses are met: a precondition, then `a` and `b` in any order. -/
example : ∃ w, writeMethod hddlNames (fun _ => [7]) [0, 3, 2] [(1, 0), (1, 2)] (fun a => if a = 1 then [2, 0] else []) = some w ∧
    w = ⟨some [7], .net [(0, 0), (2, 2)] []⟩ ∧
    ∀ ts, w.body.Allows ts ↔ MethodAllows [0, 3, 2] [(1, 0), (1, 2)]
      (fun j => PreAt hddlNames [0, 3, 2] [(1, 0), (1, 2)] j ∨ NoopAt hddlNames [0, 3, 2] j) ts := by
  obtain ⟨w, h1, -, -, h4⟩ := C92_methods_exact_partial hddlNames (fun _ => [7]) [0, 3, 2] [(1, 0), (1, 2)] (fun a => if a = 1 then [2, 0] else [])
    (by decide) ⟨fun a => if a = 1 then 0 else 1, by decide⟩ (fun a b => by
      by_cases h : a = 1
      · subst h; simp [or_comm]
      · simp [h])
  have e : writeMethod hddlNames (fun _ => [7]) [0, 3, 2] [(1, 0), (1, 2)] (fun a => if a = 1 then [2, 0] else []) =
    some ⟨some [7], .net [(0, 0), (2, 2)] []⟩ := by unfold writeMethod; rw [show List.length _ = 3 from rfl, order_120]; decide +kernel
  have hw := e.symm.trans h1
  refine ⟨w, h1, (Option.some.inj hw).symm, h4 (.inr fun o ho => .inl ?_)⟩
  have ho1 : o.1 = 1 := by
    rcases o with ⟨a, b⟩
    simp only [List.mem_cons, Prod.mk.injEq, List.not_mem_nil, or_false] at ho
    rcases ho with h | h <;> exact h.1
  rw [ho1]
  refine isPre_iff.1 ⟨by decide, by decide +kernel, by decide +kernel, fun j hj hne => .single ?_⟩
  have : j = 0 ∨ j = 1 ∨ j = 2 := by simp at hj; omega
  rcases this with rfl | rfl | rfl
  · simp
  · exact absurd rfl hne
  · simp

/-- A totally ordered method with a `__noop` subtask: it is left out. -/
example : writeMethod hddlNames (fun _ => []) [2, 1, 0] [(2, 1), (1, 0)] (fun a => if a = 2 then [1] else if a = 1 then [0] else []) =
    some ⟨none, .seq [0, 2]⟩ := by unfold writeMethod; rw [show List.length _ = 3 from rfl, order_210]; decide +kernel

/-- Two methods: only actions 0 and 2 are declared, the action of the precondition is not. -/
example : (writeDomain hddlNames (fun _ => []) 4 6 [(4, [3, 5, 0], [(0, 1), (1, 2)], fun a => if a = 0 then [1] else if a = 1 then [2] else []),
    (5, [2], [], fun _ => [])]).map (fun d => (d.tasks, d.actions)) = some ([4, 5], [0, 2]) := by
  unfold writeDomain writeMethod
  simp only [List.mapM_cons, List.mapM_nil, List.length_cons, List.length_nil, Nat.zero_add, Nat.reduceAdd, order_012, order_0]
  decide +kernel

end Verif.Props
