import Verif.PdtFormula

/-! # Models of the decomposition clauses are selections -/

namespace Verif.Pdt

open Verif.Htn Verif.Sog Verif.Sat

section
variable {P : Problem} {tot : Nat → List Nat} {t : T} {S : Flags} {n : Nat} {V : VM} {v : Assignment}

theorem hasTask_iff (hV : VMInv t n V) {p : Path} {d : ND} (hd : t.nd p = some d) :
    varsOf V (taskAtoms p d) ≠ [] ↔ HasTask V p := by
  rw [ne_eq, varsOf_nil]
  constructor
  · intro h
    push Not at h
    obtain ⟨a, ha, hne⟩ := h
    rcases mem_taskAtoms.1 ha with ⟨i, -, rfl⟩ | ⟨i, -, rfl⟩
    · exact .inl ⟨i, hne⟩
    · exact .inr ⟨i, hne⟩
  · rintro (⟨i, hi⟩ | ⟨i, hi⟩) h
    · obtain ⟨d', hd', hlt⟩ := hV.prim p i hi
      rw [hd] at hd'
      obtain rfl := Option.some.inj hd'
      exact hi (h _ (mem_taskAtoms.2 (.inl ⟨i, hlt, rfl⟩)))
    · obtain ⟨d', hd', hlt⟩ := hV.abs p i hi
      rw [hd] at hd'
      obtain rfl := Option.some.inj hd'
      exact hi (h _ (mem_taskAtoms.2 (.inr ⟨i, hlt, rfl⟩)))

theorem emitted_self (hV : VMInv t n V) {f : Nat} {p : Path} {d : ND} {e : EX} (hd : t.nd p = some d) (he : t.ex p = some e)
    (h : HasTask V p) : p ∈ emitted t V (f + 1) p := by
  rw [emitted, hd, he]
  simp only
  rw [if_neg ((hasTask_iff hV hd).2 h)]
  exact List.mem_cons_self

theorem emitted_child (ht : t.OK P tot) (hV : VMInv t n V) {c : Nat} {p : Path} {d : ND} {e : EX} (hd : t.nd (c :: p) = some d)
    (he : t.ex (c :: p) = some e) (h : HasTask V (c :: p)) : ∀ f q, q.length + f = t.K → p ∈ emitted t V f q →
    (c :: p) ∈ emitted t V f q := by
  obtain ⟨ep, hep, hc⟩ := (ht.child c p d).1 hd
  obtain ⟨_, -, hlt, -⟩ := ht.ex (c :: p) e he
  have hclt := (List.getElem?_eq_some_iff.1 hc).1
  intro f
  induction f with
  | zero => intro q _ h; simp [emitted] at h
  | succ f ih =>
    intro q hq hp
    rw [emitted] at hp ⊢
    cases hdq : t.nd q with
    | none => rw [hdq] at hp; simp at hp
    | some dq =>
      cases heq : t.ex q with
      | none => rw [hdq, heq] at hp; simp at hp
      | some eq =>
        rw [hdq, heq] at hp
        simp only at hp ⊢
        by_cases h0 : varsOf V (taskAtoms q dq) = []
        · rw [if_pos h0] at hp; simp at hp
        · rw [if_neg h0] at hp ⊢
          rw [List.mem_cons, List.mem_flatMap] at hp ⊢
          right
          rcases hp with rfl | ⟨c', hc', hp⟩
          · rw [hep] at heq
            obtain rfl := Option.some.inj heq
            refine ⟨c, List.mem_range.2 hclt, ?_⟩
            simp only [List.length_cons] at hlt
            obtain ⟨f', rfl⟩ : ∃ f', f = f' + 1 := ⟨f - 1, by omega⟩
            exact emitted_self hV hd he h
          · exact ⟨c', hc', ih (c' :: q) (by simp; omega) hp⟩

theorem emitted_sound : ∀ f q p, p ∈ emitted t V f q → ∃ d e, t.nd p = some d ∧ t.ex p = some e ∧
    varsOf V (taskAtoms p d) ≠ [] := by
  intro f
  induction f with
  | zero => intro q p h; simp [emitted] at h
  | succ f ih =>
    intro q p hp
    rw [emitted] at hp
    cases hdq : t.nd q with
    | none => rw [hdq] at hp; simp at hp
    | some dq =>
      cases heq : t.ex q with
      | none => rw [hdq, heq] at hp; simp at hp
      | some eq =>
        rw [hdq, heq] at hp
        simp only at hp
        by_cases h0 : varsOf V (taskAtoms q dq) = []
        · rw [if_pos h0] at hp; simp at hp
        · rw [if_neg h0] at hp
          rw [List.mem_cons, List.mem_flatMap] at hp
          rcases hp with rfl | ⟨c', hc', hp⟩
          · exact ⟨dq, eq, hdq, heq, h0⟩
          · exact ih _ p hp

/-- Clauses are generated for all expanded vertices with variables for tasks. -/
theorem mem_emitted (ht : t.OK P tot) (hV : VMInv t n V) {p : Path} : p ∈ emitted t V t.K [] ↔
    ∃ d e, t.nd p = some d ∧ t.ex p = some e ∧ HasTask V p := by
  constructor
  · intro h
    obtain ⟨d, e, hd, he, h0⟩ := emitted_sound _ _ p h
    exact ⟨d, e, hd, he, (hasTask_iff hV hd).1 h0⟩
  · induction p with
    | nil =>
      rintro ⟨d, e, hd, he, h⟩
      obtain ⟨_, -, hlt, -⟩ := ht.ex [] e he
      obtain ⟨f, hf⟩ : ∃ f, t.K = f + 1 := ⟨t.K - 1, by simp at hlt; omega⟩
      rw [hf]
      exact emitted_self hV hd he h
    | cons c p ih =>
      rintro ⟨d, e, hd, he, h⟩
      obtain ⟨ep, hep, hc⟩ := (ht.child c p d).1 hd
      obtain ⟨dp, hdp, -⟩ := ht.ex p ep hep
      exact emitted_child ht hV hd he h t.K [] (by simp) (ih ⟨dp, ep, hdp, hep, hV.cover c p h⟩)

/-- The subtasks of a method that is not pruned are not pruned. -/
theorem ptr_open (ht : t.OK P tot) (hS : ∀ q, LocalW P t S q) {p : Path} {e : EX} (he : t.ex p = some e) {a m c : Nat}
    (hm : .meth p a m ∈ nodeAtoms P t S p) {q : Ptr} (hq : e.ptr a m c = some q) :
    taskAtom q.isPrim (c :: p) q.task ∈ nodeAtoms P t S (c :: p) := by
  obtain ⟨d, hd, hm⟩ := mem_nodeAtoms.1 hm
  simp only [reduceCtorEq, Atom.meth.injEq, true_and, false_and, and_false, exists_false, false_or] at hm
  obtain ⟨e', a', m', y, he', hy, hlt, ⟨rfl, rfl⟩, hs⟩ := hm
  obtain ⟨d', hd', -, -, hexp, -⟩ := ht.ex p e he
  obtain ⟨ch, hch, cs, hcs, hk⟩ := hexp.ptr_cause a m c q hq
  have hnd := (ht.child c p ch).2 ⟨e, he, hch⟩
  obtain ⟨b, j, k⟩ := q
  refine mem_nodeAtoms.2 ⟨ch, hnd, .inr ?_⟩
  cases b with
  | true =>
    have hj : j < ch.prims.length := by
      rw [← hexp.lenP c ch hch]; exact (List.getElem?_eq_some_iff.1 hcs).1
    refine .inl ⟨j, hj, rfl, ?_⟩
    by_contra hf
    have := ((hS (c :: p)).primCause ch j cs k _ c p hnd rfl hj hcs hk (by simpa using hf)).2
    rw [show S (motherFlag p (.meth a m)) = false from hs] at this
    exact absurd this (by simp)
  | false =>
    have hj : j < ch.abss.length := by
      rw [← hexp.lenA c ch hch]; exact (List.getElem?_eq_some_iff.1 hcs).1
    refine .inr (.inl ⟨j, hj, rfl, ?_⟩)
    by_contra hf
    have := ((hS (c :: p)).absCause ch j cs k _ c p hnd rfl hj hcs hk (by simpa using hf)).2
    rw [show S (motherFlag p (.meth a m)) = false from hs] at this
    exact absurd this (by simp)

/-- A primitive task that is not pruned is not pruned in the child that inherits it. -/
theorem prim_open (ht : t.OK P tot) (hS : ∀ q, LocalW P t S q) {p : Path} {e : EX} (he : t.ex p = some e) {i c j k : Nat}
    (hs : S (.prim p i) = false) (hpos : e.posP[i]? = some (c, j, k)) : .prim (c :: p) j ∈ nodeAtoms P t S (c :: p) := by
  obtain ⟨d', hd', -, -, hexp, -⟩ := ht.ex p e he
  obtain ⟨ch, hch, hjj, cs, hcs, hk⟩ := hexp.pos_inh i c j k hpos
  have hnd := (ht.child c p ch).2 ⟨e, he, hch⟩
  have hj : j < ch.prims.length := by
    rw [← hexp.lenP c ch hch]; exact (List.getElem?_eq_some_iff.1 hcs).1
  refine mem_nodeAtoms.2 ⟨ch, hnd, .inr (.inl ⟨j, hj, rfl, ?_⟩)⟩
  by_contra hf
  have := ((hS (c :: p)).primCause ch j cs k _ c p hnd rfl hj hcs hk (by simpa using hf)).2
  rw [show S (motherFlag p (.inh i)) = false from hs] at this
  exact absurd this (by simp)

theorem meth_range (hV : VMFull P t S n V) {p : Path} {a m : Nat} (h : V (.meth p a m) ≠ none) : ∃ d e y, t.nd p = some d ∧
    t.ex p = some e ∧ d.abss[a]? = some y ∧ m < (meths P y).length ∧ S (.meth p a m) = false := by
  obtain ⟨d, hd, hm⟩ := mem_nodeAtoms.1 (hV.meth p a m h)
  simp only [reduceCtorEq, Atom.meth.injEq, true_and, false_and, and_false, exists_false, false_or] at hm
  obtain ⟨e', a', m', y, he', hy, hlt, ⟨rfl, rfl⟩, hs⟩ := hm
  exact ⟨d, e', y, hd, he', hy, hlt, hs⟩

/-- The generation of the decomposition clauses is defined. -/
theorem nodeBad_false (ht : t.OK P tot) (htot : ∀ m < P.numMethods, (tot m).Perm (List.range (P.sub m).length))
    (hall : AllMeth P) (hS : ∀ q, LocalW P t S q) (hV : VMFull P t S n V) {p : Path} {d : ND} {e : EX}
    (hd : t.nd p = some d) (he : t.ex p = some e) : nodeBad P V p d e = false := by
  obtain ⟨d', hd', -, -, hexp, -⟩ := ht.ex p e he
  rw [hd] at hd'
  obtain rfl := Option.some.inj hd'
  have hlen := hexp.lenPos (children_ne ht htot hall he)
  by_contra hb
  have hb : nodeBad P V p d e = true := by simpa using hb
  unfold nodeBad at hb
  simp only [Bool.or_eq_true, List.any_eq_true, List.mem_range, Bool.and_eq_true, Option.isNone_iff_eq_none] at hb
  rcases hb with ⟨i, hi, -, h⟩ | ⟨a, -, -, m, -, hm, c, -, hq, h⟩
  · rw [List.getElem?_eq_none_iff] at h
    omega
  · obtain ⟨q, hq⟩ := Option.isSome_iff_exists.1 hq
    have hm' : V (.meth p a m) ≠ none := by
      intro h0; rw [h0] at hm; exact absurd hm (by simp)
    have := hV.has _ _ (ptr_open ht hS he (hV.meth p a m hm') hq)
    unfold ptrAtom at h
    rw [hq] at h
    exact this h

theorem decompItems_some (ht : t.OK P tot) (htot : ∀ m < P.numMethods, (tot m).Perm (List.range (P.sub m).length))
    (hall : AllMeth P) (hS : ∀ q, LocalW P t S q) (hV : VMFull P t S n V) : ∃ l, decompItems P t V S = some l ∧
    ∀ it, it ∈ l ↔ ∃ p d e, t.nd p = some d ∧ t.ex p = some e ∧ HasTask V p ∧ it ∈ nodeItems P V S p d e := by
  unfold decompItems
  rw [if_neg]
  · refine ⟨_, rfl, fun it => ?_⟩
    rw [List.mem_flatMap]
    constructor
    · rintro ⟨p, hp, h⟩
      obtain ⟨d, e, hd, he, hh⟩ := (mem_emitted ht hV.toVMInv).1 hp
      rw [hd, he] at h
      exact ⟨p, d, e, hd, he, hh, h⟩
    · rintro ⟨p, d, e, hd, he, hh, h⟩
      refine ⟨p, (mem_emitted ht hV.toVMInv).2 ⟨d, e, hd, he, hh⟩, ?_⟩
      rw [hd, he]
      exact h
  · rw [List.any_eq_true]
    rintro ⟨p, hp, h⟩
    obtain ⟨d, e, hd, he, hh⟩ := (mem_emitted ht hV.toVMInv).1 hp
    rw [hd, he] at h
    simp only at h
    rw [nodeBad_false ht htot hall hS hV hd he] at h
    exact absurd h (by simp)

/-- What the clauses say. -/
structure TreeSem (P : Problem) (t : T) (V : VM) (S : Flags) (v : Assignment) : Prop where
  root : tv V v (.abs [] 0)
  node : ∀ p d e, t.nd p = some d → t.ex p = some e → HasTask V p → NodeSem P V S v p d e
  pruned : ∀ p d, t.nd p = some d → ∀ a ∈ taskAtoms p d, a.pruned S = true → ¬ tv V v a

/-- The clauses about decomposition: `addDecompositionClauses`, the initial abstract task, `addPrunedClauses`
(sat_planner.cpp 389-397); `none`: undefined behaviour or exit. -/
def treeItems (P : Problem) (t : T) (V : VM) (S : Flags) : Option (List Item) :=
  match decompItems P t V S with
  | none => none
  | some l => some (l ++ (assertYes (lv V (.abs [] 0)) :: prunedClauses P t V S).map .cl)

theorem mem_prunedClauses (ht : t.OK P tot) (hV : VMFull P t S n V) : (∀ c ∈ prunedClauses P t V S, satClause v c) ↔
    ∀ p d, t.nd p = some d → ∀ a ∈ taskAtoms p d, a.pruned S = true → ¬ tv V v a := by
  unfold prunedClauses
  simp only [List.forall_mem_flatMap]
  have key : ∀ a x, V a = some x → (satClause v (assertNot (x : Int)) ↔ ¬ tv V v a) := by
    intro a x hx
    have := (hV.vars.rng a x hx).1
    rw [tv_some hx, sat_assertNot (by omega)]
    simp
  constructor
  · intro h p d hd a ha hp htv
    have := h p (mem_nodes ht p d hd)
    rw [hd] at this
    simp only [List.forall_mem_map] at this
    obtain ⟨x, hx, hvx⟩ := htv
    refine (key a x hx).1 (this x (mem_varsOf.2 ⟨a, ?_, x, hx, rfl⟩)) ⟨x, hx, hvx⟩
    rw [List.mem_filter]
    exact ⟨List.mem_append_left _ ha, hp⟩
  · intro h p hp
    cases hd : t.nd p with
    | none => simp
    | some d =>
      simp only [List.forall_mem_map]
      intro y hy
      obtain ⟨a, ha, x, hx, rfl⟩ := mem_varsOf.1 hy
      rw [List.mem_filter, List.mem_append] at ha
      rw [key a x hx]
      rcases ha.1 with h' | h'
      · exact h p d hd a h' ha.2
      · -- methods without variables only
        exfalso
        by_cases he : (t.ex p).isSome = true
        · rw [if_pos he] at h'
          obtain ⟨i, m, y, -, -, -, rfl⟩ := mem_methAtoms.1 h'
          obtain ⟨_, _, _, -, -, -, -, hs⟩ := meth_range hV (by rw [hx]; simp)
          have : S (.meth p i m) = true := ha.2
          rw [hs] at this
          exact absurd this (by simp)
        · rw [if_neg he] at h'; simp at h'

/-- The generated constraints are the ones of `TreeSem`. -/
theorem treeItems_holds (ht : t.OK P tot) (htot : ∀ m < P.numMethods, (tot m).Perm (List.range (P.sub m).length))
    (hall : AllMeth P) (hS : ∀ q, LocalW P t S q) (hV : VMFull P t S n V) (hroot : S (.abs [] 0) = false) :
    ∃ l, treeItems P t V S = some l ∧ ∀ v, (∀ it ∈ l, it.Holds v) ↔ TreeSem P t V S v := by
  obtain ⟨l, hl, hmem⟩ := decompItems_some ht htot hall hS hV
  unfold treeItems
  rw [hl]
  refine ⟨_, rfl, fun v => ?_⟩
  obtain ⟨d0, hd0, -, ha0⟩ := ht.root
  have hr : V (.abs [] 0) ≠ none := hV.has [] _ (mem_nodeAtoms.2 ⟨d0, hd0, .inr (.inr (.inl ⟨0, by rw [ha0]; simp, rfl, hroot⟩))⟩)
  obtain ⟨x, hx⟩ := Option.ne_none_iff_exists'.1 hr
  have hyes : satClause v (assertYes (lv V (.abs [] 0))) ↔ tv V v (.abs [] 0) := by
    have := (hV.vars.rng _ x hx).1
    rw [lv_some hx, sat_assertYes (by omega), tv_some hx]
  have hnode : (∀ it ∈ l, it.Holds v) ↔ ∀ p d e, t.nd p = some d → t.ex p = some e → HasTask V p → NodeSem P V S v p d e := by
    have hnone : ∀ p d, t.nd p = some d → V (.none p) ≠ none := fun p d hd =>
      hV.has p _ (mem_nodeAtoms.2 ⟨d, hd, .inl rfl⟩)
    constructor
    · intro h p d e hd he hh
      exact (node_holds hV.vars (hnone p d hd)).1 fun it hit => h it ((hmem it).2 ⟨p, d, e, hd, he, hh, hit⟩)
    · intro h it hit
      obtain ⟨p, d, e, hd, he, hh, hit⟩ := (hmem it).1 hit
      exact (node_holds hV.vars (hnone p d hd)).2 (h p d e hd he hh) it hit
  have hcl : (∀ it ∈ (assertYes (lv V (.abs [] 0)) :: prunedClauses P t V S).map Item.cl, it.Holds v) ↔
      tv V v (.abs [] 0) ∧ ∀ p d, t.nd p = some d → ∀ a ∈ taskAtoms p d, a.pruned S = true → ¬ tv V v a := by
    rw [List.forall_mem_map, List.forall_mem_cons, ← mem_prunedClauses (v := v) ht hV, ← hyes]
    exact Iff.rfl
  rw [List.forall_mem_append, hnode, hcl]
  exact ⟨fun h => ⟨h.2.1, h.1, h.2.2⟩, fun h => ⟨h.node, h.root, h.pruned⟩⟩

/-! ## From models to selections -/

/-- The value of an entry. -/
def tvb (V : VM) (v : Assignment) (a : Atom) : Bool :=
  match V a with
  | some x => v x
  | none => false

theorem tvb_iff {a : Atom} : tvb V v a = true ↔ tv V v a := by
  unfold tvb tv
  cases V a with
  | none => simp
  | some x => simp

/-- What the model chooses at a vertex. -/
def decode (P : Problem) (t : T) (V : VM) (v : Assignment) (p : Path) : Sel :=
  match t.nd p with
  | none => .none
  | some d =>
    match (List.range d.prims.length).find? fun i => tvb V v (.prim p i) with
    | some i => .prim i
    | none =>
      match ((List.range d.abss.length).flatMap fun a => (List.range (meths P (d.abss.getD a 0)).length).map fun m => (a, m)).find?
          fun x => tvb V v (.meth p x.1 x.2) with
      | some x => .abs x.1 x.2
      | none => .none

theorem decode_prim {p : Path} {i : Nat} (h : decode P t V v p = .prim i) : ∃ d, t.nd p = some d ∧ i < d.prims.length ∧
    tv V v (.prim p i) := by
  unfold decode at h
  cases hd : t.nd p with
  | none => rw [hd] at h; simp at h
  | some d =>
    rw [hd] at h
    simp only at h
    cases hf : (List.range d.prims.length).find? fun i => tvb V v (.prim p i) with
    | some j =>
      rw [hf] at h
      obtain rfl := Sel.prim.inj h
      have h2 := List.find?_some hf
      exact ⟨d, rfl, List.mem_range.1 (List.mem_of_find?_eq_some hf), tvb_iff.1 h2⟩
    | none =>
      rw [hf] at h
      simp only at h
      split at h <;> exact absurd h (by simp)

theorem decode_abs {p : Path} {a m : Nat} (h : decode P t V v p = .abs a m) : ∃ d y, t.nd p = some d ∧ d.abss[a]? = some y ∧
    m < (meths P y).length ∧ tv V v (.meth p a m) := by
  unfold decode at h
  cases hd : t.nd p with
  | none => rw [hd] at h; simp at h
  | some d =>
    rw [hd] at h
    simp only at h
    cases hf : (List.range d.prims.length).find? fun i => tvb V v (.prim p i) with
    | some j => rw [hf] at h; simp at h
    | none =>
      rw [hf] at h
      simp only at h
      split at h
      next x hx =>
        obtain ⟨rfl, rfl⟩ := Sel.abs.inj h
        have h1 := List.mem_of_find?_eq_some hx
        have h2 := List.find?_some hx
        obtain ⟨a, ha, h1⟩ := List.mem_flatMap.1 h1
        obtain ⟨m, hm, rfl⟩ := List.mem_map.1 h1
        rw [List.mem_range] at ha hm
        rw [List.getD_eq_getElem _ _ ha] at hm
        exact ⟨d, _, rfl, List.getElem?_eq_getElem ha, hm, tvb_iff.1 h2⟩
      next => exact absurd h (by simp)

theorem decode_none {p : Path} {d : ND} (hd : t.nd p = some d) (h : decode P t V v p = .none) :
    (∀ i < d.prims.length, ¬ tv V v (.prim p i)) ∧ ∀ (a y : Nat), d.abss[a]? = some y → ∀ m < (meths P y).length, ¬ tv V v (.meth p a m) := by
  unfold decode at h
  rw [hd] at h
  simp only at h
  cases hf : (List.range d.prims.length).find? fun i => tvb V v (.prim p i) with
  | some j => rw [hf] at h; simp at h
  | none =>
    rw [hf] at h
    simp only at h
    refine ⟨fun i hi ht => ?_, fun a y hy m hm ht => ?_⟩
    · rw [List.find?_eq_none] at hf
      exact absurd (tvb_iff.2 ht) (by simpa using hf i (List.mem_range.2 hi))
    · split at h
      next => exact absurd h (by simp)
      next hx =>
        rw [List.find?_eq_none] at hx
        have := hx (a, m) (List.mem_flatMap.2 ⟨a, List.mem_range.2 (List.getElem?_eq_some_iff.1 hy).1, List.mem_map.2 ⟨m, by
          rw [getD_of hy]; exact List.mem_range.2 hm, rfl⟩⟩)
        exact absurd (tvb_iff.2 ht) (by simpa using this)

/-- A task is chosen at the vertex. -/
def chosen (sel : Sel) (b : Bool) (i : Nat) : Prop := if b then sel = .prim i else ∃ m, sel = .abs i m

theorem chosen_unique {sel : Sel} {b b' : Bool} {i i' : Nat} (h : chosen sel b i) (h' : chosen sel b' i') : b = b' ∧ i = i' := by
  unfold chosen at h h'
  cases b <;> cases b' <;> simp only [Bool.false_eq_true, if_true, if_false] at h h'
  · obtain ⟨m, h⟩ := h
    obtain ⟨m', h'⟩ := h'
    rw [h] at h'
    simp at h'
    exact ⟨rfl, h'.1⟩
  · obtain ⟨m, h⟩ := h
    rw [h] at h'; simp at h'
  · obtain ⟨m, h'⟩ := h'
    rw [h] at h'; simp at h'
  · rw [h] at h'
    simp at h'
    exact ⟨rfl, h'⟩

theorem tv_open (hs : TreeSem P t V S v) {p : Path} {d : ND} (hd : t.nd p = some d) {a : Atom} (ha : a ∈ taskAtoms p d)
    (h : tv V v a) : a.pruned S = false := by
  by_contra hf
  exact hs.pruned p d hd a ha (by simpa using hf) h

/-- No abstract task is chosen at an unexpanded vertex. -/
def LeavesOff (t : T) (V : VM) (v : Assignment) : Prop :=
  ∀ p d, t.nd p = some d → t.ex p = none → ∀ a < d.abss.length, ¬ tv V v (.abs p a)

theorem leavesOff (hS : ∀ q, LocalOK P t S q) (hs : TreeSem P t V S v) : LeavesOff t V v := fun p d hd he a ha =>
  hs.pruned p d hd _ (mem_taskAtoms.2 (.inr ⟨a, ha, rfl⟩)) ((hS p).unexp d hd he a ha)

/-- Facts about one expanded vertex: the choice of the vertex is the only one. -/
structure AtOK (P : Problem) (t : T) (V : VM) (v : Assignment) (p : Path) (d : ND) : Prop where
  prim : ∀ i < d.prims.length, tv V v (.prim p i) → decode P t V v p = .prim i
  abs : ∀ a < d.abss.length, tv V v (.abs p a) → ∃ m, decode P t V v p = .abs a m
  meth : ∀ a m, tv V v (.meth p a m) → decode P t V v p = .abs a m
  back : ∀ b i, chosen (decode P t V v p) b i → tv V v (taskAtom b p i)

/-- If true tasks are unique at the vertex, everything is. -/
theorem atOK_of_unique (hS : ∀ q, LocalW P t S q) (hV : VMFull P t S n V) (hs : TreeSem P t V S v) (ho : LeavesOff t V v) {p : Path}
    {d : ND} (hd : t.nd p = some d)
    (huniq : ∀ a ∈ taskAtoms p d, ∀ b ∈ taskAtoms p d, tv V v a → tv V v b → a = b) : AtOK P t V v p d := by
  -- a true method has a true task
  have hmeth : ∀ a m, tv V v (.meth p a m) → a < d.abss.length ∧ tv V v (.abs p a) ∧ S (.abs p a) = false ∧
      ∃ y, d.abss[a]? = some y ∧ m < (meths P y).length ∧ ∃ e, t.ex p = some e ∧ NodeSem P V S v p d e := by
    intro a m h
    obtain ⟨d', e, y, hd', he, hy, hlt, hsm⟩ := meth_range hV (tv_ne h)
    rw [hd] at hd'
    obtain rfl := Option.some.inj hd'
    have ha := (List.getElem?_eq_some_iff.1 hy).1
    have hsa : S (.abs p a) = false := by
      by_contra hf
      have := (hS p).absMeth d y a m hd hy (by rw [he]; simp) (by simpa using hf) hlt
      rw [hsm] at this
      exact absurd this (by simp)
    have hva : V (.abs p a) ≠ none := hV.has p _ (mem_nodeAtoms.2 ⟨d, hd, .inr (.inr (.inl ⟨a, ha, rfl, hsa⟩))⟩)
    have hsem := hs.node p d e hd he (.inr ⟨a, hva⟩)
    exact ⟨ha, (hsem.meth a y hy hva m hlt h).1, hsa, y, hy, hlt, e, he, hsem⟩
  have hprim : ∀ i < d.prims.length, tv V v (.prim p i) → decode P t V v p = .prim i := by
    intro i hi h
    cases hdec : decode P t V v p with
    | none => exact absurd h ((decode_none hd hdec).1 i hi)
    | prim j =>
      obtain ⟨d', hd', hj, htj⟩ := decode_prim hdec
      rw [hd] at hd'
      obtain rfl := Option.some.inj hd'
      have := huniq _ (mem_taskAtoms.2 (.inl ⟨i, hi, rfl⟩)) _ (mem_taskAtoms.2 (.inl ⟨j, hj, rfl⟩)) h htj
      simp only [Atom.prim.injEq, true_and] at this
      rw [this]
    | abs a m =>
      obtain ⟨d', y, hd', hy, hm, htm⟩ := decode_abs hdec
      obtain ⟨ha, hta, -⟩ := hmeth a m htm
      have := huniq _ (mem_taskAtoms.2 (.inl ⟨i, hi, rfl⟩)) _ (mem_taskAtoms.2 (.inr ⟨a, ha, rfl⟩)) h hta
      exact absurd this (by simp)
  have hmeth' : ∀ a m, tv V v (.meth p a m) → decode P t V v p = .abs a m := by
    intro a m h
    obtain ⟨ha, hta, hsa, y, hy, hm, e, he, hsem⟩ := hmeth a m h
    cases hdec : decode P t V v p with
    | none => exact absurd h ((decode_none hd hdec).2 a y hy m hm)
    | prim j =>
      obtain ⟨d', hd', hj, htj⟩ := decode_prim hdec
      rw [hd] at hd'
      obtain rfl := Option.some.inj hd'
      have := huniq _ (mem_taskAtoms.2 (.inl ⟨j, hj, rfl⟩)) _ (mem_taskAtoms.2 (.inr ⟨a, ha, rfl⟩)) htj hta
      exact absurd this (by simp)
    | abs a' m' =>
      obtain ⟨d', y', hd', hy', hm', htm'⟩ := decode_abs hdec
      rw [hd] at hd'
      obtain rfl := Option.some.inj hd'
      obtain ⟨ha', hta', hsa', -⟩ := hmeth a' m' htm'
      have := hsem.amoM _ (mem_methAtoms.2 ⟨a, m, y, hy, hm, by simp [hsa], rfl⟩) _
        (mem_methAtoms.2 ⟨a', m', y', hy', hm', by simp [hsa'], rfl⟩) h htm'
      simp only [Atom.meth.injEq, true_and] at this
      rw [this.1, this.2]
  refine ⟨hprim, fun a ha h => ?_, hmeth', fun b i h => ?_⟩
  · have hex : t.ex p ≠ none := fun he => ho p d hd he a ha h
    obtain ⟨e, he⟩ := Option.ne_none_iff_exists'.1 hex
    have hsem := hs.node p d e hd he (.inr ⟨a, tv_ne h⟩)
    obtain ⟨m, hm, htm⟩ := hsem.abs a _ (List.getElem?_eq_getElem ha) h
    exact ⟨m, hmeth' a m htm⟩
  · unfold chosen at h
    cases b with
    | true =>
      rw [if_pos rfl] at h
      obtain ⟨_, _, _, h⟩ := decode_prim h
      exact h
    | false =>
      rw [if_neg (by simp)] at h
      obtain ⟨m, h⟩ := h
      obtain ⟨_, y, _, hy, hm, htm⟩ := decode_abs h
      exact (hmeth i m htm).2.1

/-- Where a true task of a child comes from. -/
theorem child_true (ht : t.OK P tot) (hS : ∀ q, LocalW P t S q) (hV : VMFull P t S n V) (hs : TreeSem P t V S v) {c : Nat}
    {p : Path} {d ch : ND} {e : EX} (hd : t.nd p = some d) (he : t.ex p = some e) (hch : e.children[c]? = some ch)
    (hat : AtOK P t V v p d) {b : Bool} {j : Nat} (hj : j < (ch.tasks b).length) (h : tv V v (taskAtom b (c :: p) j)) :
    (∃ i k, b = true ∧ decode P t V v p = .prim i ∧ e.posP[i]? = some (c, j, k)) ∨
    ∃ a m k, decode P t V v p = .abs a m ∧ e.ptr a m c = some ⟨b, j, k⟩ := by
  have hhas : HasTask V (c :: p) := by
    cases b with
    | true => exact .inl ⟨j, tv_ne h⟩
    | false => exact .inr ⟨j, tv_ne h⟩
  have hsem := hs.node p d e hd he (hV.cover c p hhas)
  obtain ⟨k, x, hx, hf, hl⟩ := hsem.cause c ch hch b j hj h
  obtain ⟨d', hd', -, -, hexp, -⟩ := ht.ex p e he
  rw [hd] at hd'
  obtain rfl := Option.some.inj hd'
  have hlen : (ch.causes b).length = (ch.tasks b).length := by
    cases b with
    | true => exact hexp.lenP c ch hch
    | false => exact hexp.lenA c ch hch
  have hcs : (ch.causes b)[j]? = some (ch.causes b)[j] := List.getElem?_eq_getElem (by omega)
  rw [getD_of hcs] at hx
  have hmem := cause_mother ht hS he hd hch hcs hx hf
  have htv := (lt'_iff hV.vars (hV.has p _ hmem)).1 hl
  cases x with
  | meth a m =>
    right
    exact ⟨a, m, k, hat.meth a m htv, (hexp.cause_ptr c ch b j _ k a m hch hcs hx).1⟩
  | inh i =>
    left
    obtain ⟨rfl, hpos⟩ := hexp.inh_pos c ch b j _ k i hch hcs hx
    have hne : e.children ≠ [] := fun h0 => by rw [h0] at hch; exact absurd hch (by simp)
    have hi : i < d.prims.length := by
      rw [← hexp.lenPos hne]; exact (List.getElem?_eq_some_iff.1 hpos).1
    exact ⟨i, k, rfl, hat.prim i hi htv, hpos⟩

/-- At every vertex the choice is unique. -/
theorem atOK (ht : t.OK P tot) (hS : ∀ q, LocalW P t S q) (hV : VMFull P t S n V) (hs : TreeSem P t V S v) (ho : LeavesOff t V v) :
    ∀ p d, t.nd p = some d → AtOK P t V v p d := by
  intro p
  induction p with
  | nil =>
    intro d hd
    refine atOK_of_unique hS hV hs ho hd ?_
    obtain ⟨d', hd', hp, ha⟩ := ht.root
    rw [hd] at hd'
    obtain rfl := Option.some.inj hd'
    intro a h1 b h2 _ _
    rw [mem_taskAtoms, hp, ha] at h1 h2
    simp only [List.length_nil, Nat.not_lt_zero, false_and, exists_false, List.length_cons, Nat.zero_add, false_or] at h1 h2
    obtain ⟨i, hi, rfl⟩ := h1
    obtain ⟨j, hj, rfl⟩ := h2
    obtain rfl : i = j := by omega
    rfl
  | cons c p ih =>
    intro ch hd
    obtain ⟨e, he, hch⟩ := (ht.child c p ch).1 hd
    obtain ⟨d, hdp, -⟩ := ht.ex p e he
    have hat := ih d hdp
    refine atOK_of_unique hS hV hs ho hd ?_
    have hform : ∀ a ∈ taskAtoms (c :: p) ch, ∃ b j, j < (ch.tasks b).length ∧ a = taskAtom b (c :: p) j := by
      intro a ha
      rcases mem_taskAtoms.1 ha with ⟨i, hi, rfl⟩ | ⟨i, hi, rfl⟩
      · exact ⟨true, i, hi, rfl⟩
      · exact ⟨false, i, hi, rfl⟩
    intro a ha a' ha' hta hta'
    obtain ⟨b, j, hj, rfl⟩ := hform a ha
    obtain ⟨b', j', hj', rfl⟩ := hform a' ha'
    rcases child_true ht hS hV hs hdp he hch hat hj hta with ⟨i, k, rfl, h1, h2⟩ | ⟨x, m, k, h1, h2⟩ <;>
      rcases child_true ht hS hV hs hdp he hch hat hj' hta' with ⟨i', k', rfl, h1', h2'⟩ | ⟨x', m', k', h1', h2'⟩
    · rw [h1] at h1'
      obtain rfl := Sel.prim.inj h1'
      rw [h2] at h2'
      simp only [Option.some.injEq, Prod.mk.injEq, true_and] at h2'
      rw [h2'.1]
    · rw [h1] at h1'; exact absurd h1' (by simp)
    · rw [h1] at h1'; exact absurd h1' (by simp)
    · rw [h1] at h1'
      obtain ⟨rfl, rfl⟩ := Sel.abs.inj h1'
      rw [h2] at h2'
      simp only [Option.some.injEq, Ptr.mk.injEq] at h2'
      rw [h2'.1, h2'.2.1]

/-- The model of the clauses is a selection. -/
theorem decode_consistent (ht : t.OK P tot) (htot : ∀ m < P.numMethods, (tot m).Perm (List.range (P.sub m).length))
    (hall : AllMeth P) (hS : ∀ q, LocalW P t S q) (hV : VMFull P t S n V) (hs : TreeSem P t V S v) (ho : LeavesOff t V v) :
    Consistent P t (decode P t V v) := by
  have hat := atOK ht hS hV hs ho
  have hnode : ∀ p b i, chosen (decode P t V v p) b i → ∃ d, t.nd p = some d ∧ i < (d.tasks b).length := by
    intro p b i h
    unfold chosen at h
    cases b with
    | true =>
      rw [if_pos rfl] at h
      obtain ⟨d, hd, hi, -⟩ := decode_prim h
      exact ⟨d, hd, hi⟩
    | false =>
      rw [if_neg (by simp)] at h
      obtain ⟨m, h⟩ := h
      obtain ⟨d, y, hd, hy, -⟩ := decode_abs h
      exact ⟨d, hd, (List.getElem?_eq_some_iff.1 hy).1⟩
  have hchosen : ∀ p, decode P t V v p ≠ .none → ∃ b i, chosen (decode P t V v p) b i := by
    intro p h
    cases hx : decode P t V v p with
    | none => exact absurd hx h
    | prim i => exact ⟨true, i, rfl⟩
    | abs a m => exact ⟨false, a, m, rfl⟩
  -- what is chosen at a child comes from the mother
  have hfrom : ∀ c p b j, chosen (decode P t V v (c :: p)) b j → ∃ e, t.ex p = some e ∧
      ((∃ i k, b = true ∧ decode P t V v p = .prim i ∧ e.posP[i]? = some (c, j, k)) ∨
      ∃ a m k, decode P t V v p = .abs a m ∧ e.ptr a m c = some ⟨b, j, k⟩) := by
    intro c p b j h
    obtain ⟨ch, hch, hj⟩ := hnode _ b j h
    obtain ⟨e, he, hce⟩ := (ht.child c p ch).1 hch
    obtain ⟨d, hd, -⟩ := ht.ex p e he
    exact ⟨e, he, child_true ht hS hV hs hd he hce (hat p d hd) hj ((hat _ ch hch).back b j h)⟩
  -- what is true is chosen
  have hto : ∀ p d b i, t.nd p = some d → i < (d.tasks b).length → tv V v (taskAtom b p i) → chosen (decode P t V v p) b i := by
    intro p d b i hd hi h
    cases b with
    | true => exact (hat p d hd).prim i hi h
    | false => exact (hat p d hd).abs i hi h
  refine ⟨?_, ?_, ?_, ?_, ?_, ?_⟩
  · obtain ⟨d, hd, -, ha⟩ := ht.root
    exact (hat [] d hd).abs 0 (by rw [ha]; simp) hs.root
  · intro p i h
    obtain ⟨d, hd, hi, -⟩ := decode_prim h
    exact ⟨d, _, hd, List.getElem?_eq_getElem hi⟩
  · intro p a m h
    obtain ⟨d, y, hd, hy, hm, htm⟩ := decode_abs h
    obtain ⟨d', e, y', hd', he, -, -, -⟩ := meth_range hV (tv_ne htm)
    exact ⟨d, e, _, hd, he, y, hy, List.getElem?_eq_getElem hm⟩
  · intro p c h
    by_contra hne
    obtain ⟨b, j, hc⟩ := hchosen _ hne
    obtain ⟨e, -, ⟨i, k, -, h', -⟩ | ⟨a, m, k, h', -⟩⟩ := hfrom c p b j hc
    · rw [h] at h'; exact absurd h' (by simp)
    · rw [h] at h'; exact absurd h' (by simp)
  · intro p i e h he
    obtain ⟨d, hd, hi, hti⟩ := decode_prim h
    obtain ⟨d', hd', -, -, hexp, -⟩ := ht.ex p e he
    rw [hd] at hd'
    obtain rfl := Option.some.inj hd'
    have hlen := hexp.lenPos (children_ne ht htot hall he)
    obtain ⟨⟨c, j, k⟩, hpos⟩ : ∃ r, e.posP[i]? = some r := ⟨_, List.getElem?_eq_getElem (by omega)⟩
    have hsem := hs.node p d e hd he (.inl ⟨i, tv_ne hti⟩)
    have hopen := prim_open ht hS he (tv_open hs hd (mem_taskAtoms.2 (.inl ⟨i, hi, rfl⟩)) hti) hpos
    have htc := (lt'_iff hV.vars (hV.has _ _ hopen)).1 (hsem.prim i hi hti c j k hpos).1
    obtain ⟨ch, hch, -, cs, hcs, -⟩ := hexp.pos_inh i c j k hpos
    have hj : j < ch.prims.length := by
      rw [← hexp.lenP c ch hch]; exact (List.getElem?_eq_some_iff.1 hcs).1
    refine ⟨c, j, k, hpos, hto (c :: p) ch true j ((ht.child c p ch).2 ⟨e, he, hch⟩) hj htc, fun c' hc' => ?_⟩
    by_contra hne
    obtain ⟨b, j', hc⟩ := hchosen _ hne
    obtain ⟨e', he', ⟨i', k', -, h', hpos'⟩ | ⟨a, m, k', h', -⟩⟩ := hfrom c' p b j' hc
    · rw [h] at h'
      obtain rfl := Sel.prim.inj h'
      rw [he] at he'
      obtain rfl := Option.some.inj he'
      rw [hpos] at hpos'
      simp only [Option.some.injEq, Prod.mk.injEq] at hpos'
      exact hc' hpos'.1.symm
    · rw [h] at h'; exact absurd h' (by simp)
  · intro p a m e h he c
    obtain ⟨d, y, hd, hy, hm, htm⟩ := decode_abs h
    refine ⟨fun hq => ?_, fun q hq => ?_⟩
    · by_contra hne
      obtain ⟨b, j', hc⟩ := hchosen _ hne
      obtain ⟨e', he', ⟨i', k', -, h', hpos'⟩ | ⟨a', m', k', h', hq'⟩⟩ := hfrom c p b j' hc
      · rw [h] at h'; exact absurd h' (by simp)
      · rw [h] at h'
        obtain ⟨rfl, rfl⟩ := Sel.abs.inj h'
        rw [he] at he'
        obtain rfl := Option.some.inj he'
        rw [hq] at hq'
        exact absurd hq' (by simp)
    · obtain ⟨d', hd', -, -, hexp, -⟩ := ht.ex p e he
      rw [hd] at hd'
      obtain rfl := Option.some.inj hd'
      obtain ⟨ch, hch, cs, hcs, -⟩ := hexp.ptr_cause a m c q hq
      have hta : tv V v (.abs p a) := (hat p d hd).back false a (by rw [h]; exact ⟨m, rfl⟩)
      have hsem := hs.node p d e hd he (.inr ⟨a, tv_ne hta⟩)
      have hl := (hsem.meth a y hy (tv_ne hta) m hm htm).2 c (List.getElem?_eq_some_iff.1 hch).1
      have hpa : ptrAtom e p a m c = taskAtom q.isPrim (c :: p) q.task := by unfold ptrAtom; rw [hq]
      rw [hpa] at hl
      have htc := (lt'_iff hV.vars (hV.has _ _ (ptr_open ht hS he (hV.meth p a m (tv_ne htm)) hq))).1 hl
      have hlen : (ch.causes q.isPrim).length = (ch.tasks q.isPrim).length := by
        cases q.isPrim with
        | true => exact hexp.lenP c ch hch
        | false => exact hexp.lenA c ch hch
      exact hto (c :: p) ch q.isPrim q.task ((ht.child c p ch).2 ⟨e, he, hch⟩)
        (by rw [← hlen]; exact (List.getElem?_eq_some_iff.1 hcs).1) htc

/-! ## From selections to models -/

/-- What a selection makes true. -/
def usedAtom (sel : Path → Sel) : Atom → Prop
  | .none p => sel p = .none
  | .prim p i => sel p = .prim i
  | .abs p a => ∃ m, sel p = .abs a m
  | .meth p a m => sel p = .abs a m

open Classical in
/-- The model of a selection. -/
noncomputable def modelOf (V : VM) (sel : Path → Sel) : Assignment := fun x => decide (∃ a, V a = some x ∧ usedAtom sel a)

theorem tv_modelOf (hV : VarsOK n V) {sel : Path → Sel} {a : Atom} : tv V (modelOf V sel) a ↔ V a ≠ none ∧ usedAtom sel a := by
  unfold tv modelOf
  constructor
  · rintro ⟨x, hx, h⟩
    simp only [decide_eq_true_eq] at h
    obtain ⟨b, hb, hu⟩ := h
    obtain rfl := hV.inj _ _ x hb hx
    exact ⟨by rw [hx]; simp, hu⟩
  · rintro ⟨hne, hu⟩
    obtain ⟨x, hx⟩ := Option.ne_none_iff_exists'.1 hne
    exact ⟨x, hx, by simp only [decide_eq_true_eq]; exact ⟨a, hx, hu⟩⟩

/-- What an unpruned selection uses has variables. -/
theorem used_var (hV : VMFull P t S n V) {sel : Path → Sel} (hs : Consistent P t sel) (hu : Unpruned t S sel) :
    (∀ p i, sel p = .prim i → V (.prim p i) ≠ none) ∧
    ∀ p a m, sel p = .abs a m → V (.abs p a) ≠ none ∧ V (.meth p a m) ≠ none := by
  refine ⟨fun p i h => ?_, fun p a m h => ?_⟩
  · obtain ⟨d, x, hd, hx⟩ := hs.prim p i h
    exact hV.has p _ (mem_nodeAtoms.2 ⟨d, hd, .inr (.inl ⟨i, (List.getElem?_eq_some_iff.1 hx).1, rfl, hu (.prim p i) h⟩)⟩)
  · obtain ⟨d, e, x, hd, he, y, hy, hm⟩ := hs.abs p a m h
    refine ⟨hV.has p _ (mem_nodeAtoms.2 ⟨d, hd, .inr (.inr (.inl ⟨a, (List.getElem?_eq_some_iff.1 hy).1, rfl, hu (.abs p a) ⟨m, h⟩⟩))⟩),
      hV.has p _ (mem_nodeAtoms.2 ⟨d, hd, .inr (.inr (.inr ⟨e, a, m, y, he, hy, (List.getElem?_eq_some_iff.1 hm).1, rfl,
        hu (.meth p a m) h⟩))⟩)⟩

/-- A selection that uses nothing pruned satisfies the clauses. -/
theorem modelOf_sem (ht : t.OK P tot) (hS : ∀ q, LocalW P t S q) (hV : VMFull P t S n V) {sel : Path → Sel}
    (hs : Consistent P t sel) (hu : Unpruned t S sel) : TreeSem P t V S (modelOf V sel) := by
  have htv : ∀ a, tv V (modelOf V sel) a ↔ V a ≠ none ∧ usedAtom sel a := fun a => tv_modelOf hV.vars
  obtain ⟨hvp, hva⟩ := used_var hV hs hu
  have hnone : ∀ p d, t.nd p = some d → V (.none p) ≠ none := fun p d hd =>
    hV.has p _ (mem_nodeAtoms.2 ⟨d, hd, .inl rfl⟩)
  have hlt : ∀ a, V a ≠ none → usedAtom sel a → lt' V (modelOf V sel) a := fun a h1 h2 =>
    (lt'_iff hV.vars h1).2 ((htv a).2 ⟨h1, h2⟩)
  refine ⟨?_, fun p d e hd he _ => ?_, fun p d hd a ha hp h => ?_⟩
  · obtain ⟨m, hm⟩ := hs.root
    exact (htv _).2 ⟨(hva [] 0 m hm).1, m, hm⟩
  · have hexc : ∀ c < e.children.length, ∃ ch, e.children[c]? = some ch ∧ t.nd (c :: p) = some ch := by
      intro c hc
      exact ⟨_, List.getElem?_eq_getElem hc, (ht.child c p _).2 ⟨e, he, List.getElem?_eq_getElem hc⟩⟩
    refine ⟨fun a ha b hb h1 h2 => ?_, fun a ha b hb h1 h2 => ?_, fun i hi h c j k hpos => ?_, fun a y hy hne m hm h => ?_,
      fun a y hy h => ?_, fun c ch hch b j hj h => ?_, fun h => ⟨fun a ha h' => ?_, fun c hc => ?_⟩⟩
    · have h1 := ((htv a).1 h1).2
      have h2 := ((htv b).1 h2).2
      rcases mem_taskAtoms.1 ha with ⟨i, -, rfl⟩ | ⟨i, -, rfl⟩ <;> rcases mem_taskAtoms.1 hb with ⟨j, -, rfl⟩ | ⟨j, -, rfl⟩ <;>
        simp only [usedAtom] at h1 h2
      · rw [h1] at h2; rw [Sel.prim.inj h2]
      · rw [h1] at h2; exact absurd h2 (by simp)
      · rw [h2] at h1; exact absurd h1 (by simp)
      · obtain ⟨m, h1⟩ := h1
        obtain ⟨m', h2⟩ := h2
        rw [h1] at h2; rw [(Sel.abs.inj h2).1]
    · have h1 := ((htv a).1 h1).2
      have h2 := ((htv b).1 h2).2
      obtain ⟨i, m, _, -, -, -, rfl⟩ := mem_methAtoms.1 ha
      obtain ⟨i', m', _, -, -, -, rfl⟩ := mem_methAtoms.1 hb
      simp only [usedAtom] at h1 h2
      rw [h1] at h2
      rw [(Sel.abs.inj h2).1, (Sel.abs.inj h2).2]
    · have h : sel p = .prim i := ((htv _).1 h).2
      obtain ⟨c', j', k', hpos', h1, h2⟩ := hs.prim_child p i e h he
      rw [hpos] at hpos'
      simp only [Option.some.injEq, Prod.mk.injEq] at hpos'
      obtain ⟨rfl, rfl, rfl⟩ := hpos'
      refine ⟨hlt _ (hvp _ _ h1) h1, fun c' hc' hne => ?_⟩
      obtain ⟨ch, -, hnd⟩ := hexc c' hc'
      exact hlt _ (hnone _ ch hnd) (h2 c' hne)
    · have h : sel p = .abs a m := ((htv _).1 h).2
      refine ⟨(htv _).2 ⟨hne, m, h⟩, fun c hc => ?_⟩
      obtain ⟨ch, hch, hnd⟩ := hexc c hc
      have hab := hs.abs_child p a m e h he c
      unfold ptrAtom
      cases hq : e.ptr a m c with
      | none => exact hlt _ (hnone _ ch hnd) (hab.1 hq)
      | some q =>
        have := hab.2 q hq
        simp only
        obtain ⟨b, j, k⟩ := q
        cases b with
        | true =>
          have : sel (c :: p) = .prim j := by simpa using this
          exact hlt _ (hvp _ _ this) this
        | false =>
          have : ∃ m', sel (c :: p) = .abs j m' := by simpa using this
          obtain ⟨m', this⟩ := this
          exact hlt _ (hva _ _ _ this).1 ⟨m', this⟩
    · obtain ⟨m, h⟩ := ((htv _).1 h).2
      obtain ⟨d', e', x, hd', -, y', hy', hm⟩ := hs.abs p a m h
      rw [hd] at hd'
      obtain rfl := Option.some.inj hd'
      rw [hy] at hy'
      obtain rfl := Option.some.inj hy'
      exact ⟨m, (List.getElem?_eq_some_iff.1 hm).1, (htv _).2 ⟨(hva p a m h).2, h⟩⟩
    · have h := ((htv _).1 h).2
      have hnd := (ht.child c p ch).2 ⟨e, he, hch⟩
      have hmo : ∀ x, Used t sel (motherFlag p x) → lt' V (modelOf V sel) (motherAtom p x) := by
        intro x hx
        cases x with
        | meth a m => exact hlt _ (hva p a m hx).2 hx
        | inh i => exact hlt _ (hvp p i hx) hx
      cases b with
      | true =>
        obtain ⟨ch', cs, k, x, hch', hcs, hk, hu', hx⟩ := (active_cause ht hs (c := c) (q := p)).1 j h
        rw [hnd] at hch'
        obtain rfl := Option.some.inj hch'
        refine ⟨k, x, ?_, hu _ hu', hmo x hx⟩
        show (ch.causesP.getD j [])[k]? = some x
        rw [getD_of hcs]; exact hk
      | false =>
        obtain ⟨m, h⟩ := h
        obtain ⟨ch', cs, k, x, hch', hcs, hk, hu', hx⟩ := (active_cause ht hs (c := c) (q := p)).2 j m h
        rw [hnd] at hch'
        obtain rfl := Option.some.inj hch'
        refine ⟨k, x, ?_, hu _ hu', hmo x hx⟩
        show (ch.causesA.getD j [])[k]? = some x
        rw [getD_of hcs]; exact hk
    · have h : sel p = .none := ((htv _).1 h).2
      have h' := ((htv _).1 h').2
      rcases mem_taskAtoms.1 ha with ⟨i, -, rfl⟩ | ⟨i, -, rfl⟩ <;> simp only [usedAtom, h] at h'
      · exact absurd h' (by simp)
      · obtain ⟨_, h'⟩ := h'
        exact absurd h' (by simp)
    · have h : sel p = .none := ((htv _).1 h).2
      obtain ⟨ch, -, hnd⟩ := hexc c hc
      exact hlt _ (hnone _ ch hnd) (hs.none_child p c h)
  · have h := ((htv _).1 h).2
    rcases mem_taskAtoms.1 ha with ⟨i, -, rfl⟩ | ⟨i, -, rfl⟩
    · have := hu (.prim p i) h
      rw [show S (.prim p i) = true from hp] at this
      exact absurd this (by simp)
    · have := hu (.abs p i) h
      rw [show S (.abs p i) = true from hp] at this
      exact absurd this (by simp)

end

end Verif.Pdt
