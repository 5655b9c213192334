import Verif.ToStack

/-! # Problems whose initial task network consists of parallel sequences

All methods are totally ordered, except those of the initial task, which is not a subtask of any method.  A solution is an
interleaving of decompositions of the subtasks of a method of the initial task, each of which has one linearisation.  This file
is about the specification only. -/

namespace Verif.Htn

open Relation

/-- Every method is totally ordered in the order of its subtasks, except those of the initial task; this is not a subtask. -/
structure ParSeq (P : Problem) : Prop where
  tot : ∀ m < P.numMethods, P.head m ≠ P.init → (List.range (P.sub m).length).Pairwise fun i j => TransGen (P.OrdRel m) i j
  noInit : ∀ m < P.numMethods, P.init ∉ P.sub m

/-- The subtasks in the order of their numbers. -/
abbrev rtot (P : Problem) (m : Nat) : List Nat := List.range (P.sub m).length

theorem tasksOf_rtot (P : Problem) (m : Nat) : tasksOf P (rtot P) m = P.sub m := by
  apply List.ext_getElem?
  intro i
  rw [tasksOf, rtot, List.getElem?_map]
  rcases Nat.lt_or_ge i (P.sub m).length with hi | hi
  · rw [List.getElem?_range hi, Option.map_some, List.getElem?_eq_getElem hi, Option.getD_some]
  · rw [List.getElem?_eq_none (by simpa using hi), List.getElem?_eq_none hi]
    rfl

/-! ## The problem in which the methods of the initial task are totally ordered, too -/

/-- All pairs of smaller and larger numbers. -/
def allPairs (n : Nat) : List (Nat × Nat) :=
  (List.range n).flatMap fun i => (List.range n).filterMap fun j => if i < j then some (i, j) else none

theorem mem_allPairs {n i j : Nat} : (i, j) ∈ allPairs n ↔ i < j ∧ j < n := by
  simp only [allPairs, List.mem_flatMap, List.mem_range, List.mem_filterMap]
  constructor
  · rintro ⟨a, ha, b, hb, h⟩
    split at h
    · cases h
      omega
    · cases h
  · rintro ⟨h1, h2⟩
    exact ⟨i, by omega, j, h2, by rw [if_pos h1]⟩

/-- The methods of the initial task get a total order. -/
def Problem.serial (P : Problem) : Problem :=
  { P with ord := fun m => if P.head m = P.init then allPairs (P.sub m).length else P.ord m }

variable {P : Problem}

theorem serial_wf (hP : P.WF) : P.serial.WF where
  ord_lt m hm i j h := by
    by_cases e : P.head m = P.init
    · simp only [Problem.serial, if_pos e, mem_allPairs] at h
      simp only [Problem.serial]
      omega
    · simp only [Problem.serial, if_neg e] at h
      exact hP.ord_lt m hm i j h
  ord_acyclic m hm := by
    by_cases e : P.head m = P.init
    · refine ⟨id, fun i j h => ?_⟩
      simp only [Problem.serial, if_pos e, mem_allPairs] at h
      exact h.1
    · obtain ⟨r, hr⟩ := hP.ord_acyclic m hm
      refine ⟨r, fun i j h => ?_⟩
      simp only [Problem.serial, if_neg e] at h
      exact hr i j h
  sub_ne := hP.sub_ne
  head_abs := hP.head_abs
  init_abs := hP.init_abs
  prec_lt := hP.prec_lt
  add_lt := hP.add_lt
  del_lt := hP.del_lt
  s0_lt := hP.s0_lt
  goal_lt := hP.goal_lt

theorem serial_ordRel {m : Nat} (e : P.head m ≠ P.init) : P.serial.OrdRel m = P.OrdRel m := by
  funext i j
  simp only [Problem.OrdRel, Problem.serial, if_neg e]

theorem serial_tot (hq : ParSeq P) : TotOK P.serial (rtot P) := by
  intro m hm
  refine ⟨List.Perm.refl _, ?_⟩
  by_cases e : P.head m = P.init
  · rw [List.pairwise_iff_getElem]
    intro i j hi hj hij
    simp only [List.getElem_range]
    refine .single ?_
    simp only [Problem.OrdRel, Problem.serial, if_pos e, mem_allPairs]
    simp only [List.length_range] at hj
    exact ⟨hij, hj⟩
  · rw [serial_ordRel e]
    exact hq.tot m hm e

theorem serial_valid {t : Nat} {tr : Tree} : Valid P t tr ↔ Valid P.serial t tr := by
  constructor
  · intro h
    induction h with
    | leaf h => exact .leaf h
    | node hm _ ih => exact .node (P := P.serial) hm ih
  · intro h
    induction h with
    | leaf h => exact .leaf h
    | node hm _ ih => exact .node (P := P) hm ih

theorem serial_leafAt {tr : Tree} {p : List Nat} {a : Nat} : LeafAt P tr p a ↔ LeafAt P.serial tr p a := by
  constructor
  · intro h
    induction h with
    | here => exact .here
    | child hi _ ih => exact .child (P := P.serial) hi ih
  · intro h
    induction h with
    | here => exact .here
    | child hi _ ih => exact .child (P := P) hi ih

theorem leafAt_cons {m i : Nat} {cs : Nat → Tree} {q : List Nat} {a : Nat} :
    LeafAt P (.node m cs) (i :: q) a ↔ i < (P.sub m).length ∧ LeafAt P (cs i) q a := by
  rw [leafAt_node]
  constructor
  · rintro ⟨i', q', e, h1, h2⟩
    cases e
    exact ⟨h1, h2⟩
  · rintro ⟨h1, h2⟩
    exact ⟨i, q, rfl, h1, h2⟩

/-- Below the initial task, the constraints are the same. -/
theorem serial_before (hq : ParSeq P) {t : Nat} {tr : Tree} (hv : Valid P t tr) (ht : t ≠ P.init) : ∀ {p q : List Nat} {a b : Nat},
    LeafAt P tr p a → LeafAt P tr q b → (Before P tr p q ↔ Before P.serial tr p q) := by
  induction hv with
  | leaf h =>
    intro p q a b _ _
    constructor <;> intro h <;> cases h
  | @node m cs hm hc ih =>
    intro p q a b hp hq'
    obtain ⟨i, p', rfl, hi, hp⟩ := leafAt_node.1 hp
    obtain ⟨j, q', rfl, hj, hq'⟩ := leafAt_node.1 hq'
    rw [before_node_iff, before_node_iff, serial_ordRel ht]
    refine or_congr_left (and_congr_right fun e => ?_)
    subst e
    have hmem : (P.sub m)[i] ≠ P.init := fun e => hq.noInit m hm (e ▸ List.getElem_mem hi)
    exact ih i _ (List.getElem?_eq_getElem hi) hmem hp hq'

theorem serial_linearises (hq : ParSeq P) {t : Nat} {tr : Tree} (hv : Valid P t tr) (ht : t ≠ P.init) {occ : List (List Nat)}
    {π : List Nat} : Linearises P tr occ π ↔ Linearises P.serial tr occ π := by
  have key : (∀ p, p ∈ occ ↔ ∃ a, LeafAt P tr p a) →
      (occ.Pairwise (fun p q => ¬ Before P tr q p) ↔ occ.Pairwise (fun p q => ¬ Before P.serial tr q p)) := by
    intro hall
    constructor <;> intro h <;> refine h.imp_of_mem fun {p q} hp hq' hn hb => hn ?_
    · obtain ⟨a, ha⟩ := (hall p).1 hp
      obtain ⟨b, hb'⟩ := (hall q).1 hq'
      exact (serial_before hq hv ht hb' ha).2 hb
    · obtain ⟨a, ha⟩ := (hall p).1 hp
      obtain ⟨b, hb'⟩ := (hall q).1 hq'
      exact (serial_before hq hv ht hb' ha).1 hb
  constructor
  · intro h
    refine ⟨h.nodup, fun p => ?_, (key h.all).1 h.order, h.labels.imp fun _ _ => serial_leafAt.1⟩
    rw [h.all]
    exact exists_congr fun a => serial_leafAt
  · intro h
    have hall : ∀ p, p ∈ occ ↔ ∃ a, LeafAt P tr p a := fun p => by
      rw [h.all]
      exact exists_congr fun a => serial_leafAt.symm
    exact ⟨h.nodup, hall, (key hall).2 h.order, h.labels.imp fun _ _ => serial_leafAt.2⟩

/-! ## Interleavings -/

/-- The entries of one sequence. -/
def projOf {α : Type} (L : List (Nat × α)) (i : Nat) : List α := (L.filter fun x => x.1 == i).map Prod.snd

/-- `L` interleaves the lists `ys 0, ..., ys (n - 1)`: each of them occurs in its order, and no entry of `j` is before an entry of
`i` if `i` is ordered before `j`. -/
structure Shuffle (ord : Nat → Nat → Prop) (n : Nat) (ys : Nat → List Nat) (L : List (Nat × Nat)) : Prop where
  lt : ∀ x ∈ L, x.1 < n
  proj : ∀ i < n, projOf L i = ys i
  pw : L.Pairwise fun x y => ¬ ord y.1 x.1

theorem projOf_cons_self {α : Type} (L : List (Nat × α)) (i : Nat) (a : α) : projOf ((i, a) :: L) i = a :: projOf L i := by
  simp [projOf]

theorem projOf_cons_ne {α : Type} (L : List (Nat × α)) {i j : Nat} (a : α) (h : i ≠ j) : projOf ((i, a) :: L) j = projOf L j := by
  simp [projOf, h]

theorem mem_projOf {α : Type} {L : List (Nat × α)} {i : Nat} {a : α} : a ∈ projOf L i ↔ (i, a) ∈ L := by
  simp only [projOf, List.mem_map, List.mem_filter, beq_iff_eq]
  constructor
  · rintro ⟨x, ⟨hx, rfl⟩, rfl⟩
    exact hx
  · intro h
    exact ⟨(i, a), ⟨h, rfl⟩, rfl⟩

/-- Constraints between sequences with entries are transitive. -/
theorem Shuffle.trans {ord : Nat → Nat → Prop} {n : Nat} {ys : Nat → List Nat} {L : List (Nat × Nat)} (h : Shuffle ord n ys L)
    (hirr : ∀ i, ¬ ord i i) (hlt : ∀ i j, ord i j → i < n ∧ j < n) (hne : ∀ i < n, ys i ≠ []) :
    L.Pairwise fun x y => ¬ TransGen ord y.1 x.1 := by
  have key : ∀ i j, TransGen ord i j → ∀ (a b : Nat) (x y : Nat × Nat), L[a]? = some x → L[b]? = some y → x.1 = i → y.1 = j → a < b := by
    have single : ∀ i j, ord i j → ∀ (a b : Nat) (x y : Nat × Nat), L[a]? = some x → L[b]? = some y → x.1 = i → y.1 = j → a < b := by
      intro i j hij a b x y hx hy e1 e2
      by_contra hn
      rcases Nat.lt_or_ge b a with hlt | hge
      · obtain ⟨ha, rfl⟩ := List.getElem?_eq_some_iff.1 hx
        obtain ⟨hb, rfl⟩ := List.getElem?_eq_some_iff.1 hy
        have := List.pairwise_iff_getElem.1 h.pw b a hb ha hlt
        rw [e1, e2] at this
        exact this hij
      · obtain rfl : a = b := by omega
        rw [hx] at hy
        cases hy
        rw [← e1, ← e2] at hij
        exact hirr _ hij
    intro i j hij
    induction hij with
    | single hij => exact single _ _ hij
    | @tail j k h1 h2 ih =>
      intro a b x y hx hy e1 e2
      have hj := (hlt _ _ h2).1
      obtain ⟨z, hz⟩ := List.exists_mem_of_ne_nil _ (hne j hj)
      rw [← h.proj j hj, mem_projOf] at hz
      obtain ⟨c, hc⟩ := List.mem_iff_getElem?.1 hz
      exact (ih a c x _ hx hc e1 rfl).trans (single _ _ h2 c b _ y hc hy rfl e2)
  rw [List.pairwise_iff_getElem]
  intro a b ha hb hab hg
  have := key _ _ hg b a _ _ (List.getElem?_eq_getElem hb) (List.getElem?_eq_getElem ha) rfl rfl
  omega

/-- Trees have leaves. -/
theorem yield_ne (hP : P.WF) {t : Nat} {tr : Tree} (hv : Valid P t tr) : yield (rtot P) tr ≠ [] := by
  induction hv with
  | leaf h => simp [yield]
  | @node m cs hm hc ih =>
    rw [yield]
    have h0 : 0 < (P.sub m).length := List.length_pos_iff.2 (hP.sub_ne m hm)
    have := ih 0 _ (List.getElem?_eq_getElem h0)
    intro h
    exact this (List.flatMap_eq_nil_iff.1 h 0 (by simpa using h0))

/-- A linearisation of the whole tree is one of each subtree. -/
theorem linearises_proj {m : Nat} {cs : Nat → Tree} {occ : List (List Nat)} {π : List Nat} (h : Linearises P (.node m cs) occ π) :
    ∃ L : List (Nat × (List Nat × Nat)), occ = L.map (fun x => x.1 :: x.2.1) ∧ π = L.map (fun x => x.2.2) ∧
      (∀ x ∈ L, x.1 < (P.sub m).length ∧ LeafAt P (cs x.1) x.2.1 x.2.2) := by
  have hl := h.labels
  clear h
  induction hl with
  | nil => exact ⟨[], rfl, rfl, by simp⟩
  | cons hab _ ih =>
    obtain ⟨L, rfl, rfl, hL⟩ := ih
    obtain ⟨i, q, rfl, hi, hq⟩ := leafAt_node.1 hab
    exact ⟨(i, q, _) :: L, rfl, rfl, fun x hx => by
      rcases List.mem_cons.1 hx with rfl | hx
      · exact ⟨hi, hq⟩
      · exact hL x hx⟩

theorem linearises_sub {m : Nat} {cs : Nat → Tree} {L : List (Nat × (List Nat × Nat))}
    (h : Linearises P (.node m cs) (L.map (fun x => x.1 :: x.2.1)) (L.map (fun x => x.2.2)))
    (hL : ∀ x ∈ L, x.1 < (P.sub m).length ∧ LeafAt P (cs x.1) x.2.1 x.2.2) {i : Nat} (hi : i < (P.sub m).length) :
    Linearises P (cs i) ((projOf L i).map Prod.fst) ((projOf L i).map Prod.snd) where
  nodup := by
    have h1 := h.nodup
    rw [List.Nodup, List.pairwise_map] at h1 ⊢
    rw [projOf, List.pairwise_map]
    refine (h1.filter _).imp_of_mem fun {x y} hx hy hn e => hn ?_
    have hx := (List.mem_filter.1 hx).2
    have hy := (List.mem_filter.1 hy).2
    simp only [beq_iff_eq] at hx hy
    rw [hx, hy, e]
  all p := by
    have h1 := h.all (i :: p)
    simp only [leafAt_cons, hi, true_and] at h1
    rw [← h1]
    simp only [List.mem_map, Prod.exists, exists_and_right, exists_eq_right, mem_projOf, List.cons.injEq]
    constructor
    · rintro ⟨a, ha⟩
      exact ⟨i, p, ⟨a, ha⟩, rfl, rfl⟩
    · rintro ⟨i', p', ⟨a, ha⟩, rfl, rfl⟩
      exact ⟨a, ha⟩
  order := by
    have h1 := h.order
    rw [List.pairwise_map] at h1 ⊢
    rw [projOf, List.pairwise_map]
    refine (h1.filter _).imp_of_mem fun {x y} hx hy hn hb => hn ?_
    have hx := (List.mem_filter.1 hx).2
    have hy := (List.mem_filter.1 hy).2
    simp only [beq_iff_eq] at hx hy
    rw [hx, hy]
    exact .same hb
  labels := by
    rw [List.forall₂_map_left_iff, List.forall₂_map_right_iff, List.forall₂_same]
    intro x hx
    exact (hL _ (mem_projOf.1 hx)).2

theorem projOf_map {α β : Type} (L : List (Nat × α)) (f : α → β) (i : Nat) :
    projOf (L.map fun x => (x.1, f x.2)) i = (projOf L i).map f := by
  induction L with
  | nil => rfl
  | cons x L ih =>
    obtain ⟨j, a⟩ := x
    rw [List.map_cons]
    by_cases e : j = i
    · subst e
      rw [projOf_cons_self, projOf_cons_self, ih]
      rfl
    · rw [projOf_cons_ne _ _ e, projOf_cons_ne _ _ e, ih]

/-- Putting linearisations of the subtrees together. -/
theorem weave {n : Nat} : ∀ (L : List (Nat × Nat)) (O : Nat → List (List Nat × Nat)),
    (∀ x ∈ L, x.1 < n) → (∀ i < n, projOf L i = (O i).map Prod.snd) →
    ∃ M : List (Nat × (List Nat × Nat)), M.map (fun x => (x.1, x.2.2)) = L ∧ ∀ i < n, projOf M i = O i := by
  intro L
  induction L with
  | nil =>
    intro O _ h
    refine ⟨[], rfl, fun i hi => ?_⟩
    have := h i hi
    simp only [projOf, List.filter_nil, List.map_nil] at this ⊢
    exact (List.map_eq_nil_iff.1 this.symm).symm
  | cons x L ih =>
    intro O hlt h
    obtain ⟨k, a⟩ := x
    have hk := hlt (k, a) (.head _)
    have h1 := h k hk
    rw [projOf_cons_self] at h1
    obtain ⟨y, r, ho, rfl, hr⟩ := List.map_eq_cons_iff.1 h1.symm
    obtain ⟨M, hM1, hM2⟩ := ih (Function.update O k r) (fun x hx => hlt x (.tail _ hx)) (fun i hi => by
      by_cases e : i = k
      · subst e
        rw [Function.update_self, hr]
      · rw [Function.update_of_ne e, ← h i hi, projOf_cons_ne _ _ (Ne.symm e)])
    refine ⟨(k, y) :: M, by rw [List.map_cons, hM1], fun i hi => ?_⟩
    by_cases e : i = k
    · subst e
      rw [projOf_cons_self, hM2 i hi, Function.update_self, ho]
    · rw [projOf_cons_ne _ _ (Ne.symm e), hM2 i hi, Function.update_of_ne e]

/-- The linearisations of a decomposition of the initial task are the interleavings of the yields of the subtrees. -/
theorem linearises_iff_shuffle (hP : P.WF) (hq : ParSeq P) {m : Nat} {cs : Nat → Tree} (hm : m < P.numMethods)
    (hv : ∀ i t, (P.sub m)[i]? = some t → Valid P t (cs i)) {π : List Nat} :
    (∃ occ, Linearises P (.node m cs) occ π) ↔
      ∃ L, Shuffle (P.OrdRel m) (P.sub m).length (fun i => yield (rtot P) (cs i)) L ∧ L.map Prod.snd = π := by
  have hv' : ∀ i (hi : i < (P.sub m).length), Valid P ((P.sub m)[i]) (cs i) ∧ (P.sub m)[i] ≠ P.init := fun i hi =>
    ⟨hv i _ (List.getElem?_eq_getElem hi), fun e => hq.noInit m hm (e ▸ List.getElem_mem hi)⟩
  obtain ⟨rank, hrank⟩ := hP.ord_acyclic m hm
  constructor
  · rintro ⟨occ, h⟩
    obtain ⟨L, rfl, rfl, hL⟩ := linearises_proj h
    refine ⟨L.map fun x => (x.1, x.2.2), ⟨?_, fun i hi => ?_, ?_⟩, by simp⟩
    · intro x hx
      obtain ⟨y, hy, rfl⟩ := List.mem_map.1 hx
      exact (hL y hy).1
    · obtain ⟨h1, h2⟩ := hv' i hi
      have hs := linearises_sub h hL hi
      rw [serial_linearises hq h1 h2] at hs
      rw [projOf_map L Prod.snd i]
      exact linearises_unique (serial_wf hP) (serial_tot hq) (serial_valid.1 h1) hs
    · have h1 := h.order
      rw [List.pairwise_map] at h1 ⊢
      exact h1.imp fun {x y} hn ho => hn (.diff (.single ho))
  · rintro ⟨L, h, rfl⟩
    have htr := h.trans (fun i hi => absurd (hrank _ _ hi) (by omega)) (fun i j hij => hP.ord_lt m hm i j hij) fun i hi =>
      yield_ne hP (hv' i hi).1
    have hcan : ∀ i (hi : i < (P.sub m).length), Linearises P (cs i) ((canon (rtot P) (cs i)).map (·.1)) (yield (rtot P) (cs i)) :=
      fun i hi => (serial_linearises hq (hv' i hi).1 (hv' i hi).2).2
        (linearises_canon (serial_wf hP) (serial_tot hq) (serial_valid.1 (hv' i hi).1))
    obtain ⟨M, hM1, hM2⟩ := weave (n := (P.sub m).length) L (fun i => canon (rtot P) (cs i)) h.lt fun i hi => by
      rw [h.proj i hi, canon_snd]
    have hMlt : ∀ x ∈ M, x.1 < (P.sub m).length := fun x hx => by
      have : (x.1, x.2.2) ∈ L := by
        rw [← hM1]
        exact List.mem_map_of_mem (f := fun x : Nat × List Nat × Nat => (x.1, x.2.2)) hx
      exact h.lt _ this
    have hmem : ∀ i (hi : i < (P.sub m).length) q a, (i, q, a) ∈ M ↔ LeafAt P (cs i) q a := by
      intro i hi q a
      rw [← mem_projOf, hM2 i hi, mem_canon (serial_wf hP) (serial_tot hq) (serial_valid.1 (hv' i hi).1), ← serial_leafAt]
    have hpw : M.Pairwise fun x y => ¬ TransGen (P.OrdRel m) y.1 x.1 := by
      rw [← hM1, List.pairwise_map] at htr
      exact htr
    -- entries of the same sequence
    have hsame : M.Pairwise fun x y => x.1 = y.1 → x.2.1 ≠ y.2.1 ∧ ¬ Before P (cs x.1) y.2.1 x.2.1 := by
      have : ∀ i (hi : i < (P.sub m).length), (M.filter fun x => x.1 == i).Pairwise fun x y =>
          x.2.1 ≠ y.2.1 ∧ ¬ Before P (cs i) y.2.1 x.2.1 := by
        intro i hi
        have hc := hcan i hi
        rw [← hM2 i hi] at hc
        have h1 := hc.nodup
        have h2 := hc.order
        rw [projOf, List.map_map, List.Nodup, List.pairwise_map] at h1
        rw [projOf, List.map_map, List.pairwise_map] at h2
        exact h1.and h2
      clear hmem hM1 hM2 hpw
      induction M with
      | nil => exact .nil
      | cons x M ih =>
        refine .cons (fun y hy e => ?_) (ih (fun z hz => hMlt z (.tail _ hz)) fun i hi => ?_)
        · have := this x.1 (hMlt x (.head _))
          rw [List.filter_cons_of_pos (by simp)] at this
          have := (List.pairwise_cons.1 this).1 y (List.mem_filter.2 ⟨hy, by simp [e]⟩)
          exact this
        · exact (this i hi).sublist ((List.sublist_cons_self x M).filter _)
    refine ⟨M.map fun x => x.1 :: x.2.1, ?_, fun p => ?_, ?_, ?_⟩
    · rw [List.Nodup, List.pairwise_map]
      exact hsame.imp fun {x y} hxy e => (hxy (List.cons.inj e).1).1 (List.cons.inj e).2
    · constructor
      · intro hp
        obtain ⟨x, hx, rfl⟩ := List.mem_map.1 hp
        obtain ⟨i, q, a⟩ := x
        have hi := hMlt _ hx
        exact ⟨a, leafAt_cons.2 ⟨hi, (hmem i hi q a).1 hx⟩⟩
      · rintro ⟨a, ha⟩
        obtain ⟨i, q, rfl, hi, hqa⟩ := leafAt_node.1 ha
        exact List.mem_map.2 ⟨(i, q, a), (hmem i hi q a).2 hqa, rfl⟩
    · rw [List.pairwise_map]
      refine (hsame.and hpw).imp fun {x y} hxy hb => ?_
      rcases before_node_iff.1 hb with ⟨e, hb⟩ | hb
      · rw [e] at hb
        exact (hxy.1 e.symm).2 hb
      · exact hxy.2 hb
    · have : L.map Prod.snd = M.map fun x => x.2.2 := by rw [← hM1, List.map_map]; rfl
      rw [this, List.forall₂_map_left_iff, List.forall₂_map_right_iff, List.forall₂_same]
      rintro ⟨i, q, a⟩ hx
      have hi := hMlt _ hx
      exact leafAt_cons.2 ⟨hi, (hmem i hi q a).1 hx⟩

end Verif.Htn
