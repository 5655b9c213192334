import Verif.OrderFlags
import Verif.HtnSpec

/-! # Properties of the treatment of method orderings: C09, C10, C11 -/

namespace Verif.Props

open Verif.Ordering Relation

/-- No position is ordered before itself. -/
def Acyclic (ord : List (Nat × Nat)) : Prop := ∀ x, ¬ TransGen (Rel ord) x x

theorem so_of_acyclic {n ord} (hb : ∀ p ∈ ord, p.1 < n ∧ p.2 < n) (ha : Acyclic ord) :
    SO n (TransGen (Rel ord)) := by
  refine ⟨fun x y h => ?_, fun _ _ _ => TransGen.trans, ha⟩
  exact ⟨(TransGen.head'_iff.1 h).elim fun b h => (hb (x, b) h.1).1,
    (TransGen.tail'_iff.1 h).elim fun b h => (hb (b, y) h.2).2⟩

/-- **C09.**  For acyclic ordering constraints in range, the stored constraints generate the same
order as the input, contain no duplicates, and none of them is implied by the others. -/
theorem C09_transitive_reduction {n : Nat} {ord : List (Nat × Nat)} {isInit : Bool} {F : Flags}
    (hb : ∀ p ∈ ord, p.1 < n ∧ p.2 < n) (ha : Acyclic ord) :
    ∃ o F', transitiveChange false n ord isInit F = some (o, F') ∧ o.Nodup ∧
      (∀ x y, TransGen (Rel o) x y ↔ TransGen (Rel ord) x y) ∧
      ∀ p ∈ o, ¬ TransGen (fun x y => (x, y) ∈ o ∧ (x, y) ≠ p) p.1 p.2 := by
  obtain ⟨M, hM⟩ := initMat_total (n := n) (fun _ _ => false) hb
  have hex : transitiveChange false n ord isInit F =
      some (outPairs n (reduce n (close n M)), updFlags n (reduce n (close n M)) isInit F) := by
    simp [transitiveChange, hM]
  refine ⟨_, _, hex, ?_⟩
  obtain ⟨-, hnd, hmem, -⟩ := reduction_out hex
  have hso := so_of_acyclic hb ha
  generalize outPairs n (reduce n (close n M)) = o at hnd hmem
  have hle : ∀ {r : Nat → Nat → Prop}, (∀ x y, r x y → (x, y) ∈ o) → ∀ x y, TransGen r x y →
      TransGen (Rel ord) x y := by
    intro r hr x y h
    induction h with
    | single h => exact ((hmem _ _).1 (hr _ _ h)).1
    | tail _ h ih => exact ih.trans ((hmem _ _).1 (hr _ _ h)).1
  refine ⟨hnd, fun x y => ⟨hle (fun _ _ h => h) x y, fun h => ?_⟩, ?_⟩
  · exact TransGen.mono (fun a b hab => (hmem a b).2 hab) _ _ (hso.gen h)
  · rintro ⟨x, y⟩ hp hT
    obtain ⟨b, hb1, hb2⟩ := TransGen.head'_iff.1 hT
    rcases reflTransGen_iff_eq_or_transGen.1 hb2 with rfl | hb2
    · exact hb1.2 rfl
    · exact ((hmem x y).1 hp).2 b ⟨((hmem _ _).1 hb1.1).1, hle (fun _ _ h => h.1) _ _ hb2⟩

/-- A method with redundant constraints: the redundant one is dropped. -/
example : Acyclic [(0, 1), (1, 2), (0, 2), (0, 1)] ∧
    transitiveChange false 3 [(0, 1), (1, 2), (0, 2), (0, 1)] false ⟨true, true, true⟩ =
      some ([(0, 1), (1, 2)], ⟨true, true, true⟩) := by
  refine ⟨fun x h => ?_, by decide⟩
  have hr : ∀ x y, TransGen (Rel [(0, 1), (1, 2), (0, 2), (0, 1)]) x y → x < y := by
    intro x y h
    induction h with
    | single h => simp [Rel] at h; omega
    | tail _ h ih => simp [Rel] at h; omega
  exact Nat.lt_irrefl _ (hr x x h)

/-- **C09** (closure mode).  The other mode stores exactly the implied precedences. -/
theorem C09_transitive_closure {n : Nat} {ord : List (Nat × Nat)} {isInit : Bool} {F : Flags}
    (hb : ∀ p ∈ ord, p.1 < n ∧ p.2 < n) :
    ∃ o, transitiveChange true n ord isInit F = some (o, F) ∧ o.Nodup ∧
      ∀ x y, (x, y) ∈ o ↔ TransGen (Rel ord) x y := by
  obtain ⟨M, hM⟩ := initMat_total (n := n) (fun _ _ => false) hb
  refine ⟨outPairs n (close n M), by simp [transitiveChange, hM], nodup_outPairs _ _, fun x y => ?_⟩
  obtain ⟨-, hM'⟩ := initMat_spec hM
  have hR : ∀ x y, Rel ord x y → x < n ∧ y < n := fun x y h => hb (x, y) h
  rw [mem_outPairs, close_spec (R := Rel ord) hR (M := M) (fun x y => by rw [hM']; simp [Rel])]
  constructor
  · exact fun h => h.2.2
  · intro h
    exact ⟨(TransGen.head'_iff.1 h).elim fun _ h => (hR _ _ h.1).1,
      (TransGen.tail'_iff.1 h).elim fun _ h => (hR _ _ h.2).2, h⟩

/-- What happens outside the hypotheses of C09: a cyclic ordering is silently dropped. -/
example : transitiveChange false 2 [(0, 1), (1, 0)] false ⟨true, true, true⟩ =
    some ([], ⟨false, false, false⟩) := by decide

open Verif.Htn in
/-- **C09** (consequence).  Problems whose methods order their subtasks in the same way have the
same solutions: reading the reduced constraints instead of the given ones is harmless. -/
theorem C09_same_solutions {P Q : Problem} (hQ : Q = { P with ord := Q.ord })
    (h : ∀ m < P.numMethods, ∀ i j, TransGen (Rel (Q.ord m)) i j ↔ TransGen (Rel (P.ord m)) i j) (π k) :
    IsSolutionN Q π k ↔ IsSolutionN P π k := by
  obtain ⟨o, rfl⟩ : ∃ o, Q = { P with ord := o } := ⟨_, hQ⟩
  clear hQ
  have key : ∀ (o o' : Nat → List (Nat × Nat)),
      (∀ m < P.numMethods, ∀ i j, TransGen (Rel (o m)) i j ↔ TransGen (Rel (o' m)) i j) →
      IsSolutionN { P with ord := o } π k → IsSolutionN { P with ord := o' } π k := by
    intro o o' ho
    rintro ⟨tr, hv, hk, ⟨occ, hl⟩, s', he, hg⟩
    have hval : ∀ {t tr}, Valid { P with ord := o } t tr → Valid { P with ord := o' } t tr := by
      intro t tr hv
      induction hv with
      | leaf h => exact .leaf h
      | node hm _ ih => exact Valid.node (P := { P with ord := o' }) hm ih
    have hleaf : ∀ {tr p a} {o o'}, LeafAt { P with ord := o } tr p a → LeafAt { P with ord := o' } tr p a := by
      intro tr p a o o' hv
      induction hv with
      | here => exact .here
      | child hm _ ih => exact LeafAt.child (P := { P with ord := o' }) hm ih
    have hbef : ∀ {tr t p q}, Valid { P with ord := o } t tr → Before { P with ord := o' } tr p q →
        (∃ a, LeafAt { P with ord := o } tr p a) → (∃ a, LeafAt { P with ord := o } tr q a) →
        Before { P with ord := o } tr p q := by
      intro tr t p q hv hb
      induction hb generalizing t with
      | @same m cs i p q hb ih =>
        rintro ⟨a, ha⟩ ⟨b, hb⟩
        cases hv with
        | node hm hc =>
        cases ha with
        | child hi ha =>
        cases hb with
        | child _ hb =>
        exact .same (ih (hc i _ (List.getElem?_eq_getElem hi)) ⟨a, ha⟩ ⟨b, hb⟩)
      | @diff m cs i j p q ht =>
        intro _ _
        cases hv with
        | node hm hc => exact .diff ((ho m hm i j).2 ht)
    have hinner : ∀ (tr : Tree) (o o'), tr.inner { P with ord := o } = tr.inner { P with ord := o' } := by
      intro tr o o'
      induction tr with
      | leaf a => rfl
      | node m cs ih =>
        simp only [Tree.inner]
        rw [Finset.sum_congr rfl fun i _ => ih i]
    have hexec : ∀ {s π s'}, Exec { P with ord := o } s π s' → Exec { P with ord := o' } s π s' := by
      intro s π s' he
      induction he with
      | nil s => exact .nil s
      | cons h _ ih => exact .cons (P := { P with ord := o' }) h ih
    have hmem : ∀ p ∈ occ, ∃ a, LeafAt { P with ord := o } tr p a := fun p hp => (hl.all p).1 hp
    refine ⟨tr, hval hv, by rw [← hk]; exact hinner _ _ _, ⟨occ, hl.nodup, fun p => ?_, ?_, ?_⟩, s', hexec he, hg⟩
    · rw [hl.all p]
      exact ⟨fun ⟨a, h⟩ => ⟨a, hleaf h⟩, fun ⟨a, h⟩ => ⟨a, hleaf h⟩⟩
    · exact hl.order.imp_of_mem fun {p q} hp hq hn hb => hn (hbef hv hb (hmem q hq) (hmem p hp))
    · exact hl.labels.imp fun _ _ h => hleaf h
  exact ⟨key o P.ord h, key P.ord o fun m hm i j => (h m hm i j).symm⟩

/-! ## Flags -/

/-- What is read for a method: number of subtasks, ordering, and whether it decomposes the
initial task. -/
abbrev MethodIn := Nat × List (Nat × Nat) × Bool

/-- Input constraints are in range and acyclic. -/
def MethodOK (m : MethodIn) : Prop := (∀ p ∈ m.2.1, p.1 < m.1 ∧ p.2 < m.1) ∧ Acyclic m.2.1

/-- Every pair of subtasks is ordered. -/
def IsTotal (m : MethodIn) : Prop :=
  ∀ x y, x < m.1 → y < m.1 → x ≠ y → TransGen (Rel m.2.1) x y ∨ TransGen (Rel m.2.1) y x

/-- `y` is a direct successor of `x`: ordered after it with nothing in between. -/
def Direct (m : MethodIn) (x y : Nat) : Prop :=
  TransGen (Rel m.2.1) x y ∧ ∀ k, ¬ (TransGen (Rel m.2.1) x k ∧ TransGen (Rel m.2.1) k y)

def AtMostOneSuccessor (m : MethodIn) : Prop := ∀ x y y', Direct m x y → Direct m x y' → y = y'

def AtMostOnePredecessor (m : MethodIn) : Prop := ∀ x x' y, Direct m x y → Direct m x' y → x = x'

theorem readAll_flags {ms : List MethodIn} (hms : ∀ m ∈ ms, MethodOK m) {F os F'}
    (h : readAll ms F = some (os, F')) :
    (F'.totallyOrdered = true ↔ F.totallyOrdered = true ∧ ∀ m ∈ ms, IsTotal m) ∧
    (F'.uniquePaths = true ↔ F.uniquePaths = true ∧
      ∀ m ∈ ms, IsTotal m ∨ (m.2.2 = true ∧ AtMostOneSuccessor m)) ∧
    (F'.parallelSequences = true ↔ F.parallelSequences = true ∧
      ∀ m ∈ ms, IsTotal m ∨ (m.2.2 = true ∧ (AtMostOneSuccessor m ∨ AtMostOnePredecessor m))) := by
  induction ms generalizing F os with
  | nil =>
    simp only [readAll, Option.some.injEq, Prod.mk.injEq] at h
    obtain ⟨-, rfl⟩ := h
    simp
  | cons m ms ih =>
    obtain ⟨n, ord, isInit⟩ := m
    simp only [readAll] at h
    cases h1 : transitiveChange false n ord isInit F with
    | none => simp [h1] at h
    | some r =>
      obtain ⟨o, F1⟩ := r
      simp only [h1] at h
      cases h2 : readAll ms F1 with
      | none => simp [h2] at h
      | some r2 =>
        obtain ⟨os', F2⟩ := r2
        simp only [h2, Option.some.injEq, Prod.mk.injEq] at h
        obtain ⟨-, rfl⟩ := h
        obtain ⟨i1, i2, i3⟩ := ih (fun m hm => hms m (List.mem_cons_of_mem _ hm)) h2
        have hok := hms (n, ord, isInit) List.mem_cons_self
        have hso := so_of_acyclic hok.1 hok.2
        obtain ⟨-, -, hmem, T, -, hT, rfl⟩ := reduction_out h1
        obtain ⟨j1, j2, j3⟩ := updFlags_spec hso (C := T) (fun x y hx hy => by
          rw [hT x y hx hy, hmem]; rfl) isInit F
        have hs : AtMostOneSucc (TransGen (Rel ord)) ↔ AtMostOneSuccessor (n, ord, isInit) := Iff.rfl
        have hp : AtMostOneSucc (fun x y => TransGen (Rel ord) y x) ↔
            AtMostOnePredecessor (n, ord, isInit) := by
          unfold AtMostOneSucc AtMostOnePredecessor
          simp only [cov_flip]
          constructor
          · exact fun h x x' y hx hx' => h y x x' hx hx'
          · exact fun h y x x' hx hx' => h x x' y hx hx'
        rw [i1, i2, i3, j1, j2, j3, hs, hp]
        simp only [List.forall_mem_cons, IsTotal, and_assoc]
        exact ⟨trivial, trivial, trivial⟩

/-- **C10.**  The instance-wide flag `isTotallyOrdered` holds if and only if every method orders
every pair of its subtasks. -/
theorem C10_totally_ordered_exact {ms : List MethodIn} (hms : ∀ m ∈ ms, MethodOK m) {os F'}
    (h : readAll ms ⟨true, true, true⟩ = some (os, F')) :
    F'.totallyOrdered = true ↔ ∀ m ∈ ms, IsTotal m := by
  simpa using (readAll_flags hms h).1

/-- Reading never fails for well-formed methods. -/
theorem C10_reading_defined (ms : List MethodIn) (hms : ∀ m ∈ ms, MethodOK m) (F : Flags) :
    ∃ os F', readAll ms F = some (os, F') := by
  induction ms generalizing F with
  | nil => exact ⟨[], F, rfl⟩
  | cons m ms ih =>
    obtain ⟨n, ord, isInit⟩ := m
    have hok := hms (n, ord, isInit) List.mem_cons_self
    obtain ⟨o, F1, h1, -⟩ := C09_transitive_reduction (isInit := isInit) (F := F) hok.1 hok.2
    obtain ⟨os, F2, h2⟩ := ih (fun m hm => hms m (List.mem_cons_of_mem _ hm)) F1
    exact ⟨o :: os, F2, by simp [readAll, h1, h2]⟩

/-- A totally ordered and a not totally ordered method. -/
example : readAll [(3, [(0, 1), (1, 2), (0, 2)], false)] ⟨true, true, true⟩ =
      some ([[(0, 1), (1, 2)]], ⟨true, true, true⟩) ∧
    readAll [(3, [(0, 1), (0, 2)], false)] ⟨true, true, true⟩ =
      some ([[(0, 1), (0, 2)]], ⟨false, false, false⟩) := by decide

/-- **C11 is violated.**  The flag `isParallelSequences` stays set for an initial method whose
first subtask has two direct successors, and for one whose last subtask has two direct
predecessors. -/
theorem C11_parallel_sequences_violated :
    ∃ ms os F', (∀ m ∈ ms, MethodOK m) ∧ readAll ms ⟨true, true, true⟩ = some (os, F') ∧
      F'.parallelSequences = true ∧ (∃ m ∈ ms, ¬ AtMostOneSuccessor m) ∧
      ∃ m ∈ ms, ¬ AtMostOnePredecessor m := by
  have hlt : ∀ (l : List (Nat × Nat)), (∀ p ∈ l, p.1 < p.2) → ∀ x y, TransGen (Rel l) x y → x < y := by
    intro l hl x y h
    induction h with
    | single h => exact hl _ h
    | tail _ h ih => exact Nat.lt_trans ih (hl _ h)
  have hac : ∀ (l : List (Nat × Nat)), (∀ p ∈ l, p.1 < p.2) → Acyclic l :=
    fun l hl x h => Nat.lt_irrefl _ (hlt l hl x x h)
  refine ⟨[(3, [(0, 1), (0, 2)], true), (3, [(0, 2), (1, 2)], true)], _, _, ?_, rfl, by decide,
    ⟨_, List.mem_cons_self, ?_⟩, ⟨_, List.mem_cons_of_mem _ List.mem_cons_self, ?_⟩⟩
  · intro m hm
    simp only [List.mem_cons, List.not_mem_nil, or_false] at hm
    rcases hm with rfl | rfl
    · exact ⟨by simp, hac _ (by simp)⟩
    · exact ⟨by simp, hac _ (by simp)⟩
  · intro h
    have hd : ∀ y, y = 1 ∨ y = 2 → Direct (3, [(0, 1), (0, 2)], true) 0 y := by
      intro y hy
      refine ⟨.single (by rcases hy with rfl | rfl <;> simp [Rel]), fun k hk => ?_⟩
      have h1 := hlt [(0, 1), (0, 2)] (by simp) _ _ hk.1
      obtain ⟨b, hb, -⟩ := TransGen.head'_iff.1 hk.2
      simp [Rel] at hb; omega
    have := h 0 1 2 (hd 1 (.inl rfl)) (hd 2 (.inr rfl))
    omega
  · intro h
    have hd : ∀ x, x = 0 ∨ x = 1 → Direct (3, [(0, 2), (1, 2)], true) x 2 := by
      intro x hx
      refine ⟨.single (by rcases hx with rfl | rfl <;> simp [Rel]), fun k hk => ?_⟩
      obtain ⟨b, hb, hbk⟩ := TransGen.head'_iff.1 hk.1
      obtain ⟨c, hc, -⟩ := TransGen.head'_iff.1 hk.2
      have hk1 : k = 0 ∨ k = 1 := by simp [Rel] at hc; omega
      obtain ⟨d, -, hd⟩ := TransGen.tail'_iff.1 hk.1
      simp [Rel] at hd; omega
    have := h 0 1 2 (hd 0 (.inl rfl)) (hd 1 (.inr rfl))
    omega

/-- **C11, what does hold.**  If the flag is set, every method is totally ordered except methods of
the initial task, in which all subtasks have at most one direct successor or all subtasks have at
most one direct predecessor.  Missing for the full statement: "and" instead of the last "or". -/
theorem C11_parallel_sequences_partial {ms : List MethodIn} (hms : ∀ m ∈ ms, MethodOK m) {os F'}
    (h : readAll ms ⟨true, true, true⟩ = some (os, F')) :
    F'.parallelSequences = true ↔
      ∀ m ∈ ms, IsTotal m ∨ (m.2.2 = true ∧ (AtMostOneSuccessor m ∨ AtMostOnePredecessor m)) := by
  simpa using (readAll_flags hms h).2.2

/-- The flag `isUniquePaths` is exact. -/
theorem C11_unique_paths_exact {ms : List MethodIn} (hms : ∀ m ∈ ms, MethodOK m) {os F'}
    (h : readAll ms ⟨true, true, true⟩ = some (os, F')) :
    F'.uniquePaths = true ↔ ∀ m ∈ ms, IsTotal m ∨ (m.2.2 = true ∧ AtMostOneSuccessor m) := by
  simpa using (readAll_flags hms h).2.1

end Verif.Props
