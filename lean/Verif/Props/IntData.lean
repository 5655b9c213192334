import Verif.IntSearch
import Verif.IntHeap
import Verif.IntSets2
import Mathlib.Data.Finset.Card
import Mathlib.Data.Multiset.Basic
import Mathlib.Data.Multiset.AddSub

/-! # C28, C29, C30: integer arrays, sets and the pair heap -/

namespace Verif.Props

open Verif.IntUtil

/-! ## C28 -/

/-- C28, sorting a whole array: the sort does not leave the array and yields an ascending
permutation. -/
theorem C28_sort (a : List Int) :
    ∃ b, sort (a.length + 1) a 0 (a.length - 1) = some b ∧ b.Perm a ∧ b.Pairwise (· ≤ ·) := by
  by_cases h : a = []
  · subst h
    exact ⟨[], by simp [sort], List.Perm.refl _, List.Pairwise.nil⟩
  · exact sort_full (by omega) h

/-- C28, sorting a range of an array: only the range changes, and it is sorted afterwards. -/
theorem C28_sort_range (a : List Int) (lo hi : Nat) (hlo : lo ≤ hi) (hhi : hi < a.length) :
    ∃ b, sort (a.length + 1) a lo hi = some b ∧ b.Perm a ∧
      (∀ k : Nat, k < lo ∨ hi < k → b[k]? = a[k]?) ∧
      ∀ (i j : Nat) (x y : Int), lo ≤ i → i ≤ j → j ≤ hi → b[i]? = some x → b[j]? = some y → x ≤ y := by
  obtain ⟨b, h1, h2, h3, h4⟩ := sort_spec (f := a.length + 1) (a := a) (lo := lo) (hi := hi) (by omega) (.inl hhi)
  refine ⟨b, h1, h2, fun k hk => ?_, fun i j x y hi1 hij hj hx hy => ?_⟩
  · exact h3 k hk
  · have := h4 i j hi1 hij hj
    simpa [at', hx, hy] using this

example : sort 8 [3, 1, 2, 3, -5, 0, 1] 0 6 = some [-5, 0, 1, 1, 2, 3, 3] := by decide +kernel
example : sort 8 [3, 1, 2, 3, -5, 0, 1] 2 4 = some [3, 1, -5, 2, 3, 0, 1] := by decide +kernel

/-- C28, binary search on a sorted range: no access outside the array, and the value is found iff
it occurs in the range. -/
theorem C28_search (a : List Int) (hs : a.Pairwise (· ≤ ·)) (lo hi : Int) (v : Int) (hlo : 0 ≤ lo)
    (hhi : hi < a.length) :
    (∃ r, indexOf a lo hi v = some r ∧ (r = -1 ∨ lo ≤ r ∧ r ≤ hi ∧ a[r.toNat]? = some v)) ∧
    ∃ b, containsInt a lo hi v = some b ∧
      (b = true ↔ ∃ i : Nat, lo ≤ i ∧ (i : Int) ≤ hi ∧ a[i]? = some v) := by
  obtain ⟨r, h1, h2⟩ := indexOf_spec a hs v lo hi hlo hhi
  refine ⟨⟨r, h1, h2.imp (fun h => h.1) id⟩, decide (0 ≤ r), by simp [containsInt, h1], ?_⟩
  rw [decide_eq_true_eq]
  rcases h2 with ⟨rfl, h2⟩ | ⟨h2, h3, h4⟩
  · exact ⟨fun h => by omega, fun ⟨i, h3, h4, h5⟩ => absurd h5 (h2 i h3 h4)⟩
  · exact ⟨fun _ => ⟨r.toNat, by omega, by omega, h4⟩, fun _ => by omega⟩

example : indexOf [(-1 : Int), 3, 3, 7, 9] 1 4 7 = some 3 ∧ indexOf [(-1 : Int), 3, 3, 7, 9] 1 4 (-1) = some (-1) := by decide +kernel

/-- C28, `makeSet`: the returned size is the number of distinct elements, the first part of the
array contains the elements strictly ascending, and the remaining entries are -1. -/
theorem C28_makeSet (a : List Int) :
    ∃ b n, makeSet (a.length + 1) a = some (b, n) ∧ b.length = a.length ∧ n = a.toFinset.card ∧
      (b.take n).Pairwise (· < ·) ∧ (∀ x, x ∈ b.take n ↔ x ∈ a) ∧ ∀ x ∈ b.drop n, x = -1 := by
  have card : ∀ l : List Int, l.Nodup → (∀ x, x ∈ l ↔ x ∈ a) → l.length = a.toFinset.card := by
    intro l hl hm
    rw [← List.toFinset_card_of_nodup hl]
    congr 1
    ext x
    simp [hm]
  unfold makeSet
  split_ifs with hl
  · refine ⟨a, a.length, rfl, rfl, ?_, ?_, by simp, by simp⟩
    · exact card a (by
        match a, hl with
        | [], _ => simp
        | [x], _ => simp
        | _ :: _ :: _, hl => simp at hl) (by simp)
    · match a, hl with
      | [], _ => simp
      | [x], _ => simp
      | _ :: _ :: _, hl => simp at hl
  · obtain ⟨b, h1, h2, h3⟩ := C28_sort a
    simp only [h1]
    cases he : hasEqualNeighbours b with
    | false =>
      have h4 := hasEqualNeighbours_false h3 he
      refine ⟨b, b.length, by simp, h2.length_eq, ?_, by simpa using h4, fun x => by simp [h2.mem_iff], by simp⟩
      exact card b (h4.imp fun h => ne_of_lt h) (fun x => h2.mem_iff)
    | true =>
      have hs := setOf_sorted b
      have hm : ∀ x, x ∈ setOf b ↔ x ∈ a := fun x => by rw [mem_setOf, h2.mem_iff]
      have hle : (setOf b).length ≤ b.length :=
        (List.subperm_of_subset (hs.imp fun h => ne_of_lt h) (fun x hx => mem_setOf.1 hx)).length_le
      refine ⟨_, _, rfl, ?_, card _ (hs.imp fun h => ne_of_lt h) hm, ?_, ?_, ?_⟩
      · simp; have := h2.length_eq; omega
      · rw [List.take_left' rfl]; exact hs
      · rw [List.take_left' rfl]; exact hm
      · rw [List.drop_left' rfl]
        intro x hx
        exact List.eq_of_mem_replicate hx

example : sort 6 [4, 2, 4, 0, 2] 0 4 = some [0, 2, 2, 4, 4] ∧ hasEqualNeighbours [0, 2, 2, 4, 4] = true := by decide +kernel
example : makeSet 4 [4, 2, 0] = some ([0, 2, 4], 3) := by decide +kernel

/-- C28, `isSorted` is exact. -/
theorem C28_isSorted (a : List Int) : isSorted a = true ↔ a.Pairwise (· ≤ ·) := by
  simp only [isSorted, List.all_eq_true, List.mem_range, Bool.not_eq_true', decide_eq_false_iff_not]
  constructor
  · intro h
    apply pairwise_of_at
    intro i j hij
    induction j with
    | zero => intro _; have : i = 0 := by omega
              subst this; exact le_refl _
    | succ j ih =>
      intro hj
      rcases Nat.lt_or_eq_of_le hij with h' | h'
      · have := h j (by omega)
        have := ih (by omega) (by omega)
        simp only [at'] at *
        omega
      · subst h'; exact le_refl _
  · intro h i hi
    have := List.pairwise_iff_getElem.1 h i (i + 1) (by omega) (by omega) (by omega)
    simp [List.getElem?_eq_getElem (show i < a.length by omega),
      List.getElem?_eq_getElem (show i + 1 < a.length by omega)]
    omega

/-- C28, `copyExcluding`: if the excluded value occurs exactly once, the copy is completely written
and contains the other entries in their order; if it does not occur, the last write is outside
the new array. -/
theorem C28_copyExcluding (a : List Int) (x : Int) :
    (a.count x = 1 → copyExcluding a x = some ((a.filter (· ≠ x)).map some)) ∧
    (a ≠ [] → a.count x = 0 → copyExcluding a x = none) := by
  have hlen : (a.filter (· ≠ x)).length + a.count x = a.length := by
    rw [List.count_eq_countP, List.countP_eq_length_filter]
    have := List.length_eq_length_filter_add (l := a) (fun y => decide (y ≠ x))
    rw [this]
    congr 2
    apply List.filter_congr
    intro y _
    by_cases h : y = x <;> simp [h]
  refine ⟨fun h => ?_, fun hne h => ?_⟩
  · unfold copyExcluding
    simp only
    rw [if_pos (by omega), show a.length - 1 - (a.filter (· ≠ x)).length = 0 by omega]
    simp
  · unfold copyExcluding
    simp only
    have : 0 < a.length := List.length_pos_iff.2 hne
    rw [if_neg (by omega)]

example : copyExcluding [5, 3, 8] 3 = some [some 5, some 8] := by decide +kernel

/-! ## C29 -/

open Verif.IntSets

/-- The operations that change a set. -/
inductive SetOp
  | insert (i : Nat)
  | erase (i : Nat)
  | clear
deriving DecidableEq

/-- The mathematical set after an operation. -/
def SetOp.spec (S : Finset Nat) : SetOp → Finset Nat
  | .insert i => Insert.insert i S
  | .erase i => S.erase i
  | .clear => ∅

/-- The arguments are elements of the universe of the container. -/
def SetOp.InRange (n : Nat) : SetOp → Prop
  | .insert i => i < n
  | .erase i => i < n
  | .clear => True

def specRun (ops : List SetOp) : Finset Nat := ops.foldl SetOp.spec ∅

/-- Run operations on a container. -/
def runOps {S : Type} (step : S → SetOp → Option S) : S → List SetOp → Option S
  | s, [] => some s
  | s, o :: os => match step s o with
    | none => none
    | some s => runOps step s os

theorem runOps_inv {S : Type} {step : S → SetOp → Option S} {n : Nat} {R : S → Finset Nat → Prop} {p : SetOp → Prop}
    (hstep : ∀ s F o, R s F → p o → o.InRange n → ∃ s', step s o = some s' ∧ R s' (o.spec F)) :
    ∀ (ops : List SetOp) (s : S) (F : Finset Nat), R s F → (∀ o ∈ ops, o.InRange n) → (∀ o ∈ ops, p o) →
    ∃ s', runOps step s ops = some s' ∧ R s' (ops.foldl SetOp.spec F) := by
  intro ops
  induction ops with
  | nil => intro s F h _ _; exact ⟨s, rfl, h⟩
  | cons o ops ih =>
    intro s F h hr hp
    obtain ⟨s1, h1, h2⟩ := hstep s F o h (hp o (by simp)) (hr o (by simp))
    obtain ⟨s2, h3, h4⟩ := ih s1 _ h2 (fun o ho => hr o (List.mem_cons_of_mem _ ho)) (fun o ho => hp o (List.mem_cons_of_mem _ ho))
    exact ⟨s2, by simp [runOps, h1, h3], h4⟩

/-- A step of `noDelIntSet`, which has no erase. -/
def noDelStep (s : NoDel) : SetOp → Option NoDel
  | .insert i => s.insert i
  | .erase _ => none
  | .clear => some s.clear

/-- C29 for `noDelIntSet`: after any sequence of inserts and clears, membership, size, emptiness and
the elements visited by an iteration (without repetition) are those of the mathematical set. -/
theorem C29_noDelIntSet (n : Nat) (ops : List SetOp) (hr : ∀ o ∈ ops, o.InRange n)
    (hne : ∀ o ∈ ops, ∀ i, o ≠ .erase i) :
    ∃ s, runOps noDelStep (NoDel.init n) ops = some s ∧
      (∀ i, i < n → s.get i = some (decide (i ∈ specRun ops))) ∧
      s.getSize = (specRun ops).card ∧ (s.isEmpty = true ↔ specRun ops = ∅) ∧
      ∃ s' l, iterate NoDel.getNext (n + 2) s.getFirst = some (s', l) ∧ l.Nodup ∧ l.toFinset = specRun ops := by
  obtain ⟨s, h1, hi, hn, hm⟩ := runOps_inv (n := n) (p := fun o => ∀ i, o ≠ .erase i) (step := noDelStep)
    (R := fun s F => s.Inv ∧ s.bools.length = n ∧ ∀ x, x ∈ s.ints ↔ x ∈ F) (by
      rintro s F o ⟨hi, hn, hm⟩ hp hr
      cases o with
      | insert i =>
        obtain ⟨s', j1, j2, j3, j4⟩ := NoDel.insert_spec hi (i := i) (by rw [hn]; exact hr)
        exact ⟨s', j1, j2, by omega, fun x => by rw [j4, SetOp.spec, Finset.mem_insert, hm]⟩
      | erase i => exact absurd rfl (hp i)
      | clear =>
        obtain ⟨j1, j2⟩ := NoDel.clear_spec hi
        exact ⟨s.clear, rfl, j1, by omega, fun x => by simp [NoDel.clear, SetOp.spec]⟩) ops (NoDel.init n) ∅
    ⟨NoDel.init_inv n, by simp [NoDel.init], by simp [NoDel.init]⟩ hr hne
  have hm' : ∀ x, x ∈ s.ints ↔ x ∈ specRun ops := hm
  have hF : s.ints.toFinset = specRun ops := by ext x; simp [hm']
  have hcard : s.ints.length = (specRun ops).card := by rw [← hF, List.toFinset_card_of_nodup hi.nodup]
  have hle : s.ints.length ≤ n := by
    have hsub : s.ints ⊆ List.range n := fun x hx => by simpa [hn] using hi.lt x hx
    simpa using (List.subperm_of_subset hi.nodup hsub).length_le
  refine ⟨s, h1, fun i hil => ?_, hcard, ?_, ?_⟩
  · rw [NoDel.get, List.getElem?_eq_getElem (by omega)]
    congr 1
    have := hi.mem i
    rw [hm', List.getElem?_eq_getElem (by omega)] at this
    simp only [Option.some.injEq] at this
    by_cases h : i ∈ specRun ops
    · simp [h, this.1 h]
    · simp [h]; cases hb : s.bools[i] with
      | false => rfl
      | true => exact absurd (this.2 hb) h
  · rw [← Finset.card_eq_zero, ← hcard]; simp [NoDel.isEmpty]
  · obtain ⟨k, hk⟩ := NoDel.iterate_spec s
    refine ⟨_, _, iterate_mono (by omega) hk, hi.nodup, hF⟩

/-- A step of `bucketSet`. -/
def bucketStep (s : Bucket) : SetOp → Option Bucket
  | .insert i => s.insert i
  | .erase i => s.erase i
  | .clear => some s.clear

/-- C29 for `bucketSet`: after any sequence of inserts, erases and clears, membership, size and
iteration (ascending) are those of the mathematical set; iterating with removal visits the same
elements and leaves the empty set.  The memory content before `init` is arbitrary. -/
theorem C29_bucketSet (junk : List Bool) (ops : List SetOp) (hr : ∀ o ∈ ops, o.InRange junk.length) :
    ∃ s, runOps bucketStep (Bucket.init junk) ops = some s ∧
      (∀ i, i < junk.length → s.get i = some (decide (i ∈ specRun ops))) ∧
      s.size = (specRun ops).card ∧
      (∃ s' l, iterate Bucket.getNext (junk.length + 1) s.getFirst = some (s', l) ∧
        l.Pairwise (· < ·) ∧ l.toFinset = specRun ops) ∧
      ∃ s' l, iterate Bucket.removeNext (junk.length + 1) s.removeFirst = some (s', l) ∧
        l.Pairwise (· < ·) ∧ l.toFinset = specRun ops ∧ s'.size = 0 ∧ ∀ i, s'.get i ≠ some true := by
  obtain ⟨j1, j2⟩ := Bucket.init_spec junk
  obtain ⟨s, h1, hi, hn, hm⟩ := runOps_inv (n := junk.length) (p := fun _ => True) (step := bucketStep)
    (R := fun s F => s.Inv ∧ s.cont.length = junk.length ∧ ∀ x, x ∈ s.elems ↔ x ∈ F) (by
      rintro s F o ⟨hi, hn, hm⟩ - hr
      cases o with
      | insert i =>
        obtain ⟨s', j1, j2, j3, j4⟩ := Bucket.insert_spec hi (i := i) (by rw [hn]; exact hr)
        exact ⟨s', j1, j2, by omega, fun x => by rw [j4, SetOp.spec, Finset.mem_insert, hm]⟩
      | erase i =>
        obtain ⟨s', j1, j2, j3, j4⟩ := Bucket.erase_spec hi (i := i) (by rw [hn]; exact hr)
        exact ⟨s', j1, j2, by omega, fun x => by rw [j4, SetOp.spec, Finset.mem_erase, hm]⟩
      | clear =>
        obtain ⟨j1, j2⟩ := Bucket.clear_spec hi
        refine ⟨s.clear, rfl, j1, ?_, fun x => by simp [j2, SetOp.spec]⟩
        simp only [Bucket.clear]
        split_ifs <;> simp [hn]) ops (Bucket.init junk) ∅
    ⟨j1, by simp [Bucket.init, Bucket.clear], by simp [j2]⟩ hr (by simp)
  have hm' : ∀ x, x ∈ s.elems ↔ x ∈ specRun ops := hm
  have hF : s.elems.toFinset = specRun ops := by ext x; simp [hm']
  have hnd : s.elems.Nodup := Bucket.elemsFrom_nodup _ _
  have hcard : s.elems.length = (specRun ops).card := by rw [← hF, List.toFinset_card_of_nodup hnd]
  have hle : s.elems.length ≤ junk.length := by
    have hsub : s.elems ⊆ List.range junk.length := fun x hx => by
      have := (List.getElem?_eq_some_iff.1 (Bucket.mem_elemsFrom.1 hx).2).1
      simpa [hn] using this
    simpa using (List.subperm_of_subset hnd hsub).length_le
  refine ⟨s, h1, fun i hil => ?_, ?_, ?_, ?_⟩
  · have hil' : i < s.cont.length := by omega
    rw [Bucket.get, List.getElem?_eq_getElem hil']
    congr 1
    have := hm' i
    rw [Bucket.elems, Bucket.mem_elemsFrom, List.getElem?_eq_getElem hil'] at this
    simp only [Nat.zero_le, true_and, Option.some.injEq] at this
    by_cases h : i ∈ specRun ops
    · simp [h, this.2 h]
    · simp [h]; cases hb : s.cont[i] with
      | false => rfl
      | true => exact absurd (this.1 hb) h
  · rw [← hcard]; exact hi
  · obtain ⟨k, j, hk⟩ := Bucket.iterate_spec hi
    exact ⟨_, _, iterate_mono (by omega) hk, Bucket.elemsFrom_sorted _ _, hF⟩
  · obtain ⟨s', hk, hi', he⟩ := Bucket.remove_spec hi
    refine ⟨s', _, iterate_mono (by omega) hk, Bucket.elemsFrom_sorted _ _, hF, ?_, ?_⟩
    · have : s'.size = s'.elems.length := hi'
      rw [this, he]; rfl
    · intro i hc
      have : i ∈ s'.elems := Bucket.mem_elemsFrom.2 ⟨Nat.zero_le _, hc⟩
      rw [he] at this
      simp at this

/-- A step of `bIntSet`. -/
def bIntStep (s : BInt) : SetOp → Option BInt
  | .insert i => s.insert i
  | .erase i => s.erase i
  | .clear => some s.clear

/-- C29 for `bIntSet` without `append`: after any sequence of inserts, erases and clears the flags
and the array represent the mathematical set, in ascending order. -/
theorem C29_bIntSet (n : Nat) (hn : (n : Int) ≤ intMax) (ops : List SetOp) (hr : ∀ o ∈ ops, o.InRange n) :
    ∃ s, runOps bIntStep (BInt.init n) ops = some s ∧
      (∀ i, i < n → s.bools[i]? = some (decide (i ∈ specRun ops))) ∧
      s.arr.length = (specRun ops).card ∧
      s.arr.Pairwise (· < ·) ∧ ∀ x : Int, x ∈ s.arr ↔ ∃ i ∈ specRun ops, x = (i : Int) := by
  obtain ⟨s, h1, hi, hnl, hm⟩ := runOps_inv (n := n) (p := fun _ => True) (step := bIntStep)
    (R := fun s F => s.Inv ∧ s.bools.length = n ∧ ∀ x : Int, x ∈ s.arr ↔ ∃ i ∈ F, x = (i : Int)) (by
      rintro s F o ⟨hi, hn, hm⟩ - hr
      cases o with
      | insert i =>
        obtain ⟨s', j1, j2, j3, j4⟩ := BInt.insert_spec hi (i := i) (by rw [hn]; exact hr)
        exact ⟨s', j1, j2, by omega, fun x => by simp [j4, SetOp.spec, hm]⟩
      | erase i =>
        obtain ⟨s', j1, j2, j3, j4⟩ := BInt.erase_spec hi (i := i) (by rw [hn]; exact hr)
        refine ⟨s', j1, j2, by omega, fun x => ?_⟩
        rw [j4, hm]
        constructor
        · rintro ⟨hne, k, hk, rfl⟩
          exact ⟨k, Finset.mem_erase.2 ⟨fun h => hne (by rw [h]), hk⟩, rfl⟩
        · rintro ⟨k, hk, rfl⟩
          obtain ⟨h1, h2⟩ := Finset.mem_erase.1 hk
          exact ⟨fun h => h1 (by omega), k, h2, rfl⟩
      | clear =>
        obtain ⟨j1, j2⟩ := BInt.clear_spec hi
        exact ⟨s.clear, rfl, j1, by omega, fun x => by simp [BInt.clear, SetOp.spec]⟩) ops (BInt.init n) ∅
    ⟨BInt.init_inv n hn, by simp [BInt.init], by simp [BInt.init]⟩ hr (by simp)
  have hm' : ∀ x : Int, x ∈ s.arr ↔ ∃ i ∈ specRun ops, x = (i : Int) := hm
  refine ⟨s, h1, fun i hil => ?_, ?_, hi.sorted, hm'⟩
  · have hil' : i < s.bools.length := by omega
    rw [List.getElem?_eq_getElem hil']
    congr 1
    have h2 : i ∈ specRun ops ↔ s.bools[i] = true := by
      have := (hm' (i : Int)).symm.trans (hi.mem i)
      constructor
      · intro h
        obtain ⟨j, hj, hj'⟩ := this.1 ⟨i, h, rfl⟩
        have : i = j := by omega
        subst this
        simpa [List.getElem?_eq_getElem hil'] using hj'
      · intro h
        obtain ⟨j, hj, hj'⟩ := this.2 ⟨i, rfl, by simp [List.getElem?_eq_getElem hil', h]⟩
        have : i = j := by omega
        subst this; exact hj
    by_cases h : i ∈ specRun ops
    · simp [h, h2.1 h]
    · simp [h]; cases hb : s.bools[i] with
      | false => rfl
      | true => exact absurd (h2.2 hb) h
  · have hnd : s.arr.Nodup := hi.sorted.imp fun h => ne_of_lt h
    have : s.arr.toFinset = (specRun ops).map ⟨fun i : Nat => (i : Int), fun a b h => by simpa using h⟩ := by
      ext x
      simp only [List.mem_toFinset, hm', Finset.mem_map, eq_comm (a := x)]
      rfl
    rw [← List.toFinset_card_of_nodup hnd, this, Finset.card_map]

/-- C29 is violated by `delIterIntSet`: after inserting 0 and 1 the size is 2, but an iteration
visits only 0. -/
theorem C29_delIterIntSet_violated :
    ∃ s s', ((DelIter.init 2).insert 0).bind (·.insert 1) = some s ∧ s.size = 2 ∧ s.bools = [true, true] ∧
      iterate DelIter.getNext 10 s.getFirst = some (s', [0]) := by
  refine ⟨_, _, rfl, rfl, rfl, rfl⟩

/-- C29 is violated by `bIntSet::append`: an erase after two appends in descending order writes
outside the array. -/
theorem C29_append_violated : (((BInt.init 2).append 1).bind (·.append 0)).bind (·.erase 0) = none := by decide +kernel

/-- C29 is violated by `noDelIntSet::setIntersection`: the result never contains an element. -/
theorem C29_setIntersection_violated {s t : NoDel} (hs : s.Inv) (ht : t.Inv) :
    s.setIntersection t = none ∨ ∃ r, s.setIntersection t = some r ∧ r.ints = [] :=
  NoDel.setIntersection_wrong hs ht

/-- C29, the other two operations of `noDelIntSet` on two sets. -/
theorem C29_setUnion_setMinus {s t : NoDel} (hs : s.Inv) (ht : t.Inv) :
    (∃ r, s.setUnion t = some r ∧ r.Inv ∧ ∀ x, x ∈ r.ints ↔ x ∈ s.ints ∨ x ∈ t.ints) ∧
    ∃ r, s.setMinus t = some r ∧ r.Inv ∧ ∀ x, x ∈ r.ints ↔ x ∈ s.ints ∧ x ∉ t.ints :=
  ⟨NoDel.setUnion_spec hs ht, NoDel.setMinus_spec hs ht⟩

/-- Operations with a re-insertion after an erase and after a clear. -/
def exOps : List SetOp := [.insert 3, .insert 1, .erase 3, .insert 4, .insert 3, .clear, .insert 2, .insert 0]

example : (∀ o ∈ exOps, o.InRange 5) ∧ specRun exOps = {0, 2} := by
  refine ⟨?_, by decide⟩
  simp [exOps, SetOp.InRange]

example : (runOps bucketStep (Bucket.init [true, false, true, true, false]) exOps).map (fun s => (s.cont, s.size)) =
    some ([true, false, true, false, false], 2) := by decide +kernel

example : (runOps bIntStep (BInt.init 5) exOps).map (fun s => s.arr) = some [0, 2] := by decide +kernel

/-! ## C30 -/

open Verif.IntHeap

/-- Operations of the heap: add a pair, pop the first pair, clear. -/
inductive HeapOp
  | add (k v : Int)
  | pop
  | clear

/-- Run operations and record the popped pairs (`topKey`, `topVal` before each pop) together with
the pairs that were in the heap.  Outcome `none`: undefined behaviour. -/
def runHeap : H → List HeapOp → Option (H × List (Pair × List Pair))
  | h, [] => some (h, [])
  | h, .add k v :: os => match IntHeap.add h k v with
    | none => none
    | some h => runHeap h os
  | h, .pop :: os =>
    match IntHeap.top h, IntHeap.pop h with
    | some p, some h' => (runHeap h' os).map fun r => (r.1, (p, content h) :: r.2)
    | _, _ => none
  | h, .clear :: os => runHeap (IntHeap.clear h) os

/-- The bag of pairs after an operation, if the operation pops `p`. -/
def heapSpec : Multiset Pair → List HeapOp → List Pair → Option (Multiset Pair)
  | M, [], [] => some M
  | M, .add k v :: os, ps => heapSpec ((k, v) ::ₘ M) os ps
  | M, .pop :: os, p :: ps => if p ∈ M ∧ ∀ q ∈ M, p.1 ≤ q.1 then heapSpec (M.erase p) os ps else none
  | _, .clear :: os, ps => heapSpec 0 os ps
  | _, _, _ => none

/-- Number of elements after each prefix: pops happen only on a non-empty heap. -/
def popsOK : Nat → List HeapOp → Prop
  | _, [] => True
  | n, .add _ _ :: os => popsOK (n + 1) os
  | n, .pop :: os => 0 < n ∧ popsOK (n - 1) os
  | _, .clear :: os => popsOK 0 os

/-- C30: for every sequence of operations on a heap created with a positive capacity, in which
pops happen only while the heap is not empty, no operation leaves the array, each popped pair is an
element of the bag of pairs added and not yet popped with a minimal key, and the heap contains
exactly that bag in the end. -/
theorem C30_heap (size : Nat) (hsz : size ≠ 0) (ops : List HeapOp)
    (hk : ∀ k v, HeapOp.add k v ∈ ops → intMin ≤ k) (hp : popsOK 0 ops) :
    ∃ h0 h' l, IntHeap.new size = some h0 ∧ runHeap h0 ops = some (h', l) ∧
      heapSpec 0 ops (l.map Prod.fst) = some (content h' : Multiset Pair) ∧
      IntHeap.size h' = (content h').length ∧ (IntHeap.isEmpty h' = true ↔ content h' = []) := by
  obtain ⟨h0, e1, e2, e3⟩ := IntHeap.new_spec hsz
  have main : ∀ (ops : List HeapOp) (h : H), IntHeap.Inv h → (∀ k v, HeapOp.add k v ∈ ops → intMin ≤ k) →
      popsOK (content h).length ops →
      ∃ h' l, runHeap h ops = some (h', l) ∧
        heapSpec (content h : Multiset Pair) ops (l.map Prod.fst) = some (content h' : Multiset Pair) ∧ IntHeap.Inv h' := by
    intro ops
    induction ops with
    | nil => intro h hi _ _; exact ⟨h, [], rfl, by simp [heapSpec], hi⟩
    | cons o ops ih =>
      intro h hi hk hp
      have hk' : ∀ k v, HeapOp.add k v ∈ ops → intMin ≤ k := fun k v hm => hk k v (List.mem_cons_of_mem _ hm)
      cases o with
      | add k v =>
        obtain ⟨h1, j1, j2, j3⟩ := IntHeap.add_spec (v := v) hi (hk k v (by simp))
        obtain ⟨h', l, m1, m2, m3⟩ := ih h1 j2 hk' (by rw [j3.length_eq]; exact hp)
        refine ⟨h', l, by simp [runHeap, j1, m1], ?_, m3⟩
        rw [heapSpec, Multiset.cons_coe, ← Multiset.coe_eq_coe.2 j3]
        exact m2
      | pop =>
        obtain ⟨h1, p, j1, j2, j3, j4, j5⟩ := IntHeap.pop_spec hi (by
          intro he; rw [he] at hp; simp [popsOK] at hp)
        obtain ⟨h', l, m1, m2, m3⟩ := ih h1 j3 hk' (by
          have := j4.length_eq
          have hp2 := hp.2
          rw [this] at hp2
          simpa using hp2)
        refine ⟨h', (p, content h) :: l, by simp [runHeap, j1, j2, m1], ?_, m3⟩
        have hmem : p ∈ content h := j4.mem_iff.2 (by simp)
        simp only [List.map_cons, heapSpec]
        rw [if_pos ⟨Multiset.mem_coe.2 hmem, fun q hq => j5 q (Multiset.mem_coe.1 hq)⟩]
        have : (content h : Multiset Pair).erase p = (content h1 : Multiset Pair) := by
          rw [Multiset.coe_eq_coe.2 j4, ← Multiset.cons_coe, Multiset.erase_cons_head]
        rw [this]
        exact m2
      | clear =>
        obtain ⟨j1, j2⟩ := IntHeap.clear_spec hi
        obtain ⟨h', l, m1, m2, m3⟩ := ih (IntHeap.clear h) j1 hk' (by rw [j2]; exact hp)
        refine ⟨h', l, by simp [runHeap, m1], ?_, m3⟩
        rw [j2] at m2
        rw [heapSpec]
        exact m2
  obtain ⟨h', l, m1, m2, m3⟩ := main ops h0 e2 hk (by rw [e3]; exact hp)
  rw [e3] at m2
  refine ⟨h0, h', l, e1, m1, m2, by simp [IntHeap.size, content], ?_⟩
  have := List.length_pos_iff.2 m3.ne
  rw [← List.length_eq_zero_iff]
  simp [IntHeap.isEmpty, content]
  omega

/-- A heap of initial capacity 1 that grows twice. -/
example : ((IntHeap.new 1).bind (runHeap · [.add 5 1, .add 3 2, .pop, .add 4 3, .add 9 4, .add 4 5, .pop, .pop])).map
    (fun r => (r.2.map Prod.fst, content r.1)) = some ([(3, 2), (4, 3), (4, 5)], [(5, 1), (9, 4)]) := by decide +kernel

/-- C30 fails for capacity 0, which the landmark code requests for graphs with fewer than four
nodes (src/heuristics/landmarks/lmExtraction/LmCausal.cpp 99): the constructor writes its sentinel
outside the array. -/
theorem C30_capacity_zero_violated : IntHeap.new 0 = none := rfl

end Verif.Props
