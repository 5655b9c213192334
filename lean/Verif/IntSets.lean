import Verif.IntSort
import Mathlib.Data.Finset.Card
import Mathlib.Data.Finset.Sort

/-! # Models of the integer sets in src/intDataStructures

Elements are natural numbers.  Outcome `none`: access outside an array (in debug builds the
assertion fails). -/

namespace Verif.IntSets

/-- A loop `for (int i = s.getFirst(); i >= 0; i = s.getNext())` that does not change the set: the
visited elements.  `next` is `getNext`; the loop variable is given together with the set.  Outcome
`none`: fuel. -/
def iterate {S : Type} (next : S → S × Option Nat) : Nat → S × Option Nat → Option (S × List Nat)
  | 0, _ => none
  | _ + 1, (s, none) => some (s, [])
  | f + 1, (s, some x) => (iterate next f (next s)).map fun r => (r.1, x :: r.2)

theorem iterate_mono {S : Type} {next : S → S × Option Nat} : ∀ {f g : Nat} {x r}, f ≤ g →
    iterate next f x = some r → iterate next g x = some r := by
  intro f
  induction f with
  | zero => intro g x r _ h; simp [iterate] at h
  | succ f ih =>
    intro g x r hle h
    obtain ⟨g, rfl⟩ : ∃ g', g = g' + 1 := ⟨g - 1, by omega⟩
    match x, h with
    | (s, none), h => exact h
    | (s, some y), h =>
      simp only [iterate, Option.map_eq_some_iff] at h ⊢
      obtain ⟨q, h1, h2⟩ := h
      exact ⟨q, ih (by omega) h1, h2⟩

/-! ## `noDelIntSet` (src/intDataStructures/noDelIntSet.cpp) -/

/-- `boolContainer`, the first `currentSize` entries of `intContainer`, and `iterI + 1`. -/
structure NoDel where
  bools : List Bool
  ints : List Nat
  iter : Nat
deriving DecidableEq, Inhabited

namespace NoDel

/-- `init` (src/intDataStructures/noDelIntSet.cpp 19-27). -/
def init (size : Nat) : NoDel := ⟨List.replicate size false, [], 0⟩

/-- `insert` (src/intDataStructures/noDelIntSet.cpp 155-161). -/
def insert (s : NoDel) (i : Nat) : Option NoDel :=
  match s.bools[i]? with
  | none => none
  | some true => some s
  | some false =>
    if s.ints.length < s.bools.length then some { s with bools := s.bools.set i true, ints := s.ints ++ [i] }
    else none

/-- `get` (src/intDataStructures/noDelIntSet.cpp 197-200). -/
def get (s : NoDel) (i : Nat) : Option Bool := s.bools[i]?

/-- `getSize`, `isEmpty` (src/intDataStructures/noDelIntSet.cpp 163-165, 174-176). -/
def getSize (s : NoDel) : Nat := s.ints.length

def isEmpty (s : NoDel) : Bool := s.ints.length == 0

/-- `getFirst` (src/intDataStructures/noDelIntSet.cpp 178-183). -/
def getFirst (s : NoDel) : NoDel × Option Nat :=
  if s.ints.length = 0 then (s, none) else ({ s with iter := 1 }, s.ints[0]?)

/-- `getNext` (src/intDataStructures/noDelIntSet.cpp 185-191). -/
def getNext (s : NoDel) : NoDel × Option Nat :=
  ({ s with iter := s.iter + 1 }, if s.iter < s.ints.length then s.ints[s.iter]? else none)

/-- `clear` (src/intDataStructures/noDelIntSet.cpp 167-172). -/
def clear (s : NoDel) : NoDel :=
  { s with bools := s.ints.foldl (fun b i => b.set i false) s.bools, ints := [] }

/-- Insertion of the elements visited by a loop. -/
def insertAll (s : NoDel) : List Nat → Option NoDel
  | [] => some s
  | i :: is => match s.insert i with
    | none => none
    | some s => insertAll s is

/-- `clone` (src/intDataStructures/noDelIntSet.cpp 34-41). -/
def clone (s : NoDel) : Option NoDel := (init s.bools.length).insertAll s.ints

/-- `setUnion(second)` (src/intDataStructures/noDelIntSet.cpp 43-58). -/
def setUnion (s t : NoDel) : Option NoDel :=
  let less := if s.bools.length > t.bools.length then t else s
  let more := if s.bools.length > t.bools.length then s else t
  match more.clone with
  | none => none
  | some c => c.insertAll less.ints

/-- The filter of a loop that calls `get` on another set. -/
def filterGet (keep : NoDel → Nat → Option Bool) (t : NoDel) : List Nat → Option (List Nat)
  | [] => some []
  | i :: is =>
    match keep t i with
    | none => none
    | some b => (filterGet keep t is).map fun r => if b then i :: r else r

/-- `(moreElements->containerSize <= i) && (moreElements->get(i))`
(src/intDataStructures/noDelIntSet.cpp 98, 122). -/
def condInter (t : NoDel) (i : Nat) : Option Bool :=
  if t.bools.length ≤ i then t.get i else some false

/-- `setIntersection(second)` (src/intDataStructures/noDelIntSet.cpp 75-103). -/
def setIntersection (s t : NoDel) : Option NoDel :=
  let less := if s.ints.length > t.ints.length then t else s
  let more := if s.ints.length > t.ints.length then s else t
  match filterGet condInter more less.ints with
  | none => none
  | some l => (init (max s.bools.length t.bools.length)).insertAll l

/-- `(second->containerSize <= i) || (!second->get(i))`
(src/intDataStructures/noDelIntSet.cpp 138, 150). -/
def condMinus (t : NoDel) (i : Nat) : Option Bool :=
  if t.bools.length ≤ i then some true else (t.get i).map not

/-- `setMinus(second)` (src/intDataStructures/noDelIntSet.cpp 127-142). -/
def setMinus (s t : NoDel) : Option NoDel :=
  match filterGet condMinus t s.ints with
  | none => none
  | some l => (init (max s.bools.length t.bools.length)).insertAll l

/-- Representation invariant. -/
structure Inv (s : NoDel) : Prop where
  nodup : s.ints.Nodup
  mem : ∀ i, i ∈ s.ints ↔ s.bools[i]? = some true

theorem init_inv (n) : Inv (init n) := by
  refine ⟨List.nodup_nil, fun i => ?_⟩
  simp [init, List.getElem?_replicate]

theorem Inv.room {s : NoDel} (h : Inv s) {i : Nat} (hi : s.bools[i]? = some false) :
    s.ints.length < s.bools.length := by
  obtain ⟨hl, -⟩ := List.getElem?_eq_some_iff.1 hi
  have hsub : (i :: s.ints) ⊆ List.range s.bools.length := by
    intro x hx
    rcases List.mem_cons.1 hx with rfl | hx
    · simpa using hl
    · obtain ⟨hl', -⟩ := List.getElem?_eq_some_iff.1 ((h.mem x).1 hx)
      simpa using hl'
  have hnd : (i :: s.ints).Nodup := by
    refine List.nodup_cons.2 ⟨fun hm => ?_, h.nodup⟩
    rw [h.mem, hi] at hm
    simp at hm
  have := (List.subperm_of_subset hnd hsub).length_le
  simp at this
  omega

theorem insert_spec {s : NoDel} (h : Inv s) {i : Nat} (hi : i < s.bools.length) :
    ∃ s', s.insert i = some s' ∧ Inv s' ∧ s'.bools.length = s.bools.length ∧
      ∀ x, x ∈ s'.ints ↔ x = i ∨ x ∈ s.ints := by
  unfold insert
  cases hb : s.bools[i]? with
  | none => rw [List.getElem?_eq_none_iff] at hb; omega
  | some b =>
    cases b with
    | true =>
      refine ⟨s, rfl, h, rfl, fun x => ⟨.inr, ?_⟩⟩
      rintro (rfl | h')
      · exact (h.mem x).2 hb
      · exact h'
    | false =>
      simp only [if_pos (h.room hb)]
      refine ⟨_, rfl, ⟨?_, fun x => ?_⟩, by simp, fun x => by simp [or_comm]⟩
      · rw [List.nodup_append]
        refine ⟨h.nodup, by simp, ?_⟩
        rintro a ha b hb' rfl
        simp at hb'
        subst hb'
        rw [h.mem, hb] at ha
        simp at ha
      · simp only [List.mem_append, h.mem, List.mem_singleton, List.getElem?_set]
        by_cases hx : i = x
        · subst hx; simp [hi]
        · have hx' : ¬ x = i := fun h => hx h.symm
          simp [hx, hx']

theorem insertAll_spec {l : List Nat} : ∀ {s : NoDel}, Inv s → (∀ i ∈ l, i < s.bools.length) →
    ∃ s', s.insertAll l = some s' ∧ Inv s' ∧ s'.bools.length = s.bools.length ∧
      ∀ x, x ∈ s'.ints ↔ x ∈ l ∨ x ∈ s.ints := by
  induction l with
  | nil => intro s h _; exact ⟨s, rfl, h, rfl, by simp⟩
  | cons i l ih =>
    intro s h hl
    obtain ⟨s1, h1, h2, h3, h4⟩ := insert_spec h (hl i List.mem_cons_self)
    obtain ⟨s2, j1, j2, j3, j4⟩ := ih h2 (fun x hx => by rw [h3]; exact hl x (List.mem_cons_of_mem _ hx))
    refine ⟨s2, by simp [insertAll, h1, j1], j2, by omega, fun x => ?_⟩
    rw [j4, h4, List.mem_cons]
    constructor
    · rintro (h | h | h)
      · exact .inl (.inr h)
      · exact .inl (.inl h)
      · exact .inr h
    · rintro ((h | h) | h)
      · exact .inr (.inl h)
      · exact .inl h
      · exact .inr (.inr h)

theorem Inv.lt {s : NoDel} (h : Inv s) : ∀ i ∈ s.ints, i < s.bools.length := fun i hi =>
  (List.getElem?_eq_some_iff.1 ((h.mem i).1 hi)).1

theorem clear_spec {s : NoDel} (h : Inv s) : Inv s.clear ∧ s.clear.bools.length = s.bools.length := by
  have hset : ∀ (l : List Nat) (b : List Bool), (l.foldl (fun b i => b.set i false) b).length = b.length ∧
      ∀ x, (l.foldl (fun b i => b.set i false) b)[x]? = some true ↔ b[x]? = some true ∧ x ∉ l := by
    intro l
    induction l with
    | nil => intro b; simp
    | cons i l ih =>
      intro b
      obtain ⟨h1, h2⟩ := ih (b.set i false)
      refine ⟨by simpa using h1, fun x => ?_⟩
      simp only [List.foldl_cons]
      rw [h2]
      simp only [List.getElem?_set, List.mem_cons, not_or]
      by_cases hx : i = x
      · subst hx
        rw [if_pos rfl]
        split_ifs with hlt <;> simp
      · have hx' : ¬ x = i := fun h => hx h.symm
        simp [hx, hx']
  obtain ⟨h1, h2⟩ := hset s.ints s.bools
  refine ⟨⟨List.nodup_nil, fun x => ?_⟩, h1⟩
  simp only [clear, List.not_mem_nil, false_iff]
  rw [h2]
  rintro ⟨h3, h4⟩
  exact h4 ((h.mem x).2 h3)

/-- A loop over the set visits the entries of `intContainer` in order. -/
theorem iterate_spec (s : NoDel) :
    ∃ k, iterate getNext (s.ints.length + 2) s.getFirst = some ({ s with iter := k }, s.ints) := by
  have key : ∀ (d k : Nat) (s : NoDel), s.iter = k → s.ints.length - k = d → k ≤ s.ints.length →
      ∃ k', iterate getNext (d + 1) s.getNext = some ({ s with iter := k' }, s.ints.drop k) := by
    intro d
    induction d with
    | zero =>
      intro k s hk hd hle
      have : k = s.ints.length := by omega
      refine ⟨k + 1, ?_⟩
      simp only [getNext, hk]
      rw [if_neg (by omega)]
      simp [iterate, this]
    | succ d ih =>
      intro k s hk hd hle
      have hlt : k < s.ints.length := by omega
      obtain ⟨k', h⟩ := ih (k + 1) { s with iter := k + 1 } rfl (by simp; omega) (by simp; omega)
      refine ⟨k', ?_⟩
      have hn : s.getNext = ({ s with iter := k + 1 }, some s.ints[k]) := by
        simp only [getNext, hk, if_pos hlt, List.getElem?_eq_getElem hlt]
      rw [hn]
      simp only [iterate]
      rw [h, List.drop_eq_getElem_cons hlt]
      simp
  unfold getFirst
  split_ifs with h0
  · refine ⟨s.iter, ?_⟩
    have : s.ints = [] := List.length_eq_zero_iff.1 h0
    obtain ⟨b, l, k⟩ := s
    simp only at this
    subst this
    rfl
  · have hpos : 0 < s.ints.length := Nat.pos_of_ne_zero h0
    obtain ⟨k', h⟩ := key (s.ints.length - 1) 1 { s with iter := 1 } rfl rfl (by simp; omega)
    refine ⟨k', ?_⟩
    rw [List.getElem?_eq_getElem hpos]
    rw [show s.ints.length + 2 = s.ints.length - 1 + 1 + 1 + 1 by omega]
    have hmono : ∀ {f : Nat} {x : NoDel × Option Nat} {r}, iterate getNext f x = some r →
        iterate getNext (f + 1) x = some r := by
      intro f
      induction f with
      | zero => intro x r h; simp [iterate] at h
      | succ f ih =>
        intro x r h
        obtain ⟨s, o⟩ := x
        cases o with
        | none => simpa [iterate] using h
        | some y =>
          simp only [iterate, Option.map_eq_some_iff] at h ⊢
          obtain ⟨a, h1, h2⟩ := h
          exact ⟨a, ih h1, h2⟩
    have h' := hmono h
    simp only [iterate] at h' ⊢
    rw [h']
    simp only [Option.map_some]
    rw [List.cons_getElem_drop_succ, List.drop_zero]

theorem filterGet_spec {keep : NoDel → Nat → Option Bool} {t : NoDel} {p : Nat → Bool} : ∀ {l : List Nat},
    (∀ i ∈ l, keep t i = some (p i)) → filterGet keep t l = some (l.filter p) := by
  intro l
  induction l with
  | nil => intro _; rfl
  | cons i l ih =>
    intro h
    simp only [filterGet, h i List.mem_cons_self, ih (fun x hx => h x (List.mem_cons_of_mem _ hx))]
    by_cases hp : p i = true <;> simp [hp]

theorem setUnion_spec {s t : NoDel} (hs : Inv s) (ht : Inv t) :
    ∃ r, setUnion s t = some r ∧ Inv r ∧ ∀ x, x ∈ r.ints ↔ x ∈ s.ints ∨ x ∈ t.ints := by
  have main : ∀ {a b : NoDel}, Inv a → Inv b → b.bools.length ≤ a.bools.length →
      ∃ c, a.clone = some c ∧ ∃ r, c.insertAll b.ints = some r ∧ Inv r ∧ ∀ x, x ∈ r.ints ↔ x ∈ a.ints ∨ x ∈ b.ints := by
    intro a b ha hb hle
    obtain ⟨c, h1, h2, h3, h4⟩ := insertAll_spec (l := a.ints) (init_inv a.bools.length)
      (fun i hi => by simpa [init] using ha.lt i hi)
    simp only [init, List.length_replicate] at h3
    obtain ⟨r, j1, j2, -, j4⟩ := insertAll_spec (l := b.ints) h2
      (fun i hi => by rw [h3]; exact lt_of_lt_of_le (hb.lt i hi) hle)
    refine ⟨c, h1, r, j1, j2, fun x => ?_⟩
    rw [j4, h4]
    simp [init, or_comm]
  unfold setUnion
  by_cases h : s.bools.length > t.bools.length
  · simp only [if_pos h]
    obtain ⟨c, h1, r, h2, h3, h4⟩ := main hs ht (le_of_lt h)
    exact ⟨r, by simp only [h1, h2], h3, h4⟩
  · simp only [if_neg h]
    obtain ⟨c, h1, r, h2, h3, h4⟩ := main ht hs (by omega)
    exact ⟨r, by simp only [h1, h2], h3, fun x => by rw [h4, or_comm]⟩

theorem setMinus_spec {s t : NoDel} (hs : Inv s) (ht : Inv t) :
    ∃ r, setMinus s t = some r ∧ Inv r ∧ ∀ x, x ∈ r.ints ↔ x ∈ s.ints ∧ x ∉ t.ints := by
  have hf : filterGet condMinus t s.ints = some (s.ints.filter fun i => decide (i ∉ t.ints)) := by
    refine filterGet_spec fun i _ => ?_
    unfold condMinus get
    split_ifs with hl
    · have : i ∉ t.ints := fun h => by have := ht.lt i h; omega
      simp [this]
    · have hl : i < t.bools.length := by omega
      rw [List.getElem?_eq_getElem hl]
      have := ht.mem i
      rw [List.getElem?_eq_getElem hl] at this
      simp only [Option.map_some, Option.some.injEq] at this ⊢
      cases hb : t.bools[i] <;> simp_all
  obtain ⟨r, h1, h2, -, h4⟩ := insertAll_spec (l := s.ints.filter fun i => decide (i ∉ t.ints))
    (init_inv (max s.bools.length t.bools.length))
    (fun i hi => by
      have := hs.lt i (List.mem_filter.1 hi).1
      simp only [init, List.length_replicate]
      omega)
  refine ⟨r, by simp only [setMinus, hf, h1], h2, fun x => ?_⟩
  rw [h4]
  simp [init]

/-- `setIntersection` never finds a common element: either it reads outside the array or the
result is empty. -/
theorem setIntersection_wrong {s t : NoDel} (hs : Inv s) (ht : Inv t) :
    setIntersection s t = none ∨ ∃ r, setIntersection s t = some r ∧ r.ints = [] := by
  have hf : ∀ (t : NoDel) (l : List Nat), filterGet condInter t l = none ∨ filterGet condInter t l = some [] := by
    intro t l
    induction l with
    | nil => right; rfl
    | cons i l ih =>
      simp only [filterGet, condInter]
      split_ifs with hle
      · simp [get, List.getElem?_eq_none hle]
      · rcases ih with h | h <;> simp [h]
  unfold setIntersection
  rcases hf (if s.ints.length > t.ints.length then s else t) (if s.ints.length > t.ints.length then t else s).ints with h | h
  · left; simp only [h]
  · right; simp only [h]; exact ⟨_, rfl, rfl⟩

end NoDel

/-! ## `bucketSet` (src/intDataStructures/bucketSet.cpp) -/

structure Bucket where
  cont : List Bool
  /-- `currentSize` -/
  size : Nat
  /-- `iIter`, `numIterated` -/
  iter : Nat
  num : Nat
deriving DecidableEq, Inhabited

namespace Bucket

/-- `clear` (src/intDataStructures/bucketSet.cpp 47-54). -/
def clear (s : Bucket) : Bucket :=
  if 0 < s.size then { s with cont := List.replicate s.cont.length false, size := 0 } else s

/-- `init` (src/intDataStructures/bucketSet.cpp 16-21); `junk` is the uninitialised array. -/
def init (junk : List Bool) : Bucket := clear ⟨junk, 1, 0, 0⟩

/-- `insert` (src/intDataStructures/bucketSet.cpp 26-32). -/
def insert (s : Bucket) (i : Nat) : Option Bucket :=
  match s.cont[i]? with
  | none => none
  | some true => some s
  | some false => some { s with cont := s.cont.set i true, size := s.size + 1 }

/-- `erase` (src/intDataStructures/bucketSet.cpp 34-40). -/
def erase (s : Bucket) (i : Nat) : Option Bucket :=
  match s.cont[i]? with
  | none => none
  | some false => some s
  | some true => some { s with cont := s.cont.set i false, size := s.size - 1 }

/-- `get`, `getSize`, `isEmpty` (src/intDataStructures/bucketSet.cpp 42-44, 56-58, 112-115). -/
def get (s : Bucket) (i : Nat) : Option Bool := s.cont[i]?

/-- The loop `for (int i = start; i < containersize; i++) if (container[i])`. -/
def findFrom (c : List Bool) (start : Nat) : Option Nat :=
  ((c.drop start).findIdx? (· = true)).map (· + start)

/-- `getFirst` (src/intDataStructures/bucketSet.cpp 60-71). -/
def getFirst (s : Bucket) : Bucket × Option Nat :=
  if s.size = 0 then (s, none)
  else match findFrom s.cont 0 with
    | none => (s, none)
    | some i => ({ s with iter := i + 1, num := 1 }, some i)

/-- `getNext` (src/intDataStructures/bucketSet.cpp 73-84). -/
def getNext (s : Bucket) : Bucket × Option Nat :=
  if s.num = s.size then (s, none)
  else match findFrom s.cont s.iter with
    | none => (s, none)
    | some i => ({ s with iter := i + 1, num := s.num + 1 }, some i)

/-- `removeFirst` (src/intDataStructures/bucketSet.cpp 86-97). -/
def removeFirst (s : Bucket) : Bucket × Option Nat :=
  if s.size = 0 then (s, none)
  else match findFrom s.cont 0 with
    | none => (s, none)
    | some i => ({ s with cont := s.cont.set i false, size := s.size - 1, iter := i + 1 }, some i)

/-- `removeNext` (src/intDataStructures/bucketSet.cpp 99-110). -/
def removeNext (s : Bucket) : Bucket × Option Nat :=
  if s.size = 0 then (s, none)
  else match findFrom s.cont s.iter with
    | none => (s, none)
    | some i => ({ s with cont := s.cont.set i false, size := s.size - 1, iter := i + 1 }, some i)

/-- The elements at index `k` and above, ascending. -/
def elemsFrom (c : List Bool) (k : Nat) : List Nat :=
  (List.range c.length).filter fun i => decide (k ≤ i) && (c[i]?.getD false)

def elems (s : Bucket) : List Nat := elemsFrom s.cont 0

/-- Representation invariant. -/
def Inv (s : Bucket) : Prop := s.size = s.elems.length

theorem mem_elemsFrom {c : List Bool} {k i : Nat} : i ∈ elemsFrom c k ↔ k ≤ i ∧ c[i]? = some true := by
  simp only [elemsFrom, List.mem_filter, List.mem_range, Bool.and_eq_true, decide_eq_true_eq]
  constructor
  · rintro ⟨h1, h2, h3⟩
    rw [List.getElem?_eq_getElem h1] at h3 ⊢
    exact ⟨h2, by simpa using h3⟩
  · rintro ⟨h1, h2⟩
    exact ⟨(List.getElem?_eq_some_iff.1 h2).1, h1, by simp [h2]⟩

theorem elemsFrom_sorted (c : List Bool) (k : Nat) : (elemsFrom c k).Pairwise (· < ·) :=
  List.pairwise_lt_range.filter _

theorem elemsFrom_nodup (c : List Bool) (k : Nat) : (elemsFrom c k).Nodup :=
  (elemsFrom_sorted c k).imp fun h => Nat.ne_of_lt h

/-- Two sorted lists with the same elements are equal. -/
theorem sorted_ext {l m : List Nat} (hl : l.Pairwise (· < ·)) (hm : m.Pairwise (· < ·))
    (h : ∀ x, x ∈ l ↔ x ∈ m) : l = m :=
  List.Perm.eq_of_pairwise (fun a b _ _ h1 h2 => by omega) hl hm
    ((List.perm_ext_iff_of_nodup (hl.imp fun h => Nat.ne_of_lt h) (hm.imp fun h => Nat.ne_of_lt h)).2 h)

theorem findFrom_spec (c : List Bool) (k : Nat) :
    (findFrom c k = none ∧ elemsFrom c k = []) ∨
    ∃ i, findFrom c k = some i ∧ k ≤ i ∧ c[i]? = some true ∧ elemsFrom c k = i :: elemsFrom c (i + 1) := by
  unfold findFrom
  cases hf : (c.drop k).findIdx? (· = true) with
  | none =>
    left
    refine ⟨rfl, List.eq_nil_iff_forall_not_mem.2 fun i hi => ?_⟩
    obtain ⟨h1, h2⟩ := mem_elemsFrom.1 hi
    rw [List.findIdx?_eq_none_iff] at hf
    have hmem : true ∈ c.drop k := by
      rw [List.mem_iff_getElem?]
      exact ⟨i - k, by rw [List.getElem?_drop, show k + (i - k) = i by omega, h2]⟩
    have := hf true hmem
    simp at this
  | some j =>
    right
    obtain ⟨hj, h1, h2⟩ := List.findIdx?_eq_some_iff_getElem.1 hf
    have hjk : c[j + k]? = some true := by
      have : (c.drop k)[j]? = some true := by
        rw [List.getElem?_eq_getElem hj]; simpa using h1
      rw [List.getElem?_drop] at this
      rwa [Nat.add_comm]
    refine ⟨j + k, rfl, by omega, hjk, ?_⟩
    apply sorted_ext (elemsFrom_sorted _ _)
    · refine List.pairwise_cons.2 ⟨fun x hx => ?_, elemsFrom_sorted _ _⟩
      have := (mem_elemsFrom.1 hx).1
      omega
    · intro x
      rw [List.mem_cons, mem_elemsFrom, mem_elemsFrom]
      constructor
      · rintro ⟨hk, hx⟩
        rcases Nat.lt_trichotomy x (j + k) with hlt | heq | hgt
        · exfalso
          have h3 := h2 (x - k) (by omega)
          have : (c.drop k)[x - k]? = some true := by
            rw [List.getElem?_drop, show k + (x - k) = x by omega, hx]
          rw [List.getElem?_eq_getElem (by
            have := (List.getElem?_eq_some_iff.1 this).1; exact this)] at this
          simp only [Option.some.injEq] at this
          simp [this] at h3
        · exact .inl heq
        · exact .inr ⟨by omega, hx⟩
      · rintro (rfl | ⟨h, hx⟩)
        · exact ⟨by omega, hjk⟩
        · exact ⟨by omega, hx⟩

theorem init_spec (junk : List Bool) : Inv (init junk) ∧ (init junk).elems = [] := by
  have h : (init junk).elems = [] := by
    refine List.eq_nil_iff_forall_not_mem.2 fun i hi => ?_
    have := (mem_elemsFrom.1 hi).2
    simp [init, clear, List.getElem?_replicate] at this
  exact ⟨by rw [Inv, h]; rfl, h⟩

theorem clear_spec {s : Bucket} (h : Inv s) : Inv s.clear ∧ s.clear.elems = [] := by
  unfold clear
  split_ifs with hp
  · have : Bucket.elems { s with cont := List.replicate s.cont.length false, size := 0 } = [] := by
      refine List.eq_nil_iff_forall_not_mem.2 fun i hi => ?_
      have := (mem_elemsFrom.1 hi).2
      simp [List.getElem?_replicate] at this
    exact ⟨by rw [Inv, this]; rfl, this⟩
  · refine ⟨h, List.length_eq_zero_iff.1 ?_⟩
    rw [Inv] at h
    omega

theorem insert_spec {s : Bucket} (h : Inv s) {i : Nat} (hi : i < s.cont.length) :
    ∃ s', s.insert i = some s' ∧ Inv s' ∧ s'.cont.length = s.cont.length ∧
      ∀ x, x ∈ s'.elems ↔ x = i ∨ x ∈ s.elems := by
  have hmem : ∀ x, x ∈ elemsFrom (s.cont.set i true) 0 ↔ x = i ∨ x ∈ s.elems := by
    intro x
    rw [Bucket.elems, mem_elemsFrom, mem_elemsFrom, List.getElem?_set]
    by_cases hx : i = x
    · subst hx; simp [hi]
    · have hx' : ¬ x = i := fun h => hx h.symm
      simp [hx, hx']
  unfold insert
  rw [List.getElem?_eq_getElem hi]
  cases hb : s.cont[i] with
  | true =>
    refine ⟨s, rfl, h, rfl, fun x => ⟨.inr, ?_⟩⟩
    rintro (rfl | h')
    · exact mem_elemsFrom.2 ⟨Nat.zero_le _, by rw [List.getElem?_eq_getElem hi, hb]⟩
    · exact h'
  | false =>
    refine ⟨_, rfl, ?_, by simp, hmem⟩
    have hni : i ∉ s.elems := fun hm => by
      have := (mem_elemsFrom.1 hm).2
      rw [List.getElem?_eq_getElem hi, hb] at this
      simp at this
    have hp : (elemsFrom (s.cont.set i true) 0).Perm (i :: s.elems) :=
      (List.perm_ext_iff_of_nodup (elemsFrom_nodup _ _)
        (List.nodup_cons.2 ⟨hni, elemsFrom_nodup _ _⟩)).2 (fun x => by rw [hmem, List.mem_cons])
    rw [Inv, Bucket.elems, hp.length_eq, List.length_cons]
    rw [Inv] at h
    simp only
    omega

theorem erase_spec {s : Bucket} (h : Inv s) {i : Nat} (hi : i < s.cont.length) :
    ∃ s', s.erase i = some s' ∧ Inv s' ∧ s'.cont.length = s.cont.length ∧
      ∀ x, x ∈ s'.elems ↔ x ≠ i ∧ x ∈ s.elems := by
  have hmem : ∀ x, x ∈ elemsFrom (s.cont.set i false) 0 ↔ x ≠ i ∧ x ∈ s.elems := by
    intro x
    rw [Bucket.elems, mem_elemsFrom, mem_elemsFrom, List.getElem?_set]
    by_cases hx : i = x
    · subst hx; simp [hi]
    · have hx' : ¬ x = i := fun h => hx h.symm
      simp [hx, hx']
  unfold erase
  rw [List.getElem?_eq_getElem hi]
  cases hb : s.cont[i] with
  | false =>
    refine ⟨s, rfl, h, rfl, fun x => ⟨fun hx => ⟨?_, hx⟩, fun hx => hx.2⟩⟩
    rintro rfl
    have := (mem_elemsFrom.1 hx).2
    rw [List.getElem?_eq_getElem hi, hb] at this
    simp at this
  | true =>
    refine ⟨_, rfl, ?_, by simp, hmem⟩
    have hni : i ∉ elemsFrom (s.cont.set i false) 0 := fun hm => ((hmem i).1 hm).1 rfl
    have hii : i ∈ s.elems := mem_elemsFrom.2 ⟨Nat.zero_le _, by rw [List.getElem?_eq_getElem hi, hb]⟩
    have hp : s.elems.Perm (i :: elemsFrom (s.cont.set i false) 0) :=
      (List.perm_ext_iff_of_nodup (elemsFrom_nodup _ _)
        (List.nodup_cons.2 ⟨hni, elemsFrom_nodup _ _⟩)).2 (fun x => by
          rw [List.mem_cons, hmem]
          constructor
          · intro hx
            by_cases hxi : x = i
            · exact .inl hxi
            · exact .inr ⟨hxi, hx⟩
          · rintro (rfl | hx)
            · exact hii
            · exact hx.2)
    have hl := hp.length_eq
    rw [List.length_cons] at hl
    rw [Inv] at h
    rw [Inv, Bucket.elems]
    simp only
    omega

/-- A loop over the set that does not change it visits every element once, in ascending order. -/
theorem iterate_spec {s : Bucket} (h : Inv s) :
    ∃ k j, iterate getNext (s.elems.length + 1) s.getFirst = some ({ s with iter := k, num := j }, s.elems) := by
  have key : ∀ (d : Nat) (s : Bucket), Inv s → (elemsFrom s.cont s.iter).length = d → s.num + d = s.size →
      ∃ k j, iterate getNext (d + 1) s.getNext = some ({ s with iter := k, num := j }, elemsFrom s.cont s.iter) := by
    intro d
    induction d with
    | zero =>
      intro s _ hd hn
      refine ⟨s.iter, s.num, ?_⟩
      rw [getNext, if_pos (by omega), List.length_eq_zero_iff.1 hd]
      rfl
    | succ d ih =>
      intro s hi hd hn
      rw [getNext, if_neg (by omega)]
      rcases findFrom_spec s.cont s.iter with ⟨-, h2⟩ | ⟨i, h1, -, -, h2⟩
      · rw [h2] at hd; simp at hd
      · rw [h1, h2]
        rw [h2, List.length_cons] at hd
        obtain ⟨k, j, hkj⟩ := ih { s with iter := i + 1, num := s.num + 1 } hi (by simpa using hd) (by simp; omega)
        refine ⟨k, j, ?_⟩
        simp only [iterate, hkj, Option.map_some]
  unfold getFirst
  split_ifs with h0
  · have : s.elems = [] := List.length_eq_zero_iff.1 (by rw [Inv] at h; omega)
    exact ⟨s.iter, s.num, by rw [this]; rfl⟩
  · rcases findFrom_spec s.cont 0 with ⟨-, h2⟩ | ⟨i, h1, -, -, h2⟩
    · have : s.elems.length = 0 := by rw [Bucket.elems, h2]; rfl
      rw [Inv] at h; omega
    · rw [h1]
      have hlen : s.elems.length = (elemsFrom s.cont (i + 1)).length + 1 := by
        rw [Bucket.elems, h2]; rfl
      obtain ⟨k, j, hkj⟩ := key _ { s with iter := i + 1, num := 1 } h rfl (by
        rw [Inv] at h; simp only; omega)
      refine ⟨k, j, ?_⟩
      rw [hlen]
      simp only [iterate, hkj, Option.map_some]
      rw [Bucket.elems, h2]

/-- A loop `for (i = removeFirst(); i >= 0; i = removeNext())` visits every element and leaves
the set empty. -/
theorem remove_spec {s : Bucket} (h : Inv s) :
    ∃ s', iterate removeNext (s.elems.length + 1) s.removeFirst = some (s', s.elems) ∧ Inv s' ∧ s'.elems = [] := by
  have hset : ∀ (c : List Bool) (k i : Nat), k ≤ i → elemsFrom c k = i :: elemsFrom c (i + 1) →
      elemsFrom (c.set i false) (i + 1) = elemsFrom c (i + 1) := by
    intro c k i _ _
    apply sorted_ext (elemsFrom_sorted _ _) (elemsFrom_sorted _ _)
    intro x
    rw [mem_elemsFrom, mem_elemsFrom, List.getElem?_set]
    by_cases hx : i = x
    · subst hx; simp
    · simp [hx]
  have hall : ∀ (c : List Bool) (i : Nat), elemsFrom c 0 = i :: elemsFrom c (i + 1) →
      elemsFrom (c.set i false) 0 = elemsFrom c (i + 1) := by
    intro c i he
    apply sorted_ext (elemsFrom_sorted _ _) (elemsFrom_sorted _ _)
    intro x
    have hx0 : x ∈ elemsFrom c 0 ↔ x = i ∨ x ∈ elemsFrom c (i + 1) := by rw [he, List.mem_cons]
    rw [mem_elemsFrom, mem_elemsFrom] at hx0
    rw [mem_elemsFrom, mem_elemsFrom, List.getElem?_set]
    by_cases hx : i = x
    · subst hx; rw [if_pos rfl]; split_ifs <;> simp
    · have hx' : ¬ x = i := fun h => hx h.symm
      simp only [hx, if_false, Nat.zero_le, true_and]
      simp only [Nat.zero_le, true_and, hx', false_or] at hx0
      exact hx0
  -- while iterating, all remaining elements are at `iter` or above
  have key : ∀ (d : Nat) (s : Bucket), Inv s → s.elems = elemsFrom s.cont s.iter → s.elems.length = d →
      ∃ s', iterate removeNext (d + 1) s.removeNext = some (s', s.elems) ∧ Inv s' ∧ s'.elems = [] := by
    intro d
    induction d with
    | zero =>
      intro s hi he hd
      refine ⟨s, ?_, hi, List.length_eq_zero_iff.1 hd⟩
      rw [removeNext, if_pos (by rw [Inv] at hi; omega), List.length_eq_zero_iff.1 hd]
      rfl
    | succ d ih =>
      intro s hi he hd
      have hs0 : s.size ≠ 0 := by rw [Inv] at hi; omega
      rw [removeNext, if_neg hs0]
      rcases findFrom_spec s.cont s.iter with ⟨-, h2⟩ | ⟨i, h1, hk, -, h2⟩
      · rw [he, h2] at hd; simp at hd
      · rw [h1]
        have h0 : elemsFrom s.cont 0 = i :: elemsFrom s.cont (i + 1) := by
          have := he; rw [Bucket.elems] at this; rw [this, h2]
        have e1 := hset s.cont s.iter i hk h2
        have e0 := hall s.cont i h0
        have hlen : (elemsFrom s.cont (i + 1)).length = d := by
          rw [Bucket.elems, h0, List.length_cons] at hd; omega
        obtain ⟨s', j1, j2, j3⟩ := ih { s with cont := s.cont.set i false, size := s.size - 1, iter := i + 1 }
          (by
            rw [Inv, Bucket.elems]
            simp only [e0]
            rw [Inv, Bucket.elems, h0, List.length_cons] at hi
            omega)
          (by simp only [Bucket.elems, e0, e1]) (by simp only [Bucket.elems, e0]; exact hlen)
        refine ⟨s', ?_, j2, j3⟩
        simp only [iterate, j1, Option.map_some, Bucket.elems, e0]
        rw [h0]
  unfold removeFirst
  split_ifs with h0
  · have : s.elems = [] := List.length_eq_zero_iff.1 (by rw [Inv] at h; omega)
    exact ⟨s, by rw [this]; rfl, h, this⟩
  · rcases findFrom_spec s.cont 0 with ⟨-, h2⟩ | ⟨i, h1, hk, -, h2⟩
    · have : s.elems.length = 0 := by rw [Bucket.elems, h2]; rfl
      rw [Inv] at h; omega
    · rw [h1]
      have e1 := hset s.cont 0 i hk h2
      have e0 := hall s.cont i h2
      have hlen : s.elems.length = (elemsFrom s.cont (i + 1)).length + 1 := by
        rw [Bucket.elems, h2]; rfl
      obtain ⟨s', j1, j2, j3⟩ := key (elemsFrom s.cont (i + 1)).length
        { s with cont := s.cont.set i false, size := s.size - 1, iter := i + 1 }
        (by
          rw [Inv, Bucket.elems]
          simp only [e0]
          rw [Inv] at h
          omega)
        (by simp only [Bucket.elems, e0, e1]) (by simp only [Bucket.elems, e0])
      refine ⟨s', ?_, j2, j3⟩
      rw [hlen]
      simp only [iterate, j1, Option.map_some, Bucket.elems, e0]
      rw [h2]

end Bucket

end Verif.IntSets
