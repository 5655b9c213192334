import Verif.IntSets
import Mathlib.Algebra.Order.Ring.Int

/-! # Models of `bIntSet` and `delIterIntSet` (src/intDataStructures) -/

namespace Verif.IntSets

open Verif.IntUtil

/-! ## `bIntSet` (src/intDataStructures/bIntSet.cpp) -/

/-- `boolContainer` and the first `currentSize` entries of `intContainer`. -/
structure BInt where
  bools : List Bool
  arr : List Int
deriving DecidableEq, Inhabited

def intMax : Int := 2147483647

namespace BInt

/-- `init` (src/intDataStructures/bIntSet.cpp 21-29). -/
def init (size : Nat) : BInt := ⟨List.replicate size false, []⟩

/-- `find` (src/intDataStructures/bIntSet.cpp 131-145).  Outcome `none`: read outside the array. -/
def find (a : List Int) (lo hi : Int) (x : Int) : Option Int :=
  if h : hi < lo then some (-1)
  else
    let i := (lo + hi) / 2
    if i < 0 then none else
    match a[i.toNat]? with
    | none => none
    | some y => if y = x then some i else if y < x then find a (i + 1) hi x else find a lo (i - 1) x
termination_by (hi - lo + 1).toNat
decreasing_by all_goals omega

/-- `insert` (src/intDataStructures/bIntSet.cpp 36-42). -/
def insert (s : BInt) (i : Nat) : Option BInt :=
  match s.bools[i]? with
  | none => none
  | some true => some s
  | some false =>
    if s.arr.length < s.bools.length then
      match sort (s.arr.length + 1) (s.arr ++ [(i : Int)]) 0 s.arr.length with
      | none => none
      | some a => some ⟨s.bools.set i true, a⟩
    else none

/-- `append` (src/intDataStructures/bIntSet.cpp 44-49). -/
def append (s : BInt) (i : Nat) : Option BInt :=
  match s.bools[i]? with
  | none => none
  | some true => some s
  | some false =>
    if s.arr.length < s.bools.length then some ⟨s.bools.set i true, s.arr ++ [(i : Int)]⟩ else none

/-- `erase` (src/intDataStructures/bIntSet.cpp 51-59).  If `find` fails the entry with index -1 is
written: outcome `none`. -/
def erase (s : BInt) (i : Nat) : Option BInt :=
  match s.bools[i]? with
  | none => none
  | some false => some s
  | some true =>
    match find s.arr 0 (s.arr.length - 1) i with
    | none => none
    | some r =>
      if r < 0 then none else
      match sort (s.arr.length + 1) (s.arr.set r.toNat intMax) 0 (s.arr.length - 1) with
      | none => none
      | some a => some ⟨s.bools.set i false, a.dropLast⟩

/-- `clear` (src/intDataStructures/bIntSet.cpp 65-70). -/
def clear (s : BInt) : BInt :=
  ⟨s.arr.foldl (fun b i => b.set i.toNat false) s.bools, []⟩

/-- `sortSet` (src/intDataStructures/bIntSet.cpp 95-97). -/
def sortSet (s : BInt) : Option BInt :=
  (sort (s.arr.length + 1) s.arr 0 (s.arr.length - 1)).map fun a => ⟨s.bools, a⟩

/-- Representation invariant: sorted. -/
structure Inv (s : BInt) : Prop where
  sorted : s.arr.Pairwise (· < ·)
  mem : ∀ x : Int, x ∈ s.arr ↔ ∃ i : Nat, x = i ∧ s.bools[i]? = some true
  small : (s.bools.length : Int) ≤ intMax

theorem find_spec {a : List Int} (hs : a.Pairwise (· < ·)) {x : Int} : ∀ {n : Nat} {lo hi : Int},
    (hi - lo + 1).toNat = n → 0 ≤ lo → hi < a.length →
    (∃ k : Nat, lo ≤ k ∧ (k : Int) ≤ hi ∧ a[k]? = some x) →
    ∃ r : Nat, find a lo hi x = some (r : Int) ∧ a[r]? = some x := by
  intro n
  induction n using Nat.strong_induction_on with
  | _ n ih =>
  rintro lo hi rfl h0 h1 ⟨k, hk1, hk2, hk3⟩
  rw [find, dif_neg (by omega)]
  have hmid : ¬ (lo + hi) / 2 < 0 := by omega
  have hml : ((lo + hi) / 2).toNat < a.length := by omega
  simp only [if_neg hmid, List.getElem?_eq_getElem hml]
  have hmono : ∀ i j : Nat, (hi : i < a.length) → (hj : j < a.length) → i < j → a[i] < a[j] :=
    fun i j hi hj h => List.pairwise_iff_getElem.1 hs i j hi hj h
  obtain ⟨hkl, hkx⟩ := List.getElem?_eq_some_iff.1 hk3
  split_ifs with e1 e2
  · refine ⟨((lo + hi) / 2).toNat, ?_, ?_⟩
    · congr 1; omega
    · rw [List.getElem?_eq_getElem hml, e1]
  · refine ih _ ?_ rfl (by omega) h1 ⟨k, ?_, hk2, hk3⟩
    · omega
    · by_contra hc
      have hle : k ≤ ((lo + hi) / 2).toNat := by omega
      rcases Nat.lt_or_eq_of_le hle with h | h
      · have := hmono k _ hkl hml h
        omega
      · subst h; omega
  · refine ih _ ?_ rfl h0 (by omega) ⟨k, hk1, ?_, hk3⟩
    · omega
    · by_contra hc
      have hle : ((lo + hi) / 2).toNat ≤ k := by omega
      rcases Nat.lt_or_eq_of_le hle with h | h
      · have := hmono _ k hml hkl h
        omega
      · subst h; omega

theorem Inv.room {s : BInt} (h : Inv s) {i : Nat} (hi : s.bools[i]? = some false) :
    s.arr.length < s.bools.length := by
  obtain ⟨hl, -⟩ := List.getElem?_eq_some_iff.1 hi
  have hsub : ((i : Int) :: s.arr) ⊆ (List.range s.bools.length).map (fun n : Nat => (n : Int)) := by
    intro x hx
    rw [List.mem_map]
    rcases List.mem_cons.1 hx with rfl | hx
    · exact ⟨i, by simpa using hl, rfl⟩
    · obtain ⟨j, rfl, hj⟩ := (h.mem x).1 hx
      exact ⟨j, by simpa using (List.getElem?_eq_some_iff.1 hj).1, rfl⟩
  have hnd : ((i : Int) :: s.arr).Nodup := by
    refine List.nodup_cons.2 ⟨fun hm => ?_, h.sorted.imp fun h => ne_of_lt h⟩
    obtain ⟨j, hj, hj'⟩ := (h.mem _).1 hm
    have : i = j := by omega
    subst this
    rw [hi] at hj'
    simp at hj'
  have := (List.subperm_of_subset hnd hsub).length_le
  simp at this
  omega

theorem init_inv (n : Nat) (hn : (n : Int) ≤ intMax) : Inv (init n) := by
  refine ⟨List.Pairwise.nil, fun x => ?_, by simpa [init] using hn⟩
  simp [init, List.getElem?_replicate]

theorem insert_spec {s : BInt} (h : Inv s) {i : Nat} (hi : i < s.bools.length) :
    ∃ s', s.insert i = some s' ∧ Inv s' ∧ s'.bools.length = s.bools.length ∧
      ∀ x : Int, x ∈ s'.arr ↔ x = i ∨ x ∈ s.arr := by
  unfold insert
  rw [List.getElem?_eq_getElem hi]
  cases hb : s.bools[i] with
  | true =>
    refine ⟨s, rfl, h, rfl, fun x => ⟨.inr, ?_⟩⟩
    rintro (rfl | h')
    · exact (h.mem _).2 ⟨i, rfl, by rw [List.getElem?_eq_getElem hi, hb]⟩
    · exact h'
  | false =>
    have hb' : s.bools[i]? = some false := by rw [List.getElem?_eq_getElem hi, hb]
    have hlen : (s.arr ++ [(i : Int)]).length - 1 = s.arr.length := by simp
    obtain ⟨b, h1, h2, h3⟩ := sort_full (f := s.arr.length + 1) (a := s.arr ++ [(i : Int)]) (by simp) (by simp)
    rw [hlen] at h1
    simp only [if_pos (h.room hb'), h1]
    have hni : (i : Int) ∉ s.arr := fun hm => by
      obtain ⟨j, hj, hj'⟩ := (h.mem _).1 hm
      have : i = j := by omega
      subst this
      rw [hb'] at hj'; simp at hj'
    have hmem : ∀ x : Int, x ∈ b ↔ x = i ∨ x ∈ s.arr := fun x => by
      rw [h2.mem_iff, List.mem_append, List.mem_singleton, or_comm]
    refine ⟨_, rfl, ⟨?_, fun x => ?_, by simpa using h.small⟩, by simp, hmem⟩
    · have hnd : b.Nodup := h2.nodup_iff.2 (by
        rw [List.nodup_append]
        refine ⟨h.sorted.imp fun h => ne_of_lt h, by simp, ?_⟩
        rintro a ha c hc rfl
        simp at hc
        subst hc
        exact hni ha)
      exact (h3.and hnd).imp fun ⟨h, h'⟩ => lt_of_le_of_ne h h'
    · rw [hmem, h.mem]
      constructor
      · rintro (rfl | ⟨j, rfl, hj⟩)
        · exact ⟨i, rfl, by simp [hi]⟩
        · refine ⟨j, rfl, ?_⟩
          rw [List.getElem?_set]
          split_ifs with e <;> simp_all
      · rintro ⟨j, rfl, hj⟩
        rw [List.getElem?_set] at hj
        split_ifs at hj with e
        · exact .inl (by rw [e])
        · exact .inr ⟨j, rfl, hj⟩

theorem erase_spec {s : BInt} (h : Inv s) {i : Nat} (hi : i < s.bools.length) :
    ∃ s', s.erase i = some s' ∧ Inv s' ∧ s'.bools.length = s.bools.length ∧
      ∀ x : Int, x ∈ s'.arr ↔ x ≠ i ∧ x ∈ s.arr := by
  unfold erase
  rw [List.getElem?_eq_getElem hi]
  cases hb : s.bools[i] with
  | false =>
    refine ⟨s, rfl, h, rfl, fun x => ⟨fun hx => ⟨?_, hx⟩, fun hx => hx.2⟩⟩
    rintro rfl
    obtain ⟨j, hj, hj'⟩ := (h.mem _).1 hx
    have : i = j := by omega
    subst this
    rw [List.getElem?_eq_getElem hi, hb] at hj'; simp at hj'
  | true =>
    have hin : (i : Int) ∈ s.arr := (h.mem _).2 ⟨i, rfl, by rw [List.getElem?_eq_getElem hi, hb]⟩
    obtain ⟨k, hk⟩ := List.mem_iff_getElem?.1 hin
    obtain ⟨hkl, -⟩ := List.getElem?_eq_some_iff.1 hk
    obtain ⟨r, hr1, hr2⟩ := find_spec h.sorted (x := (i : Int)) (lo := 0) (hi := s.arr.length - 1) rfl (by omega)
      (by omega) ⟨k, by omega, by omega, hk⟩
    obtain ⟨hrl, hrx⟩ := List.getElem?_eq_some_iff.1 hr2
    simp only [hr1, if_neg (show ¬ (r : Int) < 0 by omega), Int.toNat_natCast]
    obtain ⟨b, h1, h2, h3⟩ := sort_full (f := s.arr.length + 1) (a := s.arr.set r intMax) (by simp)
      (by intro he; have := congrArg List.length he; simp at this; simp [this] at hrl)
    rw [List.length_set] at h1
    simp only [h1]
    -- the content of the changed array
    have hnd : s.arr.Nodup := h.sorted.imp fun h => ne_of_lt h
    have hlt : ∀ x ∈ s.arr, x < intMax := fun x hx => by
      obtain ⟨j, rfl, hj⟩ := (h.mem x).1 hx
      have := (List.getElem?_eq_some_iff.1 hj).1
      have := h.small
      omega
    have hset : (s.arr.set r intMax).Perm (s.arr.erase i ++ [intMax]) := by
      have e1 : s.arr.set r intMax = s.arr.take r ++ intMax :: s.arr.drop (r + 1) :=
        List.set_eq_take_append_cons_drop.trans (if_pos hrl)
      have e2 : s.arr.Perm ((i : Int) :: (s.arr.take r ++ s.arr.drop (r + 1))) := by
        conv_lhs => rw [← List.take_append_drop r s.arr, List.drop_eq_getElem_cons hrl, hrx]
        exact List.perm_middle
      have e3 : (s.arr.erase (i : Int)).Perm (s.arr.take r ++ s.arr.drop (r + 1)) := by
        have := e2.erase (i : Int)
        simpa using this
      rw [e1]
      refine List.perm_middle.trans ?_
      exact (List.perm_append_singleton _ _).symm.trans (e3.symm.append_right _)
    have hbp := h2.trans hset
    -- the largest element is last
    have hb_last : ∃ c, b = c ++ [intMax] := by
      rcases List.eq_nil_or_concat b with rfl | ⟨c, z, rfl⟩
      · have := hbp.length_eq; simp at this
      · refine ⟨c, ?_⟩
        rw [List.concat_eq_append] at *
        congr 2
        have hz : z ∈ s.arr.erase (i : Int) ++ [intMax] := hbp.mem_iff.1 (by simp)
        have hm : intMax ∈ c ++ [z] := hbp.mem_iff.2 (by simp)
        have hle : intMax ≤ z := by
          rcases List.mem_append.1 hm with hm | hm
          · exact (List.pairwise_append.1 h3).2.2 _ hm z (by simp)
          · simp at hm; omega
        rcases List.mem_append.1 hz with hz | hz
        · have := hlt z (List.mem_of_mem_erase hz)
          omega
        · simpa using hz
    obtain ⟨c, rfl⟩ := hb_last
    rw [List.dropLast_concat]
    have hcp : c.Perm (s.arr.erase (i : Int)) := (List.perm_append_right_iff _).1 hbp
    have hmem : ∀ x : Int, x ∈ c ↔ x ≠ i ∧ x ∈ s.arr := fun x => by
      rw [hcp.mem_iff, hnd.mem_erase_iff]
    refine ⟨_, rfl, ⟨?_, fun x => ?_, by simpa using h.small⟩, by simp, hmem⟩
    · have hcs : c.Pairwise (· ≤ ·) := (List.pairwise_append.1 h3).1
      have hcn : c.Nodup := hcp.nodup_iff.2 (hnd.erase _)
      exact (hcs.and hcn).imp fun ⟨h, h'⟩ => lt_of_le_of_ne h h'
    · rw [hmem, h.mem]
      constructor
      · rintro ⟨hne, j, rfl, hj⟩
        refine ⟨j, rfl, ?_⟩
        rw [List.getElem?_set, if_neg (fun e => hne (by rw [e]))]
        exact hj
      · rintro ⟨j, rfl, hj⟩
        rw [List.getElem?_set] at hj
        split_ifs at hj with e
        · simp at hj
        · exact ⟨fun he => e (by omega), j, rfl, hj⟩

theorem clear_spec {s : BInt} (h : Inv s) : Inv s.clear ∧ s.clear.bools.length = s.bools.length := by
  have hset : ∀ (l : List Int) (b : List Bool), (l.foldl (fun b i => b.set i.toNat false) b).length = b.length ∧
      ∀ x, (l.foldl (fun b i => b.set i.toNat false) b)[x]? = some true ↔ b[x]? = some true ∧ ∀ y ∈ l, y.toNat ≠ x := by
    intro l
    induction l with
    | nil => intro b; simp
    | cons i l ih =>
      intro b
      obtain ⟨h1, h2⟩ := ih (b.set i.toNat false)
      refine ⟨by simpa using h1, fun x => ?_⟩
      simp only [List.foldl_cons]
      rw [h2]
      simp only [List.getElem?_set, List.forall_mem_cons]
      by_cases hx : i.toNat = x
      · subst hx
        rw [if_pos rfl]
        split_ifs with hlt <;> simp
      · simp [hx]
  obtain ⟨h1, h2⟩ := hset s.arr s.bools
  refine ⟨⟨List.Pairwise.nil, fun x => ?_, by simpa [clear, h1] using h.small⟩, h1⟩
  simp only [clear, List.not_mem_nil, false_iff, not_exists, not_and]
  rintro j rfl
  rw [h2]
  rintro ⟨h3, h4⟩
  exact h4 j ((h.mem j).2 ⟨j, rfl, h3⟩) (by simp)

end BInt

/-! ## `delIterIntSet` (src/intDataStructures/delIterIntSet.cpp) -/

/-- `struct llInt` (src/intDataStructures/delIterIntSet.h 13-19); uninitialised pointers are
`none`. -/
structure Cell where
  isFirst : Bool
  isLast : Bool
  value : Nat
  prev : Option Nat
  next : Option Nat
deriving DecidableEq

structure DelIter where
  bools : List Bool
  size : Nat
  cells : List Cell
  first : Option Nat
  last : Option Nat
  cur : Option Nat
deriving DecidableEq

namespace DelIter

/-- `init` (src/intDataStructures/delIterIntSet.cpp 23-30). -/
def init (n : Nat) : DelIter := ⟨List.replicate n false, 0, [], none, none, none⟩

/-- `insert` (src/intDataStructures/delIterIntSet.cpp 36-54). -/
def insert (s : DelIter) (i : Nat) : Option DelIter :=
  match s.bools[i]? with
  | none => none
  | some true => some s
  | some false =>
    let e := s.cells.length
    if s.size = 0 then
      some { s with bools := s.bools.set i true, size := 1,
                    cells := s.cells ++ [⟨true, true, i, none, none⟩], first := some e, last := some e }
    else
      match s.last with
      | none => none
      | some l =>
        match s.cells[l]? with
        | none => none
        | some c =>
          some { s with bools := s.bools.set i true, size := s.size + 1,
                        cells := s.cells.set l { c with prev := some e } ++ [⟨false, false, i, none, some l⟩],
                        last := some e }

/-- `getFirst` (src/intDataStructures/delIterIntSet.cpp 67-72). -/
def getFirst (s : DelIter) : DelIter × Option Nat :=
  if s.size = 0 then (s, none)
  else ({ s with cur := s.first }, (s.first.bind (s.cells[·]?)).map Cell.value)

/-- `getNext` (src/intDataStructures/delIterIntSet.cpp 74-86). -/
def getNext (s : DelIter) : DelIter × Option Nat :=
  if s.size = 0 then (s, none)
  else match s.cur with
    | none => (s, none)
    | some c =>
      match s.cells[c]? with
      | none => (s, none)
      | some cell =>
        if cell.isLast then ({ s with cur := none }, none)
        else ({ s with cur := cell.next }, (cell.next.bind (s.cells[·]?)).map Cell.value)

end DelIter

end Verif.IntSets
