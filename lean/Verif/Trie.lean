import Verif.Bits
import Mathlib.Order.Nat
import Mathlib.Algebra.Order.Ring.Int
import Mathlib.Data.Nat.Find
import Mathlib.Tactic.Set
import Mathlib.Tactic.SplitIfs

/-! # Model of `compressed_sequence_trie` (src/intDataStructures/CompressedSequenceSet.cpp)

A null pointer is `Trie.nil`.  `blocks` is the length of `value`; block numbers are unbounded in the
model (C++: `uint16_t`, so that keys of 65536 and more words are outside the model).  Payload cells
contain elements of `α`; `default` is the null pointer. -/

namespace Verif.CST

open Verif.Bits

/-- `struct compressed_sequence_trie` (src/intDataStructures/CompressedSequenceSet.h 10-33). -/
inductive Trie (α : Type)
  | nil
  | node (payload : α) (value : List W) (first ignF ignL : Nat) (zero one : Trie α)
deriving DecidableEq

variable {α : Type} [Inhabited α]

def Trie.isNil : Trie α → Bool
  | .nil => true
  | .node .. => false

/-- `bitmask_ignore_first` (src/intDataStructures/SequenceSetCommon.h 6-8). -/
def ignFirst (b : Nat) : W := ~~~((1#64 <<< b) - 1#64)

/-- `bitmask_ignore_last` (src/intDataStructures/SequenceSetCommon.h 10-13). -/
def ignLast (b : Nat) : W := if b = 0 then ~~~0#64 else (1#64 <<< (64 - b)) - 1#64

/-- `x & bitmask_bit(b)` used as condition (src/intDataStructures/SequenceSetCommon.h 15-17). -/
def hasBit (x : W) (b : Nat) : Bool := (x &&& (1#64 <<< b)) != 0#64

/-- The public constructor (src/intDataStructures/CompressedSequenceSet.cpp 58-70); the payload is
set by the caller. -/
def mkRoot (seq : List W) (pad : Nat) (p : α) : Trie α := .node p seq 0 0 pad .nil .nil

/-- The internal constructor (src/intDataStructures/CompressedSequenceSet.cpp 73-87). -/
def mkChild (seq : List W) (block bit pad : Nat) (p : α) : Trie α :=
  .node p ((seq.drop block).modify 0 (· &&& ignFirst bit)) block bit pad .nil .nil

/-- `split_me_at` (src/intDataStructures/CompressedSequenceSet.cpp 89-136).  The result carries a
null payload.  Outcome `none`: shift by 64 or more (undefined behaviour) or block out of range. -/
def split : Trie α → Nat → Nat → Option (Trie α)
  | .nil, _, _ => none
  | .node p val first iF iL z o, block, bit =>
    if bit < 64 ∧ block < val.length then
      let cv := (val.drop block).modify 0 (· &&& ignFirst bit)
      let child := Trie.node p cv (first + block) bit iL z o
      let iL' := if 64 - bit = 64 then 0 else 64 - bit
      let blocks := if bit ≠ 0 then block + 1 else block
      let val' := (val.take blocks).modify (blocks - 1) (· &&& ignLast iL')
      if hasBit (cv[0]?.getD 0#64) bit then some (.node default val' first iF iL' .nil child)
      else some (.node default val' first iF iL' child .nil)
    else none

/-- The search for the first differing block
(src/intDataStructures/CompressedSequenceSet.cpp 145-163), from block `i` on. -/
def findDiff (seq : List W) (pad first iF iL blocks : Nat) : Nat → List W → Option Nat
  | _, [] => none
  | i, v :: vs =>
    match seq[first + i]? with
    | none => none
    | some x =>
      let x := if i = 0 then x &&& ignFirst iF else x
      let x := if i + 1 = blocks then x &&& ignLast iL else x
      let v := if first + i + 1 = seq.length then v &&& ignLast pad else v
      if x ≠ v then some i else findDiff seq pad first iF iL blocks (i + 1) vs

/-- The search for the first differing bit
(src/intDataStructures/CompressedSequenceSet.cpp 256-261). -/
def diffBit (x y : W) : Option Nat :=
  (List.range 64).find? fun i => hasBit x i != hasBit y i

/-- Overwrite the payload. -/
def Trie.setPayload (p : α) : Trie α → Trie α
  | .nil => .nil
  | .node _ val first iF iL z o => .node p val first iF iL z o

/-- Overwrite a child. -/
def Trie.setChild (t : Trie α) (b : Bool) (c : Trie α) : Trie α :=
  match t with
  | .nil => .nil
  | .node p val first iF iL z o => if b then .node p val first iF iL z c else .node p val first iF iL c o

/-- `compressed_sequence_trie::insert` (src/intDataStructures/CompressedSequenceSet.cpp 139-282)
followed by an access to the payload cell whose address is returned: the result contains the old
content of the cell, the new content is given by `f`.  Outcome `none`: undefined behaviour. -/
def insert (seq : List W) (pad : Nat) (f : α → α) : Trie α → Option (Trie α × α)
  | .nil => none
  | .node p val first iF iL z o =>
    let me := Trie.node p val first iF iL z o
    let descend := fun (b : Bool) (block bit : Nat) =>
      ((if (if b then o else z).isNil then some (mkChild seq block bit pad (f default), default)
        else (if b then insert seq pad f o else insert seq pad f z)).map
          fun r => (me.setChild b r.1, r.2))
    match findDiff seq pad first iF iL val.length 0 val with
    | none =>
      if first + val.length = seq.length then
        if iL = pad then some (me.setPayload (f p), p)
        else if pad < iL then
          descend (hasBit (seq.getLastD 0#64) (64 - iL)) (seq.length - 1) (64 - iL)
        else
          (split me (val.length - 1) (64 - pad)).map fun t => (t.setPayload (f default), default)
      else if first + val.length < seq.length then
        let nextBit := if 64 - iL = 64 then 0 else 64 - iL
        let nextBlock := first + val.length - (if nextBit ≠ 0 then 1 else 0)
        descend (hasBit (seq[nextBlock]?.getD 0#64) nextBit) nextBlock nextBit
      else if seq.length < first + 1 then none
      else
        (split me (seq.length - first - 1) (64 - pad)).map fun t => (t.setPayload (f default), default)
    | some b =>
      match seq[first + b]? with
      | none => none
      | some x =>
        match diffBit (if b = 0 then x &&& ignFirst iF else x) (val[b]?.getD 0#64) with
        | none => none
        | some bit =>
          (split me b bit).map fun t =>
            (t.setChild (hasBit x bit) (mkChild seq (first + b) bit pad (f default)), default)

/-! ## Masks -/

theorem hasBit_eq (x : W) (b : Nat) (hb : b < 64) : hasBit x b = x.getLsbD b := by
  unfold hasBit
  cases hx : x.getLsbD b with
  | true =>
    rw [bne_iff_ne]
    intro h
    have := congrArg (fun y : W => y.getLsbD b) h
    simp [getLsbD_shift b b hb, hx] at this
  | false =>
    rw [bne_eq_false_iff_eq]
    refine word_ext fun q hq => ?_
    rw [BitVec.getLsbD_and, getLsbD_shift b q hb]
    by_cases hqb : q = b
    · subst hqb; simp [hx]
    · simp [hqb]

theorem low_mask (b q : Nat) (hb : b < 64) : ((1#64 <<< b) - 1#64).getLsbD q = decide (q < b) := by
  have h1 : (1#64 <<< b).toNat = 2 ^ b := by
    rw [BitVec.toNat_shiftLeft, Nat.shiftLeft_eq]
    simp
    exact Nat.pow_lt_pow_right (by omega) hb
  have h2 : ((1#64 <<< b) - 1#64).toNat = 2 ^ b - 1 := by
    rw [BitVec.toNat_sub_of_le, h1]
    · rfl
    · rw [BitVec.le_def, h1]
      exact Nat.one_le_two_pow
  rw [BitVec.getLsbD, h2, Nat.testBit_two_pow_sub_one]

theorem ignFirst_bit (b q : Nat) (hb : b < 64) (hq : q < 64) : (ignFirst b).getLsbD q = decide (b ≤ q) := by
  unfold ignFirst
  rw [BitVec.getLsbD_not, low_mask b q hb]
  by_cases h : q < b
  · simp [h]
  · simp [h, hq]; omega

theorem ignLast_bit (b q : Nat) (hb : b < 64) (hq : q < 64) : (ignLast b).getLsbD q = decide (q < 64 - b) := by
  unfold ignLast
  split
  · subst b; rw [BitVec.getLsbD_not]; simp [hq]
  · exact low_mask _ q (by omega)

/-! ## Invariant -/

/-- First bit after the node. -/
def hiOf (val : List W) (first iL : Nat) : Nat := 64 * (first + val.length) - iL

/-- Well-formed subtree whose first bit is `lo`; `br` is the value of this bit for a child, and
`none` for the root. -/
def WF : Trie α → Nat → Option Bool → Prop
  | .nil, _, _ => True
  | .node _ val first iF iL z o, lo, br =>
    iF < 64 ∧ iL < 64 ∧ lo = 64 * first + iF ∧ lo ≤ hiOf val first iL ∧ iL ≤ 64 * val.length ∧
    (∀ g, g < iF ∨ 64 * val.length - iL ≤ g → gbit val g = false) ∧
    (match br with
      | none => lo = 0
      | some b => lo < hiOf val first iL ∧ gbit val iF = b) ∧
    WF z (hiOf val first iL) (some false) ∧ WF o (hiOf val first iL) (some true)

/-- A key as produced by `state2Int`. -/
structure KeyOK (seq : List W) (pad : Nat) : Prop where
  ne : seq ≠ []
  pad_lt : pad < 64
  zero : ∀ g, 64 * seq.length - pad ≤ g → gbit seq g = false

/-- Number of bits of a key. -/
def klen (seq : List W) (pad : Nat) : Nat := 64 * seq.length - pad

open Classical in
/-- The content of the cell of the key with bits `S` below `L`. -/
noncomputable def look (S : Nat → Bool) (L : Nat) : Trie α → α
  | .nil => default
  | .node p val first iF iL z o =>
    if (∀ g, 64 * first + iF ≤ g → g < hiOf val first iL → g < L → S g = gbit val (g - 64 * first)) then
      if L < hiOf val first iL then default
      else if L = hiOf val first iL then p
      else if S (hiOf val first iL) then look S L o else look S L z
    else default

theorem look_pos {S : Nat → Bool} {L : Nat} {p : α} {val : List W} {first iF iL : Nat} {z o : Trie α}
    (h : ∀ g, 64 * first + iF ≤ g → g < hiOf val first iL → g < L → S g = gbit val (g - 64 * first)) :
    look S L (.node p val first iF iL z o) = if L < hiOf val first iL then default
      else if L = hiOf val first iL then p
      else if S (hiOf val first iL) then look S L o else look S L z := if_pos h

theorem look_neg {S : Nat → Bool} {L : Nat} {p : α} {val : List W} {first iF iL : Nat} {z o : Trie α}
    (h : ¬ ∀ g, 64 * first + iF ≤ g → g < hiOf val first iL → g < L → S g = gbit val (g - 64 * first)) :
    look S L (.node p val first iF iL z o) = default := if_neg h

section findDiff

variable {seq val : List W} {pad first iF iL : Nat}

theorem block_eq (hk : KeyOK seq pad) (hF : iF < 64) (hL : iL < 64) (hLv : iL ≤ 64 * val.length)
    (hz : ∀ g, g < iF ∨ 64 * val.length - iL ≤ g → gbit val g = false) {i : Nat} {x v : W}
    (hx : seq[first + i]? = some x) (hv : val[i]? = some v) :
    ((if i + 1 = val.length then (if i = 0 then x &&& ignFirst iF else x) &&& ignLast iL
        else (if i = 0 then x &&& ignFirst iF else x)) =
      (if first + i + 1 = seq.length then v &&& ignLast pad else v)) ↔
    ∀ q < 64, 64 * first + iF ≤ 64 * (first + i) + q → 64 * (first + i) + q < hiOf val first iL →
      64 * (first + i) + q < klen seq pad → x.getLsbD q = v.getLsbD q := by
  have hpad := hk.pad_lt
  have hxl : first + i < seq.length := (List.getElem?_eq_some_iff.1 hx).1
  have hvl : i < val.length := (List.getElem?_eq_some_iff.1 hv).1
  have hxb : ∀ q < 64, x.getLsbD q = gbit seq (64 * (first + i) + q) := fun q hq => by
    rw [gbit_block _ _ _ hq, hx]; rfl
  have hvb : ∀ q < 64, v.getLsbD q = gbit val (64 * i + q) := fun q hq => by
    rw [gbit_block _ _ _ hq, hv]; rfl
  -- bits of the two compared words
  have hl : ∀ q < 64, (if i + 1 = val.length then (if i = 0 then x &&& ignFirst iF else x) &&& ignLast iL
        else (if i = 0 then x &&& ignFirst iF else x)).getLsbD q =
      (x.getLsbD q && (decide (i = 0 → iF ≤ q) && decide (i + 1 = val.length → q < 64 - iL))) := by
    intro q hq
    rw [Bool.eq_iff_iff]
    split_ifs <;> simp only [BitVec.getLsbD_and, ignFirst_bit iF q hF hq, ignLast_bit iL q hL hq,
      Bool.and_eq_true, decide_eq_true_eq] <;>
      by_cases hX : x.getLsbD q = true <;> simp only [hX, true_and, false_and, true_iff, Bool.false_eq_true] <;> omega
  have hr : ∀ q < 64, (if first + i + 1 = seq.length then v &&& ignLast pad else v).getLsbD q =
      (v.getLsbD q && decide (first + i + 1 = seq.length → q < 64 - pad)) := by
    intro q hq
    by_cases h1 : first + i + 1 = seq.length <;> simp [h1, ignLast_bit pad q hpad hq]
  unfold hiOf klen
  constructor
  · intro he q hq h1 h2 h3
    have := congrArg (fun y : W => y.getLsbD q) he
    rw [hl q hq, hr q hq] at this
    have e1 : decide (i = 0 → iF ≤ q) = true := by simp; omega
    have e2 : decide (i + 1 = val.length → q < 64 - iL) = true := by simp; omega
    have e3 : decide (first + i + 1 = seq.length → q < 64 - pad) = true := by simp; omega
    simpa [e1, e2, e3] using this
  · intro h
    refine word_ext fun q hq => ?_
    rw [hl q hq, hr q hq]
    by_cases h1 : 64 * first + iF ≤ 64 * (first + i) + q
    · by_cases h2 : 64 * (first + i) + q < 64 * (first + val.length) - iL
      · by_cases h3 : 64 * (first + i) + q < 64 * seq.length - pad
        · have e1 : decide (i = 0 → iF ≤ q) = true := by simp; omega
          have e2 : decide (i + 1 = val.length → q < 64 - iL) = true := by simp; omega
          have e3 : decide (first + i + 1 = seq.length → q < 64 - pad) = true := by simp; omega
          simp [e1, e2, e3, h q hq h1 h2 h3]
        · have e3 : decide (first + i + 1 = seq.length → q < 64 - pad) = false := by simp; omega
          rw [hxb q hq, hk.zero _ (by omega), e3]; simp
      · have e2 : decide (i + 1 = val.length → q < 64 - iL) = false := by simp; omega
        rw [hvb q hq, hz _ (.inr (by omega)), e2]; simp
    · have e1 : decide (i = 0 → iF ≤ q) = false := by simp; omega
      rw [hvb q hq, hz _ (.inl (by omega)), e1]; simp

/-- What the comparison loop finds. -/
theorem findDiff_spec (hk : KeyOK seq pad) (hF : iF < 64) (hL : iL < 64) (hLv : iL ≤ 64 * val.length)
    (hz : ∀ g, g < iF ∨ 64 * val.length - iL ≤ g → gbit val g = false) :
    ∀ (vs : List W) (i : Nat), vs = val.drop i → i ≤ val.length →
      (∀ g, 64 * first + iF ≤ g → g < 64 * (first + i) → g < hiOf val first iL → g < klen seq pad →
        gbit seq g = gbit val (g - 64 * first)) →
      match findDiff seq pad first iF iL val.length i vs with
      | none => ∀ g, 64 * first + iF ≤ g → g < hiOf val first iL → g < klen seq pad →
          gbit seq g = gbit val (g - 64 * first)
      | some b => ∃ x q, q < 64 ∧ b < val.length ∧ seq[first + b]? = some x ∧
          64 * first + iF ≤ 64 * (first + b) + q ∧ 64 * (first + b) + q < hiOf val first iL ∧
          64 * (first + b) + q < klen seq pad ∧
          gbit seq (64 * (first + b) + q) ≠ gbit val (64 * b + q) ∧
          ∀ g, 64 * first + iF ≤ g → g < 64 * (first + b) + q → gbit seq g = gbit val (g - 64 * first) := by
  intro vs
  induction vs with
  | nil =>
    intro i hd hi hg
    simp only [findDiff]
    intro g h1 h2 h3
    have : i = val.length := by
      have := congrArg List.length hd
      simp at this; omega
    refine hg g h1 ?_ h2 h3
    subst this
    unfold hiOf at h2; omega
  | cons v vs ih =>
    intro i hd hi hg
    have hvi : val[i]? = some v := by
      have := congrArg (fun l : List W => l[0]?) hd
      simpa using this.symm
    have hil := (List.getElem?_eq_some_iff.1 hvi).1
    have hd' : vs = val.drop (i + 1) := by
      rw [← List.drop_drop, ← hd]; rfl
    simp only [findDiff]
    cases hx : seq[first + i]? with
    | none =>
      simp only
      intro g h1 h2 h3
      have hxl := List.getElem?_eq_none_iff.1 hx
      refine hg g h1 ?_ h2 h3
      have : klen seq pad ≤ 64 * seq.length := by unfold klen; omega
      omega
    | some x =>
      simp only
      have hxl := (List.getElem?_eq_some_iff.1 hx).1
      have hb := block_eq (first := first) hk hF hL hLv hz hx hvi
      have hsg : ∀ q < 64, gbit seq (64 * (first + i) + q) = x.getLsbD q := fun q hq => by
        rw [gbit_block _ _ _ hq, hx]; rfl
      have hvg : ∀ q < 64, gbit val (64 * i + q) = v.getLsbD q := fun q hq => by
        rw [gbit_block _ _ _ hq, hvi]; rfl
      by_cases heq : ∀ q < 64, 64 * first + iF ≤ 64 * (first + i) + q → 64 * (first + i) + q < hiOf val first iL →
          64 * (first + i) + q < klen seq pad → x.getLsbD q = v.getLsbD q
      · rw [if_neg (not_not.2 (hb.2 heq))]
        refine ih (i + 1) hd' (by omega) ?_
        intro g h1 h2 h3 h4
        rcases Nat.lt_or_ge g (64 * (first + i)) with h5 | h5
        · exact hg g h1 h5 h3 h4
        · obtain ⟨q, rfl⟩ := Nat.exists_eq_add_of_le h5
          have hq : q < 64 := by omega
          rw [hsg q hq, heq q hq h1 h3 h4, ← hvg q hq]
          congr 1; omega
      · rw [if_pos (fun h => heq (hb.1 h))]
        simp only
        -- the first differing bit of this block
        have hex : ∃ q, q < 64 ∧ 64 * first + iF ≤ 64 * (first + i) + q ∧ 64 * (first + i) + q < hiOf val first iL ∧
            64 * (first + i) + q < klen seq pad ∧ x.getLsbD q ≠ v.getLsbD q := by
          by_contra hcon
          refine heq fun q hq h1 h2 h3 => ?_
          by_contra h4
          exact hcon ⟨q, hq, h1, h2, h3, h4⟩
        classical
        obtain ⟨hq, h1, h2, h3, h4⟩ := Nat.find_spec hex
        have hmin := fun q (hq : q < Nat.find hex) => Nat.find_min hex hq
        generalize Nat.find hex = q at *
        refine ⟨x, q, hq, hil, hx, h1, h2, h3, ?_, ?_⟩
        · rw [hsg q hq, hvg q hq]; exact h4
        · intro g h5 h6
          rcases Nat.lt_or_ge g (64 * (first + i)) with h7 | h7
          · exact hg g h5 h7 (by omega) (by omega)
          · obtain ⟨q', rfl⟩ := Nat.exists_eq_add_of_le h7
            have hq' : q' < q := by omega
            have := hmin q' hq'
            rw [hsg q' (by omega)]
            have e : 64 * (first + i) + q' - 64 * first = 64 * i + q' := by omega
            rw [e, hvg q' (by omega)]
            by_contra h8
            exact this ⟨by omega, by omega, by omega, by omega, h8⟩

/-- The first differing bit is found. -/
theorem diffBit_spec {x y : W} {q : Nat} (hq : q < 64) (h1 : x.getLsbD q ≠ y.getLsbD q)
    (h2 : ∀ q' < q, x.getLsbD q' = y.getLsbD q') : diffBit x y = some q := by
  unfold diffBit
  rw [List.find?_range_eq_some]
  refine ⟨?_, List.mem_range.2 hq, fun j hj => ?_⟩
  · rw [hasBit_eq _ _ hq, hasBit_eq _ _ hq]; simpa using h1
  · rw [hasBit_eq _ _ (by omega), hasBit_eq _ _ (by omega), h2 j hj]; simp

end findDiff

/-! ## Splitting -/

theorem gbit_modify_first (ws : List W) (b g : Nat) (hb : b < 64) :
    gbit (ws.modify 0 (· &&& ignFirst b)) g = (gbit ws g && decide (b ≤ g)) := by
  obtain ⟨i, q, hq, rfl⟩ := gbit_split g
  rw [gbit_block _ _ _ hq, gbit_block _ _ _ hq]
  cases ws with
  | nil => simp
  | cons w ws =>
    cases i with
    | zero => simp [ignFirst_bit b q hb hq]
    | succ i =>
      have : decide (b ≤ 64 * (i + 1) + q) = true := by simp; omega
      simp [this]

theorem gbit_drop (ws : List W) (k g : Nat) : gbit (ws.drop k) g = gbit ws (64 * k + g) := by
  obtain ⟨i, q, hq, rfl⟩ := gbit_split g
  have : 64 * k + (64 * i + q) = 64 * (k + i) + q := by omega
  rw [this, gbit_block _ _ _ hq, gbit_block _ _ _ hq, List.getElem?_drop]

theorem gbit_take (ws : List W) (k g : Nat) : gbit (ws.take k) g = (gbit ws g && decide (g < 64 * k)) := by
  obtain ⟨i, q, hq, rfl⟩ := gbit_split g
  rw [gbit_block _ _ _ hq, gbit_block _ _ _ hq, List.getElem?_take]
  by_cases h : i < k
  · have : decide (64 * i + q < 64 * k) = true := by simp; omega
    simp [h, this]
  · have : decide (64 * i + q < 64 * k) = false := by simp; omega
    simp [h, this]

theorem gbit_modify_last (ws : List W) (k b g : Nat) (hk : ws.length = k + 1) (hb : b < 64) :
    gbit (ws.modify k (· &&& ignLast b)) g = (gbit ws g && decide (g < 64 * (k + 1) - b)) := by
  obtain ⟨i, q, hq, rfl⟩ := gbit_split g
  rw [gbit_block _ _ _ hq, gbit_block _ _ _ hq, List.getElem?_modify]
  rcases Nat.lt_trichotomy i k with h | h | h
  · have : decide (64 * i + q < 64 * (k + 1) - b) = true := by simp; omega
    rw [this]
    simp [show ¬ k = i by omega]
  · subst h
    have hd : decide (64 * i + q < 64 * (i + 1) - b) = decide (q < 64 - b) := by
      simp only [decide_eq_decide]; omega
    rw [hd]
    obtain ⟨w, hw⟩ : ∃ w, ws[i]? = some w := ⟨ws[i], List.getElem?_eq_getElem (by omega)⟩
    simp [hw, ignLast_bit b q hb hq]
  · rw [List.getElem?_eq_none (by omega)]; simp

section split

variable {p : α} {val : List W} {first iF iL : Nat} {z o : Trie α} {lo : Nat} {br : Option Bool}

/-- The two parts of a split node. -/
theorem split_spec (hwf : WF (.node p val first iF iL z o) lo br) {block bit : Nat} (hb : bit < 64)
    (hbl : block < val.length) (h1 : lo ≤ 64 * (first + block) + bit)
    (h2 : 64 * (first + block) + bit < hiOf val first iL) (h3 : br ≠ none → lo < 64 * (first + block) + bit) :
    ∃ val' iL' c cz co, split (.node p val first iF iL z o) block bit = some (.node default val' first iF iL' cz co) ∧
      (cz = if gbit val (64 * block + bit) then .nil else c) ∧
      (co = if gbit val (64 * block + bit) then c else .nil) ∧
      hiOf val' first iL' = 64 * (first + block) + bit ∧
      (∀ g, g < 64 * block + bit → gbit val' g = gbit val g) ∧
      WF (.node (default : α) val' first iF iL' .nil .nil) lo br ∧
      WF c (64 * (first + block) + bit) (some (gbit val (64 * block + bit))) ∧
      (c = Trie.node p ((val.drop block).modify 0 (· &&& ignFirst bit)) (first + block) bit iL z o) ∧
      hiOf ((val.drop block).modify 0 (· &&& ignFirst bit)) (first + block) iL = hiOf val first iL ∧
      (∀ g, bit ≤ g → gbit ((val.drop block).modify 0 (· &&& ignFirst bit)) g = gbit val (64 * block + g)) := by
  obtain ⟨hF, hL, hlo, hle, hLv, hz, hbr, hwz, hwo⟩ := hwf
  set cv := (val.drop block).modify 0 (· &&& ignFirst bit) with hcv
  have hcvl : cv.length = val.length - block := by simp [hcv]
  have hcvb : ∀ g, gbit cv g = (gbit val (64 * block + g) && decide (bit ≤ g)) := fun g => by
    rw [hcv, gbit_modify_first _ _ _ hb, gbit_drop]
  have hcv0 : hasBit (cv[0]?.getD 0#64) bit = gbit val (64 * block + bit) := by
    rw [hasBit_eq _ _ hb]
    have := hcvb bit
    rw [show gbit cv bit = (cv[0]?.getD 0#64).getLsbD bit by
      have := gbit_block cv 0 bit hb
      simpa using this] at this
    simpa using this
  have hhi : hiOf cv (first + block) iL = hiOf val first iL := by
    unfold hiOf; rw [hcvl]; congr 2; omega
  set iL' := if 64 - bit = 64 then 0 else 64 - bit with hiL'
  set blocks := if bit ≠ 0 then block + 1 else block with hblocks
  set val' := (val.take blocks).modify (blocks - 1) (· &&& ignLast iL') with hval'
  have hbb : blocks ≤ val.length := by rw [hblocks]; split <;> omega
  have hlen' : val'.length = blocks := by simp [hval']; omega
  have hsplit64 : 64 * blocks - iL' = 64 * block + bit := by
    rw [hblocks, hiL']
    split_ifs <;> omega
  have hiL64 : iL' < 64 := by rw [hiL']; split_ifs <;> omega
  have hiLle : iL' ≤ 64 * blocks := by rw [hblocks, hiL']; split_ifs <;> omega
  have hbits : ∀ g, gbit val' g = (gbit val g && decide (g < 64 * block + bit)) := by
    intro g
    by_cases h0 : blocks = 0
    · have hv0 : val' = [] := List.eq_nil_of_length_eq_zero (by rw [hlen', h0])
      have : decide (g < 64 * block + bit) = false := by simp; omega
      rw [hv0, this]
      rw [gbit_out _ _ (by simp)]; simp
    · have := gbit_modify_last (val.take blocks) (blocks - 1) iL' g (by simp; omega) hiL64
      rw [hval', this, gbit_take, Bool.and_assoc]
      congr 1
      rw [← Bool.decide_and]
      simp only [decide_eq_decide]
      have : blocks - 1 + 1 = blocks := by omega
      rw [this, hsplit64]
      omega
  refine ⟨val', iL', Trie.node p cv (first + block) bit iL z o,
    (if gbit val (64 * block + bit) then .nil else .node p cv (first + block) bit iL z o),
    (if gbit val (64 * block + bit) then .node p cv (first + block) bit iL z o else .nil), ?_, rfl, rfl, ?_, ?_, ?_, ?_,
    rfl, hhi, ?_⟩
  · have hu : split (.node p val first iF iL z o) block bit =
        if bit < 64 ∧ block < val.length then
          (if hasBit (cv[0]?.getD 0#64) bit then some (.node default val' first iF iL' .nil (Trie.node p cv (first + block) bit iL z o))
          else some (.node default val' first iF iL' (Trie.node p cv (first + block) bit iL z o) .nil))
        else none := rfl
    rw [hu, if_pos ⟨hb, hbl⟩, hcv0]
    split <;> rfl
  · unfold hiOf; rw [hlen']; omega
  · intro g hg
    rw [hbits g]; simp [hg]
  · refine ⟨hF, hiL64, hlo, ?_, by rw [hlen']; exact hiLle, ?_, ?_, trivial, trivial⟩
    · unfold hiOf; rw [hlen']; omega
    · intro g hg
      rw [hbits g]
      rcases hg with hg | hg
      · rw [hz g (.inl hg)]; simp
      · rw [hlen', hsplit64] at hg
        simp; intro; omega
    · cases br with
      | none => exact hbr
      | some b =>
        have := h3 (by simp)
        refine ⟨by unfold hiOf; rw [hlen']; omega, ?_⟩
        rw [hbits iF, hbr.2]
        simp; intro; omega
  · refine ⟨hb, hL, rfl, by rw [hhi]; omega, ?_, ?_, ?_, by rw [hhi]; exact hwz, by rw [hhi]; exact hwo⟩
    · rw [hcvl]; unfold hiOf at h2; omega
    · intro g hg
      rw [hcvb g]
      rcases hg with hg | hg
      · simp; intro; omega
      · rw [hcvl] at hg
        rw [hz _ (.inr (by unfold hiOf at h2; omega))]; simp
    · refine ⟨by rw [hhi]; exact h2, ?_⟩
      rw [hcvb bit]; simp
  · intro g hg
    rw [hcvb g]; simp [hg]

/-- Splitting does not change the contents. -/
theorem look_split (hwf : WF (.node p val first iF iL z o) lo br) {block bit : Nat} (hb : bit < 64)
    (hbl : block < val.length) (h1 : lo ≤ 64 * (first + block) + bit)
    (h2 : 64 * (first + block) + bit < hiOf val first iL) (h3 : br ≠ none → lo < 64 * (first + block) + bit)
    (S : Nat → Bool) (L : Nat) {t} (ht : split (.node p val first iF iL z o) block bit = some t) :
    look S L t = look S L (.node p val first iF iL z o) := by
  obtain ⟨val', iL', c, cz, co, hs, hcz, hco, e1, e2, -, -, e5, e6, e7⟩ := split_spec hwf hb hbl h1 h2 h3
  obtain ⟨hF, hL, hlo, hle, hLv, hz, hbr, hwz, hwo⟩ := hwf
  rw [hs] at ht
  obtain rfl := Option.some.inj ht
  set s := 64 * (first + block) + bit with hsdef
  have hrange1 : (∀ g, 64 * first + iF ≤ g → g < hiOf val' first iL' → g < L → S g = gbit val' (g - 64 * first)) ↔
      (∀ g, 64 * first + iF ≤ g → g < s → g < L → S g = gbit val (g - 64 * first)) := by
    rw [e1]
    refine forall_congr' fun g => imp_congr_right fun _ => imp_congr_right fun hg => imp_congr_right fun _ => ?_
    rw [e2 _ (by omega)]
  have hrange2 : ∀ cv, cv = (val.drop block).modify 0 (· &&& ignFirst bit) →
      ((∀ g, 64 * (first + block) + bit ≤ g → g < hiOf cv (first + block) iL → g < L → S g = gbit cv (g - 64 * (first + block))) ↔
      (∀ g, s ≤ g → g < hiOf val first iL → g < L → S g = gbit val (g - 64 * first))) := by
    rintro cv rfl
    rw [e6]
    refine forall_congr' fun g => imp_congr_right fun hg => imp_congr_right fun _ => imp_congr_right fun _ => ?_
    rw [e7 _ (by omega)]
    have : 64 * block + (g - 64 * (first + block)) = g - 64 * first := by omega
    rw [this]
  have hcomb : (∀ g, 64 * first + iF ≤ g → g < hiOf val first iL → g < L → S g = gbit val (g - 64 * first)) ↔
      (∀ g, 64 * first + iF ≤ g → g < s → g < L → S g = gbit val (g - 64 * first)) ∧
      (∀ g, s ≤ g → g < hiOf val first iL → g < L → S g = gbit val (g - 64 * first)) := by
    constructor
    · intro h
      exact ⟨fun g h4 h5 h6 => h g h4 (by omega) h6, fun g h4 h5 h6 => h g (by omega) h5 h6⟩
    · rintro ⟨h4, h5⟩ g h6 h7 h8
      rcases Nat.lt_or_ge g s with h9 | h9
      · exact h4 g h6 h9 h8
      · exact h5 g h9 h7 h8
  by_cases hA : ∀ g, 64 * first + iF ≤ g → g < s → g < L → S g = gbit val (g - 64 * first)
  · rw [look_pos (hrange1.2 hA), e1]
    rcases Nat.lt_trichotomy L s with hLs | hLs | hLs
    · rw [if_pos hLs, look_pos (hcomb.2 ⟨hA, fun g h4 _ h6 => absurd h6 (by omega)⟩), if_pos (by omega)]
    · rw [if_neg (by omega), if_pos hLs, look_pos (hcomb.2 ⟨hA, fun g h4 _ h6 => absurd h6 (by omega)⟩),
        if_pos (by omega)]
    · rw [if_neg (by omega), if_neg (by omega)]
      -- which child
      have hval : gbit val (64 * block + bit) = gbit val (s - 64 * first) := by congr 1; omega
      by_cases hbit : S s = gbit val (64 * block + bit)
      · have hchild : (if S s = true then look S L co else look S L cz) = look S L c := by
          rw [hco, hcz, ← hbit]
          cases S s <;> simp
        rw [hchild, e5]
        by_cases hB : ∀ g, s ≤ g → g < hiOf val first iL → g < L → S g = gbit val (g - 64 * first)
        · rw [look_pos ((hrange2 _ rfl).2 hB), look_pos (hcomb.2 ⟨hA, hB⟩), e6]
        · rw [look_neg (fun h => hB ((hrange2 _ rfl).1 h)), look_neg (fun h => hB (hcomb.1 h).2)]
      · have hchild : (if S s = true then look S L co else look S L cz) = default := by
          rw [hco, hcz]
          cases h1 : S s <;> cases h2 : gbit val (64 * block + bit) <;> simp_all [look]
        rw [hchild, look_neg]
        intro h
        exact hbit (by rw [hval]; exact (hcomb.1 h).2 s (Nat.le_refl _) h2 hLs)
  · rw [look_neg (fun h => hA (hrange1.1 h)), look_neg (fun h => hA (hcomb.1 h).1)]

end split

/-! ## Insertion -/

/-- The effect of an access to the cell of a key in a subtree. -/
structure InsOK (t : Trie α) (lo : Nat) (br : Option Bool) (seq : List W) (pad : Nat) (f : α → α)
    (t' : Trie α) (old : α) : Prop where
  wf : WF t' lo br
  notNil : t'.isNil = false
  old_eq : old = look (gbit seq) (klen seq pad) t
  look_eq : ∀ S L, (∀ b, br = some b → lo < L ∧ S lo = b) →
    (L = klen seq pad ∧ (∀ g, lo ≤ g → g < L → S g = gbit seq g) → look S L t' = f old) ∧
    (¬ (L = klen seq pad ∧ ∀ g, lo ≤ g → g < L → S g = gbit seq g) → look S L t' = look S L t)

section insert

variable {seq : List W} {pad : Nat} {f : α → α}

/-- A new leaf. -/
theorem mkChild_ok (hk : KeyOK seq pad) {block bit : Nat} (hb : bit < 64)
    (hlt : 64 * block + bit < klen seq pad) :
    InsOK (.nil : Trie α) (64 * block + bit) (some (gbit seq (64 * block + bit))) seq pad f
      (mkChild seq block bit pad (f default)) default := by
  have hpad := hk.pad_lt
  have hbits : ∀ g, gbit ((seq.drop block).modify 0 (· &&& ignFirst bit)) g =
      (gbit seq (64 * block + g) && decide (bit ≤ g)) := fun g => by
    rw [gbit_modify_first _ _ _ hb, gbit_drop]
  have hlen : ((seq.drop block).modify 0 (· &&& ignFirst bit)).length = seq.length - block := by simp
  have hbl : block < seq.length := by unfold klen at hlt; omega
  have hhi : hiOf ((seq.drop block).modify 0 (· &&& ignFirst bit)) block pad = klen seq pad := by
    unfold hiOf klen; rw [hlen]; congr 2; omega
  refine ⟨?_, rfl, rfl, ?_⟩
  · refine ⟨hb, hpad, rfl, by rw [hhi]; omega, by rw [hlen]; omega, ?_, ⟨by rw [hhi]; exact hlt, ?_⟩, trivial, trivial⟩
    · intro g hg
      rw [hbits]
      rcases hg with hg | hg
      · simp; intro; omega
      · rw [hlen] at hg
        rw [hk.zero _ (by omega)]; rfl
    · rw [hbits]; simp
  · intro S L hSL
    have hag : (∀ g, 64 * block + bit ≤ g → g < hiOf ((seq.drop block).modify 0 (· &&& ignFirst bit)) block pad →
          g < L → S g = gbit ((seq.drop block).modify 0 (· &&& ignFirst bit)) (g - 64 * block)) ↔
        (∀ g, 64 * block + bit ≤ g → g < klen seq pad → g < L → S g = gbit seq g) := by
      rw [hhi]
      refine forall_congr' fun g => imp_congr_right fun hg => imp_congr_right fun _ => imp_congr_right fun _ => ?_
      rw [hbits]
      have e : 64 * block + (g - 64 * block) = g := by omega
      have e2 : decide (bit ≤ g - 64 * block) = true := by simp; omega
      rw [e, e2, Bool.and_true]
    constructor
    · rintro ⟨hL, hg⟩
      unfold mkChild
      rw [look_pos (hag.2 fun g h1 _ h3 => hg g h1 h3), hhi, if_neg (by omega), if_pos hL]
    · intro hn
      unfold mkChild
      by_cases hA : ∀ g, 64 * block + bit ≤ g → g < klen seq pad → g < L → S g = gbit seq g
      · rw [look_pos (hag.2 hA), hhi]
        have hL : L ≠ klen seq pad := fun hL => hn ⟨hL, fun g h1 h2 => hA g h1 (by omega) h2⟩
        split
        · rfl
        · cases S (klen seq pad) <;> rfl
      · rw [look_neg (fun h => hA (hag.1 h))]; rfl

/-- Continuing in a child. -/
theorem setChild_ok {p : α} {val : List W} {first iF iL : Nat} {z o : Trie α} {lo : Nat} {br : Option Bool}
    (hwf : WF (.node p val first iF iL z o) lo br)
    (hag : ∀ g, 64 * first + iF ≤ g → g < hiOf val first iL → gbit seq g = gbit val (g - 64 * first))
    (hlt : hiOf val first iL < klen seq pad) {b : Bool} (hb : b = gbit seq (hiOf val first iL))
    {c' : Trie α} {old : α}
    (hc : InsOK (if b then o else z) (hiOf val first iL) (some b) seq pad f c' old) :
    InsOK (.node p val first iF iL z o) lo br seq pad f
      ((Trie.node p val first iF iL z o).setChild b c') old := by
  obtain ⟨hF, hL, hlo, hle, hLv, hz, hbr, hwz, hwo⟩ := hwf
  obtain ⟨zz, oo, hset, hzz, hoo, hsel, hoth⟩ : ∃ zz oo, (Trie.node p val first iF iL z o).setChild b c' =
      .node p val first iF iL zz oo ∧ WF zz (hiOf val first iL) (some false) ∧
      WF oo (hiOf val first iL) (some true) ∧ (if b then oo else zz) = c' ∧
      (if b then zz else oo) = (if b then z else o) := by
    have := hc.wf
    cases b
    · exact ⟨c', o, rfl, this, hwo, rfl, rfl⟩
    · exact ⟨z, c', rfl, hwz, this, rfl, rfl⟩
  rw [hset]
  refine ⟨⟨hF, hL, hlo, hle, hLv, hz, hbr, hzz, hoo⟩, rfl, ?_, ?_⟩
  · rw [look_pos (fun g h1 h2 _ => hag g h1 h2), if_neg (by omega), if_neg (by omega), ← hb, hc.old_eq]
    cases b <;> rfl
  · intro S L hSL
    constructor
    · rintro ⟨hLk, hg⟩
      have hA : ∀ g, 64 * first + iF ≤ g → g < hiOf val first iL → g < L → S g = gbit val (g - 64 * first) :=
        fun g h1 h2 h3 => by rw [hg g (by omega) h3, hag g h1 h2]
      have hSh : S (hiOf val first iL) = b := by rw [hb]; exact hg _ (by omega) (by omega)
      rw [look_pos hA, if_neg (by omega), if_neg (by omega), hSh]
      have := (hc.look_eq S L (by rintro _ ⟨⟩; exact ⟨by omega, hSh⟩)).1 ⟨hLk, fun g h1 h2 => hg g (by omega) h2⟩
      rw [← this, ← hsel]
      cases b <;> rfl
    · intro hn
      by_cases hA : ∀ g, 64 * first + iF ≤ g → g < hiOf val first iL → g < L → S g = gbit val (g - 64 * first)
      · rw [look_pos hA, look_pos hA]
        split
        · rfl
        · split
          · rfl
          · rename_i h1 h2
            by_cases hSh : S (hiOf val first iL) = b
            · have := (hc.look_eq S L (by rintro _ ⟨⟩; exact ⟨by omega, hSh⟩)).2 (by
                rintro ⟨hLk, hg⟩
                refine hn ⟨hLk, fun g h3 h4 => ?_⟩
                rcases Nat.lt_or_ge g (hiOf val first iL) with h5 | h5
                · rw [hA g (by omega) h5 h4, hag g (by omega) h5]
                · exact hg g h5 h4)
              rw [hSh]
              rw [← hsel] at this
              cases b <;> exact this
            · have hSh' : S (hiOf val first iL) = !b := by
                cases h3 : S (hiOf val first iL) <;> cases b <;> simp_all
              rw [hSh']
              cases b
              · have : oo = o := hoth
                simp [this]
              · have : zz = z := hoth
                simp [this]
      · rw [look_neg hA, look_neg hA]

/-- Ending at a node. -/
theorem setPayload_ok {p : α} {val : List W} {first iF iL : Nat} {z o : Trie α} {lo : Nat} {br : Option Bool}
    (hwf : WF (.node p val first iF iL z o) lo br)
    (hag : ∀ g, 64 * first + iF ≤ g → g < hiOf val first iL → gbit seq g = gbit val (g - 64 * first))
    (heq : hiOf val first iL = klen seq pad) :
    InsOK (.node p val first iF iL z o) lo br seq pad f
      ((Trie.node p val first iF iL z o).setPayload (f p)) p := by
  obtain ⟨hF, hL, hlo, hle, hLv, hz, hbr, hwz, hwo⟩ := hwf
  refine ⟨⟨hF, hL, hlo, hle, hLv, hz, hbr, hwz, hwo⟩, rfl, ?_, ?_⟩
  · rw [look_pos (fun g h1 h2 _ => hag g h1 h2), if_neg (by omega), if_pos heq.symm]
  · intro S L hSL
    constructor
    · rintro ⟨hLk, hg⟩
      unfold Trie.setPayload
      rw [look_pos, if_neg (by omega), if_pos (by omega)]
      intro g h1 h2 h3
      rw [hg g (by omega) h3, hag g h1 h2]
    · intro hn
      unfold Trie.setPayload
      by_cases hA : ∀ g, 64 * first + iF ≤ g → g < hiOf val first iL → g < L → S g = gbit val (g - 64 * first)
      · rw [look_pos hA, look_pos hA]
        have hL : L ≠ hiOf val first iL := by
          rintro rfl
          refine hn ⟨heq, fun g h1 h2 => ?_⟩
          rw [hA g (by omega) h2 h2, hag g (by omega) h2]
        rw [if_neg hL, if_neg hL]
      · rw [look_neg hA, look_neg hA]

theorem InsOK.of_look {t u : Trie α} {lo : Nat} {br : Option Bool} {t' : Trie α} {old : α}
    (h : ∀ S L, look S L u = look S L t) (hi : InsOK u lo br seq pad f t' old) :
    InsOK t lo br seq pad f t' old :=
  ⟨hi.wf, hi.notNil, by rw [hi.old_eq, h], fun S L hs => ⟨(hi.look_eq S L hs).1, fun hn => by
    rw [(hi.look_eq S L hs).2 hn, h]⟩⟩

/-- The main lemma: an access to a key reads the content of the key and changes nothing else. -/
theorem insert_ok (hk : KeyOK seq pad) : ∀ (t : Trie α) (lo : Nat) (br : Option Bool), WF t lo br →
    t.isNil = false → (∀ b, br = some b → lo < klen seq pad ∧ gbit seq lo = b) →
    ∀ t' old, insert seq pad f t = some (t', old) → InsOK t lo br seq pad f t' old := by
  intro t
  have hpad := hk.pad_lt
  have hsl : 0 < seq.length := List.length_pos_iff.2 hk.ne
  induction t with
  | nil => intro _ _ _ h; exact absurd h (by simp [Trie.isNil])
  | node p val first iF iL z o ihz iho =>
    intro lo br hwf _ hbr t' old hins
    have hwf0 := hwf
    obtain ⟨hF, hL, hlo, hle, hLv, hz, hbrv, hwz, hwo⟩ := hwf
    -- continuing in a child
    have hdesc : ∀ (b : Bool) (block bit : Nat), bit < 64 → 64 * block + bit = hiOf val first iL →
        hiOf val first iL < klen seq pad → b = gbit seq (hiOf val first iL) →
        (∀ g, 64 * first + iF ≤ g → g < hiOf val first iL → gbit seq g = gbit val (g - 64 * first)) →
        ((if (if b then o else z).isNil then some (mkChild seq block bit pad (f default), default)
          else (if b then insert seq pad f o else insert seq pad f z)).map
            fun r => ((Trie.node p val first iF iL z o).setChild b r.1, r.2)) = some (t', old) →
        InsOK (.node p val first iF iL z o) lo br seq pad f t' old := by
      intro b block bit hbit hbb hlt hb hag hres
      rw [Option.map_eq_some_iff] at hres
      obtain ⟨⟨c', old'⟩, hr, he⟩ := hres
      obtain ⟨rfl, rfl⟩ := Prod.mk.inj he
      refine setChild_ok hwf0 hag hlt hb ?_
      by_cases hnil : (if b then o else z).isNil = true
      · rw [if_pos hnil] at hr
        obtain ⟨rfl, rfl⟩ := Prod.mk.inj (Option.some.inj hr)
        have h0 : (if b then o else z) = .nil := by
          cases h : (if b then o else z) with
          | nil => rfl
          | node => rw [h] at hnil; simp [Trie.isNil] at hnil
        rw [h0, hb, ← hbb]
        exact mkChild_ok hk hbit (by omega)
      · rw [if_neg hnil] at hr
        cases b
        · exact ihz _ _ hwz (by simpa using hnil) (by rintro _ ⟨⟩; exact ⟨hlt, hb.symm⟩) _ _ hr
        · exact iho _ _ hwo (by simpa using hnil) (by rintro _ ⟨⟩; exact ⟨hlt, hb.symm⟩) _ _ hr
    -- the sequence ends within the node
    have hend : ∀ block, block < val.length → first + block + 1 = seq.length → klen seq pad < hiOf val first iL →
        (∀ g, 64 * first + iF ≤ g → g < hiOf val first iL → g < klen seq pad → gbit seq g = gbit val (g - 64 * first)) →
        (split (.node p val first iF iL z o) block (64 - pad)).map (fun t => (t.setPayload (f default), default)) =
          some (t', old) → InsOK (.node p val first iF iL z o) lo br seq pad f t' old := by
      intro block hbl hfb hlt hag hres
      rw [Option.map_eq_some_iff] at hres
      obtain ⟨t1, hs, he⟩ := hres
      obtain ⟨rfl, rfl⟩ := Prod.mk.inj he
      have hbit : 64 - pad < 64 := by
        by_contra hcon
        simp only [split] at hs
        rw [if_neg (by omega)] at hs
        simp at hs
      have hpos : 64 * (first + block) + (64 - pad) = klen seq pad := by unfold klen; omega
      have h1 : lo ≤ 64 * (first + block) + (64 - pad) := by
        cases br with
        | none => simp only at hbrv; omega
        | some b => have := (hbr b rfl).1; omega
      have h2 : 64 * (first + block) + (64 - pad) < hiOf val first iL := by omega
      have h3 : br ≠ none → lo < 64 * (first + block) + (64 - pad) := by
        cases br with
        | none => simp
        | some b => intro _; have := (hbr b rfl).1; omega
      refine InsOK.of_look (fun S L => look_split hwf0 hbit hbl h1 h2 h3 S L hs) ?_
      obtain ⟨val', iL', c, cz, co, hs', hcz, hco, e1, e2, e3, e4, e5, e6, e7⟩ := split_spec hwf0 hbit hbl h1 h2 h3
      rw [hs'] at hs
      obtain rfl := Option.some.inj hs
      obtain ⟨k1, k2, k3, k4, k5, k6, k7, -, -⟩ := e3
      refine setPayload_ok ⟨k1, k2, k3, k4, k5, k6, k7, ?_, ?_⟩ ?_ ?_
      · rw [hcz, e1]; split
        · trivial
        · rename_i h; rw [Bool.not_eq_true] at h; rw [h] at e4; exact e4
      · rw [hco, e1]; split
        · rename_i h; rw [h] at e4; exact e4
        · trivial
      · intro g h4 h5
        rw [e1] at h5
        rw [e2 _ (by omega)]
        exact hag g h4 (by omega) (by omega)
      · rw [e1, hpos]
    -- the four cases
    have hfd := findDiff_spec (first := first) hk hF hL hLv hz val 0 rfl (by omega) (fun g h1 h2 => by omega)
    rw [insert] at hins
    simp only at hins
    cases hd : findDiff seq pad first iF iL val.length 0 val with
    | none =>
      rw [hd] at hfd hins
      simp only at hfd hins
      by_cases hc1 : first + val.length = seq.length
      · rw [if_pos hc1] at hins
        by_cases hc2 : iL = pad
        · rw [if_pos hc2] at hins
          obtain ⟨rfl, rfl⟩ := Prod.mk.inj (Option.some.inj hins)
          have : hiOf val first iL = klen seq pad := by unfold hiOf klen; rw [hc1, hc2]
          exact setPayload_ok hwf0 (fun g h1 h2 => hfd g h1 h2 (by omega)) this
        · rw [if_neg hc2] at hins
          by_cases hc3 : pad < iL
          · rw [if_pos hc3] at hins
            have hh : hiOf val first iL = 64 * (seq.length - 1) + (64 - iL) := by unfold hiOf; omega
            have hlt : hiOf val first iL < klen seq pad := by unfold hiOf klen; omega
            refine hdesc _ _ _ (by omega) hh.symm hlt ?_ (fun g h1 h2 => hfd g h1 h2 (by omega)) hins
            rw [hasBit_eq _ _ (by omega), hh, gbit_block _ _ _ (by omega)]
            rw [List.getLastD_eq_getLast?, List.getLast?_eq_getElem?]
          · rw [if_neg hc3] at hins
            have h0 : 0 < val.length := by
              rcases Nat.eq_zero_or_pos val.length with h0 | h0
              · exfalso
                cases br with
                | none => simp only at hbrv; omega
                | some b =>
                  have h4 := hbrv.1
                  unfold hiOf at h4; omega
              · exact h0
            refine hend (val.length - 1) (by omega) (by omega) ?_ hfd hins
            unfold hiOf klen; omega
      · rw [if_neg hc1] at hins
        by_cases hc2 : first + val.length < seq.length
        · rw [if_pos hc2] at hins
          set nb := (if 64 - iL = 64 then 0 else 64 - iL) with hnb
          have hnb64 : nb < 64 := by rw [hnb]; split_ifs <;> omega
          have hh : 64 * (first + val.length - (if nb ≠ 0 then 1 else 0)) + nb = hiOf val first iL := by
            unfold hiOf
            rw [hnb]
            split_ifs <;> omega
          have hlt : hiOf val first iL < klen seq pad := by unfold hiOf klen; omega
          refine hdesc _ _ _ hnb64 hh hlt ?_ (fun g h1 h2 => hfd g h1 h2 (by omega)) hins
          rw [hasBit_eq _ _ hnb64, ← hh, gbit_block _ _ _ hnb64]
        · rw [if_neg hc2] at hins
          by_cases hc3 : seq.length < first + 1
          · rw [if_pos hc3] at hins; simp at hins
          · rw [if_neg hc3] at hins
            refine hend (seq.length - first - 1) (by omega) (by omega) ?_ hfd hins
            unfold hiOf klen; omega
    | some bl =>
      rw [hd] at hfd hins
      simp only at hfd hins
      obtain ⟨x, q, hq, hbl, hx, h1, h2, h3, h4, h5⟩ := hfd
      rw [hx] at hins
      simp only at hins
      have hsg : ∀ q < 64, x.getLsbD q = gbit seq (64 * (first + bl) + q) := fun q hq => by
        rw [gbit_block _ _ _ hq, hx]; rfl
      have hvg : ∀ q < 64, (val[bl]?.getD 0#64).getLsbD q = gbit val (64 * bl + q) := fun q hq => by
        rw [gbit_block _ _ _ hq]
      have hxm : ∀ q < 64, (if bl = 0 then x &&& ignFirst iF else x).getLsbD q =
          (gbit seq (64 * (first + bl) + q) && decide (iF ≤ 64 * bl + q)) := by
        intro q hq
        by_cases h0 : bl = 0
        · subst h0
          rw [if_pos rfl, BitVec.getLsbD_and, ignFirst_bit _ _ hF hq, hsg q hq]
          simp
        · have : decide (iF ≤ 64 * bl + q) = true := by simp; omega
          rw [if_neg h0, hsg q hq, this, Bool.and_true]
      have hdb : diffBit (if bl = 0 then x &&& ignFirst iF else x) (val[bl]?.getD 0#64) = some q := by
        refine diffBit_spec hq ?_ ?_
        · have : decide (iF ≤ 64 * bl + q) = true := by simp; omega
          rw [hxm q hq, hvg q hq, this, Bool.and_true]; exact h4
        · intro q' hq'
          rw [hxm q' (by omega), hvg q' (by omega)]
          by_cases h6 : iF ≤ 64 * bl + q'
          · have := h5 (64 * (first + bl) + q') (by omega) (by omega)
            rw [this]
            have e : 64 * (first + bl) + q' - 64 * first = 64 * bl + q' := by omega
            rw [e]; simp [h6]
          · rw [hz _ (.inl (by omega))]; simp [h6]
      rw [hdb] at hins
      simp only at hins
      rw [Option.map_eq_some_iff] at hins
      obtain ⟨t1, hs, he⟩ := hins
      obtain ⟨rfl, rfl⟩ := Prod.mk.inj he
      have k1 : lo ≤ 64 * (first + bl) + q := by omega
      have k3 : br ≠ none → lo < 64 * (first + bl) + q := by
        cases br with
        | none => simp
        | some b =>
          intro _
          rcases Nat.lt_or_ge lo (64 * (first + bl) + q) with h6 | h6
          · exact h6
          · exfalso
            have h7 : lo = 64 * (first + bl) + q := by omega
            apply h4
            rw [← h7, (hbr b rfl).2, ← hbrv.2]
            congr 1; omega
      refine InsOK.of_look (fun S L => look_split hwf0 hq hbl k1 h2 k3 S L hs) ?_
      obtain ⟨val', iL', c, cz, co, hs', hcz, hco, e1, e2, e3, e4, e5, e6, e7⟩ := split_spec hwf0 hq hbl k1 h2 k3
      rw [hs'] at hs
      obtain rfl := Option.some.inj hs
      obtain ⟨m1, m2, m3, m4, m5, m6, m7, -, -⟩ := e3
      have hbx : hasBit x q = gbit seq (64 * (first + bl) + q) := by rw [hasBit_eq _ _ hq, hsg q hq]
      have hwf1 : WF (.node (default : α) val' first iF iL' cz co) lo br := by
        refine ⟨m1, m2, m3, m4, m5, m6, m7, ?_, ?_⟩
        · rw [hcz, e1]; split
          · trivial
          · rename_i h; rw [Bool.not_eq_true] at h; rw [h] at e4; exact e4
        · rw [hco, e1]; split
          · rename_i h; rw [h] at e4; exact e4
          · trivial
      refine setChild_ok hwf1 ?_ (by rw [e1]; exact h3) (by rw [e1]; exact hbx) ?_
      · intro g h6 h7
        rw [e1] at h7
        rw [e2 _ (by omega)]
        exact h5 g h6 h7
      · have hnilc : (if hasBit x q then co else cz) = .nil := by
          rw [hbx, hcz, hco]
          clear hbx hcz hco
          revert h4
          generalize gbit seq (64 * (first + bl) + q) = b1
          generalize gbit val (64 * bl + q) = b2
          intro h4
          cases b1 <;> cases b2 <;> first | rfl | exact absurd rfl h4
        rw [hnilc, e1, hbx]
        exact mkChild_ok hk hq h3

end insert

/-! ## When the access is defined -/

/-- Every branch of the subtree leads to a cell that was written. -/
def Full : Trie α → Prop
  | .nil => True
  | .node p _ _ _ _ z o => (p ≠ default ∨ z.isNil = false ∨ o.isNil = false) ∧ Full z ∧ Full o

section defined

variable {seq : List W} {pad : Nat} {f : α → α}

theorem split_full {t t' : Trie α} {block bit : Nat} (h : split t block bit = some t') (ht : Full t) :
    (∀ p, Full (t'.setPayload p)) ∧ (∀ b c, c.isNil = false → Full c → Full (t'.setChild b c)) := by
  cases t with
  | nil => simp [split] at h
  | node p val first iF iL z o =>
    simp only [split] at h
    split at h
    · obtain ⟨h1, h2, h3⟩ := ht
      split at h
      · obtain rfl := Option.some.inj h
        refine ⟨fun p' => ⟨.inr (.inr rfl), trivial, h1, h2, h3⟩, fun b c hc hf => ?_⟩
        cases b
        · exact ⟨.inr (.inr rfl), hf, h1, h2, h3⟩
        · exact ⟨.inr (.inr hc), trivial, hf⟩
      · obtain rfl := Option.some.inj h
        refine ⟨fun p' => ⟨.inr (.inl rfl), ⟨h1, h2, h3⟩, trivial⟩, fun b c hc hf => ?_⟩
        cases b
        · exact ⟨.inr (.inl hc), hf, trivial⟩
        · exact ⟨.inr (.inl rfl), ⟨h1, h2, h3⟩, hf⟩
    · simp at h

/-- Writing a non-null pointer keeps all branches full. -/
theorem insert_full (hf : ∀ x, f x ≠ default) : ∀ (t t' : Trie α) (old : α), Full t →
    insert seq pad f t = some (t', old) → t'.isNil = false ∧ Full t' := by
  intro t
  induction t with
  | nil => intro t' old _ h; simp [insert] at h
  | node p val first iF iL z o ihz iho =>
    intro t' old ht hins
    have ht0 := ht
    obtain ⟨h1, h2, h3⟩ := ht
    have hmk : ∀ block bit, (mkChild seq block bit pad (f default)).isNil = false ∧
        Full (mkChild seq block bit pad (f default)) := fun block bit => ⟨rfl, .inl (hf _), trivial, trivial⟩
    have hdesc : ∀ (b : Bool) (block bit : Nat),
        ((if (if b then o else z).isNil then some (mkChild seq block bit pad (f default), default)
          else (if b then insert seq pad f o else insert seq pad f z)).map
            fun r => ((Trie.node p val first iF iL z o).setChild b r.1, r.2)) = some (t', old) →
        t'.isNil = false ∧ Full t' := by
      intro b block bit hres
      rw [Option.map_eq_some_iff] at hres
      obtain ⟨⟨c', old'⟩, hr, he⟩ := hres
      obtain ⟨rfl, rfl⟩ := Prod.mk.inj he
      have hc : c'.isNil = false ∧ Full c' := by
        by_cases hnil : (if b then o else z).isNil = true
        · rw [if_pos hnil] at hr
          obtain ⟨rfl, -⟩ := Prod.mk.inj (Option.some.inj hr)
          exact hmk block bit
        · rw [if_neg hnil] at hr
          cases b
          · exact ihz _ _ h2 hr
          · exact iho _ _ h3 hr
      cases b
      · exact ⟨rfl, .inr (.inl hc.1), hc.2, h3⟩
      · exact ⟨rfl, .inr (.inr hc.1), h2, hc.2⟩
    have hspl : ∀ block bit, (split (.node p val first iF iL z o) block bit).map
        (fun t => (t.setPayload (f default), (default : α))) = some (t', old) → t'.isNil = false ∧ Full t' := by
      intro block bit hres
      rw [Option.map_eq_some_iff] at hres
      obtain ⟨t1, hs, he⟩ := hres
      obtain ⟨rfl, rfl⟩ := Prod.mk.inj he
      refine ⟨?_, (split_full hs ht0).1 _⟩
      cases t1 with
      | nil =>
        simp only [split] at hs
        split at hs
        · split at hs <;> simp at hs
        · simp at hs
      | node => rfl
    rw [insert] at hins
    simp only at hins
    split at hins
    · split at hins
      · split at hins
        · obtain ⟨rfl, rfl⟩ := Prod.mk.inj (Option.some.inj hins)
          exact ⟨rfl, .inl (hf _), h2, h3⟩
        · split at hins
          · exact hdesc _ _ _ hins
          · exact hspl _ _ hins
      · split at hins
        · exact hdesc _ _ _ hins
        · split at hins
          · simp at hins
          · exact hspl _ _ hins
    · split at hins
      · simp at hins
      · split at hins
        · simp at hins
        · rw [Option.map_eq_some_iff] at hins
          obtain ⟨t1, hs, he⟩ := hins
          obtain ⟨rfl, rfl⟩ := Prod.mk.inj he
          refine ⟨?_, (split_full hs ht0).2 _ _ (hmk _ _).1 (hmk _ _).2⟩
          cases t1 with
          | nil =>
            simp only [split] at hs
            split at hs
            · split at hs <;> simp at hs
            · simp at hs
          | node => unfold Trie.setChild; simp only; split <;> rfl

/-- A full subtree contains a written key. -/
theorem Full.exists_look : ∀ (t : Trie α) (lo : Nat) (br : Option Bool), WF t lo br → t.isNil = false → Full t →
    ∀ S0 : Nat → Bool, ∃ S L, (∀ g, g < lo → S g = S0 g) ∧ look S L t ≠ default ∧ lo ≤ L ∧
      (∀ b, br = some b → lo < L ∧ S lo = b) ∧
      ∀ p val first iF iL z o, t = .node p val first iF iL z o →
        hiOf val first iL ≤ L ∧ ∀ g, lo ≤ g → g < hiOf val first iL → S g = gbit val (g - 64 * first) := by
  intro t
  induction t with
  | nil => intro _ _ _ h; exact absurd h (by simp [Trie.isNil])
  | node p val first iF iL z o ihz iho =>
    intro lo br hwf _ hfull S0
    obtain ⟨hF, hL, hlo, hle, hLv, hz, hbr, hwz, hwo⟩ := hwf
    obtain ⟨h1, h2, h3⟩ := hfull
    -- bits up to the end of the node
    let S1 : Nat → Bool := fun g => if g < lo then S0 g else gbit val (g - 64 * first)
    have key : ∀ (S : Nat → Bool) (L : Nat), (∀ g, g < hiOf val first iL → S g = S1 g) → hiOf val first iL ≤ L →
        look S L (.node p val first iF iL z o) ≠ default →
        ∃ S L, (∀ g, g < lo → S g = S0 g) ∧ look S L (.node p val first iF iL z o) ≠ default ∧ lo ≤ L ∧
        (∀ b, br = some b → lo < L ∧ S lo = b) ∧
        ∀ p' val' first' iF' iL' z' o', Trie.node p val first iF iL z o = .node p' val' first' iF' iL' z' o' →
        hiOf val' first' iL' ≤ L ∧ ∀ g, lo ≤ g → g < hiOf val' first' iL' → S g = gbit val' (g - 64 * first') := by
      intro S L hS hLL hlk
      refine ⟨S, L, fun g hg => ?_, hlk, by omega, ?_, ?_⟩
      · rw [hS g (by omega)]; simp [S1, hg]
      · rintro b rfl
        obtain ⟨h4, h5⟩ := hbr
        refine ⟨by omega, ?_⟩
        rw [hS lo h4]
        simp only [S1, Nat.lt_irrefl, if_false]
        rw [← h5]; congr 1; omega
      · rintro _ _ _ _ _ _ _ ⟨⟩
        refine ⟨hLL, fun g h4 h5 => ?_⟩
        rw [hS g h5]
        simp only [S1]
        rw [if_neg (by omega)]
    have hagree : ∀ (S : Nat → Bool) (L : Nat), (∀ g, g < hiOf val first iL → S g = S1 g) →
        ∀ g, 64 * first + iF ≤ g → g < hiOf val first iL → g < L → S g = gbit val (g - 64 * first) := by
      intro S L hS g h4 h5 _
      rw [hS g h5]
      simp only [S1]
      rw [if_neg (by omega)]
    rcases h1 with h1 | h1 | h1
    · refine key S1 (hiOf val first iL) (fun _ _ => rfl) (Nat.le_refl _) ?_
      rw [look_pos (hagree S1 _ fun _ _ => rfl), if_neg (by omega), if_pos rfl]
      exact h1
    · obtain ⟨S, L, k1, k2, k3, k4, k5⟩ := ihz _ _ hwz h1 h2 S1
      obtain ⟨k6, k7⟩ := k4 false rfl
      refine key S L k1 k3 ?_
      rw [look_pos (hagree S L k1), if_neg (by omega), if_neg (by omega), k7]
      exact k2
    · obtain ⟨S, L, k1, k2, k3, k4, k5⟩ := iho _ _ hwo h1 h3 S1
      obtain ⟨k6, k7⟩ := k4 true rfl
      refine key S L k1 k3 ?_
      rw [look_pos (hagree S L k1), if_neg (by omega), if_neg (by omega), k7]
      exact k2

/-- The access is undefined only if the length of the key is a multiple of 64 and a strictly longer
key that starts with it is already stored. -/
theorem insert_none (hk : KeyOK seq pad) : ∀ (t : Trie α) (lo : Nat) (br : Option Bool), WF t lo br →
    t.isNil = false → Full t → (∀ b, br = some b → lo < klen seq pad ∧ gbit seq lo = b) →
    insert seq pad f t = none →
    pad = 0 ∧ ∃ S L, klen seq pad < L ∧ look S L t ≠ default ∧ (∀ b, br = some b → S lo = b) ∧
      ∀ g, g < klen seq pad → S g = gbit seq g := by
  intro t
  have hpad := hk.pad_lt
  have hsl : 0 < seq.length := List.length_pos_iff.2 hk.ne
  induction t with
  | nil => intro _ _ _ h; exact absurd h (by simp [Trie.isNil])
  | node p val first iF iL z o ihz iho =>
    intro lo br hwf _ hfull hbr hins
    have hwf0 := hwf
    have hfull0 := hfull
    obtain ⟨hF, hL, hlo, hle, hLv, hz, hbrv, hwz, hwo⟩ := hwf
    obtain ⟨hne, hfz, hfo⟩ := hfull
    have hdesc : ∀ (b : Bool) (block bit : Nat),
        hiOf val first iL < klen seq pad → b = gbit seq (hiOf val first iL) →
        (∀ g, 64 * first + iF ≤ g → g < hiOf val first iL → gbit seq g = gbit val (g - 64 * first)) →
        ((if (if b then o else z).isNil then some (mkChild seq block bit pad (f default), default)
          else (if b then insert seq pad f o else insert seq pad f z)).map
            fun r => ((Trie.node p val first iF iL z o).setChild b r.1, r.2)) = none →
        pad = 0 ∧ ∃ S L, klen seq pad < L ∧ look S L (.node p val first iF iL z o) ≠ default ∧
          (∀ b, br = some b → S lo = b) ∧ ∀ g, g < klen seq pad → S g = gbit seq g := by
      intro b block bit hlt hb hag hres
      rw [Option.map_eq_none_iff] at hres
      by_cases hnil : (if b then o else z).isNil = true
      · rw [if_pos hnil] at hres
        simp at hres
      · rw [if_neg hnil] at hres
        have hc : pad = 0 ∧ ∃ S L, klen seq pad < L ∧ look S L (if b then o else z) ≠ default ∧
            (∀ b', some b = some b' → S (hiOf val first iL) = b') ∧ ∀ g, g < klen seq pad → S g = gbit seq g := by
          cases b
          · exact ihz _ _ hwz (by simpa using hnil) hfz (by rintro _ ⟨⟩; exact ⟨hlt, hb.symm⟩) hres
          · exact iho _ _ hwo (by simpa using hnil) hfo (by rintro _ ⟨⟩; exact ⟨hlt, hb.symm⟩) hres
        obtain ⟨hp, S, L, k1, k2, k3, k4⟩ := hc
        refine ⟨hp, S, L, k1, ?_, ?_, k4⟩
        · rw [look_pos, if_neg (by omega), if_neg (by omega), k3 b rfl]
          · cases b <;> exact k2
          · intro g h1 h2 _
            rw [k4 g (by omega), hag g h1 h2]
        · intro b' hb'
          obtain ⟨h1, h2⟩ := hbr b' hb'
          rw [k4 lo h1, h2]
    have hfd := findDiff_spec (first := first) hk hF hL hLv hz val 0 rfl (by omega) (fun g h1 h2 => by omega)
    rw [insert] at hins
    simp only at hins
    cases hd : findDiff seq pad first iF iL val.length 0 val with
    | none =>
      rw [hd] at hfd hins
      simp only at hfd hins
      -- the sequence ends strictly within the node
      have hin : klen seq pad < hiOf val first iL → pad = 0 →
          pad = 0 ∧ ∃ S L, klen seq pad < L ∧ look S L (.node p val first iF iL z o) ≠ default ∧
          (∀ b, br = some b → S lo = b) ∧ ∀ g, g < klen seq pad → S g = gbit seq g := by
        intro hlt hp
        obtain ⟨S, L, k1, k2, k3, k4, k5⟩ := Full.exists_look _ lo br hwf0 rfl hfull0 (gbit seq)
        obtain ⟨k6, k7⟩ := k5 _ _ _ _ _ _ _ rfl
        refine ⟨hp, S, L, by omega, k2, fun b hb => (k4 b hb).2, fun g hg => ?_⟩
        rcases Nat.lt_or_ge g lo with h1 | h1
        · exact k1 g h1
        · rw [k7 g h1 (by omega), hfd g (by omega) (by omega) hg]
      by_cases hc1 : first + val.length = seq.length
      · rw [if_pos hc1] at hins
        by_cases hc2 : iL = pad
        · rw [if_pos hc2] at hins; simp at hins
        · rw [if_neg hc2] at hins
          by_cases hc3 : pad < iL
          · rw [if_pos hc3] at hins
            have hh : hiOf val first iL = 64 * (seq.length - 1) + (64 - iL) := by unfold hiOf; omega
            have hlt : hiOf val first iL < klen seq pad := by unfold hiOf klen; omega
            refine hdesc _ _ _ hlt ?_ (fun g h1 h2 => hfd g h1 h2 (by omega)) hins
            rw [hasBit_eq _ _ (by omega), hh, gbit_block _ _ _ (by omega)]
            rw [List.getLastD_eq_getLast?, List.getLast?_eq_getElem?]
          · exfalso
            rw [if_neg hc3, Option.map_eq_none_iff] at hins
            have h0 : 0 < val.length := by
              rcases Nat.eq_zero_or_pos val.length with h0 | h0
              · exfalso
                cases br with
                | none => simp only at hbrv; omega
                | some b =>
                  have h4 := hbrv.1
                  unfold hiOf at h4; omega
              · exact h0
            simp only [split] at hins
            rw [if_pos (by omega)] at hins
            split at hins <;> simp at hins
      · rw [if_neg hc1] at hins
        by_cases hc2 : first + val.length < seq.length
        · rw [if_pos hc2] at hins
          set nb := (if 64 - iL = 64 then 0 else 64 - iL) with hnb
          have hnb64 : nb < 64 := by rw [hnb]; split_ifs <;> omega
          have hh : 64 * (first + val.length - (if nb ≠ 0 then 1 else 0)) + nb = hiOf val first iL := by
            unfold hiOf
            rw [hnb]
            split_ifs <;> omega
          have hlt : hiOf val first iL < klen seq pad := by unfold hiOf klen; omega
          refine hdesc _ _ _ hlt ?_ (fun g h1 h2 => hfd g h1 h2 (by omega)) hins
          rw [hasBit_eq _ _ hnb64, ← hh, gbit_block _ _ _ hnb64]
        · rw [if_neg hc2] at hins
          have hc3 : ¬ seq.length < first + 1 := by
            intro hc3
            cases br with
            | none => simp only at hbrv; omega
            | some b =>
              have := (hbr b rfl).1
              unfold klen at this; omega
          rw [if_neg hc3, Option.map_eq_none_iff] at hins
          simp only [split] at hins
          have hp : pad = 0 := by
            by_contra hp
            rw [if_pos (by omega)] at hins
            split at hins <;> simp at hins
          refine hin ?_ hp
          unfold hiOf klen; omega
    | some bl =>
      exfalso
      rw [hd] at hfd hins
      simp only at hfd hins
      obtain ⟨x, q, hq, hbl, hx, h1, h2, h3, h4, h5⟩ := hfd
      rw [hx] at hins
      simp only at hins
      have hsg : ∀ q < 64, x.getLsbD q = gbit seq (64 * (first + bl) + q) := fun q hq => by
        rw [gbit_block _ _ _ hq, hx]; rfl
      have hvg : ∀ q < 64, (val[bl]?.getD 0#64).getLsbD q = gbit val (64 * bl + q) := fun q hq => by
        rw [gbit_block _ _ _ hq]
      have hxm : ∀ q < 64, (if bl = 0 then x &&& ignFirst iF else x).getLsbD q =
          (gbit seq (64 * (first + bl) + q) && decide (iF ≤ 64 * bl + q)) := by
        intro q hq
        by_cases h0 : bl = 0
        · subst h0
          rw [if_pos rfl, BitVec.getLsbD_and, ignFirst_bit _ _ hF hq, hsg q hq]
          simp
        · have : decide (iF ≤ 64 * bl + q) = true := by simp; omega
          rw [if_neg h0, hsg q hq, this, Bool.and_true]
      have hdb : diffBit (if bl = 0 then x &&& ignFirst iF else x) (val[bl]?.getD 0#64) = some q := by
        refine diffBit_spec hq ?_ ?_
        · have : decide (iF ≤ 64 * bl + q) = true := by simp; omega
          rw [hxm q hq, hvg q hq, this, Bool.and_true]; exact h4
        · intro q' hq'
          rw [hxm q' (by omega), hvg q' (by omega)]
          by_cases h6 : iF ≤ 64 * bl + q'
          · have := h5 (64 * (first + bl) + q') (by omega) (by omega)
            rw [this]
            have e : 64 * (first + bl) + q' - 64 * first = 64 * bl + q' := by omega
            rw [e]; simp [h6]
          · rw [hz _ (.inl (by omega))]; simp [h6]
      rw [hdb] at hins
      simp only at hins
      rw [Option.map_eq_none_iff] at hins
      simp only [split] at hins
      rw [if_pos ⟨hq, hbl⟩] at hins
      split at hins <;> simp at hins

end defined

/-! ## The hash table -/

/-- A key: words and padding. -/
abbrev Key := List W × Nat

/-- `hash_table` (src/intDataStructures/HashTable.cpp 1-14): a slot is a null pointer or a trie. -/
abbrev Table (α : Type) := Nat → Trie α

/-- Slot of a hash value: `table + (x % buckets)` (src/intDataStructures/HashTable.cpp 11-13) with
`buckets` = `tenMillionP` (src/VisitedList.cpp 18, 98-99). -/
def slot (h : Nat) : Nat := h % 16777213

/-- Access to the cell of a key (src/VisitedList.cpp 517-526): the cell is read and overwritten by
`f`.  The empty key (`sequence.back()` on an empty vector, block −1) is outside the domain. -/
def access (tb : Table α) (h : Nat) (k : Key) (f : α → α) : Option (Table α × α) :=
  if k.1.isEmpty then none
  else if (tb (slot h)).isNil then
    some (Function.update tb (slot h) (mkRoot k.1 k.2 (f default)), default)
  else
    (insert k.1 k.2 f (tb (slot h))).map fun r => (Function.update tb (slot h) r.1, r.2)

/-- Invariant of the table. -/
def TWF (tb : Table α) : Prop := ∀ i, WF (tb i) 0 none

theorem look_ext {S S' : Nat → Bool} {L : Nat} : ∀ (t : Trie α), (∀ g, g < L → S g = S' g) → look S L t = look S' L t := by
  intro t
  induction t with
  | nil => intro _; rfl
  | node p val first iF iL z o ihz iho =>
    intro h
    by_cases hA : ∀ g, 64 * first + iF ≤ g → g < hiOf val first iL → g < L → S g = gbit val (g - 64 * first)
    · have hA' : ∀ g, 64 * first + iF ≤ g → g < hiOf val first iL → g < L → S' g = gbit val (g - 64 * first) :=
        fun g h1 h2 h3 => by rw [← h g h3, hA g h1 h2 h3]
      rw [look_pos hA, look_pos hA', ihz h, iho h]
      by_cases h1 : L < hiOf val first iL
      · rw [if_pos h1, if_pos h1]
      · by_cases h2 : L = hiOf val first iL
        · rw [if_neg h1, if_neg h1, if_pos h2, if_pos h2]
        · rw [h (hiOf val first iL) (by omega)]
    · have hA' : ¬ ∀ g, 64 * first + iF ≤ g → g < hiOf val first iL → g < L → S' g = gbit val (g - 64 * first) :=
        fun h' => hA fun g h1 h2 h3 => by rw [h g h3, h' g h1 h2 h3]
      rw [look_neg hA, look_neg hA']

/-- The content of the cell of key `k` in slot `i`. -/
noncomputable def cell (tb : Table α) (i : Nat) (k : Key) : α := look (gbit k.1) (klen k.1 k.2) (tb i)

/-- Equal bits, equal keys. -/
theorem key_ext {k k' : Key} (h : KeyOK k.1 k.2) (h' : KeyOK k'.1 k'.2) (hl : klen k.1 k.2 = klen k'.1 k'.2)
    (hb : ∀ g, g < klen k.1 k.2 → gbit k.1 g = gbit k'.1 g) : k = k' := by
  obtain ⟨ws, pd⟩ := k
  obtain ⟨ws', pd'⟩ := k'
  have := h.pad_lt
  have := h'.pad_lt
  have h1 := List.length_pos_iff.2 h.ne
  have h2 := List.length_pos_iff.2 h'.ne
  unfold klen at hl hb
  simp only at *
  have hlen : ws.length = ws'.length := by omega
  obtain rfl : pd = pd' := by omega
  congr 1
  refine words_ext hlen fun g _ => ?_
  rcases Nat.lt_or_ge g (64 * ws.length - pd) with h3 | h3
  · exact hb g h3
  · rw [h.zero g h3, h'.zero g (by omega)]

theorem mkRoot_ok {k : Key} (hk : KeyOK k.1 k.2) (f : α → α) :
    InsOK (.nil : Trie α) 0 none k.1 k.2 f (mkRoot k.1 k.2 (f default)) default := by
  have hpad := hk.pad_lt
  have hl := List.length_pos_iff.2 hk.ne
  have hhi : hiOf k.1 0 k.2 = klen k.1 k.2 := by unfold hiOf klen; rw [Nat.zero_add]
  refine ⟨⟨by omega, hpad, rfl, by omega, by omega, ?_, rfl, trivial, trivial⟩, rfl, rfl, ?_⟩
  · intro g hg
    rcases hg with hg | hg
    · omega
    · exact hk.zero g hg
  · intro S L _
    constructor
    · rintro ⟨hL, hg⟩
      unfold mkRoot
      rw [look_pos, hhi, if_neg (by omega), if_pos hL]
      intro g _ _ h3
      simpa using hg g (by omega) h3
    · intro hn
      unfold mkRoot
      by_cases hA : ∀ g, 64 * 0 + 0 ≤ g → g < hiOf k.1 0 k.2 → g < L → S g = gbit k.1 (g - 64 * 0)
      · rw [look_pos hA, hhi]
        have hL : L ≠ klen k.1 k.2 := fun hL => hn ⟨hL, fun g h1 h2 => by
          simpa using hA g (by omega) (by omega) h2⟩
        by_cases h1 : L < klen k.1 k.2
        · rw [if_pos h1]; rfl
        · rw [if_neg h1, if_neg hL]; cases S (klen k.1 k.2) <;> rfl
      · rw [look_neg hA]; rfl

/-- Effect of an access to the table. -/
theorem access_ok {tb tb' : Table α} {h : Nat} {k : Key} {f : α → α} {old : α} (hw : TWF tb) (hk : KeyOK k.1 k.2)
    (ha : access tb h k f = some (tb', old)) :
    TWF tb' ∧ old = cell tb (slot h) k ∧ cell tb' (slot h) k = f old ∧
    (∀ i k', KeyOK k'.1 k'.2 → ¬ (i = slot h ∧ k' = k) → cell tb' i k' = cell tb i k') := by
  unfold access at ha
  rw [if_neg (by simpa using hk.ne)] at ha
  have main : ∀ t', InsOK (tb (slot h)) 0 none k.1 k.2 f t' old → tb' = Function.update tb (slot h) t' →
      TWF tb' ∧ old = cell tb (slot h) k ∧ cell tb' (slot h) k = f old ∧
      (∀ i k', KeyOK k'.1 k'.2 → ¬ (i = slot h ∧ k' = k) → cell tb' i k' = cell tb i k') := by
    rintro t' hi rfl
    refine ⟨fun i => ?_, hi.old_eq, ?_, ?_⟩
    · by_cases hi' : i = slot h
      · subst hi'; rw [Function.update_self]; exact hi.wf
      · rw [Function.update_of_ne hi']; exact hw i
    · unfold cell
      rw [Function.update_self]
      exact (hi.look_eq _ _ (by simp)).1 ⟨rfl, fun _ _ _ => rfl⟩
    · intro i k' hk' hne
      unfold cell
      by_cases hi' : i = slot h
      · subst hi'
        rw [Function.update_self]
        refine (hi.look_eq _ _ (by simp)).2 ?_
        rintro ⟨h1, h2⟩
        exact hne ⟨rfl, key_ext hk' hk h1 fun g hg => h2 g (by omega) hg⟩
      · rw [Function.update_of_ne hi']
  by_cases hnil : (tb (slot h)).isNil = true
  · rw [if_pos hnil] at ha
    obtain ⟨rfl, rfl⟩ := Prod.mk.inj (Option.some.inj ha)
    refine main _ ?_ rfl
    have h0 : tb (slot h) = .nil := by
      cases h : tb (slot h) with
      | nil => rfl
      | node => rw [h] at hnil; simp [Trie.isNil] at hnil
    rw [h0]
    exact mkRoot_ok hk f
  · rw [if_neg hnil, Option.map_eq_some_iff] at ha
    obtain ⟨⟨t', old'⟩, hr, he⟩ := ha
    obtain ⟨rfl, rfl⟩ := Prod.mk.inj he
    exact main _ (insert_ok hk _ 0 none (hw _) (by simpa using hnil) (by simp) _ _ hr) rfl

end Verif.CST
