import Mathlib.Data.List.TakeWhile
import Mathlib.Data.Nat.Digits.Defs
import Mathlib.Data.Nat.Digits.Lemmas
import Mathlib.Tactic.SplitIfs
import Mathlib.Algebra.Order.Ring.Int

/-! # Model of the readers of integer lists (src/Model.cpp 2102-2172) -/

namespace Verif.Parse

/-- `std::isspace` in the default locale. -/
def isWs (c : Char) : Bool := c = ' ' || c = '\t' || c = '\n' || c = '\r' || c = '\x0b' || c = '\x0c'

/-- The digits '0' to '9' and their values. -/
def digitVal (c : Char) : Option Nat :=
  if '0' ≤ c ∧ c ≤ '9' then some (c.toNat - '0'.toNat) else none

def isDigit (c : Char) : Bool := (digitVal c).isSome

/-- Value of a sequence of digits. -/
def value (cs : List Char) : Nat := cs.foldl (fun n c => n * 10 + (digitVal c).getD 0) 0

/-- The rest of a `stringstream` and its failure flag. -/
structure Stream where
  rest : List Char
  fail : Bool
deriving DecidableEq

def intMax : Int := 2147483647
def intMin : Int := -2147483648

/-- `stream >> x` for an `int` (C++ standard: [istream.formatted.arithmetic], [facet.num.get]):
if the stream has failed, or only whitespace is left, `x` keeps its value; if there is no number, `x` is 0;
if the number is out of range, `x` is the limit; in all these cases the stream fails. -/
def readInt (s : Stream) (x : Int) : Stream × Int :=
  if s.fail then (s, x)
  else
    let r := s.rest.dropWhile isWs
    if r = [] then (⟨[], true⟩, x)
    else
      let neg := r.head? = some '-'
      let r1 := if r.head? = some '-' ∨ r.head? = some '+' then r.tail else r
      let ds := r1.takeWhile isDigit
      let r2 := r1.dropWhile isDigit
      if ds = [] then (⟨r2, true⟩, 0)
      else
        let v : Int := if neg then -(value ds : Int) else value ds
        if v > intMax then (⟨r2, true⟩, intMax)
        else if v < intMin then (⟨r2, true⟩, intMin)
        else (⟨r2, false⟩, v)

/-- The loop of `Model::readIntList` (src/Model.cpp 2157-2161).  Outcome `none`: no fuel, i.e. the
loop takes more than `fuel` iterations. -/
def readLoop : Nat → Stream → Int → Option (List Int)
  | 0, _, _ => none
  | f + 1, s, x =>
    if x = -1 then some []
    else
      let x' := if x < 0 then x + 1 else x
      (readLoop f (readInt s x').1 (readInt s x').2).map (x' :: ·)

/-- `Model::readIntList` (src/Model.cpp 2152-2172).  `x0` is the value of the uninitialised
variable `x`, which is kept if the line contains only whitespace. -/
def readIntList (fuel : Nat) (x0 : Int) (line : List Char) : Option (List Int) :=
  readLoop fuel (readInt ⟨line, false⟩ x0).1 (readInt ⟨line, false⟩ x0).2

/-- The `for` loop of `readConditionalIntList` (src/Model.cpp 2111-2115); the local `y` starts with an
unknown value `y0`. -/
def readConds (y0 : Int) : Nat → Stream → Stream × List Int
  | 0, s => (s, [])
  | n + 1, s => let r := readInt s y0; let q := readConds y0 n r.1; (q.1, r.2 :: q.2)

/-- The `while` loop of `readConditionalIntList` (src/Model.cpp 2109-2128): the unconditional
elements and the conditional ones. -/
def condLoop (y0 : Int) : Nat → Stream → Int → Option (List Int × List (List Int × Int))
  | 0, _, _ => none
  | f + 1, s, x =>
    if x < 0 then some ([], [])
    else
      let c := readConds y0 x.toNat s
      let e := readInt c.1 x
      let nx := readInt e.1 e.2
      (condLoop y0 f nx.1 nx.2).map fun r => if c.2 = [] then (e.2 :: r.1, r.2) else (r.1, (c.2, e.2) :: r.2)

/-- `Model::readConditionalIntList` (src/Model.cpp 2102-2150). -/
def readConditionalIntList (fuel : Nat) (x0 y0 : Int) (line : List Char) :
    Option (List Int × List (List Int × Int)) :=
  condLoop y0 fuel (readInt ⟨line, false⟩ x0).1 (readInt ⟨line, false⟩ x0).2

/-! ## Lines -/

/-- A text that denotes a number in range: an optional minus sign and at least one digit. -/
structure Numeral (cs : List Char) (z : Int) : Prop where
  shape : ∃ ds : List Char, ds ≠ [] ∧ (∀ c ∈ ds, isDigit c = true) ∧
    ((cs = ds ∧ z = value ds) ∨ (cs = '-' :: ds ∧ z = -(value ds : Int)))
  lo : intMin ≤ z
  hi : z ≤ intMax

/-- Numbers, each preceded by whitespace (possibly none before the first), followed by `rest`, which is empty
or begins with whitespace. -/
inductive Line (rest : List Char) : List Char → List Int → Prop
  | nil : (rest = [] ∨ ∃ c t, rest = c :: t ∧ isWs c = true) → Line rest rest []
  | cons {ws num tail z zs} : (∀ c ∈ ws, isWs c = true) → Numeral num z → Line rest tail zs →
      (tail = [] ∨ ∃ c t, tail = c :: t ∧ isWs c = true) → Line rest (ws ++ num ++ tail) (z :: zs)

theorem isDigit_not_ws {c : Char} (h : isDigit c = true) : isWs c = false := by
  simp only [isDigit, digitVal] at h
  split_ifs at h with hc
  · have h1 : '0'.val ≤ c.val := hc.1
    simp only [isWs, Bool.or_eq_false_iff, decide_eq_false_iff_not]
    refine ⟨⟨⟨⟨⟨?_, ?_⟩, ?_⟩, ?_⟩, ?_⟩, ?_⟩ <;> rintro rfl <;> exact absurd h1 (by decide)
  · simp at h

theorem ws_not_digit {c : Char} (h : isWs c = true) : isDigit c = false := by
  cases hd : isDigit c with
  | false => rfl
  | true => rw [isDigit_not_ws hd] at h; simp at h

theorem digit_ne {c : Char} (h : isDigit c = true) : c ≠ '-' ∧ c ≠ '+' := by
  constructor <;> rintro rfl <;> exact absurd h (by decide)

theorem dropWhile_ws {ws num tail : List Char} {z : Int} (hw : ∀ c ∈ ws, isWs c = true) (hn : Numeral num z) :
    (ws ++ num ++ tail).dropWhile isWs = num ++ tail ∧ num ≠ [] := by
  obtain ⟨ds, h1, h2, h3⟩ := hn.shape
  have hhead : ∃ c t, num = c :: t ∧ isWs c = false := by
    rcases h3 with ⟨rfl, -⟩ | ⟨rfl, -⟩
    · cases num with
      | nil => exact absurd rfl h1
      | cons c t => exact ⟨c, t, rfl, isDigit_not_ws (h2 c (by simp))⟩
    · exact ⟨'-', ds, rfl, by decide⟩
  obtain ⟨c, t, rfl, hc⟩ := hhead
  refine ⟨?_, by simp⟩
  rw [List.append_assoc, List.dropWhile_append_of_pos hw]
  simp [hc]

/-- Reading a number. -/
theorem readInt_numeral {ws num tail : List Char} {z x : Int} (hw : ∀ c ∈ ws, isWs c = true) (hn : Numeral num z)
    (ht : tail = [] ∨ ∃ c t, tail = c :: t ∧ isWs c = true) :
    readInt ⟨ws ++ num ++ tail, false⟩ x = (⟨tail, false⟩, z) := by
  obtain ⟨e1, e2⟩ := dropWhile_ws (tail := tail) hw hn
  obtain ⟨ds, h1, h2, h3⟩ := hn.shape
  have htail : tail.takeWhile isDigit = [] ∧ tail.dropWhile isDigit = tail := by
    rcases ht with rfl | ⟨c, t, rfl, hc⟩
    · simp
    · simp [ws_not_digit hc]
  have htake : (ds ++ tail).takeWhile isDigit = ds := by
    rw [List.takeWhile_append_of_pos h2, htail.1, List.append_nil]
  have hdrop : (ds ++ tail).dropWhile isDigit = tail := by
    rw [List.dropWhile_append_of_pos h2, htail.2]
  have hlo := hn.lo
  have hhi := hn.hi
  unfold readInt
  simp only [Bool.false_eq_true, if_false, e1]
  rw [if_neg (by simp [e2])]
  rcases h3 with ⟨rfl, hz⟩ | ⟨rfl, hz⟩
  · obtain ⟨c, t, rfl⟩ := List.exists_cons_of_ne_nil h1
    have hne := digit_ne (h2 c (by simp))
    have hsign : ¬ ((c :: t ++ tail).head? = some '-' ∨ (c :: t ++ tail).head? = some '+') := by
      simp [hne.1, hne.2]
    have hneg : ¬ (c :: t ++ tail).head? = some '-' := by simp [hne.1]
    rw [if_neg hsign, htake, hdrop, if_neg h1, if_neg hneg, ← hz, if_neg (by omega), if_neg (by omega)]
  · have hsign : ('-' :: ds ++ tail).head? = some '-' := by simp
    have htl : ('-' :: ds ++ tail).tail = ds ++ tail := by simp
    rw [if_pos (Or.inl hsign : ('-' :: ds ++ tail).head? = some '-' ∨ ('-' :: ds ++ tail).head? = some '+'), htl, htake, hdrop, if_neg h1, if_pos hsign, ← hz, if_neg (by omega), if_neg (by omega)]

/-- Every number in range has a text. -/
theorem exists_numeral {z : Int} (h1 : intMin ≤ z) (h2 : z ≤ intMax) : ∃ cs, Numeral cs z := by
  have key : ∀ n : Nat, ∃ ds : List Char, ds ≠ [] ∧ (∀ c ∈ ds, isDigit c = true) ∧ value ds = n := by
    intro n
    induction n using Nat.strong_induction_on with
    | _ n ih =>
    have hd : ∀ d, d < 10 → ∃ c, isDigit c = true ∧ (digitVal c).getD 0 = d := by
      intro d hd
      match d, hd with
      | 0, _ => exact ⟨'0', by decide, by decide⟩
      | 1, _ => exact ⟨'1', by decide, by decide⟩
      | 2, _ => exact ⟨'2', by decide, by decide⟩
      | 3, _ => exact ⟨'3', by decide, by decide⟩
      | 4, _ => exact ⟨'4', by decide, by decide⟩
      | 5, _ => exact ⟨'5', by decide, by decide⟩
      | 6, _ => exact ⟨'6', by decide, by decide⟩
      | 7, _ => exact ⟨'7', by decide, by decide⟩
      | 8, _ => exact ⟨'8', by decide, by decide⟩
      | 9, _ => exact ⟨'9', by decide, by decide⟩
      | n + 10, h => omega
    by_cases hn : n < 10
    · obtain ⟨c, hc1, hc2⟩ := hd n hn
      exact ⟨[c], by simp, by simpa using hc1, by simpa [value] using hc2⟩
    · obtain ⟨c, hc1, hc2⟩ := hd (n % 10) (by omega)
      obtain ⟨ds, i1, i2, i3⟩ := ih (n / 10) (by omega)
      refine ⟨ds ++ [c], by simp, ?_, ?_⟩
      · intro x hx
        rcases List.mem_append.1 hx with hx | hx
        · exact i2 x hx
        · simp at hx; subst hx; exact hc1
      · simp only [value, List.foldl_append, List.foldl_cons, List.foldl_nil, hc2] at i3 ⊢
        rw [i3]; omega
  by_cases hz : 0 ≤ z
  · obtain ⟨ds, i1, i2, i3⟩ := key z.toNat
    exact ⟨ds, ⟨ds, i1, i2, .inl ⟨rfl, by omega⟩⟩, h1, h2⟩
  · obtain ⟨ds, i1, i2, i3⟩ := key (-z).toNat
    exact ⟨'-' :: ds, ⟨ds, i1, i2, .inr ⟨rfl, by omega⟩⟩, h1, h2⟩

/-- Reading a line number by number. -/
theorem readInt_line {rest s : List Char} {z : Int} {zs : List Int} (h : Line rest s (z :: zs)) (x : Int) :
    ∃ s', readInt ⟨s, false⟩ x = (⟨s', false⟩, z) ∧ Line rest s' zs := by
  cases h with
  | cons hw hn hl ht => exact ⟨_, readInt_numeral hw hn ht, hl⟩

/-- Literals are written with negative ones shifted by one, because -1 ends the list. -/
def enc (x : Int) : Int := if x < 0 then x - 1 else x

theorem readLoop_line {rest : List Char} : ∀ {l : List Int} {s : List Char} {more : List Int} {x : Int} {f : Nat},
    Line rest s ((l.map enc ++ [-1] ++ more)) → l.length < f →
    readLoop f (readInt ⟨s, false⟩ x).1 (readInt ⟨s, false⟩ x).2 = some l := by
  intro l
  induction l with
  | nil =>
    intro s more x f h hf
    obtain ⟨s', h1, h2⟩ := readInt_line h x
    obtain ⟨f, rfl⟩ : ∃ g, f = g + 1 := ⟨f - 1, by omega⟩
    rw [h1]
    simp [readLoop]
  | cons y l ih =>
    intro s more x f h hf
    obtain ⟨s', h1, h2⟩ := readInt_line h x
    obtain ⟨f, rfl⟩ : ∃ g, f = g + 1 := ⟨f - 1, by omega⟩
    rw [h1]
    have hne : ¬ enc y = -1 := by unfold enc; split_ifs <;> omega
    have hdec : (if enc y < 0 then enc y + 1 else enc y) = y := by
      unfold enc; split_ifs <;> omega
    have hs' := ih (s := s') (more := more) (x := y) (f := f) (by simpa using h2) (by simp at hf; omega)
    simp only [readLoop, if_neg hne, hdec, hs', Option.map_some]

theorem readConds_line {rest : List Char} {y0 : Int} : ∀ {c : List Int} {s : List Char} {more : List Int},
    Line rest s (c ++ more) → ∃ s', readConds y0 c.length ⟨s, false⟩ = (⟨s', false⟩, c) ∧ Line rest s' more := by
  intro c
  induction c with
  | nil => intro s more h; exact ⟨s, rfl, h⟩
  | cons y c ih =>
    intro s more h
    obtain ⟨s1, h1, h2⟩ := readInt_line h y0
    obtain ⟨s2, h3, h4⟩ := ih h2
    exact ⟨s2, by simp [readConds, h1, h3], h4⟩

/-- The numbers of one conditional element: the number of conditions, the conditions, the element. -/
def encCond (e : List Int × Int) : List Int := (e.1.length : Int) :: (e.1 ++ [e.2])

theorem condLoop_line {rest : List Char} {y0 : Int} : ∀ {l : List (List Int × Int)} {s : List Char} {more : List Int}
    {t x : Int} {f : Nat}, t < 0 → Line rest s (l.flatMap encCond ++ [t] ++ more) → l.length < f →
    condLoop y0 f (readInt ⟨s, false⟩ x).1 (readInt ⟨s, false⟩ x).2 =
      some ((l.filter (fun e => e.1 = [])).map (·.2), l.filter (fun e => ¬ e.1 = [])) := by
  intro l
  induction l with
  | nil =>
    intro s more t x f ht h hf
    obtain ⟨s', h1, h2⟩ := readInt_line h x
    obtain ⟨f, rfl⟩ : ∃ g, f = g + 1 := ⟨f - 1, by omega⟩
    rw [h1]
    simp [condLoop, ht]
  | cons e l ih =>
    intro s more t x f ht h hf
    obtain ⟨c, y⟩ := e
    have h' : Line rest s ((c.length : Int) :: (c ++ ((y :: (l.flatMap encCond ++ [t] ++ more))))) := by
      simpa [encCond] using h
    obtain ⟨s1, h1, h2⟩ := readInt_line h' x
    obtain ⟨s2, h3, h4⟩ := readConds_line (y0 := y0) h2
    obtain ⟨s3, h5, h6⟩ := readInt_line h4 (c.length : Int)
    obtain ⟨f, rfl⟩ : ∃ g, f = g + 1 := ⟨f - 1, by omega⟩
    have hrec := ih (s := s3) (more := more) (t := t) (x := y) (f := f) ht h6 (by simp at hf; omega)
    rw [h1]
    rw [condLoop]
    simp only [if_neg (show ¬ (c.length : Int) < 0 by omega), Int.toNat_natCast, h3, h5, hrec, Option.map_some]
    by_cases hc : c = [] <;> simp [hc]

/-- A stream that has failed returns the old value. -/
theorem readLoop_fail {s : Stream} (hs : s.fail = true) {x : Int} (hx : 0 ≤ x) : ∀ f, readLoop f s x = none := by
  intro f
  induction f with
  | zero => rfl
  | succ f ih =>
    have h1 : ¬ x = -1 := by omega
    have h2 : ¬ x < 0 := by omega
    have h3 : readInt s x = (s, x) := by simp [readInt, hs]
    simp only [readLoop, if_neg h1, if_neg h2, h3, ih, Option.map_none]

end Verif.Parse
