import Verif.Parse

/-! # C33: integer list lines are read back exactly -/

namespace Verif.Props

open Verif.Parse

/-- C33: a line that contains the numbers of a list (negative ones shifted by one), the terminator
-1 and arbitrary further numbers is read as exactly that list. -/
theorem C33_readIntList (l : List Int) (more : List Int) (line : List Char) (x0 : Int)
    (h : Line [] line (l.map enc ++ [-1] ++ more)) :
    readIntList (l.length + 1) x0 line = some l := readLoop_line h (Nat.lt_succ_self _)

/-- Every list of numbers in range has such a line. -/
theorem C33_lines_exist (l : List Int) (h : ∀ x ∈ l, Parse.intMin ≤ x ∧ x ≤ Parse.intMax) :
    ∃ line, Line [] line l := by
  have : ∃ line, Line [] line l ∧ (line = [] ∨ ∃ c t, line = c :: t ∧ isWs c = true) := by
    induction l with
    | nil => exact ⟨[], .nil (.inl rfl), .inl rfl⟩
    | cons x l ih =>
      obtain ⟨t, ht, ht'⟩ := ih fun y hy => h y (List.mem_cons_of_mem _ hy)
      obtain ⟨cs, hcs⟩ := exists_numeral (h x (by simp)).1 (h x (by simp)).2
      exact ⟨[' '] ++ cs ++ t, .cons (by decide) hcs ht ht', .inr ⟨' ', cs ++ t, rfl, by decide⟩⟩
  obtain ⟨line, h1, -⟩ := this
  exact ⟨line, h1⟩

/-- C33 for conditional effects: a line with elements, each given by the number of its conditions, the
conditions and the element, and a negative terminator, is split into the elements without conditions
and the conditional ones, each in their order. -/
theorem C33_readConditionalIntList (l : List (List Int × Int)) (more : List Int) (line : List Char)
    (t x0 y0 : Int) (ht : t < 0) (h : Line [] line (l.flatMap encCond ++ [t] ++ more)) :
    readConditionalIntList (l.length + 1) x0 y0 line =
      some ((l.filter (fun e => e.1 = [])).map (·.2), l.filter (fun e => ¬ e.1 = [])) :=
  condLoop_line ht h (Nat.lt_succ_self _)

/-- A line without terminator makes `readIntList` loop forever (and append elements until the
memory is exhausted): if the numbers of the line are not negative and there is at least one, no number of
iterations suffices. -/
theorem C33_missing_terminator_diverges (l : List Int) (hl : l ≠ []) (hp : ∀ x ∈ l, 0 ≤ x) (line : List Char) (x0 : Int)
    (h : Line [] line l) : ∀ fuel, readIntList fuel x0 line = none := by
  have key : ∀ (l : List Int) (s : List Char) (x : Int) (f : Nat), 0 ≤ x → (∀ x ∈ l, 0 ≤ x) → Line [] s l →
      readLoop f ⟨s, false⟩ x = none := by
    intro l
    induction l with
    | nil =>
      intro s x f hx _ h
      cases h
      cases f with
      | zero => rfl
      | succ f =>
        have h1 : ¬ x = -1 := by omega
        have h2 : ¬ x < 0 := by omega
        have h3 : readInt ⟨[], false⟩ x = (⟨[], true⟩, x) := by simp [readInt]
        simp only [readLoop, if_neg h1, if_neg h2, h3, readLoop_fail (s := ⟨[], true⟩) rfl hx, Option.map_none]
    | cons y l ih =>
      intro s x f hx hp h
      cases f with
      | zero => rfl
      | succ f =>
        have h1 : ¬ x = -1 := by omega
        have h2 : ¬ x < 0 := by omega
        obtain ⟨s', h3, h4⟩ := readInt_line h x
        simp only [readLoop, if_neg h1, if_neg h2, h3,
          ih s' y f (hp y (by simp)) (fun z hz => hp z (List.mem_cons_of_mem _ hz)) h4, Option.map_none]
  obtain ⟨y, l, rfl⟩ := List.exists_cons_of_ne_nil hl
  intro fuel
  obtain ⟨s', h3, h4⟩ := readInt_line h x0
  rw [readIntList, h3]
  exact key l s' y fuel (hp y (by simp)) (fun z hz => hp z (List.mem_cons_of_mem _ hz)) h4

example : readIntList 10 77 "3 -2 12 -7  0 -1".toList = some [3, -1, 12, -6, 0] := by decide +kernel

example : readConditionalIntList 10 77 78 "0 5  2 7 8 3  0 6 -1".toList = some ([5, 6], [([7, 8], 3)]) := by
  decide +kernel

/-- The hypothesis of `C33_readIntList` for a concrete line. -/
example : Line [] "3 -2 -1".toList ([3, -1].map enc ++ [-1] ++ []) := by
  refine .cons (ws := []) (num := ['3']) (tail := " -2 -1".toList) (by simp)
    ⟨⟨['3'], by simp, by decide, .inl ⟨rfl, by decide⟩⟩, by decide, by decide⟩ ?_ (.inr ⟨' ', _, rfl, by decide⟩)
  refine .cons (ws := [' ']) (num := "-2".toList) (tail := " -1".toList) (by decide)
    ⟨⟨['2'], by simp, by decide, .inr ⟨rfl, by decide⟩⟩, by decide, by decide⟩ ?_ (.inr ⟨' ', _, rfl, by decide⟩)
  exact .cons (ws := [' ']) (num := "-1".toList) (tail := []) (by decide)
    ⟨⟨['1'], by simp, by decide, .inr ⟨rfl, by decide⟩⟩, by decide, by decide⟩ (.nil (.inl rfl)) (.inl rfl)

end Verif.Props
