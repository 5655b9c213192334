import Verif.ToHddl
import Verif.Parse

/-! # Model of the names of the operators and of the functions that read them

src/translation/htnToSAS.cpp: the names are written by `tohtnToStrips` (1137-1163), read by `writeToFastDown` (2361-2379) with
`calculatePrecsAndAdds` (218-247), and, after the planner has written them in parentheses into the plan file, by `planToHddl`
(2553-2663).  Strings are lists of characters. -/

namespace Verif.Sas

open Verif.Htn

/-- `std::string::find`. -/
def find (pat : List Char) : List Char → Option Nat
  | [] => if pat = [] then some 0 else none
  | c :: s => if pat.isPrefixOf (c :: s) then some 0 else (find pat s).map (· + 1)

/-- `std::string::find` from a position on. -/
def findAt (pat s : List Char) (pos : Nat) : Option Nat := (find pat (s.drop pos)).map (· + pos)

/-- `throw`: an exception (`std::invalid_argument` or `std::out_of_range`) that is not caught; `npos`: the code would calculate
with `npos`. -/
inductive TErr
  | throw
  | npos
deriving DecidableEq, Repr

/-- `std::stoi`. -/
def stoi (s : List Char) : Except TErr Int :=
  let r := s.dropWhile Parse.isWs
  let p : Bool × List Char := match r with
    | '-' :: r => (true, r)
    | '+' :: r => (false, r)
    | r => (false, r)
  let d := p.2.takeWhile Char.isDigit
  let v : Int := Nat.ofDigitChars 10 d 0
  let z := if p.1 then -v else v
  if d = [] ∨ z < Parse.intMin ∨ Parse.intMax < z then .error .throw else .ok z

/-- `s.substr(a, e - a)`, where `e` may be `npos`; if `e` is less than `a`, the length is a large unsigned number. -/
def substr (s : List Char) (a : Nat) (e : Option Nat) : Except TErr (List Char) :=
  if s.length < a then .error .throw else .ok (match e with
    | some e => if a ≤ e then (s.drop a).take (e - a) else s.drop a
    | none => s.drop a)

/-- `std::to_string`. -/
def natS (n : Nat) : List Char := Nat.toDigits 10 n

/-- A list of numbers, separated by commas. -/
def commas : List Nat → List Char
  | [] => []
  | [x] => natS x
  | x :: y :: l => natS x ++ ',' :: commas (y :: l)

def cId : List Char := ['i', 'd']
def cHead : List Char := ['h', 'e', 'a', 'd']
def cSub : List Char := ['s', 'u', 'b', 't', 'a', 's', 'k', 's']
def cFirst : List Char := ['f', 'i', 'r', 's', 't', 'P', 'r', 'i', 'm']
def cName : List Char := [':', ' ']
def cEnd : List Char := [']']
def cPrimitive : List Char := ['p', 'r', 'i', 'm', 'i', 't', 'i', 'v', 'e']
def cMethod : List Char := ['m', 'e', 't', 'h', 'o', 'd']

/-- What the names are made of: the names of the tasks and methods, `subTasksInOrder` with `firstNumTOPrimTasks`, and
`numSubTasks`. -/
structure Names where
  task : Nat → List Char
  meth : Nat → List Char
  reo : Nat → Reo
  nSub : Nat → Nat

/-- The part of the name of the operator of a method between the head and the name of the method. -/
def Names.mid (W : Names) (m j : Nat) : List Char :=
  (if (W.reo m).first < W.nSub m then ']' :: ',' :: cSub ++ '[' :: commas (List.range' j (W.nSub m - (W.reo m).first)) else []) ++
  (if 0 < (W.reo m).first then ']' :: ',' :: cFirst ++ '[' :: commas (W.reo m).prefixTasks else [])

/-- `actionNamesTrans`, htnToSAS.cpp 1137-1163. -/
def Names.op (W : Names) : Lab → List Char
  | .prim a j => cPrimitive ++ '(' :: cId ++ '[' :: natS a ++ ']' :: ',' :: cHead ++ '[' :: natS j ++ ']' :: ')' :: cName ++ W.task a
  | .meth m j => cMethod ++ '(' :: cId ++ '[' :: natS m ++ ']' :: ',' :: cHead ++ '[' :: natS j ++ W.mid m j ++ ']' :: ')' :: cName ++ W.meth m

/-- The line of an operator in the plan file that the planner writes. -/
def Names.line (W : Names) (l : Lab) : List Char := '(' :: W.op l ++ [')']

/-! ## `planToHddl` -/

/-- What is read from a line. -/
inductive PLine
  | prim (id head : Int) (name : List Char)
  | meth (id head : Int) (firsts subHeads : List Int) (name : List Char)
  | skip
deriving DecidableEq, Repr

/-- `stoi(plan[i].substr(plan[i].find(key) + off, plan[i].find("]", plan[i].find(key), 1) - plan[i].find(key) - off))`. -/
def readNum (key : List Char) (off : Nat) (s : List Char) : Except TErr Int :=
  match find key s with
  | none => .error .npos
  | some i => do stoi (← substr s (i + off) (findAt cEnd s i))

/-- The loops of lines 2624-2637 and 2643-2653. -/
def readNums : Nat → List Char → Except TErr (List Int)
  | 0, _ => .ok []
  | n + 1, s => match find [','] s with
    | some f => do return (← stoi (s.take f)) :: (← readNums n (s.drop (f + 1)))
    | none => do return (← stoi s) :: (← readNums n s)

/-- `plan[i].substr(plan[i].find(": ") + 2, plan[i].length() - plan[i].find(": ") - 3)`. -/
def readName (s : List Char) : Except TErr (List Char) :=
  match find cName s with
  | none => .error .npos
  | some i => substr s (i + 2) (some (s.length - 1))

/-- A list that is read if the key occurs in the line. -/
def readList (key : List Char) (off n : Nat) (s : List Char) : Except TErr (List Int) :=
  match find key s with
  | none => .ok []
  | some i => do readNums n (← substr s (i + off) (findAt cEnd s i))

/-- A line of the plan, htnToSAS.cpp 2585-2656 (without the lines for `move`). -/
def Names.readLine (W : Names) (s : List Char) : Except TErr PLine :=
  if 9 < s.length ∧ (s.drop 1).take 9 = cPrimitive then do
    let name ← readName s
    let id ← readNum cId 3 s
    let h ← readNum cHead 5 s
    return .prim id h name
  else if 6 < s.length ∧ (s.drop 1).take 6 = cMethod then do
    let name ← readName s
    let id ← readNum cId 3 s
    let h ← readNum cHead 5 s
    let f ← readList cFirst 10 (W.reo id.toNat).first s
    let k ← readList cSub 9 (W.nSub id.toNat) s
    return .meth id h f k name
  else .ok .skip

/-! ## `writeToFastDown` and `calculatePrecsAndAdds` -/

/-- The text with the leading actions, htnToSAS.cpp 2365-2371: `tn.substr(i + 9, tn.find(": ") - 1 - i - 9)`. -/
def leadText (tn : List Char) : Except TErr (Option (List Char)) :=
  match find cFirst tn with
  | none => .ok none
  | some i => match find cName tn with
    | none => .error .npos
    | some e => do return some (← substr tn (i + 9) (some (e - 1)))

/-- The numbers after the first one, lines 237-242. -/
def leadRest : Nat → List Char → Nat → Except TErr (List Int)
  | 0, _, _ => .ok []
  | 1, s, index => do return [← stoi (← substr s (index + 1) (some (s.length - 1)))]
  | n + 2, s, index => match findAt [','] s (index + 1) with
    | none => .error .npos
    | some j => do return (← stoi (← substr s (index + 1) (some j))) :: (← leadRest (n + 1) s j)

/-- The actions that `calculatePrecsAndAdds` reads from the text, htnToSAS.cpp 218-242. -/
def leadTasks (s : List Char) : Except TErr (List Int) :=
  match find [','] s with
  | none => do return [← stoi (← substr s 1 (some (s.length - 1)))]
  | some i => do return (← stoi (← substr s 1 (some i))) :: (← leadRest (s.count ',') s i)

/-- The leading actions that `writeToFastDown` takes from a name. -/
def readLead (tn : List Char) : Except TErr (Option (List Int)) := do
  match ← leadText tn with
  | none => return none
  | some s => return some (← leadTasks s)

/-! ## Lemmas -/

theorem find_skip {p : Char} {ps a b : List Char} (h : p ∉ a) : find (p :: ps) (a ++ b) = (find (p :: ps) b).map (· + a.length) := by
  induction a with
  | nil => simp
  | cons c a ih =>
    rw [List.mem_cons, not_or] at h
    have hne : (p == c) = false := by simpa using h.1
    rw [List.cons_append, find, List.isPrefixOf, hne, Bool.false_and, if_neg (by simp), ih h.2, Option.map_map]
    rfl

theorem find_prefix (p : Char) (ps b : List Char) : find (p :: ps) (p :: ps ++ b) = some 0 := by
  have : (p :: ps).isPrefixOf (p :: (ps ++ b)) = true := by
    rw [List.isPrefixOf_iff_prefix]
    exact ⟨b, rfl⟩
  rw [List.cons_append, find, if_pos this]

theorem find_some {pat s : List Char} (hp : pat ≠ []) : ∀ {i : Nat}, find pat s = some i →
    ∃ a b, s = a ++ pat ++ b ∧ a.length = i := by
  induction s with
  | nil => intro i h; simp [find, hp] at h
  | cons c s ih =>
    intro i h
    rw [find] at h
    split_ifs at h with hc
    · obtain ⟨b, hb⟩ := List.isPrefixOf_iff_prefix.1 hc
      exact ⟨[], b, by simpa using hb.symm, by simpa using h⟩
    · obtain ⟨k, hk, rfl⟩ := Option.map_eq_some_iff.1 h
      obtain ⟨a, b, rfl, rfl⟩ := ih hk
      exact ⟨c :: a, b, rfl, rfl⟩

theorem find_none {pat s : List Char} (hp : pat ≠ []) : find pat s = none ↔ ¬ pat <:+: s := by
  constructor
  · intro h
    induction s with
    | nil =>
      intro hi
      exact hp (List.infix_nil.1 hi)
    | cons c s ih =>
      rw [find] at h
      split_ifs at h with hc
      rw [Option.map_eq_none_iff] at h
      intro hi
      rcases List.infix_cons_iff.1 hi with h1 | h1
      · exact hc (List.isPrefixOf_iff_prefix.2 h1)
      · exact ih h h1
  · intro h
    cases hf : find pat s with
    | none => rfl
    | some i =>
      obtain ⟨a, b, rfl, -⟩ := find_some hp hf
      exact absurd ⟨a, b, rfl⟩ h

theorem natS_digit {n : Nat} {c : Char} (h : c ∈ natS n) : c.isDigit = true :=
  Nat.isDigit_of_mem_toDigits (by decide) (by decide) h

theorem commas_mem {l : List Nat} {c : Char} (h : c ∈ commas l) : c.isDigit = true ∨ c = ',' := by
  induction l with
  | nil => simp [commas] at h
  | cons x l ih =>
    cases l with
    | nil => exact .inl (natS_digit h)
    | cons y l =>
      rw [commas] at h
      rcases List.mem_append.1 h with h | h
      · exact .inl (natS_digit h)
      · rcases List.mem_cons.1 h with h | h
        · exact .inr h
        · exact ih h

theorem not_mem_natS {c : Char} (hc : c.isDigit = false) (n : Nat) : c ∉ natS n := fun h => by
  rw [natS_digit h] at hc
  cases hc

theorem not_mem_commas {c : Char} (hc : c.isDigit = false) (hc' : c ≠ ',') (l : List Nat) : c ∉ commas l := fun h => by
  rcases commas_mem h with h | h
  · rw [h] at hc; cases hc
  · exact hc' h

theorem digit_not_ws {c : Char} (h : c.isDigit = true) : Parse.isWs c = false := by
  by_contra hw
  simp only [Parse.isWs, Bool.or_eq_true, decide_eq_true_eq, Bool.not_eq_false] at hw
  rcases hw with ((((hw | hw) | hw) | hw) | hw) | hw <;> subst hw <;> revert h <;> decide

theorem natS_ne (n : Nat) : natS n ≠ [] := by
  rw [natS]
  exact Nat.toDigits_ne_nil

theorem takeWhile_all {α : Type} {p : α → Bool} {l r : List α} (h : ∀ x ∈ l, p x = true) (hr : ∀ x, r.head? = some x → p x = false) :
    (l ++ r).takeWhile p = l := by
  induction l with
  | nil =>
    cases r with
    | nil => rfl
    | cons x r => simp [hr x rfl]
  | cons x l ih => simp [h x (.head _), ih fun y hy => h y (.tail _ hy)]

theorem stoi_natS {n : Nat} (hn : (n : Int) ≤ Parse.intMax) : stoi (natS n) = .ok (n : Int) := by
  obtain ⟨c, r, hcr⟩ := List.exists_cons_of_ne_nil (natS_ne n)
  have hd : ∀ x ∈ natS n, x.isDigit = true := fun x => natS_digit
  have hc : c.isDigit = true := hd c (by rw [hcr]; exact .head _)
  have hw : (natS n).dropWhile Parse.isWs = natS n := by rw [hcr, List.dropWhile_cons_of_neg (by simp [digit_not_ws hc])]
  have htk : (natS n).takeWhile Char.isDigit = natS n := by
    have := takeWhile_all (r := []) hd (by simp)
    simpa using this
  have h1 : c ≠ '-' := by rintro rfl; revert hc; decide
  have h2 : c ≠ '+' := by rintro rfl; revert hc; decide
  have hm : (match natS n with
    | '-' :: r => ((true, r) : Bool × List Char)
    | '+' :: r => (false, r)
    | r => (false, r)) = (false, natS n) := by
    rw [hcr]
    split
    · rename_i e; simp only [List.cons.injEq] at e; exact absurd e.1 h1
    · rename_i e; simp only [List.cons.injEq] at e; exact absurd e.1 h2
    · rfl
  have hv : Nat.ofDigitChars 10 (natS n) 0 = n := Nat.ofDigitChars_ten_toDigits
  have hmin : ¬ ((n : Int) < Parse.intMin) := by rw [Parse.intMin]; omega
  rw [stoi]
  simp only [hw, hm, htk, hv, natS_ne, hmin, Bool.false_eq_true, if_false, false_or]
  rw [if_neg (by omega)]

/-! ## Reading what was written -/

theorem substr_mid {a b c : List Char} {i e : Nat} (hi : a.length = i) (he : a.length + b.length = e) :
    substr (a ++ b ++ c) i (some e) = .ok b := by
  subst hi he
  rw [substr, if_neg (by simp), if_pos (by omega), List.append_assoc, List.drop_left, Nat.add_sub_cancel_left, List.take_left]

theorem findAt_end {a b c : List Char} (hb : ']' ∉ b) : findAt cEnd (a ++ b ++ ']' :: c) a.length = some (a.length + b.length) := by
  rw [findAt, List.append_assoc, List.drop_left, cEnd, find_skip hb, show ']' :: c = [']'] ++ c from rfl, find_prefix]
  simp [Nat.add_comm]

theorem readNum_eq {pre key rest : List Char} {n : Nat} (hf : find key (pre ++ key ++ '[' :: natS n ++ ']' :: rest) = some pre.length)
    (hk : ']' ∉ key) (hn : (n : Int) ≤ Parse.intMax) {off : Nat} (ho : off = key.length + 1) :
    readNum key off (pre ++ key ++ '[' :: natS n ++ ']' :: rest) = .ok (n : Int) := by
  have h1 : findAt cEnd (pre ++ key ++ '[' :: natS n ++ ']' :: rest) pre.length = some (pre.length + (key.length + 1 + (natS n).length)) := by
    have := findAt_end (a := pre) (b := key ++ '[' :: natS n) (c := rest) (by
      simp [hk, not_mem_natS (c := ']') (by decide)])
    simpa [Nat.add_assoc, Nat.add_comm, Nat.add_left_comm] using this
  have h2 : substr (pre ++ key ++ '[' :: natS n ++ ']' :: rest) (pre.length + (key.length + 1))
      (some (pre.length + (key.length + 1 + (natS n).length))) = .ok (natS n) := by
    have := substr_mid (a := pre ++ key ++ ['[']) (b := natS n) (c := ']' :: rest) (i := pre.length + (key.length + 1))
      (e := pre.length + (key.length + 1 + (natS n).length)) (by simp [Nat.add_assoc]) (by simp [Nat.add_assoc])
    simpa using this
  rw [readNum, hf, ho]
  simp only [h1, h2]
  exact stoi_natS hn

theorem readList_eq {pre key rest : List Char} {l : List Nat} (n : Nat)
    (hf : find key (pre ++ key ++ '[' :: commas l ++ ']' :: rest) = some pre.length) (hk : ']' ∉ key) {off : Nat} (ho : off = key.length + 1) :
    readList key off n (pre ++ key ++ '[' :: commas l ++ ']' :: rest) = readNums n (commas l) := by
  have h1 : findAt cEnd (pre ++ key ++ '[' :: commas l ++ ']' :: rest) pre.length = some (pre.length + (key.length + 1 + (commas l).length)) := by
    have := findAt_end (a := pre) (b := key ++ '[' :: commas l) (c := rest) (by
      simp [hk, not_mem_commas (c := ']') (by decide) (by decide)])
    simpa [Nat.add_assoc, Nat.add_comm, Nat.add_left_comm] using this
  have h2 : substr (pre ++ key ++ '[' :: commas l ++ ']' :: rest) (pre.length + (key.length + 1))
      (some (pre.length + (key.length + 1 + (commas l).length))) = .ok (commas l) := by
    have := substr_mid (a := pre ++ key ++ ['[']) (b := commas l) (c := ']' :: rest) (i := pre.length + (key.length + 1))
      (e := pre.length + (key.length + 1 + (commas l).length)) (by simp [Nat.add_assoc]) (by simp [Nat.add_assoc])
    simpa using this
  rw [readList, hf, ho]
  simp only [h1, h2]
  rfl

theorem readNums_commas : ∀ {l : List Nat} (n x : Nat), l.getLast? = some x → l.length ≤ n → (∀ y ∈ l, (y : Int) ≤ Parse.intMax) →
    readNums n (commas l) = .ok ((l ++ List.replicate (n - l.length) x).map Nat.cast)
  | [], _, _, h, _, _ => by simp at h
  | [y], n, x, h, hn, hm => by
    simp only [List.getLast?_singleton, Option.some.injEq] at h
    subst h
    have hs := stoi_natS (hm y (.head _))
    have hf : find [','] (natS y) = none := by
      rw [find_none (by simp)]
      intro hi
      exact not_mem_natS (c := ',') (by decide) y (hi.subset (.head _))
    have : ∀ k, readNums k (natS y) = .ok ((List.replicate k y).map Nat.cast) := by
      intro k
      induction k with
      | zero => rfl
      | succ k ih =>
        rw [readNums, hf]
        simp only [hs, ih]
        rfl
    obtain ⟨k, rfl⟩ : ∃ k, n = k + 1 := ⟨n - 1, by simp at hn; omega⟩
    rw [commas, this]
    rfl
  | y :: z :: l, n, x, h, hn, hm => by
    obtain ⟨k, rfl⟩ : ∃ k, n = k + 1 := ⟨n - 1, by simp at hn; omega⟩
    have ih := readNums_commas (l := z :: l) k x (by simpa [List.getLast?_cons_cons] using h) (by simpa using hn)
      fun w hw => hm w (.tail _ hw)
    have hf : find [','] (natS y ++ ',' :: commas (z :: l)) = some (natS y).length := by
      rw [find_skip (not_mem_natS (by decide) y), show ',' :: commas (z :: l) = [','] ++ commas (z :: l) from rfl, find_prefix]
      simp
    have hd : (natS y ++ ',' :: commas (z :: l)).drop ((natS y).length + 1) = commas (z :: l) := by
      rw [← List.drop_drop, List.drop_left]
      rfl
    rw [commas, readNums, hf]
    simp only [List.take_left, stoi_natS (hm y (.head _)), hd, ih]
    rw [show k + 1 - (y :: z :: l).length = k - (z :: l).length by simp]
    rfl

theorem readName_eq {pre name : List Char} (h : ':' ∉ pre) : readName (pre ++ cName ++ name ++ [')']) = .ok name := by
  have hf : find cName (pre ++ cName ++ name ++ [')']) = some pre.length := by
    rw [List.append_assoc, List.append_assoc, cName, find_skip h, find_prefix]
    simp
  rw [readName, hf]
  simp only
  rw [substr_mid (a := pre ++ cName) (b := name) (c := [')'])]
  · simp [cName]
  · simp [cName]
    omega

section

variable {W : Names}

theorem readLine_prim {a j : Nat} (ha : (a : Int) ≤ Parse.intMax) (hj : (j : Int) ≤ Parse.intMax) :
    W.readLine (W.line (.prim a j)) = .ok (.prim a j (W.task a)) := by
  have hname : readName (W.line (.prim a j)) = .ok (W.task a) := by
    have := readName_eq (name := W.task a)
      (pre := '(' :: cPrimitive ++ '(' :: cId ++ '[' :: natS a ++ ']' :: ',' :: cHead ++ '[' :: natS j ++ [']', ')'])
      (by simp [cPrimitive, cId, cHead, not_mem_natS (c := ':') (by decide)])
    simpa [Names.line, Names.op] using this
  have hid : readNum cId 3 (W.line (.prim a j)) = .ok (a : Int) := by
    have := readNum_eq (pre := '(' :: cPrimitive ++ ['(']) (key := cId) (n := a)
      (rest := ',' :: cHead ++ '[' :: natS j ++ ']' :: ')' :: cName ++ W.task a ++ [')']) (by
        simp [cPrimitive, cId, find, List.isPrefixOf]) (by decide) ha (off := 3) rfl
    simpa [Names.line, Names.op] using this
  have hhead : readNum cHead 5 (W.line (.prim a j)) = .ok (j : Int) := by
    have := readNum_eq (pre := '(' :: cPrimitive ++ '(' :: cId ++ '[' :: natS a ++ [']', ',']) (key := cHead) (n := j)
      (rest := ')' :: cName ++ W.task a ++ [')']) (by
        rw [List.append_assoc, List.append_assoc, cHead, find_skip (by
          simp [cPrimitive, cId, not_mem_natS (c := 'h') (by decide)]), List.append_assoc, find_prefix]
        simp) (by decide) hj (off := 5) rfl
    simpa [Names.line, Names.op] using this
  rw [Names.readLine, if_pos ⟨by simp [Names.line, Names.op, cPrimitive], by simp [Names.line, Names.op, cPrimitive]⟩, hname, hid, hhead]
  rfl

/-- What is read as `subHeads`. -/
def subHeadsOf (n first j : Nat) : List Int :=
  if first < n then (List.range' j (n - first) ++ List.replicate first (j + (n - first) - 1)).map Nat.cast else []

theorem find_cSub_skip (b : List Char) : find cSub (cFirst ++ b) = (find cSub b).map (· + 9) := by
  simp only [cSub, cFirst, List.cons_append, List.nil_append, find, List.isPrefixOf]
  simp [Option.map_map, Function.comp_def]

theorem readLine_meth {m j : Nat} (hm : (m : Int) ≤ Parse.intMax) (hj : (j + W.nSub m : Int) ≤ Parse.intMax)
    (hlen : (W.reo m).first ≤ W.nSub m) (hpl : (W.reo m).prefixTasks.length = (W.reo m).first)
    (hpt : ∀ t ∈ (W.reo m).prefixTasks, (t : Int) ≤ Parse.intMax)
    (hs : (W.reo m).first = W.nSub m → 0 < W.nSub m → ¬ cSub <:+: W.meth m ++ [')']) :
    W.readLine (W.line (.meth m j)) = .ok (.meth m j ((W.reo m).prefixTasks.map Nat.cast)
      (subHeadsOf (W.nSub m) (W.reo m).first j) (W.meth m)) := by
  have hmid : ∀ c : Char, c.isDigit = false → c ∉ [',', ']', '[', 's', 'u', 'b', 't', 'a', 'k', 'f', 'i', 'r', 'P', 'm'] →
      c ∉ W.mid m j := by
    intro c h1 h2 h3
    simp only [List.mem_cons, List.not_mem_nil, or_false, not_or] at h2
    simp only [Names.mid, List.mem_append] at h3
    rcases h3 with h3 | h3
    all_goals
      split_ifs at h3
      · simp [cSub, cFirst, h2, not_mem_commas h1 h2.1] at h3
      · simp at h3
  have hname : readName (W.line (.meth m j)) = .ok (W.meth m) := by
    have := readName_eq (name := W.meth m)
      (pre := '(' :: cMethod ++ '(' :: cId ++ '[' :: natS m ++ ']' :: ',' :: cHead ++ '[' :: natS j ++ W.mid m j ++ [']', ')'])
      (by simp [cMethod, cId, cHead, not_mem_natS (c := ':') (by decide), hmid ':' (by decide) (by decide)])
    simpa [Names.line, Names.op] using this
  have hid : readNum cId 3 (W.line (.meth m j)) = .ok (m : Int) := by
    have := readNum_eq (pre := '(' :: cMethod ++ ['(']) (key := cId) (n := m)
      (rest := ',' :: cHead ++ '[' :: natS j ++ W.mid m j ++ ']' :: ')' :: cName ++ W.meth m ++ [')']) (by
        simp [cMethod, cId, find, List.isPrefixOf]) (by decide) hm (off := 3) rfl
    simpa [Names.line, Names.op] using this
  have hrest : ∀ x, ∃ y, W.mid m j ++ ']' :: x = ']' :: y := by
    intro x
    rw [Names.mid]
    split_ifs <;> exact ⟨_, rfl⟩
  have hhead : readNum cHead 5 (W.line (.meth m j)) = .ok (j : Int) := by
    obtain ⟨y, hy⟩ := hrest (')' :: cName ++ W.meth m ++ [')'])
    have := readNum_eq (pre := '(' :: cMethod ++ '(' :: cId ++ '[' :: natS m ++ [']', ',']) (key := cHead) (n := j)
      (rest := y) (by
        rw [show '(' :: cMethod ++ '(' :: cId ++ '[' :: natS m ++ [']', ','] ++ cHead ++ '[' :: natS j ++ ']' :: y =
          ('(' :: cMethod ++ '(' :: cId ++ ['[']) ++ ((natS m ++ [']', ',']) ++ (cHead ++ ('[' :: natS j ++ ']' :: y))) by simp]
        have h1 : ∀ b, find cHead (('(' :: cMethod ++ '(' :: cId ++ ['[']) ++ b) = (find cHead b).map (· + 11) := by
          intro b
          simp only [cMethod, cId, cHead, List.cons_append, List.nil_append, find, List.isPrefixOf]
          simp [Option.map_map, Function.comp_def]
        rw [h1]
        have h2 : find cHead ((natS m ++ [']', ',']) ++ (cHead ++ ('[' :: natS j ++ ']' :: y))) = some ((natS m).length + 2) := by
          rw [cHead, find_skip (by simp [not_mem_natS (c := 'h') (by decide)]), find_prefix]
          simp
        rw [h2]
        simp [cMethod, cId]) (by decide) (by omega) (off := 5) rfl
    have hl : W.line (.meth m j) = '(' :: cMethod ++ '(' :: cId ++ '[' :: natS m ++ [']', ','] ++ cHead ++ '[' :: natS j ++ ']' :: y := by
      rw [List.append_assoc, ← hy]
      simp [Names.line, Names.op]
    rw [hl]
    exact this
  have hzero : ∀ key, ')' ∉ key → key ≠ [] → readList key (key.length + 1) 0 (W.line (.meth m j)) = .ok [] := by
    intro key hk hne
    rw [readList]
    cases hf : find key (W.line (.meth m j)) with
    | none => rfl
    | some i =>
      obtain ⟨a, b, hab, rfl⟩ := find_some hne hf
      have hb : b ≠ [] := by
        rintro rfl
        rw [List.append_nil, Names.line] at hab
        have h1 := congrArg List.getLast? hab
        rw [List.getLast?_append, List.getLast?_append] at h1
        obtain ⟨c, hc⟩ : ∃ c, key.getLast? = some c := ⟨_, List.getLast?_eq_getLast_of_ne_nil hne⟩
        rw [hc] at h1
        simp only [List.getLast?_singleton, Option.some_or, Option.some.injEq] at h1
        exact hk (h1 ▸ List.mem_of_getLast? hc)
      have hbl : 0 < b.length := List.length_pos_iff.2 hb
      simp only [substr]
      rw [if_neg (by rw [hab]; simp; omega)]
      rfl
  have hfirst : readList cFirst 10 (W.reo m).first (W.line (.meth m j)) = .ok ((W.reo m).prefixTasks.map Nat.cast) := by
    rcases Nat.eq_zero_or_pos (W.reo m).first with h0 | h0
    · have : (W.reo m).prefixTasks = [] := List.length_eq_zero_iff.1 (by rw [hpl, h0])
      rw [h0, this]
      exact hzero cFirst (by decide) (by decide)
    · have hl : W.line (.meth m j) = ('(' :: cMethod ++ '(' :: cId ++ '[' :: natS m ++ [']', ','] ++ cHead ++ '[' :: natS j ++
          (if (W.reo m).first < W.nSub m then ']' :: ',' :: cSub ++ '[' :: commas (List.range' j (W.nSub m - (W.reo m).first)) else []) ++
          [']', ',']) ++ cFirst ++ '[' :: commas (W.reo m).prefixTasks ++ ']' :: (')' :: cName ++ W.meth m ++ [')']) := by
        simp [Names.line, Names.op, Names.mid, h0]
      rw [hl, readList_eq (key := cFirst) _ ?_ (by decide) (off := 10) rfl]
      · obtain ⟨x, hx⟩ : ∃ x, (W.reo m).prefixTasks.getLast? = some x :=
          ⟨_, List.getLast?_eq_getLast_of_ne_nil (by rintro h; rw [h] at hpl; simp at hpl; omega)⟩
        rw [readNums_commas _ x hx (by omega) hpt, hpl]
        simp
      · rw [List.append_assoc, List.append_assoc, cFirst, find_skip, List.append_assoc, find_prefix]
        · simp
        · split_ifs <;> simp [cMethod, cId, cHead, cSub, not_mem_natS (c := 'f') (by decide), not_mem_commas (c := 'f') (by decide) (by decide)]
  have hsub : readList cSub 9 (W.nSub m) (W.line (.meth m j)) = .ok (subHeadsOf (W.nSub m) (W.reo m).first j) := by
    rcases Nat.lt_or_ge (W.reo m).first (W.nSub m) with hlt | hge
    · have hl : W.line (.meth m j) = ('(' :: cMethod ++ '(' :: cId ++ '[' :: natS m ++ [']', ','] ++ cHead ++ '[' :: natS j ++
          [']', ',']) ++ cSub ++ '[' :: commas (List.range' j (W.nSub m - (W.reo m).first)) ++
          ((if 0 < (W.reo m).first then ']' :: ',' :: cFirst ++ '[' :: commas (W.reo m).prefixTasks else []) ++
          ']' :: ')' :: cName ++ W.meth m ++ [')']) := by
        simp [Names.line, Names.op, Names.mid, hlt]
      obtain ⟨y, hy⟩ : ∃ y, ((if 0 < (W.reo m).first then ']' :: ',' :: cFirst ++ '[' :: commas (W.reo m).prefixTasks else []) ++
          ']' :: ')' :: cName ++ W.meth m ++ [')']) = ']' :: y := by
        split_ifs <;> exact ⟨_, rfl⟩
      rw [hl, hy, readList_eq (key := cSub) _ ?_ (by decide) (off := 9) rfl]
      · rw [readNums_commas _ (j + (W.nSub m - (W.reo m).first) - 1), subHeadsOf, if_pos hlt, List.length_range',
          show W.nSub m - (W.nSub m - (W.reo m).first) = (W.reo m).first by omega]
        · rw [List.getLast?_range', if_neg (by omega)]
        · rw [List.length_range']; omega
        · intro z hz
          rw [List.mem_range'_1] at hz
          omega
      · rw [List.append_assoc, List.append_assoc, cSub, find_skip, List.append_assoc, find_prefix]
        · simp
        · simp [cMethod, cId, cHead, not_mem_natS (c := 's') (by decide)]
    · have he : (W.reo m).first = W.nSub m := by omega
      rw [subHeadsOf, if_neg (by omega)]
      rcases Nat.eq_zero_or_pos (W.nSub m) with h0 | h0
      · rw [h0]
        exact hzero cSub (by decide) (by decide)
      · have hl : W.line (.meth m j) = ('(' :: cMethod ++ '(' :: cId ++ '[' :: natS m ++ [']', ','] ++ cHead ++ '[' :: natS j ++
            [']', ',']) ++ (cFirst ++ (('[' :: commas (W.reo m).prefixTasks ++ ']' :: ')' :: cName) ++ (W.meth m ++ [')']))) := by
          have h1 : ¬ (W.reo m).first < W.nSub m := by omega
          have h2 : 0 < (W.reo m).first := by omega
          simp [Names.line, Names.op, Names.mid, h1, h2]
        have hf : find cSub (W.line (.meth m j)) = none := by
          have h1 := find_none (pat := cSub) (s := W.meth m ++ [')']) (by decide)
          have h2 := find_cSub_skip (('[' :: commas (W.reo m).prefixTasks ++ ']' :: ')' :: cName) ++ (W.meth m ++ [')']))
          rw [hl]
          rw [cSub] at h1 h2 ⊢
          rw [find_skip (by simp [cMethod, cId, cHead, not_mem_natS (c := 's') (by decide)]), h2,
            find_skip (by simp [cName, not_mem_commas (c := 's') (by decide) (by decide)]), h1.2 (hs he h0)]
          rfl
        rw [readList, hf]
  rw [Names.readLine, if_neg (by simp [Names.line, Names.op, cPrimitive, cMethod]),
    if_pos ⟨by simp [Names.line, Names.op, cMethod], by simp [Names.line, Names.op, cMethod]⟩, hname, hid, hhead]
  simp only [bind, Except.bind, Int.toNat_natCast, hfirst, hsub]
  rfl

theorem count_commas (x : Nat) (l : List Nat) : (commas (x :: l)).count ',' = l.length := by
  induction l generalizing x with
  | nil => exact List.count_eq_zero.2 (not_mem_natS (by decide) x)
  | cons y l ih =>
    rw [commas, List.count_append, List.count_cons_self, ih, List.count_eq_zero.2 (not_mem_natS (by decide) x)]
    simp

theorem leadRest_eq : ∀ (l : List Nat) (A : List Char), l ≠ [] → (∀ y ∈ l, (y : Int) ≤ Parse.intMax) →
    leadRest l.length (A ++ ',' :: commas l ++ [']']) A.length = .ok (l.map Nat.cast)
  | [], _, h, _ => absurd rfl h
  | [x], A, _, hm => by
    have : substr (A ++ ',' :: natS x ++ [']']) (A.length + 1) (some ((A ++ ',' :: natS x ++ [']']).length - 1)) = .ok (natS x) := by
      have := substr_mid (a := A ++ [',']) (b := natS x) (c := [']']) (i := A.length + 1) (e := (A ++ ',' :: natS x ++ [']']).length - 1)
        (by simp) (by simp; omega)
      simpa using this
    simp only [List.length_singleton, leadRest, commas, this]
    simp only [bind, Except.bind, stoi_natS (hm x (.head _))]
    rfl
  | x :: y :: l, A, _, hm => by
    have ih := leadRest_eq (y :: l) (A ++ ',' :: natS x) (by simp) fun z hz => hm z (.tail _ hz)
    have hl : A ++ ',' :: commas (x :: y :: l) ++ [']'] = A ++ ',' :: natS x ++ ',' :: commas (y :: l) ++ [']'] := by
      simp [commas]
    have hf : findAt [','] (A ++ ',' :: natS x ++ ',' :: commas (y :: l) ++ [']']) (A.length + 1) = some (A ++ ',' :: natS x).length := by
      rw [findAt, show A ++ ',' :: natS x ++ ',' :: commas (y :: l) ++ [']'] = (A ++ [',']) ++ (natS x ++ ([','] ++ (commas (y :: l) ++ [']']))) by simp,
        show A.length + 1 = (A ++ [',']).length by simp, List.drop_left, find_skip (not_mem_natS (by decide) x), find_prefix]
      simp
      omega
    have hsub : substr (A ++ ',' :: natS x ++ ',' :: commas (y :: l) ++ [']']) (A.length + 1) (some (A ++ ',' :: natS x).length) = .ok (natS x) := by
      have := substr_mid (a := A ++ [',']) (b := natS x) (c := ',' :: commas (y :: l) ++ [']']) (i := A.length + 1) (e := (A ++ ',' :: natS x).length)
        (by simp) (by simp; omega)
      simpa using this
    rw [hl]
    simp only [List.length_cons, leadRest, hf, hsub]
    simp only [List.length_cons] at ih
    simp only [bind, Except.bind, stoi_natS (hm x (.head _)), ih]
    rfl

theorem leadTasks_eq {l : List Nat} (hl : l ≠ []) (hm : ∀ y ∈ l, (y : Int) ≤ Parse.intMax) :
    leadTasks ('[' :: commas l ++ [']']) = .ok (l.map Nat.cast) := by
  cases l with
  | nil => exact absurd rfl hl
  | cons x l =>
    cases l with
    | nil =>
      have hf : find [','] ('[' :: commas [x] ++ [']']) = none := by
        rw [find_none (by simp)]
        intro hi
        have := hi.subset (.head _)
        simp [commas, not_mem_natS (c := ',') (by decide)] at this
      have hsub : substr ('[' :: commas [x] ++ [']']) 1 (some (('[' :: commas [x] ++ [']']).length - 1)) = .ok (natS x) :=
        substr_mid (a := ['[']) (b := natS x) (c := [']']) (by simp) (by simp [commas, Nat.add_comm])
      rw [leadTasks, hf]
      simp only [hsub]
      simp only [bind, Except.bind, stoi_natS (hm x (.head _))]
      rfl
    | cons y l =>
      have e : '[' :: commas (x :: y :: l) ++ [']'] = ('[' :: natS x) ++ ',' :: commas (y :: l) ++ [']'] := by simp [commas]
      have hf : find [','] (('[' :: natS x) ++ ',' :: commas (y :: l) ++ [']']) = some ('[' :: natS x).length := by
        rw [List.append_assoc, find_skip (by simp [not_mem_natS (c := ',') (by decide)]),
          show ',' :: commas (y :: l) ++ [']'] = [','] ++ (commas (y :: l) ++ [']']) by simp, find_prefix]
        simp
      have hsub : substr (('[' :: natS x) ++ ',' :: commas (y :: l) ++ [']']) 1 (some ('[' :: natS x).length) = .ok (natS x) := by
        have := substr_mid (a := ['[']) (b := natS x) (c := ',' :: commas (y :: l) ++ [']']) (i := 1) (e := ('[' :: natS x).length)
          (by simp) (by simp [Nat.add_comm])
        simpa using this
      have hcount : (('[' :: natS x) ++ ',' :: commas (y :: l) ++ [']']).count ',' = (y :: l).length := by
        rw [List.count_append, List.count_append, List.count_cons_self, count_commas,
          List.count_eq_zero.2 (show ',' ∉ '[' :: natS x by simp [not_mem_natS (c := ',') (by decide)])]
        simp
      have hr := leadRest_eq (y :: l) ('[' :: natS x) (by simp) fun z hz => hm z (.tail _ hz)
      rw [e, leadTasks, hf]
      simp only [hsub, hcount]
      simp only [bind, Except.bind, stoi_natS (hm x (.head _)), hr]
      rfl

theorem readLead_prim {a j : Nat} (hn : ¬ cFirst <:+: W.task a) : readLead (W.op (.prim a j)) = .ok none := by
  have hf : find cFirst (W.op (.prim a j)) = none := by
    have h1 := (find_none (pat := cFirst) (by decide)).2 hn
    rw [cFirst] at h1 ⊢
    rw [Names.op, find_skip, h1]
    · rfl
    · simp [cPrimitive, cId, cHead, cName, not_mem_natS (c := 'f') (by decide)]
  rw [readLead, leadText, hf]
  rfl

theorem readLead_meth {m j : Nat} (hpl : (W.reo m).prefixTasks.length = (W.reo m).first)
    (hpt : ∀ t ∈ (W.reo m).prefixTasks, (t : Int) ≤ Parse.intMax) (hn : (W.reo m).first = 0 → ¬ cFirst <:+: W.meth m) :
    readLead (W.op (.meth m j)) = .ok (if (W.reo m).first = 0 then none else some ((W.reo m).prefixTasks.map Nat.cast)) := by
  rcases Nat.eq_zero_or_pos (W.reo m).first with h0 | h0
  · have hf : find cFirst (W.op (.meth m j)) = none := by
      have h1 := (find_none (pat := cFirst) (by decide)).2 (hn h0)
      rw [cFirst] at h1 ⊢
      rw [Names.op, find_skip, h1]
      · rfl
      · rw [Names.mid, if_neg (show ¬ 0 < (W.reo m).first by omega), List.append_nil]
        simp [cMethod, cId, cHead, cName, cSub, not_mem_natS (c := 'f') (by decide), not_mem_commas (c := 'f') (by decide) (by decide)]
    rw [readLead, leadText, hf, if_pos h0]
    rfl
  · obtain ⟨pre, hpre⟩ : ∃ pre, pre = cMethod ++ '(' :: cId ++ '[' :: natS m ++ ']' :: ',' :: cHead ++ '[' :: natS j ++
        (if (W.reo m).first < W.nSub m then ']' :: ',' :: cSub ++ '[' :: commas (List.range' j (W.nSub m - (W.reo m).first)) else []) ++
        [']', ','] := ⟨_, rfl⟩
    have hl : W.op (.meth m j) = pre ++ cFirst ++ ('[' :: commas (W.reo m).prefixTasks ++ [']']) ++ ')' :: cName ++ W.meth m := by
      rw [hpre, Names.op, Names.mid, if_pos h0]
      simp
    have hpf : 'f' ∉ pre := by
      rw [hpre]
      simp [cMethod, cId, cHead, cSub, not_mem_natS (c := 'f') (by decide), not_mem_commas (c := 'f') (by decide) (by decide)]
    have hpc : ':' ∉ pre := by
      rw [hpre]
      split_ifs <;> simp [cMethod, cId, cHead, cSub, not_mem_natS (c := ':') (by decide), not_mem_commas (c := ':') (by decide) (by decide)]
    have hf : find cFirst (W.op (.meth m j)) = some pre.length := by
      rw [hl]
      simp only [List.append_assoc]
      rw [cFirst, find_skip hpf, find_prefix]
      simp
    have hc : find cName (W.op (.meth m j)) = some (pre.length + 9 + (commas (W.reo m).prefixTasks).length + 3) := by
      rw [hl, show pre ++ cFirst ++ ('[' :: commas (W.reo m).prefixTasks ++ [']']) ++ ')' :: cName ++ W.meth m =
        (pre ++ cFirst ++ ('[' :: commas (W.reo m).prefixTasks ++ [']']) ++ [')']) ++ (cName ++ W.meth m) by simp, cName,
        find_skip (by simp [hpc, cFirst, not_mem_commas (c := ':') (by decide) (by decide)]), find_prefix]
      simp [cFirst]
      omega
    have hs : substr (W.op (.meth m j)) (pre.length + 9) (some (pre.length + 9 + (commas (W.reo m).prefixTasks).length + 3 - 1)) =
        .ok ('[' :: commas (W.reo m).prefixTasks ++ [']']) := by
      rw [hl]
      have := substr_mid (a := pre ++ cFirst) (b := '[' :: commas (W.reo m).prefixTasks ++ [']']) (c := ')' :: cName ++ W.meth m)
        (i := pre.length + 9) (e := pre.length + 9 + (commas (W.reo m).prefixTasks).length + 3 - 1) (by simp [cFirst]) (by simp [cFirst]; omega)
      simpa using this
    have ht := leadTasks_eq (l := (W.reo m).prefixTasks) (by rintro h; rw [h] at hpl; simp at hpl; omega) hpt
    rw [readLead, leadText, hf, hc, if_neg (by omega)]
    simp only [bind, Except.bind, hs]
    simp only [pure, Except.pure, ht]

end

end Verif.Sas
