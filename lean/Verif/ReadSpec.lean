import Verif.ReadFile

/-! # The format of problem files, and how readers compose along it -/

namespace Verif.ReadFile

open Verif.Parse Verif.Ordering Verif.TaskCounter Verif.IntUtil

/-! ## What a file describes -/

structure VarD where
  first : Nat
  last : Nat
  name : List Char

/-- Effects: conditions and fact. -/
structure ActD where
  cost : Nat
  prec : List Nat
  add : List (List Nat × Nat)
  del : List (List Nat × Nat)

structure MethD where
  name : List Char
  head : Nat
  sub : List Nat
  ord : List (Nat × Nat)

structure HierD where
  init : Nat
  methods : List MethD

structure Desc where
  facts : List (List Char)
  vars : List VarD
  strict : List (List Int)
  mutex : List (List Int)
  invs : List (List Int)
  acts : List ActD
  s0 : List Nat
  goal : List Nat
  /-- abstract or not, name -/
  tasks : List (Bool × List Char)
  hier : Option HierD

/-! ## Lines -/

abbrev Ls := List (List Char)

def One (p : List Char → Prop) (ls : Ls) : Prop := ∃ l, ls = [l] ∧ p l

def Seq (p q : Ls → Prop) (ls : Ls) : Prop := ∃ a b, ls = a ++ b ∧ p a ∧ q b

infixr:60 " ⨟ " => Seq

def Each {α : Type} (f : α → Ls → Prop) : List α → Ls → Prop
  | [] => fun ls => ls = []
  | x :: xs => f x ⨟ Each f xs

/-- `n` arbitrary lines. -/
def Any (n : Nat) (ls : Ls) : Prop := ls.length = n

/-- A line that begins with the number `z`. -/
def NumL (z : Int) (l : List Char) : Prop := ∃ more, Line [] l (z :: more)

/-- A list of numbers, ended by -1 (negative numbers are shifted by one). -/
def IntsL (zs : List Int) (l : List Char) : Prop := ∃ more, Line [] l (zs.map enc ++ [-1] ++ more)

def NatsL (ns : List Nat) (l : List Char) : Prop := IntsL (ns.map fun (n : Nat) => (n : Int)) l

/-- Effects: for each the number of conditions, the conditions and the fact; ended by a negative number. -/
def EffsL (es : List (List Nat × Nat)) (l : List Char) : Prop :=
  ∃ t more, t < (0 : Int) ∧ Line [] l ((es.map fun e => (e.1.map fun (n : Nat) => (n : Int), (e.2 : Int))).flatMap encCond ++ [t] ++ more)

/-- The rest of a line that begins with a name. -/
def NameR (name r : List Char) : Prop :=
  ∃ ws tl, r = ws ++ name ++ tl ∧ (∀ c ∈ ws, isWs c = true) ∧ name ≠ [] ∧ (∀ c ∈ name, isWs c = false) ∧ (tl = [] ∨ ∃ c t, tl = c :: t ∧ isWs c = true)

def VarL (v : VarD) (l : List Char) : Prop := ∃ r, NameR v.name r ∧ Line r l [(v.first : Int), (v.last : Int)]

/-- A task: 1 for abstract tasks, 0 for others, and the name. -/
def TaskL (t : Bool × List Char) (l : List Char) : Prop := ∃ r, NameR t.2 r ∧ Line r l [if t.1 then 1 else 0]

def GroupF (gs : List (List Int)) : Ls → Prop :=
  One (NumL gs.length) ⨟ Each (fun g => One (IntsL g)) gs ⨟ Any 2

def ActF (a : ActD) : Ls → Prop := One (NumL a.cost) ⨟ One (NatsL a.prec) ⨟ One (EffsL a.add) ⨟ One (EffsL a.del)

def MethF (m : MethD) : Ls → Prop :=
  One (· = m.name) ⨟ One (NumL m.head) ⨟ One (NatsL m.sub) ⨟ One (NatsL (m.ord.flatMap fun o => [o.1, o.2]))

/-- The classical part, without the first line of the file. -/
def ClassicalF (D : Desc) : Ls → Prop :=
  One (NumL D.facts.length) ⨟ Each (fun f => One (· = f)) D.facts ⨟ Any 2 ⨟
  One (NumL D.vars.length) ⨟ Each (fun v => One (VarL v)) D.vars ⨟ Any 2 ⨟
  GroupF D.strict ⨟ GroupF D.mutex ⨟ GroupF D.invs ⨟
  One (NumL D.acts.length) ⨟ Each ActF D.acts ⨟ Any 2 ⨟
  One (NatsL D.s0) ⨟ Any 2 ⨟ One (NatsL D.goal) ⨟ Any 2 ⨟
  One (NumL D.tasks.length) ⨟ Each (fun t => One (TaskL t)) D.tasks

/-- The hierarchy: an empty line, a line, the initial task, two lines, the methods. -/
def HierF (h : HierD) : Ls → Prop :=
  One (· = []) ⨟ Any 1 ⨟ One (NumL h.init) ⨟ Any 2 ⨟ One (NumL h.methods.length) ⨟ Each MethF h.methods

def FileF (D : Desc) : Ls → Prop :=
  Any 1 ⨟ ClassicalF D ⨟ match D.hier with
    | none => Any 0
    | some h => HierF h

/-- The text of lines. -/
def unlines (ls : Ls) : List Char := ls.flatMap fun l => l ++ ['\n']

/-- The text describes `D`: its lines, each ended by a newline, are those of the format. -/
def FileText (D : Desc) (txt : List Char) : Prop := ∃ ls, txt = unlines ls ∧ (∀ l ∈ ls, '\n' ∉ l) ∧ FileF D ls

/-- What the grounder guarantees: indices are in range, methods have subtasks and decompose abstract tasks. -/
structure Desc.OK (D : Desc) : Prop where
  var : ∀ v ∈ D.vars, v.first < D.facts.length ∧ v.last < D.facts.length
  prec : ∀ a ∈ D.acts, ∀ f ∈ a.prec, f < D.facts.length
  add : ∀ a ∈ D.acts, ∀ e ∈ a.add, e.2 < D.facts.length
  del : ∀ a ∈ D.acts, ∀ e ∈ a.del, e.2 < D.facts.length
  s0 : ∀ f ∈ D.s0, f < D.facts.length
  goal : ∀ f ∈ D.goal, f < D.facts.length
  init : ∀ h ∈ D.hier, h.init < D.tasks.length
  head : ∀ h ∈ D.hier, ∀ m ∈ h.methods, ∃ nm, D.tasks[m.head]? = some (true, nm)
  sub_ne : ∀ h ∈ D.hier, ∀ m ∈ h.methods, m.sub ≠ []
  sub : ∀ h ∈ D.hier, ∀ m ∈ h.methods, ∀ t ∈ m.sub, t < D.tasks.length
  ord : ∀ h ∈ D.hier, ∀ m ∈ h.methods, ∀ o ∈ m.ord, o.1 < m.sub.length ∧ o.2 < m.sub.length

/-! ## Readers -/

/-- The reader reads exactly these lines and returns `a`. -/
def Reads {α : Type} (x : Rd α) (ls : Ls) (a : α) : Prop :=
  ∀ rest line, ∃ line', x ⟨unlines ls ++ rest, false, false, line⟩ = .ok (a, ⟨rest, false, false, line'⟩)

/-- The same for all lines of a format. -/
def RFor {α : Type} (x : Rd α) (p : Ls → Prop) (a : α) : Prop := ∀ ls, p ls → (∀ l ∈ ls, '\n' ∉ l) → Reads x ls a

variable {α β : Type}

theorem bind_ok {x : Rd α} {f : α → Rd β} {s s' : St} {a : α} (h : x s = .ok (a, s')) : (x >>= f) s = f a s' := by
  show (match x s with | .ok (a, s') => f a s' | .exit => .exit | .ub => .ub | .fuel => .fuel) = _
  rw [h]

theorem RFor.pure (a : α) : RFor (pure a : Rd α) (fun ls => ls = []) a := by
  rintro ls rfl - rest line
  exact ⟨line, rfl⟩

theorem RFor.seq {x : Rd α} {f : α → Rd β} {p q : Ls → Prop} {a : α} {b : β} (h1 : RFor x p a) (h2 : RFor (f a) q b) :
    RFor (x >>= f) (p ⨟ q) b := by
  rintro ls ⟨l1, l2, rfl, hp, hq⟩ hn rest line
  obtain ⟨ln, e1⟩ := h1 l1 hp (fun l hl => hn l (List.mem_append_left _ hl)) (unlines l2 ++ rest) line
  obtain ⟨ln', e2⟩ := h2 l2 hq (fun l hl => hn l (List.mem_append_right _ hl)) rest ln
  refine ⟨ln', ?_⟩
  have : unlines (l1 ++ l2) ++ rest = unlines l1 ++ (unlines l2 ++ rest) := by simp [unlines]
  rw [this, bind_ok e1, e2]

/-- The last reader of a sequence. -/
theorem RFor.last {x : Rd α} {f : α → Rd β} {p : Ls → Prop} {a : α} {b : β} (h1 : RFor x p a) (h2 : RFor (f a) (fun ls => ls = []) b) :
    RFor (x >>= f) p b := by
  intro ls hp hn
  exact RFor.seq h1 h2 ls ⟨ls, [], by simp, hp, rfl⟩ hn

theorem RFor.out {o : Out α} {f : α → Rd β} {q : Ls → Prop} {a : α} {b : β} (h1 : o = .ok a) (h2 : RFor (f a) q b) :
    RFor (ReadFile.out o >>= f) q b := by
  subst h1
  intro ls hq hn rest line
  obtain ⟨ln, e⟩ := h2 ls hq hn rest line
  exact ⟨ln, e⟩

theorem RFor.newLine {f : Unit → Rd β} {q : Ls → Prop} {b : β} (h : RFor (f ()) q b) : RFor (newLine >>= f) q b := by
  intro ls hq hn rest line
  obtain ⟨ln, e⟩ := h ls hq hn rest []
  exact ⟨ln, e⟩

theorem RFor.atEof {f : Bool → Rd β} {q : Ls → Prop} {b : β} (h : RFor (f false) q b) : RFor (atEof >>= f) q b := by
  intro ls hq hn rest line
  obtain ⟨ln, e⟩ := h ls hq hn rest line
  exact ⟨ln, e⟩

theorem getline_line {l : List Char} (h : '\n' ∉ l) (rest line : List Char) :
    getline ⟨l ++ '\n' :: rest, false, false, line⟩ = ⟨rest, false, false, l⟩ := by
  have hp : ∀ c ∈ l, (c != '\n') = true := fun c hc => by
    simp only [bne_iff_ne, ne_eq]
    rintro rfl
    exact h hc
  have h1 : (l ++ '\n' :: rest).takeWhile (· != '\n') = l := by
    rw [List.takeWhile_append_of_pos hp]
    simp
  have h2 : (l ++ '\n' :: rest).dropWhile (· != '\n') = '\n' :: rest := by
    rw [List.dropWhile_append_of_pos hp]
    simp
  simp only [getline, Bool.or_self, Bool.false_eq_true, if_false, h1, h2]

theorem nextLine_reads {l : List Char} (h : '\n' ∉ l) : Reads nextLine [l] l := by
  intro rest line
  refine ⟨l, ?_⟩
  have : unlines [l] ++ rest = l ++ '\n' :: rest := by simp [unlines]
  rw [this]
  simp only [nextLine, getline_line h]

/-- A line, of which only a property is known. -/
theorem RFor.line {f : List Char → Rd β} {p : List Char → Prop} {q : Ls → Prop} {b : β} (h : ∀ l, p l → RFor (f l) q b) :
    RFor (nextLine >>= f) (One p ⨟ q) b := by
  rintro ls ⟨l1, l2, rfl, ⟨l, rfl, hp⟩, hq⟩ hn
  refine RFor.seq (p := fun ls => ls = [l]) (q := q) (a := l) ?_ (h l hp) _ ⟨[l], l2, rfl, rfl, hq⟩ hn
  rintro _ rfl hn
  exact nextLine_reads (hn l (by simp))

theorem RFor.line' {f : List Char → Rd β} {p : List Char → Prop} {b : β} (h : ∀ l, p l → RFor (f l) (fun ls => ls = []) b) :
    RFor (nextLine >>= f) (One p) b := by
  intro ls hp hn
  exact RFor.line h ls ⟨ls, [], by simp, hp, rfl⟩ hn

theorem RFor.any1 {f : List Char → Rd β} {q : Ls → Prop} {b : β} (h : ∀ l, RFor (f l) q b) : RFor (nextLine >>= f) (Any 1 ⨟ q) b := by
  rintro ls ⟨l1, l2, rfl, hl, hq⟩ hn
  obtain ⟨l, rfl⟩ := List.length_eq_one_iff.1 hl
  exact RFor.line (p := fun _ => True) (fun l _ => h l) _ ⟨[l], l2, rfl, ⟨l, rfl, trivial⟩, hq⟩ hn

theorem skip2_reads : RFor skip2 (Any 2) () := by
  intro ls h hn
  obtain ⟨a, b, rfl⟩ := List.length_eq_two.1 h
  unfold skip2
  exact RFor.any1 (fun l => RFor.line' (p := fun l => l = b) fun l _ => RFor.pure ()) [a, b] ⟨[a], [b], rfl, rfl, b, rfl, rfl⟩ hn

theorem RFor.many {r : Rd α} {f : β → Ls → Prop} {g : β → α} : ∀ {bs : List β}, (∀ b ∈ bs, RFor r (f b) (g b)) →
    RFor (many r bs.length) (Each f bs) (bs.map g)
  | [], _ => RFor.pure []
  | b :: bs, h => by
    refine RFor.seq (h b (by simp)) ?_
    exact RFor.last (RFor.many fun b hb => h b (by simp [hb])) (RFor.pure _)

end Verif.ReadFile
