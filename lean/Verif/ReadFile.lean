import Verif.Parse
import Verif.Ordering
import Verif.TaskCounter
import Verif.HtnSpec

/-! # Model of the reader of problem files: `Model::read` (src/Model.cpp 2083-2100), with `readClassical` (1542-1798),
`calcAddToActionMapping` (1800-1820), `readHierarchical` (1822-2054) and `generateMethodRepresentation` (1452-1540)

The input is a list of characters.  Failed assertions and accesses outside of arrays are the outcome `ub`, as is the use of a number
that was not initialised, because its line is blank, and a negative array size.  Numbers that are used as indices are checked when
they are read; the code uses those of the initial state and of the goal only later. -/

namespace Verif.ReadFile

open Verif.Parse Verif.Ordering Verif.TaskCounter Verif.IntUtil

/-- Outcomes: a result; `exit(-1)` with a message; undefined behaviour; a list of numbers needs more than `fuel` iterations. -/
inductive Out (α : Type) where
  | ok (a : α)
  | exit
  | ub
  | fuel
deriving DecidableEq

def Out.bind {α β : Type} (x : Out α) (f : α → Out β) : Out β :=
  match x with
  | .ok a => f a
  | .exit => .exit
  | .ub => .ub
  | .fuel => .fuel

instance : Monad Out where
  pure := .ok
  bind := Out.bind

/-- The input stream and the variable `line` of the current function. -/
structure St where
  rest : List Char
  eof : Bool
  fail : Bool
  line : List Char
deriving DecidableEq

/-- `std::getline(domainFile, line)`: at the end of the file `line` is left as it is. -/
def getline (s : St) : St :=
  if s.eof || s.fail then { s with fail := true }
  else
    let l := s.rest.takeWhile (· != '\n')
    match s.rest.dropWhile (· != '\n') with
    | _ :: r => ⟨r, false, false, l⟩
    | [] => ⟨[], true, l.isEmpty, l⟩

def Rd (α : Type) : Type := St → Out (α × St)

instance : Monad Rd where
  pure a s := .ok (a, s)
  bind x f s := match x s with
    | .ok (a, s') => f a s'
    | .exit => .exit
    | .ub => .ub
    | .fuel => .fuel

/-- `getline(domainFile, line)`, and the content of `line`. -/
def nextLine : Rd (List Char) := fun s => .ok ((getline s).line, getline s)

/-- `domainFile.eof()`. -/
def atEof : Rd Bool := fun s => .ok (s.eof, s)

/-- The declaration `string line;`. -/
def newLine : Rd Unit := fun s => .ok ((), { s with line := [] })

def out {α : Type} (o : Out α) : Rd α := fun s => match o with
  | .ok a => .ok (a, s)
  | .exit => .exit
  | .ub => .ub
  | .fuel => .fuel

/-! ## Parts of lines -/

/-- `stream >> x` for an `int` that is not initialised. -/
def getInt (s : Stream) : Out (Stream × Int) :=
  if s.fail || s.rest.all isWs then .ub else .ok (readInt s 0)

/-- `stream >> x` for a `string` that is empty: the text up to the next whitespace. -/
def getWord (s : Stream) : List Char :=
  if s.fail then [] else (s.rest.dropWhile isWs).takeWhile fun c => !isWs c

/-- `stream >> x` for a `bool` that is not initialised: numbers other than 0 and 1 make the stream fail. -/
def getBool (s : Stream) : Out (Stream × Bool) := do
  let (s, z) ← getInt s
  pure (⟨s.rest, s.fail || (z != 0 && z != 1)⟩, z != 0)

/-- A line with a number. -/
def lineInt (l : List Char) : Out Int := do
  let (_, z) ← getInt ⟨l, false⟩
  pure z

/-- The size of an array. -/
def lineSize (l : List Char) : Out Nat := do
  let z ← lineInt l
  if z < 0 then .ub else pure z.toNat

/-- A number that is used as index of an array of size `n`. -/
def asIdx (n : Nat) (z : Int) : Out Nat := if 0 ≤ z ∧ z < n then .ok z.toNat else .ub

def asIdxs (n : Nat) : List Int → Out (List Nat)
  | [] => .ok []
  | z :: zs => do
    let i ← asIdx n z
    let is ← asIdxs n zs
    pure (i :: is)

/-- `readIntList`. -/
def lineInts (fuel : Nat) (l : List Char) : Out (List Int) :=
  if l.all isWs then .ub else
  match readIntList fuel 0 l with
  | some zs => .ok zs
  | none => .fuel

/-- `readConditionalIntList`; the number of conditions (`sizeC`), which it never writes, is left out. -/
def lineConds (fuel : Nat) (l : List Char) : Out (List Int × List (List Int × Int)) :=
  if l.all isWs then .ub else
  match readConditionalIntList fuel 0 0 l with
  | some r => .ok r
  | none => .fuel

/-! ## The classical part -/

structure VarM where
  first : Nat
  last : Nat
  name : List Char
deriving DecidableEq

structure ActM where
  cost : Int
  prec : List Nat
  add : List Nat
  addC : List (List Int × Int)
  del : List Nat
  delC : List (List Int × Int)
deriving DecidableEq

structure Classical where
  facts : List (List Char)
  vars : List VarM
  varOf : Nat → Option Nat
  strict : List (List Int)
  mutex : List (List Int)
  invs : List (List Int)
  acts : List ActM
  precLess : List Nat
  precToAction : List (List Nat)
  addToAction : List (List Nat)
  delToAction : List (List Nat)
  s0 : List Nat
  goal : List Nat
  /-- `isPrimitive` and `taskNames` -/
  tasks : List (Bool × List Char)

/-- A loop that reads `n` elements. -/
def many {α : Type} (r : Rd α) : Nat → Rd (List α)
  | 0 => pure []
  | n + 1 => do
    let x ← r
    let xs ← many r n
    pure (x :: xs)

/-- src/Model.cpp 1570-1579. -/
def readVar (nF : Nat) : Rd VarM := do
  let l ← nextLine
  let (s, a) ← out (getInt ⟨l, false⟩)
  let (s, b) ← out (getInt s)
  let a ← out (asIdx nF a)
  let b ← out (asIdx nF b)
  pure ⟨a, b, getWord s⟩

/-- `varOfStateBit` (src/Model.cpp 1581-1582): later variables overwrite earlier ones. -/
def varOfBit : Nat → List VarM → (Nat → Option Nat) → Nat → Option Nat
  | _, [], t => t
  | i, v :: vs, t => varOfBit (i + 1) vs fun f => if v.first ≤ f ∧ f ≤ v.last then some i else t f

/-- Two lines that are skipped. -/
def skip2 : Rd Unit := do
  let _ ← nextLine
  let _ ← nextLine
  pure ()

/-- Mutex groups and invariants (src/Model.cpp 1587-1607). -/
def readGroup (fuel : Nat) : Rd (List (List Int)) := do
  let l ← nextLine
  let n ← out (lineSize l)
  let gs ← many (do let l ← nextLine; out (lineInts fuel l)) n
  skip2
  pure gs

/-- An action (src/Model.cpp 1636-1675). -/
def readAct (fuel nF : Nat) : Rd ActM := do
  let l ← nextLine
  let c ← out (lineInt l)
  let l ← nextLine
  let p ← out (lineInts fuel l)
  let l ← nextLine
  let a ← out (lineConds fuel l)
  let l ← nextLine
  let d ← out (lineConds fuel l)
  let p ← out (asIdxs nF p)
  let as ← out (asIdxs nF a.1)
  let ds ← out (asIdxs nF d.1)
  pure ⟨c, p, as, a.2, ds, d.2⟩

/-- The content of a `std::set<int>`, ascending. -/
def setOf (n : Nat) (l : List Nat) : List Nat := (List.range n).filter fun x => l.contains x

/-- Removal of double preconditions (src/Model.cpp 1692-1718). -/
def dedupPrec (nF : Nat) (l : List Nat) : List Nat := if (setOf nF l).length < l.length then setOf nF l else l

/-- `precToAction`, `addToAction`, `delToAction` (src/Model.cpp 1720-1762, 1800-1820). -/
def inverse (nF : Nat) (ls : List (List Nat)) : List (List Nat) :=
  (List.range nF).map fun f => (List.range ls.length).filter fun a => (ls[a]?.getD []).contains f

/-- A task (src/Model.cpp 1783-1797). -/
def readTask : Rd (Bool × List Char) := do
  let l ← nextLine
  if l = [] then out .exit
  else
    let (s, b) ← out (getBool ⟨l, false⟩)
    pure (!b, getWord s)

/-- `Model::readClassical` (src/Model.cpp 1542-1798). -/
def readClassical (fuel : Nat) : Rd Classical := do
  newLine
  let l ← nextLine
  let nF ← out (lineSize l)
  let facts ← many nextLine nF
  skip2
  let l ← nextLine
  let nV ← out (lineSize l)
  let vars ← many (readVar nF) nV
  skip2
  let strict ← readGroup fuel
  let mutex ← readGroup fuel
  let invs ← readGroup fuel
  let l ← nextLine
  let nA ← out (lineSize l)
  let acts ← many (readAct fuel nF) nA
  skip2
  let l ← nextLine
  let s0 ← out (lineInts fuel l)
  let s0 ← out (asIdxs nF s0)
  skip2
  let l ← nextLine
  let goal ← out (lineInts fuel l)
  let goal ← out (asIdxs nF goal)
  skip2
  let l ← nextLine
  let nT ← out (lineSize l)
  let tasks ← many readTask nT
  pure {
    facts, vars, strict, mutex, invs, s0, goal, tasks
    varOf := varOfBit 0 vars fun _ => none
    acts := acts.map fun a => { a with prec := dedupPrec nF a.prec }
    precLess := (List.range nA).filter fun i => ((acts[i]?.map fun a => a.prec).getD []).isEmpty
    precToAction := inverse nF (acts.map fun a => dedupPrec nF a.prec)
    addToAction := inverse nF (acts.map (·.add))
    delToAction := inverse nF (acts.map (·.del)) }

/-! ## The hierarchy -/

structure MethM where
  name : List Char
  head : Nat
  sub : List Nat
  ord : List (Nat × Nat)
deriving DecidableEq

/-- The loops over an ordering take its numbers in pairs; a missing second number would be read outside of the array. -/
def asPairs : List Nat → Out (List (Nat × Nat))
  | [] => .ok []
  | [_] => .ub
  | a :: b :: r => do
    let ps ← asPairs r
    pure ((a, b) :: ps)

/-- A method (src/Model.cpp 1864-1894). -/
def readMethod (fuel nT init : Nat) (F : Flags) : Rd (MethM × Flags) := do
  let name ← nextLine
  let e ← atEof
  if e then out .exit
  else
    let l ← nextLine
    let h ← out (lineInt l)
    let h ← out (asIdx nT h)
    let l ← nextLine
    let sub ← out (lineInts fuel l)
    if sub = [] then out .exit
    else
      let sub ← out (asIdxs nT sub)
      let l ← nextLine
      let o ← out (lineInts fuel l)
      let o ← out (asIdxs sub.length o)
      let o ← out (asPairs o)
      match transitiveChange false sub.length o (h == init) F with
      | none => out .ub
      | some r => pure (⟨name, h, sub, r.1⟩, r.2)

def readMethods (fuel nT init : Nat) : Nat → Flags → Rd (List MethM × Flags)
  | 0, F => pure ([], F)
  | n + 1, F => do
    let r ← readMethod fuel nT init F
    let rs ← readMethods fuel nT init n r.2
    pure (r.1 :: rs.1, rs.2)

/-- The inner loop for a method (src/Model.cpp 1966-1975): `stToMethod`, as far as it is filled (`k`), and `stToMethodNum`. -/
def stepSt (m : Nat) : List Nat → (Nat → List Nat) → (Nat → Int) → Option ((Nat → List Nat) × (Nat → Int))
  | [], tab, num => some (tab, num)
  | st :: sts, tab, num =>
    match indexOf (tab st) 0 (((tab st).length : Int) - 1) m with
    | none => none
    | some i =>
      if i < 0 then stepSt m sts (fun t => if t = st then tab t ++ [m] else tab t) num
      else stepSt m sts tab fun t => if t = st then num t - 1 else num t

/-- src/Model.cpp 1964-1976. -/
def fillSt : Nat → List (List Nat) → (Nat → List Nat) → (Nat → Int) → Option ((Nat → List Nat) × (Nat → Int))
  | _, [], tab, num => some (tab, num)
  | m, sub :: subs, tab, num => do
    let r ← stepSt m sub tab num
    fillSt (m + 1) subs r.1 r.2

/-- `stToMethod` and `stToMethodNum` (src/Model.cpp 1947-1977). -/
def stToMethod (subs : List (List Nat)) : Option ((Nat → List Nat) × (Nat → Int)) :=
  fillSt 0 subs (fun _ => []) fun t => (subs.map fun s => (s.count t : Int)).sum

structure Hier where
  init : Nat
  methods : List MethM
  flags : Flags
  /-- `stToMethod`: the entries up to `stToMethodNum` -/
  stToMethod : List (List Nat)
  /-- `sortedDistinctSubtasks`, `sortedDistinctSubtaskCount` -/
  distinct : List Counter
  /-- `taskToMethods` -/
  taskToMethods : List (List Nat)
  firsts : List (List Nat)
  lasts : List (List Nat)
  numFirstPrim : List Nat
  numFirstAbs : List Nat
  succNum : List (List Nat)

/-- The array `firsts` (src/Model.cpp 1499-1509). -/
def markFirsts (ord : List (Nat × Nat)) : Nat → Bool := ord.foldl (fun f o => fun i => if i = o.2 then false else f i) fun _ => true

/-- The array `lasts`. -/
def markLasts (ord : List (Nat × Nat)) : Nat → Bool := ord.foldl (fun f o => fun i => if i = o.1 then false else f i) fun _ => true

/-- `methodSubtaskSuccNum`. -/
def countSucc (ord : List (Nat × Nat)) : Nat → Nat := ord.foldl (fun f o => fun i => if i = o.1 then f i + 1 else f i) fun _ => 0

/-- The vectors of src/Model.cpp 1455-1459. -/
def pushMethods : Nat → List MethM → (Nat → List Nat) → Nat → List Nat
  | _, [], t => t
  | i, m :: ms, t => pushMethods (i + 1) ms fun x => if x = m.head then t x ++ [i] else t x

/-- The tables that are computed after reading (src/Model.cpp 1947-2053, 1452-1540); the assertions about `stToMethod` hold
(`Verif.Props.C74_tables`). -/
def mkHier (tasks : List (Bool × List Char)) (init : Nat) (ms : List MethM) (F : Flags) : Out Hier :=
  match stToMethod (ms.map (·.sub)) with
  | none => .ub
  | some (tab, num) =>
    let nT := tasks.length
    let prim t := ((tasks[t]?).map Prod.fst).getD false
    let t2m := pushMethods 0 ms fun _ => []
    if (List.range nT).any fun t => !(t2m t).isEmpty && prim t then .ub else
    .ok {
      init, methods := ms, flags := F
      stToMethod := (List.range nT).map fun t => (tab t).take (num t).toNat
      distinct := ms.map fun m => compress (m.sub.insertionSort (· ≤ ·))
      taskToMethods := (List.range nT).map t2m
      firsts := ms.map fun m => (List.range m.sub.length).filter fun i => markFirsts m.ord i
      lasts := ms.map fun m => (List.range m.sub.length).filter fun i => markLasts m.ord i
      numFirstPrim := ms.map fun m => ((List.range m.sub.length).filter fun i => markFirsts m.ord i && prim (m.sub[i]?.getD 0)).length
      numFirstAbs := ms.map fun m => ((List.range m.sub.length).filter fun i => markFirsts m.ord i && !prim (m.sub[i]?.getD 0)).length
      succNum := ms.map fun m => (List.range m.sub.length).map fun i => countSucc m.ord i }

/-- `Model::readHierarchical` (src/Model.cpp 1822-2054) and `generateMethodRepresentation`; `none`: no hierarchy. -/
def readHierarchical (fuel : Nat) (tasks : List (Bool × List Char)) : Rd (Option Hier) := do
  newLine
  let l ← nextLine
  if l ≠ [] then out .exit
  else
    let e ← atEof
    if e then pure none
    else
      let _ ← nextLine
      let e ← atEof
      if e then pure none
      else
        let l ← nextLine
        let e ← atEof
        if e then pure none
        else
          let i ← out (lineInt l)
          let i ← out (asIdx tasks.length i)
          skip2
          let l ← nextLine
          let n ← out (lineSize l)
          let r ← readMethods fuel tasks.length i n ⟨true, true, true⟩
          let h ← out (mkHier tasks i r.1 r.2)
          pure (some h)

structure Model where
  cl : Classical
  hier : Option Hier

/-- `Model::read` (src/Model.cpp 2083-2100); the vectors for the invariants and the output are left out. -/
def read (fuel : Nat) : Rd Model := do
  newLine
  let _ ← nextLine
  let c ← readClassical fuel
  let h ← readHierarchical fuel c.tasks
  pure ⟨c, h⟩

/-- Reading a file. -/
def readFile (fuel : Nat) (txt : List Char) : Out Model :=
  match read fuel ⟨txt, false, false, []⟩ with
  | .ok (m, _) => .ok m
  | .exit => .exit
  | .ub => .ub
  | .fuel => .fuel

/-- The problem that search and heuristics work on. -/
def Model.problem (c : Classical) (h : Hier) : Htn.Problem where
  numFacts := c.facts.length
  prim t := ((c.tasks[t]?).map Prod.fst).getD false
  prec a := ((c.acts[a]?).map ActM.prec).getD []
  add a := ((c.acts[a]?).map ActM.add).getD []
  del a := ((c.acts[a]?).map ActM.del).getD []
  cost a := ((c.acts[a]?).map fun a => a.cost.toNat).getD 0
  numMethods := h.methods.length
  head m := ((h.methods[m]?).map MethM.head).getD 0
  sub m := ((h.methods[m]?).map MethM.sub).getD []
  ord m := ((h.methods[m]?).map MethM.ord).getD []
  init := h.init
  s0 := c.s0
  goal := c.goal

end Verif.ReadFile
