import Verif.Deque
import Mathlib.Data.List.ReduceOption

/-! # C31: the chunked fringes keep order -/

namespace Verif.Props

open Verif.Deque

/-- Operations of the double-ended fringe; a remove on an empty fringe returns `nullptr`. -/
inductive DOp (α : Type)
  | addFirst (x : α)
  | addLast (x : α)
  | removeFirst
  | removeLast
deriving DecidableEq

/-- Run operations on `UnsortedFringe` (assertions off); the results of the removes are recorded,
`none` for `nullptr`.  Outcome `none`: undefined behaviour. -/
def runDeque {α : Type} (S : Nat) : F α → List (DOp α) → Option (F α × List (Option α))
  | f, [] => some (f, [])
  | f, .addFirst x :: os => match addFirst S f x with
    | none => none
    | some f' => runDeque S f' os
  | f, .addLast x :: os => match addLast S f x with
    | none => none
    | some f' => runDeque S f' os
  | f, .removeFirst :: os =>
    if f.size = 0 then (runDeque S f os).map fun r => (r.1, none :: r.2)
    else match removeFirst S f with
      | none => none
      | some (x, f') => (runDeque S f' os).map fun r => (r.1, some x :: r.2)
  | f, .removeLast :: os =>
    if f.size = 0 then (runDeque S f os).map fun r => (r.1, none :: r.2)
    else match removeLast f with
      | none => none
      | some (x, f') => (runDeque S f' os).map fun r => (r.1, some x :: r.2)

/-- The same operations on a mathematical sequence. -/
def seqRun {α : Type} : List α → List (DOp α) → List α × List (Option α)
  | l, [] => (l, [])
  | l, .addFirst x :: os => seqRun (x :: l) os
  | l, .addLast x :: os => seqRun (l ++ [x]) os
  | l, .removeFirst :: os => let r := seqRun l.tail os; (r.1, l.head? :: r.2)
  | l, .removeLast :: os => let r := seqRun l.dropLast os; (r.1, l.getLast? :: r.2)

/-- C31: on every sequence of operations and for every container size, `UnsortedFringe` behaves like
a sequence: nothing is lost, duplicated or reordered, across container boundaries. -/
theorem C31_deque {α : Type} (S : Nat) (hS : 3 ≤ S) (ops : List (DOp α)) :
    ∃ f, runDeque S (new S) ops = some (f, (seqRun [] ops).2) ∧ f.size = (seqRun [] ops).1.length := by
  have main : ∀ (ops : List (DOp α)) (f : F α) (l : List α), Rep S f l →
      ∃ f', runDeque S f ops = some (f', (seqRun l ops).2) ∧ f'.size = (seqRun l ops).1.length := by
    intro ops
    induction ops with
    | nil => intro f l h; exact ⟨f, rfl, h.size⟩
    | cons o ops ih =>
      intro f l h
      cases o with
      | addFirst x =>
        obtain ⟨f1, h1, h2⟩ := addFirst_spec h (by omega) x
        obtain ⟨f2, h3, h4⟩ := ih f1 _ h2
        exact ⟨f2, by simp [runDeque, h1, h3, seqRun], h4⟩
      | addLast x =>
        obtain ⟨f1, h1, h2⟩ := addLast_spec h (by omega) x
        obtain ⟨f2, h3, h4⟩ := ih f1 _ h2
        exact ⟨f2, by simp [runDeque, h1, h3, seqRun], h4⟩
      | removeFirst =>
        have hs := h.size
        cases l with
        | nil =>
          obtain ⟨f2, h3, h4⟩ := ih f _ h
          exact ⟨f2, by simp [runDeque, hs, h3, seqRun], h4⟩
        | cons x l =>
          obtain ⟨f1, h1, h2⟩ := removeFirst_spec h
          obtain ⟨f2, h3, h4⟩ := ih f1 _ h2
          exact ⟨f2, by simp [runDeque, hs, h1, h3, seqRun], h4⟩
      | removeLast =>
        have hs := h.size
        rcases List.eq_nil_or_concat l with rfl | ⟨l, x, rfl⟩
        · obtain ⟨f2, h3, h4⟩ := ih f _ h
          exact ⟨f2, by simp [runDeque, hs, h3, seqRun], h4⟩
        · rw [List.concat_eq_append] at h hs ⊢
          obtain ⟨f1, h1, h2⟩ := removeLast_spec (by omega) h
          obtain ⟨f2, h3, h4⟩ := ih f1 _ h2
          exact ⟨f2, by simp [runDeque, hs, h1, h3, seqRun], by simpa [seqRun] using h4⟩
  exact main ops (new S) [] (new_rep hS)

/-- `QueueFringe` (src/search/QueueFringe.cpp 20-34) and `StackFringe` (src/search/StackFringe.cpp
20-34): `push` adds at the end, `top` removes, `pop` does nothing. -/
inductive POp (α : Type)
  | push (x : α)
  | pop

def POp.queue {α : Type} : POp α → DOp α
  | .push x => .addLast x
  | .pop => .removeFirst

def POp.stack {α : Type} : POp α → DOp α
  | .push x => .addLast x
  | .pop => .removeLast

/-- The pushed nodes, in the order of the pushes. -/
def pushed {α : Type} : List (POp α) → List α
  | [] => []
  | .push x :: os => x :: pushed os
  | .pop :: os => pushed os

/-- C31 for the breadth-first fringe: the nodes leave it in the order in which they were pushed
(the results other than `nullptr` are a prefix of the pushed nodes), and the remaining ones are
still in the fringe. -/
theorem C31_queue_order {α : Type} (S : Nat) (hS : 3 ≤ S) (ops : List (POp α)) :
    ∃ f outs, runDeque S (new S) (ops.map POp.queue) = some (f, outs) ∧
      outs.reduceOption <+: pushed ops ∧ outs.reduceOption.length + f.size = (pushed ops).length := by
  obtain ⟨f, h1, h2⟩ := C31_deque S hS (ops.map POp.queue)
  have key : ∀ (ops : List (POp α)) (l : List α),
      (seqRun l (ops.map POp.queue)).2.reduceOption ++ (seqRun l (ops.map POp.queue)).1 = l ++ pushed ops := by
    intro ops
    induction ops with
    | nil => intro l; simp [seqRun, pushed, List.reduceOption]
    | cons o ops ih =>
      intro l
      cases o with
      | push x =>
        have := ih (l ++ [x])
        simpa [seqRun, POp.queue, pushed] using this
      | pop =>
        cases l with
        | nil => simpa [seqRun, POp.queue, pushed, List.reduceOption] using ih []
        | cons x l => simpa [seqRun, POp.queue, pushed, List.reduceOption] using ih l
  have hk := key ops []
  rw [List.nil_append] at hk
  refine ⟨f, _, h1, ⟨_, hk⟩, ?_⟩
  rw [h2, ← hk, List.length_append]

/-- A stack as a list, most recent node first. -/
def stackRun {α : Type} : List α → List (POp α) → List α × List (Option α)
  | l, [] => (l, [])
  | l, .push x :: os => stackRun (x :: l) os
  | l, .pop :: os => let r := stackRun l.tail os; (r.1, l.head? :: r.2)

/-- C31 for the depth-first fringe: each removed node is the most recently pushed one that has not
been removed yet. -/
theorem C31_stack_order {α : Type} (S : Nat) (hS : 3 ≤ S) (ops : List (POp α)) :
    ∃ f, runDeque S (new S) (ops.map POp.stack) = some (f, (stackRun [] ops).2) ∧
      f.size = (stackRun [] ops).1.length := by
  obtain ⟨f, h1, h2⟩ := C31_deque S hS (ops.map POp.stack)
  have key : ∀ (ops : List (POp α)) (l : List α),
      seqRun l.reverse (ops.map POp.stack) = ((stackRun l ops).1.reverse, (stackRun l ops).2) := by
    intro ops
    induction ops with
    | nil => intro l; rfl
    | cons o ops ih =>
      intro l
      cases o with
      | push x =>
        have := ih (x :: l)
        simpa [seqRun, POp.stack, stackRun] using this
      | pop =>
        cases l with
        | nil => have := ih []
                 simp only [List.reverse_nil] at this
                 simp [seqRun, POp.stack, stackRun, this]
        | cons x l => simp [seqRun, POp.stack, stackRun, ih l]
  have hk := key ops []
  rw [List.reverse_nil] at hk
  rw [hk] at h1 h2
  exact ⟨f, h1, by simpa using h2⟩

/-- Container size 3: pushes and pops across several container boundaries. -/
example : (runDeque 3 (new 3) ([.push 1, .push 2, .pop, .push 3, .push 4, .push 5, .pop, .pop, .pop].map
    (POp.queue (α := Nat)))).map (·.2) = some [some 1, some 2, some 3, some 4] := by decide

example : (runDeque 3 (new 3) ([.push 1, .push 2, .pop, .push 3, .push 4, .push 5, .pop, .pop, .pop, .pop].map
    (POp.stack (α := Nat)))).map (·.2) = some [some 2, some 5, some 4, some 3, some 1] := by decide

/-- The assertion in `empty` (src/search/UnsortedFringe.cpp 63-68) does not hold for a queue whose
last push filled a container: with assertions enabled the program is aborted although the
fringe is used correctly. -/
theorem C31_empty_assertion_violated :
    ∃ f, runDeque 4 (new 4) ([.push 1, .pop].map (POp.queue (α := Nat))) = some (f, [some 1]) ∧ emptyAssert f = false := by
  exact ⟨⟨[⟨[none, none, none, some 1], 4, 4⟩, ⟨[none, none, none, none], 0, 0⟩], 0⟩, by decide, by decide⟩

end Verif.Props
