import Mathlib.Data.List.Basic
import Mathlib.Tactic.SplitIfs
import Mathlib.Tactic.Set
import Mathlib.Order.Basic

/-! # Model of `UnsortedFringe`, `QueueFringe` and `StackFringe` (src/search)

The doubly linked containers are the list `chunks` from `firstContainer` to `lastContainer`.
Instead of `leftIndex` the model uses `lo = leftIndex + 1`, so that the content of a container is
`[lo, hi)` with `hi = rightIndex`.  Entries that have not been written are `none`.  The container
size is a parameter (1024 * 1024 in src/search/UnsrtFringeContainer.h 25).  Outcome `none` of an
operation: access outside an array or to a missing container. -/

namespace Verif.Deque

/-- `UnsrtFringeContainer` (src/search/UnsrtFringeContainer.h 15-30). -/
structure Chunk (α : Type) where
  content : List (Option α)
  lo : Nat
  hi : Nat
deriving DecidableEq

/-- `UnsortedFringe` (src/search/UnsortedFringe.h 28-33). -/
structure F (α : Type) where
  chunks : List (Chunk α)
  size : Nat
deriving DecidableEq

variable {α : Type}

/-- Constructor (src/search/UnsortedFringe.cpp 13-18). -/
def new (S : Nat) : F α := ⟨[⟨List.replicate S none, S / 2 + 1, S / 2 + 1⟩], 0⟩

/-- `addFirst` (src/search/UnsortedFringe.cpp 30-44). -/
def addFirst (S : Nat) (f : F α) (x : α) : Option (F α) :=
  match f.chunks with
  | [] => none
  | c :: cs =>
    if c.lo = 0 ∨ c.content.length < c.lo then none else
    let c' : Chunk α := { c with content := c.content.set (c.lo - 1) (some x), lo := c.lo - 1 }
    some ⟨if c'.lo = 0 then ⟨List.replicate S none, S, S⟩ :: c' :: cs else c' :: cs, f.size + 1⟩

/-- `addLast` (src/search/UnsortedFringe.cpp 46-60). -/
def addLast (S : Nat) (f : F α) (x : α) : Option (F α) :=
  match f.chunks.getLast? with
  | none => none
  | some c =>
    if c.content.length ≤ c.hi then none else
    let c' : Chunk α := { c with content := c.content.set c.hi (some x), hi := c.hi + 1 }
    some ⟨f.chunks.dropLast ++ (if c'.hi = S then [c', ⟨List.replicate S none, 0, 0⟩] else [c']), f.size + 1⟩

/-- The assertion in `empty` (src/search/UnsortedFringe.cpp 63-68). -/
def emptyAssert (f : F α) : Bool :=
  decide (f.size > 0) || match f.chunks with
    | [c] => decide (c.lo = c.hi)
    | _ => false

/-- Result of reading a container entry: uninitialised memory and accesses outside the array are
`none`. -/
def readC (c : Chunk α) (i : Nat) : Option α := (c.content[i]?).join

/-- `removeFirst` on a non-empty fringe (src/search/UnsortedFringe.cpp 76-87). -/
def removeFirst (S : Nat) (f : F α) : Option (α × F α) :=
  let take := fun (c : Chunk α) (cs : List (Chunk α)) =>
    (readC c c.lo).map fun x => (x, (⟨{ c with lo := c.lo + 1 } :: cs, f.size - 1⟩ : F α))
  match f.chunks with
  | [] => none
  | c :: cs =>
    if c.lo = S then
      match cs with
      | [] => none
      | d :: ds => take d ds
    else take c cs

/-- `removeLast` on a non-empty fringe (src/search/UnsortedFringe.cpp 94-105). -/
def removeLast (f : F α) : Option (α × F α) :=
  let take := fun (cs : List (Chunk α)) (c : Chunk α) =>
    if c.hi = 0 then none else
    (readC c (c.hi - 1)).map fun x => (x, (⟨cs ++ [{ c with hi := c.hi - 1 }], f.size - 1⟩ : F α))
  match f.chunks.getLast? with
  | none => none
  | some c =>
    if c.hi = 0 then
      match f.chunks.dropLast.getLast? with
      | none => none
      | some d => take f.chunks.dropLast.dropLast d
    else take f.chunks.dropLast c

/-! ## Correctness -/

/-- The entries in `[lo, hi)`. -/
def Chunk.slice (c : Chunk α) : List (Option α) := (c.content.take c.hi).drop c.lo

/-- All containers but the first begin at index 0, all but the last are full up to the right end. -/
def OKc (S : Nat) (c : Chunk α) : Prop := c.content.length = S ∧ c.lo ≤ c.hi ∧ c.hi ≤ S

/-- Containers behind the first one. -/
def Tail (S : Nat) : Chunk α → List (Chunk α) → Prop
  | c, [] => OKc S c ∧ c.hi < S
  | c, d :: ds => OKc S c ∧ c.hi = S ∧ d.lo = 0 ∧ Tail S d ds

def flat (cs : List (Chunk α)) : List (Option α) := cs.flatMap Chunk.slice

/-- The fringe `f` represents the sequence `l`. -/
structure Rep (S : Nat) (f : F α) (l : List α) : Prop where
  ok : ∃ c cs, f.chunks = c :: cs ∧ 0 < c.lo ∧ Tail S c cs
  items : flat f.chunks = l.map some
  size : f.size = l.length

theorem Chunk.slice_length {S} {c : Chunk α} (h : OKc S c) : c.slice.length = c.hi - c.lo := by
  obtain ⟨h1, h2, h3⟩ := h
  simp [Chunk.slice]; omega

theorem new_rep {S : Nat} (hS : 3 ≤ S) : Rep S (new S : F α) [] := by
  refine ⟨⟨_, _, rfl, by simp, ⟨by simp, Nat.le_refl _, ?_⟩, ?_⟩, ?_, rfl⟩
  · simp; omega
  · simp; omega
  · simp [flat, new, Chunk.slice]; omega

theorem Tail.okc {S : Nat} {c : Chunk α} {cs} (h : Tail S c cs) : OKc S c := by
  cases cs with
  | nil => exact h.1
  | cons d ds => exact h.1

/-- Changing the first container without moving its right end. -/
theorem Tail.congr {S : Nat} {c c' : Chunk α} {cs} (h : Tail S c cs) (h' : OKc S c') (he : c'.hi = c.hi) :
    Tail S c' cs := by
  cases cs with
  | nil => exact ⟨h', by rw [he]; exact h.2⟩
  | cons d ds => exact ⟨h', by rw [he]; exact h.2.1, h.2.2.1, h.2.2.2⟩

theorem addFirst_spec {S : Nat} {f : F α} {l : List α} (h : Rep S f l) (hS : 0 < S) (x : α) :
    ∃ f', addFirst S f x = some f' ∧ Rep S f' (x :: l) := by
  obtain ⟨⟨c, cs, hc, hlo, ht⟩, hi, hs⟩ := h
  obtain ⟨chunks, size⟩ := f
  simp only at hc hi hs
  subst hc
  obtain ⟨h1, h2, h3⟩ := ht.okc
  have hcond : ¬ (c.lo = 0 ∨ c.content.length < c.lo) := by omega
  set c' : Chunk α := { c with content := c.content.set (c.lo - 1) (some x), lo := c.lo - 1 } with hc'
  have hslice : c'.slice = some x :: c.slice := by
    simp only [hc', Chunk.slice]
    have hl : c.lo - 1 < (List.take c.hi (c.content.set (c.lo - 1) (some x))).length := by simp; omega
    rw [List.drop_eq_getElem_cons hl]
    congr 1
    · simp
    · rw [show c.lo - 1 + 1 = c.lo by omega, List.take_set, List.drop_set_of_lt (by omega)]
  have ht' : Tail S c' cs := ht.congr (by simp only [hc', OKc]; exact ⟨by simpa using h1, by omega, h3⟩) rfl
  have hflat : flat (c' :: cs) = (x :: l).map some := by
    simp only [flat, List.flatMap_cons] at hi ⊢
    rw [hslice, List.map_cons, ← hi]; rfl
  refine ⟨_, by simp only [addFirst, if_neg hcond]; rfl, ?_, ?_, by simp [hs]⟩
  · split_ifs with hz
    · refine ⟨_, _, rfl, hS, ⟨⟨by simp, Nat.le_refl _, Nat.le_refl _⟩, rfl, hz, ht'⟩⟩
    · exact ⟨_, _, rfl, Nat.pos_of_ne_zero hz, ht'⟩
  · simp only
    split_ifs with hz
    · rw [flat, List.flatMap_cons]
      have : Chunk.slice (⟨List.replicate S none, S, S⟩ : Chunk α) = [] := by
        simp [Chunk.slice]
      rw [this]
      exact hflat
    · exact hflat

/-- The containers `c :: cs` with the last one replaced. -/
theorem Tail.last {S : Nat} : ∀ {cs : List (Chunk α)} {c : Chunk α}, Tail S c cs →
    ∃ ini e, c :: cs = ini ++ [e] ∧ OKc S e ∧ e.hi < S ∧
      (∀ e', OKc S e' → e'.hi < S → e'.lo = e.lo → ∃ c' cs', ini ++ [e'] = c' :: cs' ∧ c'.lo = c.lo ∧ Tail S c' cs') ∧
      (∀ e' g, OKc S e' → e'.hi = S → e'.lo = e.lo → OKc S g → g.hi < S → g.lo = 0 →
        ∃ c' cs', ini ++ [e', g] = c' :: cs' ∧ c'.lo = c.lo ∧ Tail S c' cs') := by
  intro cs
  induction cs with
  | nil =>
    intro c h
    refine ⟨[], c, rfl, h.1, h.2, fun e' h1 h2 h3 => ⟨e', [], rfl, h3, h1, h2⟩, ?_⟩
    intro e' g h1 h2 h3 h4 h5 h6
    exact ⟨e', [g], rfl, h3, h1, h2, h6, h4, h5⟩
  | cons d ds ih =>
    intro c h
    obtain ⟨h1, h2, h3, h4⟩ := h
    obtain ⟨ini, e, e1, e2, e3, e4, e5⟩ := ih h4
    refine ⟨c :: ini, e, by simp [e1], e2, e3, ?_, ?_⟩
    · intro e' j1 j2 j3
      obtain ⟨c', cs', k1, k2, k3⟩ := e4 e' j1 j2 j3
      exact ⟨c, ini ++ [e'], rfl, rfl, by rw [k1]; exact ⟨h1, h2, by rw [k2, h3], k3⟩⟩
    · intro e' g j1 j2 j3 j4 j5 j6
      obtain ⟨c', cs', k1, k2, k3⟩ := e5 e' g j1 j2 j3 j4 j5 j6
      exact ⟨c, ini ++ [e', g], rfl, rfl, by rw [k1]; exact ⟨h1, h2, by rw [k2, h3], k3⟩⟩

theorem addLast_spec {S : Nat} {f : F α} {l : List α} (h : Rep S f l) (hS : 0 < S) (x : α) :
    ∃ f', addLast S f x = some f' ∧ Rep S f' (l ++ [x]) := by
  obtain ⟨⟨c, cs, hc, hlo, ht⟩, hi, hs⟩ := h
  obtain ⟨chunks, size⟩ := f
  simp only at hc hi hs
  subst hc
  obtain ⟨ini, e, e1, e2, e3, e4, e5⟩ := ht.last
  obtain ⟨h1, h2, h3⟩ := e2
  rw [e1] at hi ⊢
  set e' : Chunk α := { e with content := e.content.set e.hi (some x), hi := e.hi + 1 } with he'
  have hslice : e'.slice = e.slice ++ [some x] := by
    simp only [he', Chunk.slice]
    rw [List.take_add_one, List.take_set_of_le (Nat.le_refl _), List.getElem?_set_self (by omega),
      List.drop_append_of_le_length (by simp; omega)]
    rfl
  have hok : OKc S e' := ⟨by simp [he', h1], by simp only [he']; omega, by simp only [he']; omega⟩
  have hflat : flat (ini ++ [e']) = (l ++ [x]).map some := by
    simp only [flat, List.flatMap_append, List.flatMap_singleton] at hi ⊢
    rw [hslice, List.map_append, ← hi]; simp
  refine ⟨⟨ini ++ (if e'.hi = S then [e', ⟨List.replicate S none, 0, 0⟩] else [e']), size + 1⟩, ?_, ?_, ?_, by simp [hs]⟩
  · simp only [addLast, List.getLast?_concat, List.dropLast_concat]
    rw [if_neg (by omega)]
  · simp only
    split_ifs with hz
    · obtain ⟨c', cs', k1, k2, k3⟩ := e5 e' ⟨List.replicate S none, 0, 0⟩ hok hz rfl
        ⟨by simp, Nat.le_refl _, by simp⟩ hS rfl
      exact ⟨c', cs', k1, by omega, k3⟩
    · have : e'.hi ≤ S := hok.2.2
      obtain ⟨c', cs', k1, k2, k3⟩ := e4 e' hok (by omega) rfl
      exact ⟨c', cs', k1, by omega, k3⟩
  · simp only
    split_ifs with hz
    · rw [show ini ++ [e', ⟨List.replicate S none, 0, 0⟩] = (ini ++ [e']) ++ [⟨List.replicate S none, 0, 0⟩] by simp,
        flat, List.flatMap_append]
      have : Chunk.slice (⟨List.replicate S none, 0, 0⟩ : Chunk α) = [] := by simp [Chunk.slice]
      simp only [List.flatMap_singleton, this, List.append_nil]
      exact hflat
    · exact hflat

theorem slice_head {S : Nat} {c : Chunk α} (h : OKc S c) (hlt : c.lo < c.hi) :
    ∃ y, c.content[c.lo]? = some y ∧ c.slice = y :: Chunk.slice { c with lo := c.lo + 1 } := by
  obtain ⟨h1, h2, h3⟩ := h
  have hl : c.lo < (c.content.take c.hi).length := by simp; omega
  refine ⟨(c.content.take c.hi)[c.lo], ?_, ?_⟩
  · rw [List.getElem_take, List.getElem?_eq_getElem]
  · simp only [Chunk.slice]
    exact List.drop_eq_getElem_cons hl

theorem slice_last {S : Nat} {c : Chunk α} (h : OKc S c) (hlt : c.lo < c.hi) :
    ∃ y, c.content[c.hi - 1]? = some y ∧ c.slice = Chunk.slice { c with hi := c.hi - 1 } ++ [y] := by
  obtain ⟨h1, h2, h3⟩ := h
  have hl : c.hi - 1 < c.content.length := by omega
  refine ⟨c.content[c.hi - 1], List.getElem?_eq_getElem hl, ?_⟩
  simp only [Chunk.slice]
  conv_lhs => rw [show c.hi = c.hi - 1 + 1 by omega, List.take_succ_eq_append_getElem hl]
  rw [List.drop_append_of_le_length (by simp; omega)]

theorem removeFirst_spec {S : Nat} {f : F α} {l : List α} {x : α} (h : Rep S f (x :: l)) :
    ∃ f', removeFirst S f = some (x, f') ∧ Rep S f' l := by
  obtain ⟨⟨c, cs, hc, hlo, ht⟩, hi, hs⟩ := h
  obtain ⟨chunks, size⟩ := f
  simp only at hc hi hs
  subst hc
  -- taking the first element of a container that is not empty
  have take : ∀ (d : Chunk α) (ds : List (Chunk α)), Tail S d ds → d.lo < d.hi →
      flat (d :: ds) = some x :: l.map some →
      readC d d.lo = some x ∧ Rep S (⟨{ d with lo := d.lo + 1 } :: ds, size - 1⟩ : F α) l := by
    intro d ds hd hlt hf
    obtain ⟨y, hy1, hy2⟩ := slice_head hd.okc hlt
    simp only [flat, List.flatMap_cons, hy2, List.cons_append, List.cons.injEq] at hf
    obtain ⟨rfl, hf⟩ := hf
    obtain ⟨k1, k2, k3⟩ := hd.okc
    refine ⟨by simp [readC, hy1], ⟨⟨_, _, rfl, by simp, hd.congr ⟨k1, by simp only; omega, k3⟩ rfl⟩, ?_, by simp [hs]⟩⟩
    simpa [flat] using hf
  obtain ⟨h1, h2, h3⟩ := ht.okc
  rw [List.map_cons] at hi
  by_cases hz : c.lo = S
  · cases cs with
    | nil =>
      have := ht.2
      omega
    | cons d ds =>
      have hsl : c.slice = [] := by
        rw [← List.length_eq_zero_iff, Chunk.slice_length ht.okc]; omega
      have hf : flat (d :: ds) = some x :: l.map some := by
        rw [← hi, flat, flat, List.flatMap_cons (x := c), hsl]; rfl
      have hd0 := ht.2.2.1
      have hdt := ht.2.2.2
      have hlt : d.lo < d.hi := by
        by_contra hn
        have hdl : d.slice = [] := by
          rw [← List.length_eq_zero_iff, Chunk.slice_length hdt.okc]; omega
        cases ds with
        | nil => simp [flat, hdl] at hf
        | cons g gs =>
          have := hdt.2.1
          have := hdt.2.2.1
          have := h1
          omega
      obtain ⟨j1, j2⟩ := take d ds hdt hlt hf
      exact ⟨_, by simp [removeFirst, hz, j1], j2⟩
  · have hlt : c.lo < c.hi := by
      by_contra hn
      cases cs with
      | nil =>
        have hcl : c.slice = [] := by
          rw [← List.length_eq_zero_iff, Chunk.slice_length ht.okc]; omega
        simp [flat, hcl] at hi
      | cons g gs =>
        have := ht.2.1
        omega
    obtain ⟨j1, j2⟩ := take c cs ht hlt hi
    exact ⟨_, by simp [removeFirst, hz, j1], j2⟩

/-- Dropping an empty last container. -/
theorem Tail.last2 {S : Nat} : ∀ {cs : List (Chunk α)} {c d : Chunk α}, Tail S c (d :: cs) →
    ∃ ini e g, c :: d :: cs = ini ++ [e, g] ∧ OKc S e ∧ e.hi = S ∧ g.lo = 0 ∧ OKc S g ∧ g.hi < S ∧
      (ini = [] → e.lo = c.lo) ∧ (ini ≠ [] → e.lo = 0) ∧
      ∀ e', OKc S e' → e'.hi < S → e'.lo = e.lo → ∃ c' cs', ini ++ [e'] = c' :: cs' ∧ c'.lo = c.lo ∧ Tail S c' cs' := by
  intro cs
  induction cs with
  | nil =>
    intro c d h
    obtain ⟨h1, h2, h3, h4, h5⟩ := h
    exact ⟨[], c, d, rfl, h1, h2, h3, h4, h5, fun _ => rfl, fun h => absurd rfl h,
      fun e' j1 j2 j3 => ⟨e', [], rfl, j3, j1, j2⟩⟩
  | cons g gs ih =>
    intro c d h
    obtain ⟨h1, h2, h3, h4⟩ := h
    obtain ⟨ini, e, g', e1, e2, e3, e4, e5, e6, e7, e8, e9⟩ := ih h4
    refine ⟨c :: ini, e, g', by simp [e1], e2, e3, e4, e5, e6, by simp, fun _ => ?_, ?_⟩
    · by_cases hini : ini = []
      · rw [e7 hini, h3]
      · exact e8 hini
    · intro e' j1 j2 j3
      obtain ⟨c', cs', k1, k2, k3⟩ := e9 e' j1 j2 j3
      exact ⟨c, ini ++ [e'], rfl, rfl, by rw [k1]; exact ⟨h1, h2, by rw [k2, h3], k3⟩⟩

theorem removeLast_spec {S : Nat} {f : F α} {l : List α} {x : α} (hS : 0 < S) (h : Rep S f (l ++ [x])) :
    ∃ f', removeLast f = some (x, f') ∧ Rep S f' l := by
  obtain ⟨⟨c, cs, hc, hlo, ht⟩, hi, hs⟩ := h
  obtain ⟨chunks, size⟩ := f
  simp only at hc hi hs
  subst hc
  have take : ∀ (ini : List (Chunk α)) (e : Chunk α), OKc S e → e.lo < e.hi →
      flat (ini ++ [e]) = l.map some ++ [some x] →
      readC e (e.hi - 1) = some x ∧ flat (ini ++ [{ e with hi := e.hi - 1 }]) = l.map some := by
    intro ini e he hlt hf
    obtain ⟨y, hy1, hy2⟩ := slice_last he hlt
    simp only [flat, List.flatMap_append, List.flatMap_singleton, hy2, ← List.append_assoc] at hf
    obtain ⟨h1, h2⟩ := List.append_inj' hf rfl
    simp only [List.cons.injEq, and_true] at h2
    subst h2
    exact ⟨by simp [readC, hy1], by simpa [flat] using h1⟩
  rw [List.map_append, List.map_singleton] at hi
  obtain ⟨ini, e, e1, e2, e3, e4, -⟩ := ht.last
  by_cases hz : e.hi = 0
  · -- the last container is empty
    cases cs with
    | nil =>
      have : e = c := by
        have := congrArg List.getLast? e1
        simpa using this.symm
      subst this
      have := e2.2.1
      omega
    | cons d ds =>
      obtain ⟨ini2, e', g, k1, k2, k3, k4, k5, k6, k7, k8, k9⟩ := ht.last2
      have hg : g = e := by
        have h1 := congrArg List.getLast? (k1.symm.trans e1)
        rw [show ini2 ++ [e', g] = (ini2 ++ [e']) ++ [g] by simp, List.getLast?_concat, List.getLast?_concat] at h1
        simpa using h1
      subst hg
      rw [k1] at hi ⊢
      have hgl : g.slice = [] := by
        rw [← List.length_eq_zero_iff, Chunk.slice_length k5]; omega
      have hf : flat (ini2 ++ [e']) = l.map some ++ [some x] := by
        rw [← hi]
        simp [flat, hgl]
      have hlt : e'.lo < e'.hi := by
        by_cases hini : ini2 = []
        · subst hini
          by_contra hn
          have : e'.slice = [] := by
            rw [← List.length_eq_zero_iff, Chunk.slice_length k2]; omega
          simp [flat, this] at hf
        · rw [k8 hini, k3]; exact hS
      obtain ⟨j1, j2⟩ := take ini2 e' k2 hlt hf
      obtain ⟨m1, m2, m3⟩ := k2
      obtain ⟨c', cs', n1, n2, n3⟩ := k9 { e' with hi := e'.hi - 1 } ⟨m1, by simp only; omega, by simp only; omega⟩
        (by simp only; omega) rfl
      refine ⟨⟨ini2 ++ [{ e' with hi := e'.hi - 1 }], size - 1⟩, ?_, ⟨c', cs', n1, by omega, n3⟩, j2, by simp [hs]⟩
      simp only [removeLast]
      rw [show ini2 ++ [e', g] = (ini2 ++ [e']) ++ [g] by simp]
      simp only [List.getLast?_concat, List.dropLast_concat, if_pos hz, j1, Option.map_some]
      rw [if_neg (by omega)]
  · rw [e1] at hi ⊢
    have hlt : e.lo < e.hi := by
      by_contra hn
      cases cs with
      | nil =>
        have hec : e = c := by
          have := congrArg List.getLast? e1
          simpa using this.symm
        subst hec
        have hini : ini = [] := by
          have := congrArg List.length e1
          rw [List.length_append, List.length_singleton] at this
          exact List.length_eq_zero_iff.1 (by omega)
        subst hini
        have : e.slice = [] := by
          rw [← List.length_eq_zero_iff, Chunk.slice_length e2]; omega
        simp [flat, this] at hi
      | cons d ds =>
        obtain ⟨ini2, e', g, k1, k2, k3, k4, k5, k6, k7, k8, k9⟩ := ht.last2
        have hg : g = e := by
          have h1 := congrArg List.getLast? (k1.symm.trans e1)
          rw [show ini2 ++ [e', g] = (ini2 ++ [e']) ++ [g] by simp, List.getLast?_concat, List.getLast?_concat] at h1
          simpa using h1
        subst hg
        omega
    obtain ⟨j1, j2⟩ := take ini e e2 hlt hi
    obtain ⟨m1, m2, m3⟩ := e2
    obtain ⟨c', cs', n1, n2, n3⟩ := e4 { e with hi := e.hi - 1 } ⟨m1, by simp only; omega, by simp only; omega⟩
      (by simp only; omega) rfl
    refine ⟨⟨ini ++ [{ e with hi := e.hi - 1 }], size - 1⟩, ?_, ⟨c', cs', n1, by omega, n3⟩, j2, by simp [hs]⟩
    simp only [removeLast, List.getLast?_concat, List.dropLast_concat]
    rw [if_neg hz, if_neg hz, j1]
    rfl

end Verif.Deque
