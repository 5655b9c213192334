import Verif.HtnSpec
import Verif.SasTask

/-! # Model of `HTNToSASTranslation::sasPlus`

src/translation/htnToSAS.cpp 67-216.  The facts of the problem are numbered such that the facts of a variable are consecutive:
variable `i` has the facts `firstIndex[i] .. lastIndex[i]`.  Variables with a single fact get a second value.  Arrays are
lists (of pairs for `firstIndex`/`lastIndex`); reading beyond the end of an array is the outcome `none`. -/

namespace Verif.Sas

open Verif.Htn

/-- First loop, htnToSAS.cpp 96-111: the new first and last index of each variable and the offset of its facts. -/
def spVars : Nat → List (Nat × Nat) → List (Nat × Nat × Nat)
  | _, [] => []
  | off, (f, l) :: r =>
    (f + off, (if f = l then l + off + 1 else l + off), off) :: spVars (if f = l then off + 1 else off) r

/-- `change` of htnToSAS.cpp 93-109: there is a variable with one fact. -/
def hasSingle (vars : List (Nat × Nat)) : Bool := vars.any fun v => v.1 == v.2

/-- The variable of a fact: the table `convertMutexVars[.][0]` of htnToSAS.cpp 2229-2252. -/
def varIdx : List (Nat × Nat) → Nat → Option Nat
  | [], _ => none
  | v :: r, b => if v.1 ≤ b ∧ b ≤ v.2 then some 0 else (varIdx r b).map (· + 1)

/-- The table `convertMutexVars`, htnToSAS.cpp 2229-2252: variable and value of a fact. -/
def conv (vars : List (Nat × Nat)) (b : Nat) : Option (Nat × Nat) :=
  match varIdx vars b with
  | none => none
  | some i => match vars[i]? with
    | none => none
    | some v => some (i, b - v.1)

/-- `bitsToSP`, htnToSAS.cpp 120-129 (0 for facts without variable, line 77). -/
def bitsToSP (vars : List (Nat × Nat)) (b : Nat) : Nat :=
  match varIdx vars b with
  | none => 0
  | some i => match (spVars 0 vars)[i]? with
    | none => 0
    | some v => b + v.2.2

/-- `bitAlone`, htnToSAS.cpp 125-128. -/
def bitAlone (vars : List (Nat × Nat)) (b : Nat) : Bool := vars.any fun v => v.1 == v.2 && v.1 == b

/-- The search for the variable of a true fact, htnToSAS.cpp 180-187.  `n` is `s0Size - j`. -/
def s0Search (vars : List (Nat × Nat)) (b : Nat) : Nat → Nat → Option Nat
  | 0, j => if j = 0 then none else some (j - 1)
  | n + 1, j => match vars[j]? with
    | none => none
    | some v => if b < v.1 then (if j = 0 then none else some (j - 1)) else s0Search vars b n (j + 1)

/-- `s0ListSP`, htnToSAS.cpp 174-189. -/
def s0ListSP (vars : List (Nat × Nat)) (s0 : List Nat) : Option (List Nat) :=
  s0.foldlM (fun acc b => (s0Search vars b s0.length 0).map fun j => acc.set j (bitsToSP vars b))
    ((spVars 0 vars).map fun v => v.2.1)

/-- The parts of the model that `sasPlus` replaces. -/
structure SasP where
  vars : List (Nat × Nat)
  prec : Nat → List Nat
  add : Nat → List Nat
  s0 : List Nat
  goal : List Nat

/-- `sasPlus`, htnToSAS.cpp 67-216.  The deletes of facts of variables with one fact become adds of the second value; the
other deletes are dropped.  Not modelled: names, and the mutex groups (lines 131-146), which only help the classical
planner. -/
def sasPlus (P : Problem) (vars : List (Nat × Nat)) : Option SasP :=
  if vars = [] then none
  else if hasSingle vars then
    (s0ListSP vars P.s0).map fun s0 =>
      { vars := (spVars 0 vars).map fun v => (v.1, v.2.1)
        prec := fun a => (P.prec a).map (bitsToSP vars)
        add := fun a => (P.add a).map (bitsToSP vars) ++
          ((P.del a).filter (bitAlone vars)).map fun b => bitsToSP vars b + 1
        s0 := s0
        goal := P.goal.map (bitsToSP vars) }
  else some { vars := vars, prec := P.prec, add := P.add, s0 := P.s0, goal := P.goal }

/-! ## What the input has to satisfy -/

/-- The variables partition the facts `b .. n - 1` into consecutive intervals. -/
def Contig : Nat → List (Nat × Nat) → Nat → Prop
  | b, [], n => b = n
  | b, (f, l) :: r, n => f = b ∧ f ≤ l ∧ Contig (l + 1) r n

/-- Exactly one fact of each variable with several facts holds. -/
def Consistent (vars : List (Nat × Nat)) (s : State) : Prop :=
  ∀ v ∈ vars, v.1 < v.2 → ∃ b, v.1 ≤ b ∧ b ≤ v.2 ∧ s b ∧ ∀ c, v.1 ≤ c → c ≤ v.2 → s c → c = b

/-- The values of `σ` describe the state `s`: a fact holds iff its variable has its value, and a variable with several facts
has no other values; one with a single fact has one more. -/
def Corr (vars : List (Nat × Nat)) (s : State) (σ : Val) : Prop :=
  ∀ i f l, vars[i]? = some (f, l) →
    (σ i ≤ l - f ∨ f = l ∧ σ i = 1) ∧ ∀ v, v ≤ l - f → (s (f + v) ↔ σ i = v)

/-- The input of the translation: the variables partition the facts, all reachable states are consistent, an action that adds
the fact of a variable with one fact does not delete it, and the initial facts are given in ascending order. -/
structure SasInput (P : Problem) (vars : List (Nat × Nat)) : Prop where
  ne : vars ≠ []
  contig : Contig 0 vars P.numFacts
  inv : ∀ π s, Exec P P.initState π s → Consistent vars s
  noClash : ∀ a, ∀ f ∈ P.add a, f ∈ P.del a → bitAlone vars f = false
  sorted : P.s0.Pairwise (· < ·)

/-- The variable of every true fact is found by the search of `sasPlus`, which stops at the number of true facts. -/
def S0Fits (P : Problem) (vars : List (Nat × Nat)) : Prop :=
  hasSingle vars = true → ∀ f ∈ P.s0, ∀ i, varIdx vars f = some i → i < P.s0.length

/-! ## Variables and values -/

theorem Contig.le {b n : Nat} {vars : List (Nat × Nat)} (h : Contig b vars n) : b ≤ n := by
  induction vars generalizing b with
  | nil => exact le_of_eq h
  | cons v r ih =>
    obtain ⟨rfl, h2, h3⟩ := h
    have := ih h3
    omega

theorem Contig.get {b n : Nat} {vars : List (Nat × Nat)} (h : Contig b vars n) {i f l : Nat} (hi : vars[i]? = some (f, l)) :
    b ≤ f ∧ f ≤ l ∧ l < n := by
  induction vars generalizing b i with
  | nil => simp at hi
  | cons v r ih =>
    obtain ⟨h1, h2, h3⟩ := h
    cases i with
    | zero =>
      simp only [List.getElem?_cons_zero, Option.some.injEq] at hi
      subst hi
      have := h3.le
      simp only at *
      omega
    | succ i =>
      have := ih h3 (by simpa using hi)
      omega

theorem Contig.mono {b n : Nat} {vars : List (Nat × Nat)} (h : Contig b vars n) {i j f l f' l' : Nat} (hij : i < j)
    (hi : vars[i]? = some (f, l)) (hj : vars[j]? = some (f', l')) : l < f' := by
  induction vars generalizing b i j with
  | nil => simp at hi
  | cons v r ih =>
    obtain ⟨h1, h2, h3⟩ := h
    cases j with
    | zero => omega
    | succ j =>
      cases i with
      | zero =>
        simp only [List.getElem?_cons_zero, Option.some.injEq] at hi
        subst hi
        have := h3.get (by simpa using hj)
        omega
      | succ i => exact ih (i := i) (j := j) h3 (by omega) (by simpa using hi) (by simpa using hj)

theorem varIdx_eq {b n : Nat} {vars : List (Nat × Nat)} (h : Contig b vars n) {c i f l : Nat} (hi : vars[i]? = some (f, l))
    (h1 : f ≤ c) (h2 : c ≤ l) : varIdx vars c = some i := by
  induction vars generalizing b i with
  | nil => simp at hi
  | cons v r ih =>
    obtain ⟨g1, g2, g3⟩ := h
    cases i with
    | zero =>
      simp only [List.getElem?_cons_zero, Option.some.injEq] at hi
      subst hi
      simp [varIdx, h1, h2]
    | succ i =>
      have := g3.get (i := i) (by simpa using hi)
      rw [varIdx, if_neg (by omega), ih g3 (by simpa using hi)]
      rfl

theorem varIdx_some {vars : List (Nat × Nat)} {c i : Nat} (h : varIdx vars c = some i) :
    ∃ f l, vars[i]? = some (f, l) ∧ f ≤ c ∧ c ≤ l := by
  induction vars generalizing i with
  | nil => simp [varIdx] at h
  | cons v r ih =>
    rw [varIdx] at h
    split at h
    · rename_i h'
      cases h
      exact ⟨v.1, v.2, by simp, h'.1, h'.2⟩
    · cases e : varIdx r c with
      | none => simp [e] at h
      | some j =>
        simp only [e, Option.map_some, Option.some.injEq] at h
        subst h
        obtain ⟨f, l, h1, h2⟩ := ih e
        exact ⟨f, l, by simpa using h1, h2⟩

theorem varIdx_exists {b n : Nat} {vars : List (Nat × Nat)} (h : Contig b vars n) {c : Nat} (h1 : b ≤ c) (h2 : c < n) :
    ∃ i f l : Nat, varIdx vars c = some i ∧ vars[i]? = some (f, l) ∧ f ≤ c ∧ c ≤ l := by
  have : ∃ i f l : Nat, vars[i]? = some (f, l) ∧ f ≤ c ∧ c ≤ l := by
    induction vars generalizing b with
    | nil => have h : b = n := h; omega
    | cons v r ih =>
      obtain ⟨g1, g2, g3⟩ := h
      by_cases hc : c ≤ v.2
      · exact ⟨0, v.1, v.2, by simp, by omega, hc⟩
      · obtain ⟨i, f, l, h⟩ := ih g3 (by omega)
        exact ⟨i + 1, f, l, by simpa using h⟩
  obtain ⟨i, f, l, h3, h4, h5⟩ := this
  exact ⟨i, f, l, varIdx_eq h h3 h4 h5, h3, h4, h5⟩

theorem conv_eq {b n : Nat} {vars : List (Nat × Nat)} (h : Contig b vars n) {c i f l : Nat} (hi : vars[i]? = some (f, l))
    (h1 : f ≤ c) (h2 : c ≤ l) : conv vars c = some (i, c - f) := by
  rw [conv, varIdx_eq h hi h1 h2]
  simp [hi]

theorem conv_some {vars : List (Nat × Nat)} {c i v : Nat} (h : conv vars c = some (i, v)) :
    ∃ f l, vars[i]? = some (f, l) ∧ f ≤ c ∧ c ≤ l ∧ c = f + v := by
  rw [conv] at h
  cases e : varIdx vars c with
  | none => simp [e] at h
  | some j =>
    obtain ⟨f, l, h1, h2, h3⟩ := varIdx_some e
    simp only [e, h1, Option.some.injEq, Prod.mk.injEq] at h
    obtain ⟨rfl, rfl⟩ := h
    exact ⟨f, l, h1, h2, h3, by omega⟩

/-! ## The new variables -/

theorem spVars_length (off : Nat) (vars : List (Nat × Nat)) : (spVars off vars).length = vars.length := by
  induction vars generalizing off with
  | nil => rfl
  | cons v r ih => simp [spVars, ih]

/-- The new interval of a variable: shifted by its offset, and one longer if it had one fact. -/
theorem spVars_get (off : Nat) (vars : List (Nat × Nat)) {i f l : Nat} (hi : vars[i]? = some (f, l)) :
    ∃ o, (spVars off vars)[i]? = some (f + o, (if f = l then l + o + 1 else l + o), o) := by
  induction vars generalizing off i with
  | nil => simp at hi
  | cons v r ih =>
    cases i with
    | zero =>
      simp only [List.getElem?_cons_zero, Option.some.injEq] at hi
      subst hi
      exact ⟨off, by simp [spVars]⟩
    | succ i =>
      obtain ⟨o, ho⟩ := ih (if v.1 = v.2 then off + 1 else off) (by simpa using hi)
      exact ⟨o, by simpa [spVars] using ho⟩

theorem spVars_contig (off : Nat) {b n : Nat} {vars : List (Nat × Nat)} (h : Contig b vars n) :
    ∃ n', Contig (b + off) ((spVars off vars).map fun v => (v.1, v.2.1)) n' := by
  induction vars generalizing off b with
  | nil => exact ⟨_, rfl⟩
  | cons v r ih =>
    obtain ⟨f, l⟩ := v
    obtain ⟨rfl, g2, g3⟩ := h
    obtain ⟨n', hn⟩ := ih (if f = l then off + 1 else off) g3
    refine ⟨n', ?_⟩
    simp only [spVars, List.map_cons]
    refine ⟨rfl, by split <;> omega, ?_⟩
    split at hn <;> rename_i hc
    · simp only [hc, if_true] at hn ⊢
      rwa [show l + off + 1 + 1 = l + 1 + (off + 1) from by omega]
    · simp only [hc, if_false] at hn ⊢
      rwa [show l + off + 1 = l + 1 + off from by omega]

theorem bitsToSP_conv {n : Nat} {vars : List (Nat × Nat)} (h : Contig 0 vars n) {c i f l : Nat} (hi : vars[i]? = some (f, l))
    (h1 : f ≤ c) (h2 : c ≤ l) :
    conv ((spVars 0 vars).map fun v => (v.1, v.2.1)) (bitsToSP vars c) = some (i, c - f) ∧
    (f = l → conv ((spVars 0 vars).map fun v => (v.1, v.2.1)) (bitsToSP vars c + 1) = some (i, 1)) := by
  obtain ⟨n', hc⟩ := spVars_contig 0 h
  obtain ⟨o, ho⟩ := spVars_get 0 vars hi
  have hb : bitsToSP vars c = c + o := by
    rw [bitsToSP, varIdx_eq h hi h1 h2]
    simp [ho]
  have hm : ((spVars 0 vars).map fun v => (v.1, v.2.1))[i]? = some (f + o, if f = l then l + o + 1 else l + o) := by
    simp [ho]
  rw [hb]
  constructor
  · rw [conv_eq hc hm (by omega) (by split <;> omega)]
    congr 2
    omega
  · intro hfl
    rw [conv_eq hc hm (by omega) (by rw [if_pos hfl]; omega)]
    congr 2
    omega

theorem bitAlone_iff {n : Nat} {vars : List (Nat × Nat)} (h : Contig 0 vars n) {c i f l : Nat} (hi : vars[i]? = some (f, l))
    (h1 : f ≤ c) (h2 : c ≤ l) : bitAlone vars c = true ↔ f = l := by
  constructor
  · intro hb
    simp only [bitAlone, List.any_eq_true, Bool.and_eq_true, beq_iff_eq] at hb
    obtain ⟨v, hv, hv1, hv2⟩ := hb
    obtain ⟨j, hj⟩ := List.mem_iff_getElem?.1 hv
    obtain ⟨v1, v2⟩ := v
    simp only at hv1 hv2
    subst hv1 hv2
    have e1 := varIdx_eq h hj (le_refl _) (le_refl _)
    rw [varIdx_eq h hi h1 h2] at e1
    cases e1
    rw [hi] at hj
    cases hj
    rfl
  · rintro rfl
    have hv := List.mem_of_getElem? hi
    simp only [bitAlone, List.any_eq_true, Bool.and_eq_true, beq_iff_eq]
    exact ⟨_, hv, rfl, by simp; omega⟩

end Verif.Sas
