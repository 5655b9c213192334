import Verif.AutomatonHom
import Verif.AutomatonSym
import Mathlib.Data.Fintype.Basic

/-! # Running the symbolic search with tables

For problems with a single fact, BDDs are represented by tables with eight entries (one bit for each of the copies `v`, `v'` and
`v''`).  The operations on tables correspond to those of the planner (`tab_hom`), so that runs with tables are runs of the planner. -/

namespace Verif.Sym

open Verif.Htn Verif.Sas

/-- The position of an entry. -/
def tabBit (a b c : Bool) : Nat := 4 * a.toNat + 2 * b.toNat + c.toNat

/-- The entry of a table. -/
def tabHas (x : Nat) (a b c : Bool) : Bool := x.testBit (tabBit a b c)

def tabOf (v₀ v₁ v₂ v₃ v₄ v₅ v₆ v₇ : Bool) : Nat :=
  v₀.toNat + 2 * v₁.toNat + 4 * v₂.toNat + 8 * v₃.toNat + 16 * v₄.toNat + 32 * v₅.toNat + 64 * v₆.toNat + 128 * v₇.toNat

/-- The table of a function. -/
def tabMk (f : Bool → Bool → Bool → Bool) : Nat :=
  tabOf (f false false false) (f false false true) (f false true false) (f false true true)
    (f true false false) (f true false true) (f true true false) (f true true true)

theorem tabOf_testBit : ∀ v₀ v₁ v₂ v₃ v₄ v₅ v₆ v₇ : Bool,
    (tabOf v₀ v₁ v₂ v₃ v₄ v₅ v₆ v₇).testBit 0 = v₀ ∧ (tabOf v₀ v₁ v₂ v₃ v₄ v₅ v₆ v₇).testBit 1 = v₁ ∧
    (tabOf v₀ v₁ v₂ v₃ v₄ v₅ v₆ v₇).testBit 2 = v₂ ∧ (tabOf v₀ v₁ v₂ v₃ v₄ v₅ v₆ v₇).testBit 3 = v₃ ∧
    (tabOf v₀ v₁ v₂ v₃ v₄ v₅ v₆ v₇).testBit 4 = v₄ ∧ (tabOf v₀ v₁ v₂ v₃ v₄ v₅ v₆ v₇).testBit 5 = v₅ ∧
    (tabOf v₀ v₁ v₂ v₃ v₄ v₅ v₆ v₇).testBit 6 = v₆ ∧ (tabOf v₀ v₁ v₂ v₃ v₄ v₅ v₆ v₇).testBit 7 = v₇ := by decide +kernel

theorem tabHas_mk (f : Bool → Bool → Bool → Bool) (a b c : Bool) : tabHas (tabMk f) a b c = f a b c := by
  obtain ⟨h0, h1, h2, h3, h4, h5, h6, h7⟩ := tabOf_testBit (f false false false) (f false false true) (f false true false) (f false true true)
    (f true false false) (f true false true) (f true true false) (f true true true)
  cases a <;> cases b <;> cases c
  · exact h0
  · exact h1
  · exact h2
  · exact h3
  · exact h4
  · exact h5
  · exact h6
  · exact h7

/-- The operations on tables.  The fact holds iff its bit is false. -/
def tabOps (P : Problem) : Ops Nat where
  zero := tabMk fun _ _ _ => false
  and x y := tabMk fun a b c => tabHas x a b c && tabHas y a b c
  or x y := tabMk fun a b c => tabHas x a b c || tabHas y a b c
  not x := tabMk fun a b c => !tabHas x a b c
  isEq x y := tabMk (tabHas x) == tabMk (tabHas y)
  swapEA x := tabMk fun a b c => tabHas x a c b
  swapPE x := tabMk fun a b c => tabHas x b a c
  exP x := tabMk fun _ b c => tabHas x false b c || tabHas x true b c
  exE x := tabMk fun a _ c => tabHas x a false c || tabHas x a true c
  exA x := tabMk fun a b _ => tabHas x a b false || tabHas x a b true
  image t x := if P.del t ≠ [] ∨ P.add t ≠ [] then
      tabMk fun a _ c => (a == decide (P.del t ≠ [])) && (tabHas x false a c || (decide (P.prec t = []) && tabHas x true a c))
    else tabMk fun a b c => (!a || decide (P.prec t = [])) && tabHas x a b c
  biimp := tabMk fun a _ c => a == c
  init := tabMk fun a _ _ => a == decide (P.s0 = [])
  goal := tabMk fun a _ _ => !a || decide (P.goal = [])

/-- The BDD of a table. -/
def tabBdd (x : Nat) : Bdd := fun α => tabHas x (α 0) (α 1) (α 2) = true

/-! ## The correspondence -/

/-- The variables of a problem with a single fact. -/
abbrev oneVar : List (Nat × Nat) := [(0, 0)]

/-- The only fact is 0. -/
structure OneFact (P : Problem) : Prop where
  prec : ∀ t, ∀ f ∈ P.prec t, f = 0
  add : ∀ t, ∀ f ∈ P.add t, f = 0
  del : ∀ t, ∀ f ∈ P.del t, f = 0
  s0 : ∀ f ∈ P.s0, f = 0
  goal : ∀ f ∈ P.goal, f = 0

theorem pre_one : pre 3 oneVar 0 = [0] := by
  have : varLen (0, 0) = 1 := by decide
  simp [pre, preIdxs, this]

theorem conv_one : conv oneVar 0 = some (0, 0) := by decide

theorem allPre_one : allPre oneVar = [0] := by simp [allPre, pre_one]
theorem allEff_one : allEff oneVar = [1] := by simp [allEff_eq, allPre_one]
theorem allAux_one : allAux oneVar = [2] := by simp [allAux_eq, allEff_one]

theorem mem_conv_one {l : List Nat} (hl : ∀ f ∈ l, f = 0) (p : Nat × Nat) : p ∈ l.filterMap (conv oneVar) ↔ l ≠ [] ∧ p = (0, 0) := by
  rw [List.mem_filterMap]
  constructor
  · rintro ⟨f, h1, h2⟩
    rw [hl f h1, conv_one] at h2
    cases h2
    exact ⟨fun h => (by rw [h] at h1; cases h1), rfl⟩
  · rintro ⟨h1, rfl⟩
    cases l with
    | nil => exact absurd rfl h1
    | cons f l =>
      have := hl f (.head _)
      subst this
      exact ⟨0, .head _, conv_one⟩

theorem effAt_append (i : Nat) (ws vs : List (Nat × Nat × Bool)) : effAt i (ws ++ vs) = match effAt i vs with
    | some e => some e
    | none => effAt i ws := by
  induction ws with
  | nil =>
    simp only [List.nil_append, effAt]
    cases effAt i vs <;> rfl
  | cons w ws ih =>
    simp only [List.cons_append, effAt, ih]
    cases effAt i vs <;> rfl

theorem effAt_const (b : Bool) : ∀ l : List Nat, (∀ f ∈ l, f = 0) →
    effAt 0 ((l.filterMap (conv oneVar)).map fun p => (p.1, p.2, b)) = if l = [] then none else some (0, b)
  | [], _ => rfl
  | f :: l, hl => by
    have h0 := hl f (.head _)
    subst h0
    have ih := effAt_const b l fun f hf => hl f (.tail _ hf)
    rw [List.filterMap_cons, conv_one]
    simp only [List.map_cons, effAt, ih]
    by_cases h : l = [] <;> simp [h]

theorem effAt_one {P : Problem} (hP : OneFact P) (t : Nat) : effAt 0 (effWrites P oneVar t) =
    if P.del t ≠ [] then some (0, false) else if P.add t ≠ [] then some (0, true) else none := by
  have hf : (P.del t).filter (bitAlone oneVar) = P.del t := by
    rw [List.filter_eq_self]
    intro f hf
    rw [hP.del t f hf]
    decide
  rw [effWrites, effAt_append, hf, effAt_const false _ (hP.del t), effAt_const true _ (hP.add t)]
  by_cases h1 : P.del t = [] <;> by_cases h2 : P.add t = [] <;> simp [h1, h2]

theorem trBdd_one {P : Problem} (hP : OneFact P) (t : Nat) (α : Asg) : trBdd 3 P oneVar t α ↔
    (P.prec t = [] ∨ α 0 = false) ∧ ((P.del t ≠ [] ∨ P.add t ≠ []) → α 1 = decide (P.del t ≠ [])) := by
  unfold trBdd
  refine and_congr ?_ ?_
  · simp only [mem_conv_one (hP.prec t)]
    constructor
    · intro h
      by_cases h1 : P.prec t = []
      · exact .inl h1
      · have := h (0, 0) ⟨h1, rfl⟩
        rw [pre_one] at this
        exact .inr (by simpa [gen] using this)
    · rintro h p ⟨h1, rfl⟩
      rw [pre_one]
      simpa [gen, h1] using h
  · have : ∀ i < oneVar.length, i = 0 := by simp [oneVar]
    constructor
    · intro h hh
      have := h 0 (by simp [oneVar])
      rw [effAt_one hP] at this
      by_cases h1 : P.del t = []
      · have h2 : P.add t ≠ [] := by tauto
        simpa [h1, h2, effBdd, eff, pre_one, gen] using this
      · simpa [h1, effBdd, eff, pre_one, gen] using this
    · intro h i hi
      obtain rfl := this i hi
      rw [effAt_one hP]
      by_cases h1 : P.del t = []
      · by_cases h2 : P.add t = []
        · simp [h1, h2, effBdd]
        · simpa [h1, h2, effBdd, eff, pre_one, gen] using h
      · simpa [h1, effBdd, eff, pre_one, gen] using h

theorem swapS_one {P : Problem} (hP : OneFact P) (t : Nat) :
    swapS 3 P oneVar t = if P.del t ≠ [] ∨ P.add t ≠ [] then [0] else [] := by
  have h0 : List.range oneVar.length = [0] := rfl
  rw [swapS, effVars, h0]
  by_cases h1 : P.del t = [] <;> by_cases h2 : P.add t = [] <;>
    simp [effAt_one hP, h1, h2, pre_one]

theorem image_one {P : Problem} (hP : OneFact P) (t : Nat) (x : Nat) :
    image 3 P oneVar t (tabBdd x) = tabBdd ((tabOps P).image t x) := by
  funext α
  apply propext
  rw [image, swapSp_eq, swapS_one hP]
  simp only [tabOps]
  by_cases h : P.del t ≠ [] ∨ P.add t ≠ []
  · simp only [if_pos h, swapBdd, andAbs, tabBdd, tabHas_mk, trBdd_one hP, List.map_cons, List.map_nil]
    have s1 : ∀ v, v ≠ 0 → v ≠ 1 → swapVar [0] [0 + 1] v = v := by
      intro v h0 h1
      simp [swapVar, h0, h1]
    constructor
    · rintro ⟨β, e1, ⟨e2, e3⟩, e4⟩
      have b1 : β 1 = α 0 := e1 1 (by simp)
      have b2 : β 2 = α 2 := by
        have := e1 2 (by simp)
        rwa [s1 2 (by omega) (by omega)] at this
      rw [b1, b2] at e4
      have e3 := e3 h
      rw [b1] at e3
      cases hb : β 0 with
      | false => rw [hb] at e4; simp [← e3, e4]
      | true =>
        rw [hb] at e4 e2
        have e2 : P.prec t = [] := by simpa using e2
        simp [← e3, e4, e2]
    · intro h'
      rw [Bool.and_eq_true, Bool.or_eq_true, Bool.and_eq_true, beq_iff_eq, decide_eq_true_eq] at h'
      obtain ⟨e1, e2⟩ := h'
      rcases e2 with e2 | ⟨e3, e2⟩
      · refine ⟨fun v => if v = 0 then false else α (swapVar [0] [0 + 1] v), fun v hv => if_neg (by simpa using hv), ⟨.inr (if_pos rfl), fun _ => ?_⟩, ?_⟩
        · exact e1
        · simpa [swapVar] using e2
      · refine ⟨fun v => if v = 0 then true else α (swapVar [0] [0 + 1] v), fun v hv => if_neg (by simpa using hv), ⟨.inl e3, fun _ => ?_⟩, ?_⟩
        · exact e1
        · simpa [swapVar] using e2
  · simp only [if_neg h, swapBdd, andAbs, tabBdd, tabHas_mk, trBdd_one hP, List.map_nil, swapVar, List.not_mem_nil, not_false_eq_true, true_imp_iff]
    have : ∀ β : Asg, (∀ v, β v = α v) ↔ β = α := fun β => ⟨fun h => funext h, fun h v => by rw [h]⟩
    simp only [this, exists_eq_left]
    have h' : P.del t = [] ∧ P.add t = [] := by tauto
    simp [or_comm, h'.1, h'.2]

/-- One bit. -/
def oneBit (b : Bool) : Bits oneVar := ⟨fun v => if v = 0 then b else false, fun v hv => if_neg (by rw [allPre_one] at hv; simpa using hv)⟩

theorem join_oneBit (a b c : Bits oneVar) : join a b c 0 = a.1 0 ∧ join a b c 1 = b.1 0 ∧ join a b c 2 = c.1 0 := ⟨rfl, rfl, rfl⟩

theorem tab_exists {α : Asg} {x i : Nat} (F : Bool → Bool) (hF : ∀ β : Asg, (∀ v, v ∉ [i] → β v = α v) → (tabBdd x β ↔ F (β i) = true)) :
    andAbs (tabBdd x) (fun _ => True) [i] α ↔ (F false || F true) = true := by
  simp only [andAbs, and_true]
  constructor
  · rintro ⟨β, h1, h2⟩
    have := (hF β h1).1 h2
    cases hb : β i <;> rw [hb] at this <;> simp [this]
  · intro h
    rw [Bool.or_eq_true] at h
    have key : ∀ b : Bool, F b = true → ∃ β : Asg, (∀ v, v ∉ [i] → β v = α v) ∧ tabBdd x β := by
      intro b hb
      have h1 : ∀ v, v ∉ [i] → (fun v => if v = i then b else α v) v = α v := fun v hv => if_neg (by simpa using hv)
      exact ⟨_, h1, (hF _ h1).2 (by simpa using hb)⟩
    rcases h with h | h
    · exact key _ h
    · exact key _ h

/-- Tables are BDDs. -/
theorem tab_hom {P : Problem} (hP : OneFact P) : Hom (tabOps P) (symOps P oneVar) tabBdd where
  zero := by funext α; simp [symOps, tabBdd, tabOps, tabHas_mk]
  and := fun x y => by funext α; simp [symOps, tabBdd, tabOps, tabHas_mk]
  or := fun x y => by funext α; simp [symOps, tabBdd, tabOps, tabHas_mk]
  not := fun x => by funext α; simp [symOps, tabBdd, tabOps, tabHas_mk]
  isEq := fun x y => by
    rw [Bool.eq_iff_iff]
    simp only [symOps, tabOps, beq_iff_eq]
    classical
    refine Iff.trans decide_eq_true_iff ?_
    simp only [tabBdd]
    constructor
    · intro h
      have : tabHas x = tabHas y := by
        funext a b c
        have := h (oneBit a) (oneBit b) (oneBit c)
        rw [(join_oneBit _ _ _).1, (join_oneBit _ _ _).2.1, (join_oneBit _ _ _).2.2] at this
        simp only [oneBit, if_true] at this
        rwa [Bool.eq_iff_iff]
      rw [this]
    · intro h a b c
      have : ∀ a b c, tabHas x a b c = tabHas y a b c := by
        intro a b c
        rw [← tabHas_mk (tabHas x), h, tabHas_mk]
      rw [this]
  swapEA := fun x => by
    funext α
    simp only [symOps, allEff_one, allAux_one, swapBdd, tabBdd, tabOps, tabHas_mk]
    rfl
  swapPE := fun x => by
    funext α
    simp only [symOps, allEff_one, allPre_one, swapBdd, tabBdd, tabOps, tabHas_mk]
    rfl
  exP := fun x => by
    funext α
    simp only [symOps, allPre_one]
    rw [tab_exists (fun b => tabHas x b (α 1) (α 2))]
    · simp only [tabBdd, tabOps, tabHas_mk]
    · intro β hβ
      rw [tabBdd, hβ 1 (by simp), hβ 2 (by simp)]
  exE := fun x => by
    funext α
    simp only [symOps, allEff_one]
    rw [tab_exists (fun b => tabHas x (α 0) b (α 2))]
    · simp only [tabBdd, tabOps, tabHas_mk]
    · intro β hβ
      rw [tabBdd, hβ 0 (by simp), hβ 2 (by simp)]
  exA := fun x => by
    funext α
    simp only [symOps, allAux_one]
    rw [tab_exists (fun b => tabHas x (α 0) (α 1) b)]
    · simp only [tabBdd, tabOps, tabHas_mk]
    · intro β hβ
      rw [tabBdd, hβ 0 (by simp), hβ 1 (by simp)]
  image := fun t x => image_one hP t x
  biimp := by
    funext α
    simp only [symOps, aux, tabBdd, tabOps, tabHas_mk, beq_iff_eq]
    apply propext
    constructor
    · intro h
      have := h 0 (by simp [oneVar])
      rw [pre_one] at this
      simpa [biimp] using this
    · intro h i hi
      obtain rfl : i = 0 := by simpa [oneVar] using hi
      rw [pre_one]
      simpa [biimp] using h
  init := by
    funext α
    simp only [symOps, stateBdd, mem_conv_one hP.s0, tabBdd, tabOps, tabHas_mk, beq_iff_eq]
    apply propext
    constructor
    · rintro ⟨h1, h2⟩
      by_cases h : P.s0 = []
      · have := h2 0 (by simp [oneVar]) (fun p hp => absurd h hp.1)
        rw [pre_one] at this
        simpa [gen, h] using this
      · have := h1 (0, 0) ⟨h, rfl⟩
        rw [pre_one] at this
        simpa [gen, h] using this
    · intro h'
      refine ⟨?_, fun i hi hh => ?_⟩
      · rintro p ⟨h, rfl⟩
        rw [pre_one]
        simpa [gen, h] using h'
      · obtain rfl : i = 0 := by simpa [oneVar] using hi
        have h : P.s0 = [] := by
          by_contra h
          exact hh (0, 0) ⟨h, rfl⟩ rfl
        rw [pre_one]
        simpa [gen, h] using h'
  goal := by
    funext α
    simp only [symOps, partialBdd, mem_conv_one hP.goal, tabBdd, tabOps, tabHas_mk]
    apply propext
    constructor
    · intro h1
      by_cases h : P.goal = []
      · simp [h]
      · have := h1 (0, 0) ⟨h, rfl⟩
        rw [pre_one] at this
        simpa [gen, h] using this
    · rintro h' p ⟨h, rfl⟩
      rw [pre_one]
      simpa [gen, h] using h'

/-- The search of the planner, run with tables. -/
theorem run_tab {P : Problem} (hP : OneFact P) (nA fuel : Nat) :
    buildAutomaton (symOps P oneVar) P nA fuel = buildAutomaton (tabOps P) P nA fuel := buildAutomaton_hom (tab_hom hP) P nA fuel

end Verif.Sym
