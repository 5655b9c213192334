import Verif.AutomatonRun
import Verif.SymImage
import Verif.ToStack

/-! # The symbolic search with the BDDs of the planner

`symOps` are the BDD operations of the search, built from the model of the library (`Verif.SymVars`) with three copies of the
state variables (`sym_vars.init(true)`, automaton.cpp 1152).  They satisfy the contract of `Verif.AutomatonSpec`, and the runs
between assignments of the BDD variables are the executions of the problem. -/

namespace Verif.Sym

open Verif.Htn Verif.Sas

/-- `swapVarsPre`, sym_variables.cpp 132-135; also the variables of `existsVarsPre`, 148-150. -/
def allPre (vars : List (Nat × Nat)) : List Nat := (List.range vars.length).flatMap (pre 3 vars)

/-- `swapVarsEff`, sym_variables.cpp 136-138; also the variables of `existsVarsEff`. -/
def allEff (vars : List (Nat × Nat)) : List Nat := (List.range vars.length).flatMap (eff 3 vars)

/-- `swapVarsAux`, sym_variables.cpp 139-141; also the variables of `existsVarsAux`. -/
def allAux (vars : List (Nat × Nat)) : List Nat := (List.range vars.length).flatMap (aux 3 vars)

/-- An assignment of one copy of the state variables: the bits at the indices of `allPre`. -/
abbrev Bits (vars : List (Nat × Nat)) := {a : Asg // ∀ v, v ∉ allPre vars → a v = false}

variable {vars : List (Nat × Nat)}

/-- The assignment of the three copies. -/
def join (a b c : Bits vars) : Asg := fun v => if v % 3 = 0 then a.1 v else if v % 3 = 1 then b.1 (v - 1) else c.1 (v - 2)

/-- The BDD operations of the search.  Equality compares the functions on the variables of the manager, which are those of the
three copies. -/
noncomputable def symOps (P : Problem) (vars : List (Nat × Nat)) : Ops Bdd where
  zero := fun _ => False
  and x y := fun α => x α ∧ y α
  or x y := fun α => x α ∨ y α
  not x := fun α => ¬ x α
  isEq x y := by
    classical
    exact decide (∀ a b c : Bits vars, x (join a b c) ↔ y (join a b c))
  swapEA x := swapBdd x (allEff vars) (allAux vars)
  swapPE x := swapBdd x (allPre vars) (allEff vars)
  exP x := andAbs x (fun _ => True) (allPre vars)
  exE x := andAbs x (fun _ => True) (allEff vars)
  exA x := andAbs x (fun _ => True) (allAux vars)
  image t x := image 3 P vars t x
  biimp := fun α => ∀ i < vars.length, biimp (pre 3 vars i) (aux 3 vars i) α
  init := stateBdd 3 vars P.s0
  goal := partialBdd 3 vars P.goal

theorem allEff_eq : allEff vars = (allPre vars).map (· + 1) := by
  rw [allEff, allPre, List.map_flatMap]; rfl

theorem allAux_eq : allAux vars = (allEff vars).map (· + 1) := by
  rw [allAux, allEff, List.map_flatMap]
  congr 1
  funext i
  simp [aux, eff]

theorem mem_allPre {v : Nat} : v ∈ allPre vars ↔ ∃ i < vars.length, v ∈ pre 3 vars i := by
  simp [allPre]

theorem allPre_mod {v : Nat} (h : v ∈ allPre vars) : v % 3 = 0 := by
  obtain ⟨i, -, h⟩ := mem_allPre.1 h
  exact pre_mod h

theorem mem_allEff {v : Nat} : v ∈ allEff vars ↔ v % 3 = 1 ∧ v - 1 ∈ allPre vars := by
  rw [allEff_eq, List.mem_map]
  constructor
  · rintro ⟨w, h, rfl⟩
    have := allPre_mod h
    exact ⟨by omega, by simpa using h⟩
  · rintro ⟨h1, h2⟩
    exact ⟨_, h2, by omega⟩

theorem mem_allAux {v : Nat} : v ∈ allAux vars ↔ v % 3 = 2 ∧ v - 2 ∈ allPre vars := by
  rw [allAux_eq, List.mem_map]
  constructor
  · rintro ⟨w, h, rfl⟩
    rw [mem_allEff] at h
    exact ⟨by omega, by rw [show w + 1 - 2 = w - 1 from by omega]; exact h.2⟩
  · rintro ⟨h1, h2⟩
    exact ⟨v - 1, mem_allEff.2 ⟨by omega, by rw [show v - 1 - 1 = v - 2 from by omega]; exact h2⟩, by omega⟩

/-- One copy of an assignment. -/
def prj (vars : List (Nat × Nat)) (k : Nat) (α : Asg) : Bits vars := ⟨fun v => if v ∈ allPre vars then α (v + k) else false, fun v h => if_neg h⟩

/-- The assignment is false for all variables but those of the manager. -/
def Clipped (vars : List (Nat × Nat)) (α : Asg) : Prop := α = join (prj vars 0 α) (prj vars 1 α) (prj vars 2 α)

theorem Bits.eq_false (a : Bits vars) {v : Nat} (h : v ∉ allPre vars) : a.1 v = false := a.2 v h

theorem prj_join0 (a b c : Bits vars) : prj vars 0 (join a b c) = a := by
  apply Subtype.ext
  funext v
  simp only [prj]
  split
  · next h => simp [join, allPre_mod h]
  · next h => rw [a.2 v h]

theorem prj_join1 (a b c : Bits vars) : prj vars 1 (join a b c) = b := by
  apply Subtype.ext
  funext v
  simp only [prj]
  split
  · next h =>
    have := allPre_mod h
    simp only [join]
    rw [if_neg (by omega), if_pos (by omega)]
    rfl
  · next h => rw [b.2 v h]

theorem prj_join2 (a b c : Bits vars) : prj vars 2 (join a b c) = c := by
  apply Subtype.ext
  funext v
  simp only [prj]
  split
  · next h =>
    have := allPre_mod h
    simp only [join]
    rw [if_neg (by omega), if_neg (by omega)]
    rfl
  · next h => rw [c.2 v h]

theorem clipped_join (a b c : Bits vars) : Clipped vars (join a b c) := by
  rw [Clipped, prj_join0, prj_join1, prj_join2]

/-- Assignments that agree on the manager's variables and are false for the others. -/
theorem join_of {α : Asg} {a b c : Bits vars} (h0 : ∀ v, v % 3 = 0 → α v = a.1 v) (h1 : ∀ v, v % 3 = 1 → α v = b.1 (v - 1))
    (h2 : ∀ v, v % 3 = 2 → α v = c.1 (v - 2)) : α = join a b c := by
  funext v
  simp only [join]
  split
  · next h => exact h0 v h
  · split
    · next h => exact h1 v h
    · exact h2 v (by omega)

theorem join_swap_EA (a b c : Bits vars) : (fun v => join a b c (swapVar (allEff vars) (allAux vars) v)) = join a c b := by
  have hs : ∀ v, swapVar (allEff vars) (allAux vars) v =
      if v ∈ allEff vars then v + 1 else if 0 < v ∧ v - 1 ∈ allEff vars then v - 1 else v := by
    intro v
    rw [allAux_eq]
    refine swapVar_map _ (fun x hx hx' => ?_) v
    rw [mem_allEff] at hx hx'
    omega
  apply join_of
  · intro v hv
    rw [hs, if_neg (by rw [mem_allEff]; omega), if_neg (by rw [mem_allEff]; omega)]
    simp [join, hv]
  · intro v hv
    rw [hs]
    by_cases h : v - 1 ∈ allPre vars
    · rw [if_pos (mem_allEff.2 ⟨hv, h⟩)]
      simp only [join]
      rw [if_neg (by omega), if_neg (by omega)]
      congr 1
    · rw [if_neg (by rw [mem_allEff]; tauto), if_neg (by rw [mem_allEff]; omega), c.2 _ h]
      simp only [join]
      rw [if_neg (by omega), if_pos hv, b.2 _ h]
  · intro v hv
    rw [hs, if_neg (by rw [mem_allEff]; omega)]
    by_cases h : v - 2 ∈ allPre vars
    · rw [if_pos ⟨by omega, mem_allEff.2 ⟨by omega, by rw [show v - 1 - 1 = v - 2 from by omega]; exact h⟩⟩]
      simp only [join]
      rw [if_neg (by omega), if_pos (by omega)]
      congr 1
    · rw [if_neg (by rw [mem_allEff, show v - 1 - 1 = v - 2 from by omega]; tauto), b.2 _ h]
      simp only [join]
      rw [if_neg (by omega), if_neg (by omega), c.2 _ h]

theorem join_swap_PE (a b c : Bits vars) : (fun v => join a b c (swapVar (allPre vars) (allEff vars) v)) = join b a c := by
  have hs : ∀ v, swapVar (allPre vars) (allEff vars) v =
      if v ∈ allPre vars then v + 1 else if 0 < v ∧ v - 1 ∈ allPre vars then v - 1 else v := by
    intro v
    rw [allEff_eq]
    refine swapVar_map _ (fun x hx hx' => ?_) v
    have := allPre_mod hx
    have := allPre_mod hx'
    omega
  have hm : ∀ {v}, v % 3 ≠ 0 → v ∉ allPre vars := fun h h' => h (allPre_mod h')
  apply join_of
  · intro v hv
    rw [hs]
    by_cases h : v ∈ allPre vars
    · rw [if_pos h]
      simp only [join]
      rw [if_neg (by omega), if_pos (by omega)]
      rfl
    · rw [if_neg h, if_neg (fun h' => hm (by omega) h'.2), b.2 _ h]
      simp only [join]
      rw [if_pos hv, a.2 _ h]
  · intro v hv
    rw [hs, if_neg (hm (by omega))]
    by_cases h : v - 1 ∈ allPre vars
    · rw [if_pos ⟨by omega, h⟩]
      simp only [join]
      rw [if_pos (by omega)]
    · rw [if_neg (fun h' => h h'.2), a.2 _ h]
      simp only [join]
      rw [if_neg (by omega), if_pos hv, b.2 _ h]
  · intro v hv
    rw [hs, if_neg (hm (by omega)), if_neg (fun h' => hm (by omega) h'.2)]
    simp only [join]
    rw [if_neg (by omega), if_neg (by omega)]

theorem gen_congr {α β : Asg} : ∀ (vs : List Nat) (k : Nat), (∀ v ∈ vs, α v = β v) → (gen vs k α ↔ gen vs k β)
  | [], _, _ => Iff.rfl
  | v :: vs, k, h => by
    simp only [gen]
    rw [h v (.head _), gen_congr vs (k / 2) fun w hw => h w (.tail _ hw)]

theorem join_pre (a b c : Bits vars) {i v : Nat} (h : v ∈ pre 3 vars i) : join a b c v = a.1 v := by
  simp [join, pre_mod h]

theorem val_join (a b c : Bits vars) : val 3 vars (join a b c) = val 3 vars a.1 := by
  funext i
  exact bitsVal_congr _ fun v hv => join_pre a b c hv

/-- The transition relation of an action on the values of the variables. -/
def bitsTr (P : Problem) (vars : List (Nat × Nat)) (t : Nat) (x y : Bits vars) : Prop :=
  Holds (val 3 vars x.1) (precV vars P t) ∧ ∀ i < vars.length, val 3 vars y.1 i = assign (val 3 vars x.1) (addV vars P t) i

theorem clipped_of_agree {α : Asg} {a b c : Bits vars} (h : ∀ v, v ∉ allPre vars → α v = join a b c v) :
    α = join (prj vars 0 α) b c := by
  have hm : ∀ {v}, v % 3 ≠ 0 → v ∉ allPre vars := fun h h' => h (allPre_mod h')
  apply join_of
  · intro v hv
    simp only [prj]
    split
    · rfl
    · next h' =>
      rw [h v h']
      simp only [join]
      rw [if_pos hv, a.2 _ h']
  · intro v hv
    rw [h v (hm (by omega))]
    simp only [join]
    rw [if_neg (by omega), if_pos hv]
  · intro v hv
    rw [h v (hm (by omega))]
    simp only [join]
    rw [if_neg (by omega), if_neg (by omega)]

theorem image_law {P : Problem} (hc : Contig 0 vars P.numFacts) (t : Nat) (x : Bdd)
    (hx : ∀ a b b' c : Bits vars, x (join a b c) → x (join a b' c)) (a b c : Bits vars) :
    image 3 P vars t x (join a b c) ↔ ∃ a', x (join a' b c) ∧ bitsTr P vars t a' a := by
  let x' : Bdd := fun α => x (join (prj vars 0 α) (prj vars 1 α) (prj vars 2 α))
  have hS : ∀ v, v ∈ swapS 3 P vars t → v ∈ allPre vars := by
    intro v hv
    obtain ⟨i, h1, -, h2⟩ := mem_swapS.1 hv
    exact mem_allPre.2 ⟨i, h1, h2⟩
  have h1 : image 3 P vars t x (join a b c) ↔ image 3 P vars t x' (join a b c) := by
    -- the exchanged assignment is that of bits again
    have hcl : ∃ a₁ b₁ c₁ : Bits vars, (fun v => join a b c (swapVar (swapS 3 P vars t) (swapSp 3 P vars t) v)) = join a₁ b₁ c₁ := by
      let α₁ : Asg := fun v => join a b c (swapVar (swapS 3 P vars t) (swapSp 3 P vars t) v)
      refine ⟨prj vars 0 α₁, prj vars 1 α₁, prj vars 2 α₁, ?_⟩
      have hout : ∀ v, v ∉ allPre vars → v - 1 ∉ allPre vars → swapVar (swapS 3 P vars t) (swapSp 3 P vars t) v = v := by
        intro v e1 e2
        rw [swapVar_eq (by omega), if_neg (fun h => e1 (hS _ h)), if_neg (fun h => e2 (hS _ h.2))]
      apply join_of
      · intro v hv
        simp only [prj, α₁]
        split
        · rfl
        · next h =>
          have h' : v - 1 ∉ allPre vars := by
            intro h'
            have := allPre_mod h'
            obtain rfl : v = 0 := by omega
            exact h h'
          rw [hout v h h']
          simp [join, hv, a.2 _ h]
      · intro v hv
        simp only [prj]
        split
        · rw [show v - 1 + 1 = v from by omega]
        · next h =>
          rw [hout v (fun h' => by have := allPre_mod h'; omega) h]
          simp only [join]
          rw [if_neg (by omega), if_pos hv, b.2 _ h]
      · intro v hv
        rw [hout v (fun h' => by have := allPre_mod h'; omega) (fun h' => by have := allPre_mod h'; omega)]
        simp only [prj]
        split
        · simp only [α₁]
          rw [show v - 2 + 2 = v from by omega, hout v (fun h' => by have := allPre_mod h'; omega) (fun h' => by have := allPre_mod h'; omega)]
        · next h =>
          simp only [join]
          rw [if_neg (by omega), if_neg (by omega), c.2 _ h]
    obtain ⟨a₁, b₁, c₁, e⟩ := hcl
    simp only [image, swapBdd, andAbs, e]
    refine exists_congr fun β => and_congr_right fun hβ => and_congr_right fun _ => ?_
    have : β = join (prj vars 0 β) b₁ c₁ := clipped_of_agree (a := a₁) fun v hv =>
      (hβ v fun h => hv (hS v h)).trans (congrFun e v)
    show x β ↔ x (join (prj vars 0 β) (prj vars 1 β) (prj vars 2 β))
    rw [this, prj_join0, prj_join1, prj_join2]
  rw [h1, image_iff (by omega) hc]
  · constructor
    · rintro ⟨α, e1, e2, e3, e4⟩
      have hα : α = join (prj vars 0 α) b c := clipped_of_agree (a := a) fun v hv => e2 v fun i hi h => hv (mem_allPre.2 ⟨i, hi, h⟩)
      refine ⟨prj vars 0 α, ?_, ?_⟩
      · have : x (join (prj vars 0 α) (prj vars 1 α) (prj vars 2 α)) := e1
        rw [show prj vars 1 α = b by rw [hα, prj_join1], show prj vars 2 α = c by rw [hα, prj_join2]] at this
        exact this
      · rw [val_join] at e4
        have hv : val 3 vars (prj vars 0 α).1 = val 3 vars α := by
          conv_rhs => rw [hα, val_join]
        rw [bitsTr, hv]
        exact ⟨e3, e4⟩
    · rintro ⟨a', e1, e2, e3⟩
      refine ⟨join a' b c, ?_, fun v hv => ?_, ?_, ?_⟩
      · show x (join (prj vars 0 (join a' b c)) (prj vars 1 (join a' b c)) (prj vars 2 (join a' b c)))
        rw [prj_join0, prj_join1, prj_join2]
        exact e1
      · have hv' : v ∉ allPre vars := fun h => by
          obtain ⟨i, hi, h⟩ := mem_allPre.1 h
          exact hv i hi h
        simp only [join]
        split
        · rw [a.2 _ hv', a'.2 _ hv']
        · rfl
      · rw [val_join]
        exact e2
      · rw [val_join, val_join]
        exact e3
  · intro α β hab
    have e0 : prj vars 0 α = prj vars 0 β := by
      apply Subtype.ext; funext v
      simp only [prj]
      split
      · next h => have := allPre_mod h; exact hab _ (by omega)
      · rfl
    have e2 : prj vars 2 α = prj vars 2 β := by
      apply Subtype.ext; funext v
      simp only [prj]
      split
      · next h => have := allPre_mod h; exact hab _ (by omega)
      · rfl
    show x (join (prj vars 0 α) (prj vars 1 α) (prj vars 2 α)) ↔ x (join (prj vars 0 β) (prj vars 1 β) (prj vars 2 β))
    rw [e0, e2]
    exact ⟨hx _ _ _ _, hx _ _ _ _⟩

theorem biimp_iff (α : Asg) (g : Nat → Nat) : ∀ l : List Nat, biimp l (l.map g) α ↔ ∀ v ∈ l, α v = α (g v)
  | [] => by simp [biimp]
  | v :: l => by simp [biimp, biimp_iff α g l]

/-- The operations of the planner satisfy the contract. -/
theorem symOps_lawful (P : Problem) (hc : Contig 0 vars P.numFacts) :
    Lawful (symOps P vars) (fun x (a b c : Bits vars) => x (join a b c)) (bitsTr P vars)
      (fun a => stateBdd 3 vars P.s0 a.1) (fun a => partialBdd 3 vars P.goal a.1) where
  zero := fun _ _ _ h => h
  and := fun _ _ _ _ _ => Iff.rfl
  or := fun _ _ _ _ _ => Iff.rfl
  not := fun _ _ _ _ => Iff.rfl
  isEq := fun x y => by simp only [symOps, decide_eq_true_eq]
  swapEA := fun x a b c => by simp only [symOps, swapBdd, join_swap_EA]
  swapPE := fun x a b c => by simp only [symOps, swapBdd, join_swap_PE]
  exP := fun x a b c => by
    simp only [symOps, andAbs, and_true]
    constructor
    · rintro ⟨β, h1, h2⟩
      exact ⟨_, (clipped_of_agree (a := a) h1) ▸ h2⟩
    · rintro ⟨a', h⟩
      refine ⟨_, fun v hv => ?_, h⟩
      simp only [join]
      rw [a.2 _ hv, a'.2 _ hv]
  exE := fun x a b c => by
    simp only [symOps, andAbs, and_true]
    constructor
    · rintro ⟨β, h1, h2⟩
      refine ⟨prj vars 1 β, ?_⟩
      rwa [← join_of (α := β)]
      · intro v hv
        rw [h1 v (by rw [mem_allEff]; omega)]
        simp [join, hv]
      · intro v hv
        simp only [prj]
        split
        · rw [show v - 1 + 1 = v from by omega]
        · next h =>
          rw [h1 v (by rw [mem_allEff]; tauto)]
          simp only [join]
          rw [if_neg (by omega), if_pos hv, b.2 _ h]
      · intro v hv
        rw [h1 v (by rw [mem_allEff]; omega)]
        simp only [join]
        rw [if_neg (by omega), if_neg (by omega)]
    · rintro ⟨b', h⟩
      refine ⟨_, fun v hv => ?_, h⟩
      simp only [join]
      split
      · rfl
      · split
        · have : v - 1 ∉ allPre vars := fun h' => hv (mem_allEff.2 ⟨‹_›, h'⟩)
          rw [b.2 _ this, b'.2 _ this]
        · rfl
  exA := fun x a b c => by
    simp only [symOps, andAbs, and_true]
    constructor
    · rintro ⟨β, h1, h2⟩
      refine ⟨prj vars 2 β, ?_⟩
      rwa [← join_of (α := β)]
      · intro v hv
        rw [h1 v (by rw [mem_allAux]; omega)]
        simp [join, hv]
      · intro v hv
        rw [h1 v (by rw [mem_allAux]; omega)]
        simp only [join]
        rw [if_neg (by omega), if_pos hv]
      · intro v hv
        simp only [prj]
        split
        · rw [show v - 2 + 2 = v from by omega]
        · next h =>
          rw [h1 v (by rw [mem_allAux]; tauto)]
          simp only [join]
          rw [if_neg (by omega), if_neg (by omega), c.2 _ h]
    · rintro ⟨c', h⟩
      refine ⟨_, fun v hv => ?_, h⟩
      simp only [join]
      split
      · rfl
      · split
        · rfl
        · have : v - 2 ∉ allPre vars := fun h' => hv (mem_allAux.2 ⟨by omega, h'⟩)
          rw [c.2 _ this, c'.2 _ this]
  image := fun t x hx a b c => image_law hc t x hx a b c
  biimp := fun a b c => by
    simp only [symOps, aux]
    constructor
    · intro h
      apply Subtype.ext
      funext v
      by_cases hv : v ∈ allPre vars
      · obtain ⟨i, hi, hv'⟩ := mem_allPre.1 hv
        have := (biimp_iff _ (· + 2) _).1 (h i hi) v hv'
        have hm := allPre_mod hv
        simp only [join] at this
        rwa [if_pos hm, if_neg (by omega), if_neg (by omega)] at this
      · rw [a.2 _ hv, c.2 _ hv]
    · rintro rfl i hi
      refine (biimp_iff _ (· + 2) _).2 fun v hv => ?_
      have hm := pre_mod hv
      simp only [join]
      rw [if_pos hm, if_neg (by omega), if_neg (by omega)]
      rfl
  init := fun a b c => by
    simp only [symOps, stateBdd]
    refine and_congr (forall_congr' fun p => imp_congr_right fun _ => gen_congr _ _ fun v hv => join_pre a b c hv)
      (forall_congr' fun i => imp_congr_right fun _ => imp_congr_right fun _ => gen_congr _ _ fun v hv => join_pre a b c hv)
  goal := fun a b c => by
    simp only [symOps, partialBdd]
    exact forall_congr' fun p => imp_congr_right fun _ => gen_congr _ _ fun v hv => join_pre a b c hv

/-! ## Executions -/

variable {P : Problem}

theorem Exec.append' {s s' s'' : State} {π ρ : List Nat} (h : Exec P s π s') (h' : Exec P s' ρ s'') : Exec P s (π ++ ρ) s'' := by
  induction h with
  | nil => exact h'
  | cons ha _ ih => exact .cons ha (ih h')

/-- A run on the bits is an execution. -/
theorem Full.exec (hP : P.WF) (hc : Contig 0 vars P.numFacts) (hno : ∀ a, ∀ f ∈ P.add a, f ∈ P.del a → bitAlone vars f = false)
    (hinv : ∀ π s, Exec P P.initState π s → Consistent vars s) {t : Nat} {x y : Bits vars} {π : List Nat}
    (h : Full P (bitsTr P vars) t x π y) : ∀ {ρ : List Nat} {s : State}, Exec P P.initState ρ s → Corr vars s (val 3 vars x.1) →
      ∃ s', Exec P s π s' ∧ Corr vars s' (val 3 vars y.1) := by
  induction h with
  | @act a x y hp h =>
    intro ρ s hr hs
    have ha := (hs.applicable hP hc a).1 h.1
    have h1 : Exec P s [a] (P.result s a) := .cons ha (.nil _)
    refine ⟨_, h1, ?_⟩
    have h2 := hs.result hP hc hno (a := a) (hinv _ _ (Exec.append' hr h1))
    intro i f l hi
    rw [h.2 i (List.getElem?_eq_some_iff.1 hi).1]
    exact h2 i f l hi
  | one _ _ _ ih => exact fun hr hs => ih hr hs
  | two _ _ _ _ ih1 ih2 =>
    intro ρ s hr hs
    obtain ⟨s1, e1, e2⟩ := ih1 hr hs
    obtain ⟨s2, e3, e4⟩ := ih2 (Exec.append' hr e1) e2
    exact ⟨s2, Exec.append' e1 e3, e4⟩

/-- A run on the bits decomposes the task. -/
theorem Full.tree {σ : Type} {tr : Nat → σ → σ → Prop} (ht : TotOK P fun m => List.range (P.sub m).length) {t : Nat} {x y : σ} {π : List Nat}
    (h : Full P tr t x π y) : ∃ T, Valid P t T ∧ yield (fun m => List.range (P.sub m).length) T = π := by
  induction h with
  | act hp _ => exact ⟨_, .leaf hp, rfl⟩
  | @one m t x y π hm hs _ ih =>
    obtain ⟨T, h1, h2⟩ := ih
    obtain ⟨cs, e1, e2, -⟩ := node_of_list ht hm (ts := [T]) (by simpa [tasksOf, hs, List.range_succ] using h1)
    exact ⟨_, e1, by rw [e2]; simpa using h2⟩
  | @two m t u x y z π ρ hm hs _ _ ih1 ih2 =>
    obtain ⟨T, h1, h2⟩ := ih1
    obtain ⟨U, h3, h4⟩ := ih2
    obtain ⟨cs, e1, e2, -⟩ := node_of_list ht hm (ts := [T, U]) (by simpa [tasksOf, hs, List.range_succ] using ⟨h1, h3⟩)
    exact ⟨_, e1, by rw [e2]; simp [h2, h4]⟩

theorem totOK_two (hne : ∀ m < P.numMethods, P.sub m ≠ []) (h2 : ∀ m < P.numMethods, (P.sub m).length ≤ 2)
    (hord : ∀ m < P.numMethods, (P.sub m).length = 2 → P.ord m = [(0, 1)]) : TotOK P fun m => List.range (P.sub m).length := by
  intro m hm
  refine ⟨List.Perm.refl _, ?_⟩
  have h1 := List.length_pos_iff.2 (hne m hm)
  have h3 := h2 m hm
  rcases Nat.lt_or_ge (P.sub m).length 2 with h | h
  · have h5 : (P.sub m).length = 1 := by omega
    simp [h5]
  · have h4 : (P.sub m).length = 2 := by omega
    simp only [h4, List.range_succ, List.range_zero, List.nil_append, List.cons_append, List.pairwise_cons, List.mem_singleton,
      forall_eq, List.not_mem_nil, false_imp_iff, implies_true, List.Pairwise.nil, and_true]
    refine .single ?_
    simp [Problem.OrdRel, hord m hm h4]

end Verif.Sym
