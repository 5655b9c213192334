import Verif.SymImage

/-! # C70: the symbolic planner computes images of sets of states exactly

The BDDs that `SymVariables` and `TransitionRelation` build, in terms of the states of the problem.  A BDD represents the set
of the states whose encodings satisfy it. -/

namespace Verif.Props

open Verif.Htn Verif.Sas Verif.Sym

/-- `α` encodes the state `s`: for every variable with several facts, the number with its bits is the position of its fact
that holds; the bit of a variable with one fact is 0 iff the fact holds. -/
def Encodes (st : Nat) (vars : List (Nat × Nat)) (α : Asg) (s : State) : Prop :=
  ∀ i f l : Nat, vars[i]? = some (f, l) →
    if f = l then (s f ↔ bitsVal α (pre st vars i) = 0) else
      ∃ b, f ≤ b ∧ b ≤ l ∧ (∀ c, f ≤ c → c ≤ l → (s c ↔ c = b)) ∧ bitsVal α (pre st vars i) = b - f

/-- The assignments that satisfy `f` are the encodings of the states in `X`. -/
def Represents (st : Nat) (vars : List (Nat × Nat)) (f : Bdd) (X : State → Prop) : Prop :=
  ∀ α, f α ↔ ∃ s, X s ∧ Encodes st vars α s

theorem encodes_iff {st n : Nat} {vars : List (Nat × Nat)} (hc : Contig 0 vars n) {α : Asg} {s : State} :
    Encodes st vars α s ↔ Consistent vars s ∧ Corr vars s (val st vars α) := by
  constructor
  · intro h
    refine ⟨fun v hv hlt => ?_, fun i f l hi => ?_⟩
    · obtain ⟨i, hi⟩ := List.mem_iff_getElem?.1 hv
      have := h i v.1 v.2 hi
      rw [if_neg (by omega)] at this
      obtain ⟨b, h1, h2, h3, -⟩ := this
      exact ⟨b, h1, h2, (h3 b h1 h2).2 rfl, fun c e1 e2 e3 => (h3 c e1 e2).1 e3⟩
    · have hfl := hc.get hi
      have := h i f l hi
      split at this
      · next e =>
        subst e
        have hlt := bitsVal_lt α (pre st vars i)
        rw [pre_length hi, show varLen (f, f) = 1 from by simp only [varLen, domSize, if_true]; decide] at hlt
        refine ⟨?_, fun v hv => ?_⟩
        · have hlt' : val st vars α i < 2 := hlt
          rcases Nat.eq_zero_or_pos (val st vars α i) with h0 | h0
          · exact .inl (by omega)
          · exact .inr ⟨rfl, by omega⟩
        · rw [show v = 0 from by omega]
          exact this
      · obtain ⟨b, h1, h2, h3, h4⟩ := this
        refine ⟨.inl (by simp only [val]; omega), fun v hv => ?_⟩
        rw [h3 (f + v) (by omega) (by omega)]
        simp only [val]
        omega
  · rintro ⟨hs, hcr⟩ i f l hi
    have hfl := hc.get hi
    obtain ⟨g1, g2⟩ := hcr i f l hi
    split
    · next e =>
      exact g2 0 (by omega)
    · next e =>
      obtain ⟨b, h1, h2, h3, h4⟩ := hs _ (List.mem_of_getElem? hi) (by simp only; omega)
      simp only at h1 h2 h4
      refine ⟨b, h1, h2, fun c e1 e2 => ⟨h4 c e1 e2, fun e => by rw [e]; exact h3⟩, ?_⟩
      exact (g2 (b - f) (by omega)).1 (by rw [show f + (b - f) = b from by omega]; exact h3)

theorem corr_congr {vars : List (Nat × Nat)} {s : State} {σ σ' : Val} (h : Corr vars s σ) (he : ∀ v < vars.length, σ' v = σ v) :
    Corr vars s σ' := by
  intro i f l hi
  rw [he i (List.getElem?_eq_some_iff.1 hi).1]
  exact h i f l hi

theorem val_congr {st : Nat} {vars : List (Nat × Nat)} {α β : Asg} (h : ∀ v, v % st = 0 → α v = β v) : val st vars α = val st vars β := by
  funext i
  exact bitsVal_congr _ fun v hv => h v (pre_mod hv)

theorem Represents.freeEff {st n : Nat} (h2 : 2 ≤ st) {vars : List (Nat × Nat)} (hc : Contig 0 vars n) {f : Bdd} {X : State → Prop}
    (h : Represents st vars f X) : FreeEff st f := by
  intro α β hab
  rw [h, h]
  refine exists_congr fun s => and_congr Iff.rfl ?_
  rw [encodes_iff hc, encodes_iff hc, val_congr fun v hv => hab v (by omega)]

variable {P : Problem} {vars : List (Nat × Nat)} {st : Nat}

/-- What the symbolic planner needs to know about the variables: they partition the facts, and no action adds and deletes the
fact of a variable with a single fact. -/
structure SymVarsOK (P : Problem) (vars : List (Nat × Nat)) : Prop where
  contig : Contig 0 vars P.numFacts
  noClash : ∀ a, ∀ f ∈ P.add a, f ∈ P.del a → (f, f) ∉ vars

theorem SymVarsOK.alone (h : SymVarsOK P vars) : ∀ a, ∀ f ∈ P.add a, f ∈ P.del a → bitAlone vars f = false := by
  intro a f h1 h2
  by_contra h3
  simp only [bitAlone, Bool.not_eq_false, List.any_eq_true, Bool.and_eq_true, beq_iff_eq] at h3
  obtain ⟨v, h4, h5, h6⟩ := h3
  refine h.noClash a f h1 h2 ?_
  rw [show (f, f) = v from Prod.ext h6.symm (by omega)]
  exact h4

/-- C70: the image of a set of states under an action is the set of the states after the action, for all states in which it is
applicable, provided that the action does not leave the states in which exactly one fact of every variable with several facts
holds. -/
theorem C70_image (hst : st = 2 ∨ st = 3) (hP : P.WF) (hv : SymVarsOK P vars) {a : Nat} {f : Bdd} {X : State → Prop}
    (hf : Represents st vars f X) (hcons : ∀ s, X s → Consistent vars s → P.Applicable s a → Consistent vars (P.result s a)) :
    Represents st vars (image st P vars a f)
      (fun s' => ∃ s, X s ∧ Consistent vars s ∧ P.Applicable s a ∧ s' = P.result s a) := by
  have h2 : 2 ≤ st := by omega
  intro α'
  rw [image_iff h2 hv.contig (hf.freeEff h2 hv.contig)]
  constructor
  · rintro ⟨α, h1, -, h3, h4⟩
    obtain ⟨s, hX, he⟩ := (hf α).1 h1
    rw [encodes_iff hv.contig] at he
    have ha := (he.2.applicable hP hv.contig a).1 h3
    have hr := hcons s hX he.1 ha
    exact ⟨_, ⟨s, hX, he.1, ha, rfl⟩, (encodes_iff hv.contig).2 ⟨hr, corr_congr (he.2.result hP hv.contig hv.alone hr) h4⟩⟩
  · rintro ⟨_, ⟨s, hX, hs, ha, rfl⟩, he⟩
    rw [encodes_iff hv.contig] at he
    obtain ⟨α₀, h0⟩ := exists_corr_asg (st := st) (by omega) hv.contig hs
    have hval : val st vars (fun v => if v % st = 0 ∧ ∃ i < vars.length, v ∈ pre st vars i then α₀ v else α' v) = val st vars α₀ := by
      funext i
      refine bitsVal_congr _ fun v hv' => ?_
      have hi : i < vars.length := by
        by_contra hi
        rw [pre_nil (by omega)] at hv'
        simp at hv'
      rw [if_pos ⟨pre_mod hv', i, hi, hv'⟩]
    refine ⟨fun v => if v % st = 0 ∧ ∃ i < vars.length, v ∈ pre st vars i then α₀ v else α' v, ?_, ?_, ?_, ?_⟩
    · exact (hf _).2 ⟨s, hX, (encodes_iff hv.contig).2 ⟨hs, by rw [hval]; exact h0⟩⟩
    · intro v hn
      have : ¬ (v % st = 0 ∧ ∃ i < vars.length, v ∈ pre st vars i) := by
        rintro ⟨-, i, hi, h⟩
        exact hn i hi h
      simp only [this, if_false]
    · rw [hval]
      exact (h0.applicable hP hv.contig a).2 ha
    · intro i hi
      rw [hval]
      exact he.2.val_eq hv.contig (h0.result hP hv.contig hv.alone he.1) hi

/-- C70: a state is in the preimage of a set iff the action is applicable and leads into the set. -/
theorem C70_preimage (hst : st = 2 ∨ st = 3) (hP : P.WF) (hv : SymVarsOK P vars) {a : Nat} {f : Bdd} {X : State → Prop}
    (hf : Represents st vars f X) {α : Asg} {s : State} (he : Encodes st vars α s)
    (hcons : P.Applicable s a → Consistent vars (P.result s a)) :
    preimage st P vars a f α ↔ P.Applicable s a ∧ ∃ s', X s' ∧ ∀ b < P.numFacts, s' b ↔ P.result s a b := by
  have h2 : 2 ≤ st := by omega
  rw [encodes_iff hv.contig] at he
  rw [preimage_iff h2 hv.contig (hf.freeEff h2 hv.contig)]
  constructor
  · rintro ⟨α', h1, -, h3, h4⟩
    have ha := (he.2.applicable hP hv.contig a).1 h3
    have hr := hcons ha
    obtain ⟨s', hX, he'⟩ := (hf α').1 h1
    rw [encodes_iff hv.contig] at he'
    have hr' := corr_congr (he.2.result hP hv.contig hv.alone hr) h4
    refine ⟨ha, s', hX, fun b hb => ?_⟩
    obtain ⟨p, e1, e2⟩ := he'.2.fact hv.contig hb
    obtain ⟨p', e3, e4⟩ := hr'.fact hv.contig hb
    rw [e1] at e3
    cases e3
    exact e2.trans e4.symm
  · rintro ⟨ha, s', hX, hsame⟩
    have hr := hcons ha
    have hcr := he.2.result hP hv.contig hv.alone hr
    have hs' : Consistent vars s' := by
      intro v hv' hlt
      obtain ⟨i, hi⟩ := List.mem_iff_getElem?.1 hv'
      have hg := hv.contig.get (f := v.1) (l := v.2) hi
      obtain ⟨b, e1, e2, e3, e4⟩ := hr v hv' hlt
      exact ⟨b, e1, e2, (hsame b (by omega)).2 e3, fun c k1 k2 k3 => e4 c k1 k2 ((hsame c (by omega)).1 k3)⟩
    obtain ⟨α₀, h0⟩ := exists_corr_asg (st := st) (by omega) hv.contig hs'
    have hval : val st vars (fun v => if v % st = 0 ∧ ∃ i < vars.length, v ∈ pre st vars i then α₀ v else α v) = val st vars α₀ := by
      funext i
      refine bitsVal_congr _ fun v hv' => ?_
      have hi : i < vars.length := by
        by_contra hi
        rw [pre_nil (by omega)] at hv'
        simp at hv'
      rw [if_pos ⟨pre_mod hv', i, hi, hv'⟩]
    refine ⟨fun v => if v % st = 0 ∧ ∃ i < vars.length, v ∈ pre st vars i then α₀ v else α v, ?_, ?_, ?_, ?_⟩
    · exact (hf _).2 ⟨s', hX, (encodes_iff hv.contig).2 ⟨hs', by rw [hval]; exact h0⟩⟩
    · intro v hn
      have : ¬ (v % st = 0 ∧ ∃ i < vars.length, v ∈ pre st vars i) := by
        rintro ⟨-, i, hi, h⟩
        exact hn i hi h
      simp only [this, if_false]
    · exact (he.2.applicable hP hv.contig a).2 ha
    · intro i hi
      rw [hval]
      have h0' : Corr vars (P.result s a) (val st vars α₀) := by
        intro i f l hi
        have hg := hv.contig.get hi
        obtain ⟨g1, g2⟩ := h0 i f l hi
        exact ⟨g1, fun w hw => (hsame (f + w) (by omega)).symm.trans (g2 w hw)⟩
      exact h0'.val_eq hv.contig hcr hi

/-- C70: the BDD of the initial state. -/
theorem C70_init (hP : P.WF) (hv : SymVarsOK P vars) (hs : Consistent vars P.initState) :
    Represents st vars (stateBdd st vars P.s0) (· = P.initState) := by
  intro α
  rw [stateBdd_iff hv.contig hP.s0_lt hs]
  constructor
  · exact fun h => ⟨_, rfl, (encodes_iff hv.contig).2 ⟨hs, h⟩⟩
  · rintro ⟨_, rfl, h⟩
    exact ((encodes_iff hv.contig).1 h).2

/-- C70: the BDD of the goal. -/
theorem C70_goal (hP : P.WF) (hv : SymVarsOK P vars) {α : Asg} {s : State} (he : Encodes st vars α s) :
    partialBdd st vars P.goal α ↔ P.GoalState s := by
  rw [encodes_iff hv.contig] at he
  rw [partialBdd, val_pair]
  exact he.2.holds hv.contig hP.goal_lt

/-- Every consistent state has an encoding, and it determines the facts. -/
theorem C70_encoding (hst : st = 2 ∨ st = 3) (hv : SymVarsOK P vars) :
    (∀ s, Consistent vars s → ∃ α, Encodes st vars α s) ∧
    ∀ α s s', Encodes st vars α s → Encodes st vars α s' → ∀ b < P.numFacts, s b ↔ s' b := by
  constructor
  · intro s hs
    obtain ⟨α, h⟩ := exists_corr_asg (st := st) (by omega) hv.contig hs
    exact ⟨α, (encodes_iff hv.contig).2 ⟨hs, h⟩⟩
  · intro α s s' h h' b hb
    rw [encodes_iff hv.contig] at h h'
    obtain ⟨p, e1, e2⟩ := h.2.fact hv.contig hb
    obtain ⟨p', e3, e4⟩ := h'.2.fact hv.contig hb
    rw [e1] at e3
    cases e3
    exact e2.trans e4.symm

/-! ## A concrete case -/

/-- Facts 0 (a variable of its own) and 1-3 (a variable with three values).  Action 0 adds fact 2 and deletes facts 0 and 1. -/
def symP : Problem where
  numFacts := 4
  prim := fun t => t == 0
  prec := fun a => if a = 0 then [0] else []
  add := fun a => if a = 0 then [2] else []
  del := fun a => if a = 0 then [0, 1] else []
  cost := fun _ => 1
  numMethods := 1
  head := fun _ => 1
  sub := fun _ => [0]
  ord := fun _ => []
  init := 1
  s0 := [0, 1]
  goal := [2]

theorem symP_WF : symP.WF where
  ord_lt := by intro m _ i j h; simp [symP] at h
  ord_acyclic := fun m _ => ⟨fun _ => 0, by intro i j h; simp [symP] at h⟩
  sub_ne := by intro m _; simp [symP]
  head_abs := by intro m _; rfl
  init_abs := rfl
  prec_lt := by intro a f h; simp only [symP] at h; split at h <;> simp_all [symP]
  add_lt := by intro a f h; simp only [symP] at h; split at h <;> simp_all [symP]
  del_lt := by intro a f h; simp only [symP] at h; split at h <;> simp_all [symP] <;> omega
  s0_lt := by simp [symP]
  goal_lt := by simp [symP]

theorem symP_vars : SymVarsOK symP [(0, 0), (1, 3)] where
  contig := by simp [Contig, symP]
  noClash := by
    intro a f h h'
    simp only [symP] at h h'
    split at h
    · simp only [List.mem_singleton] at h
      subst h
      simp
    · simp at h

theorem symP_cons : Consistent [(0, 0), (1, 3)] symP.initState := by
  intro v hv hlt
  simp only [List.mem_cons, List.not_mem_nil, or_false] at hv
  rcases hv with rfl | rfl
  · simp at hlt
  · refine ⟨1, by simp, by simp, by simp [Problem.initState, symP], fun c h1 h2 h3 => ?_⟩
    simp only [Problem.initState, symP, List.mem_cons, List.not_mem_nil, or_false] at h3
    simp only at h1
    omega

/-- The hypotheses of `C70_image` hold: the image of the initial state is the state with the fact 2 only. -/
example : Represents 3 [(0, 0), (1, 3)] (image 3 symP [(0, 0), (1, 3)] 0 (stateBdd 3 [(0, 0), (1, 3)] symP.s0))
    (fun s' => ∃ s, s = symP.initState ∧ Consistent [(0, 0), (1, 3)] s ∧ symP.Applicable s 0 ∧ s' = symP.result s 0) :=
  C70_image (.inr rfl) symP_WF symP_vars (C70_init symP_WF symP_vars symP_cons) (by
    rintro s rfl _ _ v hv hlt
    simp only [List.mem_cons, List.not_mem_nil, or_false] at hv
    rcases hv with rfl | rfl
    · simp at hlt
    · refine ⟨2, by simp, by simp, .inl (by simp [symP]), fun c h1 h2 h3 => ?_⟩
      simp only [Problem.result, Problem.initState, symP, if_true, List.mem_cons, List.not_mem_nil, or_false] at h3
      simp only at h1
      omega)

/-! ## What is violated -/

/-- The problem with one fact; action 0 adds and deletes it. -/
def symClashP : Problem :=
  { symP with numFacts := 1, prec := fun _ => [], add := fun a => if a = 0 then [0] else [],
              del := fun a => if a = 0 then [0] else [], s0 := [], goal := [0] }

/-- C70, violated: if an action adds and deletes the fact of a variable with a single fact, the image is the state without the
fact, while the fact holds after the action (`Problem.result`, as in progression search). -/
theorem C70_clash_violated : symClashP.WF ∧ Contig 0 [(0, 0)] symClashP.numFacts ∧
    Represents 3 [(0, 0)] (stateBdd 3 [(0, 0)] symClashP.s0) (· = symClashP.initState) ∧
    symClashP.Applicable symClashP.initState 0 ∧ symClashP.result symClashP.initState 0 0 ∧
    ∀ α s, image 3 symClashP [(0, 0)] 0 (stateBdd 3 [(0, 0)] symClashP.s0) α → Encodes 3 [(0, 0)] α s → ¬ s 0 := by
  have hW : symClashP.WF :=
    { symP_WF with
      prec_lt := by intro a f h; simp [symClashP] at h
      add_lt := by intro a f h; simp only [symClashP] at h; split at h <;> simp_all [symClashP]
      del_lt := by intro a f h; simp only [symClashP] at h; split at h <;> simp_all [symClashP]
      s0_lt := by simp [symClashP]
      goal_lt := by simp [symClashP] }
  have hc : Contig 0 [(0, 0)] symClashP.numFacts := by simp [Contig, symClashP]
  have hs : Consistent [(0, 0)] symClashP.initState := by
    intro v hv hlt
    simp only [List.mem_singleton] at hv
    subst hv
    simp at hlt
  have hrep : Represents 3 [(0, 0)] (stateBdd 3 [(0, 0)] symClashP.s0) (· = symClashP.initState) := by
    intro α
    rw [stateBdd_iff hc hW.s0_lt hs]
    constructor
    · exact fun h => ⟨_, rfl, (encodes_iff hc).2 ⟨hs, h⟩⟩
    · rintro ⟨_, rfl, h⟩
      exact ((encodes_iff hc).1 h).2
  refine ⟨hW, hc, hrep, by simp [Problem.Applicable, symClashP], .inl (by simp [symClashP]), ?_⟩
  intro α s h he hs0
  rw [image_iff (by omega) hc (hrep.freeEff (by omega) hc)] at h
  obtain ⟨β, -, -, -, h4⟩ := h
  have h5 := h4 0 (by simp)
  have h6 : bitsVal α (pre 3 [(0, 0)] 0) = 0 := by
    have := he 0 0 0 rfl
    rw [if_pos rfl] at this
    exact this.1 hs0
  rw [assign_eq, show lastVal 0 (addV [(0, 0)] symClashP 0) = some 1 from by decide +kernel] at h5
  simp only [val, h6, Option.getD_some] at h5
  omega

/-- A problem with a variable with two values, facts 0 and 1, none of which holds initially. -/
def symNoneP : Problem := { symP with numFacts := 2, prec := fun _ => [], add := fun _ => [], del := fun _ => [], s0 := [], goal := [1] }

/-- C70, violated: if no fact of a variable with several facts holds initially, the planner starts with the state in which its
second fact holds.  Here the goal holds in that state, but not in the initial state. -/
theorem C70_no_value_violated : symNoneP.WF ∧ Contig 0 [(0, 1)] symNoneP.numFacts ∧ ¬ symNoneP.GoalState symNoneP.initState ∧
    (∃ α, stateBdd 3 [(0, 1)] symNoneP.s0 α) ∧ ∀ α, stateBdd 3 [(0, 1)] symNoneP.s0 α → partialBdd 3 [(0, 1)] symNoneP.goal α := by
  refine ⟨{ symP_WF with
      prec_lt := by intro a f h; simp [symNoneP] at h
      add_lt := by intro a f h; simp [symNoneP] at h
      del_lt := by intro a f h; simp [symNoneP] at h
      s0_lt := by simp [symNoneP]
      goal_lt := by simp [symNoneP] }, by simp [Contig, symNoneP], by simp [Problem.GoalState, Problem.initState, symNoneP], ?_, ?_⟩
  · refine ⟨fun _ => true, by simp [symNoneP], fun i hi _ => ?_⟩
    obtain rfl : i = 0 := by simpa using hi
    rw [gen_iff _ _ _ (by decide +kernel)]
    decide +kernel
  · rintro α ⟨-, h⟩ p hp
    have : p = (0, 1) := by
      have e : symNoneP.goal.filterMap (conv [(0, 1)]) = [(0, 1)] := by decide +kernel
      rw [e] at hp
      simpa using hp
    subst this
    exact h 0 (by simp) (by simp [symNoneP])

end Verif.Props
