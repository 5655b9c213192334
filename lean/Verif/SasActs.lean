import Verif.SasVars
import Verif.HtnLemmas

/-! # States and actions after `sasPlus`

The preconditions and effects as variable/value pairs, and proofs that they describe the actions of the problem. -/

namespace Verif.Sas

open Verif.Htn

/-- All pairs hold. -/
def Holds (σ : Val) (l : List (Nat × Nat)) : Prop := ∀ p ∈ l, σ p.1 = p.2

/-- The values are assigned one after the other. -/
def assign (σ : Val) (l : List (Nat × Nat)) : Val := l.foldl (fun σ p => Function.update σ p.1 p.2) σ

/-- The last value that a list assigns to a variable. -/
def lastVal (i : Nat) : List (Nat × Nat) → Option Nat
  | [] => none
  | p :: r => match lastVal i r with
    | some v => some v
    | none => if p.1 = i then some p.2 else none

theorem assign_eq (σ : Val) (l : List (Nat × Nat)) (i : Nat) : assign σ l i = (lastVal i l).getD (σ i) := by
  induction l generalizing σ with
  | nil => rfl
  | cons p r ih =>
    rw [show assign σ (p :: r) = assign (Function.update σ p.1 p.2) r from rfl, ih, lastVal]
    cases lastVal i r with
    | some v => rfl
    | none =>
      by_cases h : p.1 = i
      · subst h; simp
      · simp [h, Function.update_of_ne (Ne.symm h)]

theorem lastVal_mem {i v : Nat} {l : List (Nat × Nat)} (h : lastVal i l = some v) : (i, v) ∈ l := by
  induction l with
  | nil => simp [lastVal] at h
  | cons p r ih =>
    rw [lastVal] at h
    cases e : lastVal i r with
    | some w => exact .tail _ (ih (by simpa [e] using h))
    | none =>
      simp only [e] at h
      split at h
      · rename_i hp
        cases h; subst hp
        exact .head _
      · cases h

theorem lastVal_none {i : Nat} {l : List (Nat × Nat)} : lastVal i l = none ↔ ∀ p ∈ l, p.1 ≠ i := by
  induction l with
  | nil => simp [lastVal]
  | cons p r ih =>
    rw [lastVal]
    cases e : lastVal i r with
    | some w =>
      have := lastVal_mem e
      simp only [reduceCtorEq, List.mem_cons, forall_eq_or_imp, false_iff, not_and]
      intro _ h
      exact h _ this rfl
    | none =>
      have := ih.1 e
      simp only [ite_eq_right_iff, reduceCtorEq, imp_false, List.mem_cons, forall_eq_or_imp]
      exact ⟨fun h => ⟨h, this⟩, fun h => h.1⟩

theorem lastVal_append (i : Nat) (l r : List (Nat × Nat)) : lastVal i (l ++ r) = (lastVal i r).or (lastVal i l) := by
  induction l with
  | nil => simp [lastVal]
  | cons p l ih =>
    rw [List.cons_append, lastVal, ih, lastVal]
    cases lastVal i r <;> simp

theorem assign_append (σ : Val) (l r : List (Nat × Nat)) : assign σ (l ++ r) = assign (assign σ l) r := by
  simp [assign]

/-- The preconditions of an action. -/
def precV (vars : List (Nat × Nat)) (P : Problem) (a : Nat) : List (Nat × Nat) := (P.prec a).filterMap (conv vars)

/-- The effects of an action: its adds, and the second value of the variables whose only fact is deleted. -/
def addV (vars : List (Nat × Nat)) (P : Problem) (a : Nat) : List (Nat × Nat) :=
  (P.add a).filterMap (conv vars) ++ ((P.del a).filter (bitAlone vars)).filterMap fun b => (varIdx vars b).map fun i => (i, 1)

/-- `SP` describes the problem. -/
structure SPok (P : Problem) (vars : List (Nat × Nat)) (SP : SasP) : Prop where
  contig : ∃ n, Contig 0 SP.vars n
  len : SP.vars.length = vars.length
  size : ∀ (i f l : Nat), vars[i]? = some (f, l) →
    ∃ f' l', SP.vars[i]? = some (f', l') ∧ f' ≤ l' ∧ l' - f' = l - f + if f = l then 1 else 0
  prec : ∀ a, (SP.prec a).map (conv SP.vars) = (precV vars P a).map some
  add : ∀ a, (SP.add a).map (conv SP.vars) = (addV vars P a).map some
  goal : SP.goal.map (conv SP.vars) = (P.goal.filterMap (conv vars)).map some

theorem map_filterMap {α β : Type*} {f g : α → Option β} {l : List α} (h : ∀ x ∈ l, (g x).isSome ∧ f x = g x) :
    l.map f = (l.filterMap g).map some := by
  induction l with
  | nil => rfl
  | cons x r ih =>
    obtain ⟨h1, h2⟩ := h x (.head _)
    obtain ⟨y, hy⟩ := Option.isSome_iff_exists.1 h1
    rw [List.map_cons, List.filterMap_cons, hy, List.map_cons, h2, hy, ih fun z hz => h z (.tail _ hz)]

theorem sasPlus_ok {P : Problem} {vars : List (Nat × Nat)} (hP : P.WF) (hc : Contig 0 vars P.numFacts) {SP : SasP}
    (h : sasPlus P vars = some SP) : SPok P vars SP := by
  have hex : ∀ b < P.numFacts, ∃ i f l : Nat, varIdx vars b = some i ∧ vars[i]? = some (f, l) ∧ f ≤ b ∧ b ≤ l :=
    fun b hb => varIdx_exists hc (Nat.zero_le _) hb
  rw [sasPlus] at h
  split at h
  · cases h
  split at h
  · cases e : s0ListSP vars P.s0 with
    | none => simp [e] at h
    | some s0 =>
      simp only [e, Option.map_some, Option.some.injEq] at h
      subst h
      have hcv : ∀ b < P.numFacts, (conv vars b).isSome ∧
          conv ((spVars 0 vars).map fun v => (v.1, v.2.1)) (bitsToSP vars b) = conv vars b := by
        intro b hb
        obtain ⟨i, f, l, h1, h2, h3, h4⟩ := hex b hb
        rw [conv_eq hc h2 h3 h4, (bitsToSP_conv hc h2 h3 h4).1]
        exact ⟨rfl, rfl⟩
      refine ⟨by simpa using spVars_contig 0 hc, by simp [spVars_length], fun i f l hi => ?_, fun a => ?_, fun a => ?_, ?_⟩
      · obtain ⟨o, ho⟩ := spVars_get 0 vars hi
        have := hc.get hi
        refine ⟨f + o, if f = l then l + o + 1 else l + o, by simp [ho], by split <;> omega, by split <;> omega⟩
      · rw [List.map_map, precV]
        exact map_filterMap fun b hb => hcv b (hP.prec_lt a b hb)
      · rw [List.map_append, addV, List.map_append, List.map_map, List.map_map]
        congr 1
        · exact map_filterMap fun b hb => hcv b (hP.add_lt a b hb)
        · refine map_filterMap fun b hb => ?_
          rw [List.mem_filter] at hb
          obtain ⟨i, f, l, h1, h2, h3, h4⟩ := hex b (hP.del_lt a b hb.1)
          refine ⟨by simp [h1], ?_⟩
          simp only [Function.comp, h1, Option.map_some]
          exact (bitsToSP_conv hc h2 h3 h4).2 ((bitAlone_iff hc h2 h3 h4).1 hb.2)
      · rw [List.map_map]
        exact map_filterMap fun b hb => hcv b (hP.goal_lt b hb)
  · rename_i hns
    simp only [Option.some.injEq] at h
    subst h
    have hcv : ∀ b < P.numFacts, (conv vars b).isSome ∧ conv vars b = conv vars b := by
      intro b hb
      obtain ⟨i, f, l, h1, h2, h3, h4⟩ := hex b hb
      rw [conv_eq hc h2 h3 h4]
      exact ⟨rfl, rfl⟩
    have hmul : ∀ i f l : Nat, vars[i]? = some (f, l) → f ≠ l := by
      intro i f l hi hfl
      apply hns
      rw [hasSingle, List.any_eq_true]
      exact ⟨_, List.mem_of_getElem? hi, by simp [hfl]⟩
    refine ⟨⟨_, hc⟩, rfl, fun i f l hi => ?_, fun a => ?_, fun a => ?_, ?_⟩
    · have := hc.get hi
      exact ⟨f, l, hi, this.2.1, by simp [hmul i f l hi]⟩
    · exact map_filterMap fun b hb => hcv b (hP.prec_lt a b hb)
    · have : (P.del a).filter (bitAlone vars) = [] := by
        rw [List.filter_eq_nil_iff]
        intro b hb hal
        obtain ⟨i, f, l, h1, h2, h3, h4⟩ := hex b (hP.del_lt a b hb)
        exact hmul i f l h2 ((bitAlone_iff hc h2 h3 h4).1 hal)
      rw [addV, this]
      simp only [List.filterMap_nil, List.append_nil]
      exact map_filterMap fun b hb => hcv b (hP.add_lt a b hb)
    · exact map_filterMap fun b hb => hcv b (hP.goal_lt b hb)

/-! ## Corresponding states -/

theorem Corr.fact {vars : List (Nat × Nat)} {n : Nat} (hc : Contig 0 vars n) {s : State} {σ : Val} (h : Corr vars s σ) {b : Nat}
    (hb : b < n) : ∃ p, conv vars b = some p ∧ (s b ↔ σ p.1 = p.2) := by
  obtain ⟨i, f, l, h1, h2, h3, h4⟩ := varIdx_exists hc (Nat.zero_le _) hb
  refine ⟨(i, b - f), conv_eq hc h2 h3 h4, ?_⟩
  have := (h i f l h2).2 (b - f) (by omega)
  rwa [show f + (b - f) = b from by omega] at this

theorem Corr.holds {vars : List (Nat × Nat)} {n : Nat} (hc : Contig 0 vars n) {s : State} {σ : Val} (h : Corr vars s σ)
    {l : List Nat} (hl : ∀ b ∈ l, b < n) : Holds σ (l.filterMap (conv vars)) ↔ ∀ b ∈ l, s b := by
  constructor
  · intro hh b hb
    obtain ⟨p, h1, h2⟩ := h.fact hc (hl b hb)
    exact h2.2 (hh p (List.mem_filterMap.2 ⟨b, hb, h1⟩))
  · intro hh p hp
    obtain ⟨b, hb, h1⟩ := List.mem_filterMap.1 hp
    obtain ⟨p', h1', h2⟩ := h.fact hc (hl b hb)
    rw [h1] at h1'
    cases h1'
    exact h2.1 (hh b hb)

theorem Corr.applicable {P : Problem} (hP : P.WF) {vars : List (Nat × Nat)} (hc : Contig 0 vars P.numFacts) {s : State} {σ : Val}
    (h : Corr vars s σ) (a : Nat) : Holds σ (precV vars P a) ↔ P.Applicable s a := h.holds hc (hP.prec_lt a)

/-- Exactly one value describes a consistent state. -/
theorem Consistent.exists_corr {vars : List (Nat × Nat)} {n : Nat} (hc : Contig 0 vars n) {s : State} (hs : Consistent vars s) :
    ∃ σ, Corr vars s σ := by
  classical
  have : ∀ i : Nat, ∃ v : Nat, ∀ f l : Nat, vars[i]? = some (f, l) →
      (v ≤ l - f ∨ f = l ∧ v = 1) ∧ ∀ w, w ≤ l - f → (s (f + w) ↔ v = w) := by
    intro i
    cases hi : vars[i]? with
    | none => exact ⟨0, by simp⟩
    | some x =>
      obtain ⟨f, l⟩ := x
      have hfl := hc.get hi
      rcases Nat.lt_or_ge f l with hlt | hge
      · obtain ⟨b, h1, h2, h3, h4⟩ := hs _ (List.mem_of_getElem? hi) hlt
        refine ⟨b - f, ?_⟩
        simp only [Option.some.injEq, Prod.mk.injEq, and_imp]
        rintro f' l' rfl rfl
        simp only at h1 h2 h4
        refine ⟨.inl (by omega), fun w hw => ⟨fun hsw => ?_, fun e => ?_⟩⟩
        · have := h4 (f + w) (by omega) (by omega) hsw
          omega
        · rw [show f + w = b from by omega]
          exact h3
      · refine ⟨if s f then 0 else 1, ?_⟩
        simp only [Option.some.injEq, Prod.mk.injEq, and_imp]
        rintro f' l' rfl rfl
        refine ⟨by split <;> omega, fun w hw => ?_⟩
        obtain rfl : w = 0 := by omega
        by_cases hsf : s f <;> simp [hsf]
  choose σ hσ using this
  exact ⟨σ, hσ⟩

theorem Corr.val_eq {vars : List (Nat × Nat)} {n : Nat} (hc : Contig 0 vars n) {s : State} {σ σ' : Val} (h : Corr vars s σ)
    (h' : Corr vars s σ') {i : Nat} (hi : i < vars.length) : σ i = σ' i := by
  obtain ⟨⟨f, l⟩, hv⟩ : ∃ v, vars[i]? = some v := ⟨_, List.getElem?_eq_getElem hi⟩
  obtain ⟨h1, h2⟩ := h i f l hv
  obtain ⟨h1', h2'⟩ := h' i f l hv
  by_cases hle : σ i ≤ l - f
  · exact ((h2' _ hle).1 ((h2 _ hle).2 rfl)).symm
  · by_cases hle' : σ' i ≤ l - f
    · exact ((h2 _ hle').1 ((h2' _ hle').2 rfl))
    · omega

/-- The effects of an action lead to the state after the action. -/
theorem Corr.result {P : Problem} (hP : P.WF) {vars : List (Nat × Nat)} (hc : Contig 0 vars P.numFacts)
    (hno : ∀ a, ∀ f ∈ P.add a, f ∈ P.del a → bitAlone vars f = false) {s : State} {σ : Val} (h : Corr vars s σ) {a : Nat}
    (hs : Consistent vars (P.result s a)) : Corr vars (P.result s a) (assign σ (addV vars P a)) := by
  intro i f l hi
  have hfl := hc.get hi
  have hcv : ∀ b, f ≤ b → b ≤ l → conv vars b = some (i, b - f) := fun b h1 h2 => conv_eq hc hi h1 h2
  obtain ⟨g1, g2⟩ := h i f l hi
  -- a pair of the adds in this variable
  have hadd : ∀ v, (i, v) ∈ (P.add a).filterMap (conv vars) → v ≤ l - f ∧ f + v ∈ P.add a := by
    intro v hv
    obtain ⟨b, hb, e⟩ := List.mem_filterMap.1 hv
    obtain ⟨f', l', e1, e2, e3, e4⟩ := conv_some e
    rw [hi] at e1
    cases e1
    exact ⟨by omega, by rw [← e4]; exact hb⟩
  have hdel : ∀ v, (i, v) ∈ (((P.del a).filter (bitAlone vars)).filterMap fun b => (varIdx vars b).map fun i => (i, 1)) →
      v = 1 ∧ f = l ∧ f ∈ P.del a := by
    intro v hv
    obtain ⟨b, hb, e⟩ := List.mem_filterMap.1 hv
    rw [List.mem_filter] at hb
    cases e' : varIdx vars b with
    | none => simp [e'] at e
    | some j =>
      simp only [e', Option.map_some, Option.some.injEq, Prod.mk.injEq] at e
      obtain ⟨rfl, rfl⟩ := e
      obtain ⟨f', l', e1, e2, e3⟩ := varIdx_some e'
      rw [hi] at e1
      cases e1
      have := (bitAlone_iff hc hi e2 e3).1 hb.2
      exact ⟨rfl, this, by rw [show f = b from by omega]; exact hb.1⟩
  have hmemadd : ∀ v, v ≤ l - f → f + v ∈ P.add a → (i, v) ∈ (P.add a).filterMap (conv vars) := by
    intro v hv hm
    refine List.mem_filterMap.2 ⟨f + v, hm, ?_⟩
    rw [hcv _ (by omega) (by omega)]
    congr 2
    omega
  have hmemdel : f = l → f ∈ P.del a →
      (i, 1) ∈ (((P.del a).filter (bitAlone vars)).filterMap fun b => (varIdx vars b).map fun i => (i, 1)) := by
    intro e hm
    refine List.mem_filterMap.2 ⟨f, List.mem_filter.2 ⟨hm, (bitAlone_iff hc hi (le_refl _) hfl.2.1).2 e⟩, ?_⟩
    rw [varIdx_eq hc hi (le_refl _) hfl.2.1]
    rfl
  rw [assign_eq]
  rcases Nat.lt_or_ge f l with hlt | hge
  · -- several facts: exactly one holds afterwards
    obtain ⟨b, h1, h2, h3, h4⟩ := hs _ (List.mem_of_getElem? hi) hlt
    simp only at h1 h2 h4
    have hval : (lastVal i (addV vars P a)).getD (σ i) = b - f := by
      cases e : lastVal i (addV vars P a) with
      | some v =>
        have hv := lastVal_mem e
        rw [addV, List.mem_append] at hv
        rcases hv with hv | hv
        · obtain ⟨k1, k2⟩ := hadd v hv
          have := h4 (f + v) (by omega) (by omega) (.inl k2)
          simp only [Option.getD_some]
          omega
        · have := (hdel v hv).2.1
          omega
      | none =>
        rw [lastVal_none] at e
        simp only [Option.getD_none]
        rcases h3 with h3 | ⟨h3, -⟩
        · exact absurd rfl (e (i, b - f) (List.mem_append_left _ (hmemadd (b - f) (by omega) (by
            rwa [show f + (b - f) = b from by omega]))))
        · exact (g2 (b - f) (by omega)).1 (by rwa [show f + (b - f) = b from by omega])
    rw [hval]
    refine ⟨.inl (by omega), fun v hv => ⟨fun hr => ?_, fun e => ?_⟩⟩
    · have := h4 (f + v) (by omega) (by omega) hr
      omega
    · rw [show f + v = b from by omega]
      exact h3
  · -- one fact
    obtain rfl : f = l := by omega
    have hal : bitAlone vars f = true := (bitAlone_iff hc hi (le_refl _) (le_refl _)).2 rfl
    by_cases hA : f ∈ P.add a
    · have hD : f ∉ P.del a := fun hd => by simp [hno a f hA hd] at hal
      have hval : lastVal i (addV vars P a) = some 0 := by
        cases e : lastVal i (addV vars P a) with
        | some v =>
          have hv := lastVal_mem e
          rw [addV, List.mem_append] at hv
          rcases hv with hv | hv
          · have := (hadd v hv).1
            congr 1
            omega
          · exact absurd (hdel v hv).2.2 hD
        | none =>
          rw [lastVal_none] at e
          exact absurd rfl (e (i, 0) (List.mem_append_left _ (hmemadd 0 (by omega) hA)))
      rw [hval]
      refine ⟨.inl (by simp), fun v hv => ?_⟩
      obtain rfl : v = 0 := by omega
      simp [Problem.result, hA]
    · by_cases hD : f ∈ P.del a
      · have hval : lastVal i (addV vars P a) = some 1 := by
          cases e : lastVal i (addV vars P a) with
          | some v =>
            have hv := lastVal_mem e
            rw [addV, List.mem_append] at hv
            rcases hv with hv | hv
            · obtain ⟨k1, k2⟩ := hadd v hv
              rw [show f + v = f from by omega] at k2
              exact absurd k2 hA
            · rw [(hdel v hv).1]
          | none =>
            rw [lastVal_none] at e
            exact absurd rfl (e (i, 1) (List.mem_append_right _ (hmemdel rfl hD)))
        rw [hval]
        refine ⟨.inr (by simp), fun v hv => ?_⟩
        obtain rfl : v = 0 := by omega
        simp [Problem.result, hA, hD]
      · have hval : lastVal i (addV vars P a) = none := by
          rw [lastVal_none]
          rintro ⟨j, v⟩ hp rfl
          rw [addV, List.mem_append] at hp
          rcases hp with hp | hp
          · obtain ⟨k1, k2⟩ := hadd v hp
            rw [show f + v = f from by omega] at k2
            exact hA k2
          · exact hD (hdel v hp).2.2
        rw [hval]
        refine ⟨by simpa using g1, fun v hv => ?_⟩
        have := g2 v hv
        obtain rfl : v = 0 := by omega
        simpa [Problem.result, hA, hD] using this

end Verif.Sas
