import Verif.SasActs
import Mathlib.Data.List.NodupEquivFin
import Mathlib.Data.Finset.Card

/-! # The initial state after `sasPlus` -/

namespace Verif.Sas

open Verif.Htn

theorem s0Search_eq {m : Nat} {vars : List (Nat × Nat)} (hc : Contig 0 vars m) {b i : Nat} (hb : varIdx vars b = some i) :
    ∀ n j, j ≤ i + 1 → i < j + n → j + n ≤ vars.length → s0Search vars b n j = some i := by
  obtain ⟨f, l, h1, h2, h3⟩ := varIdx_some hb
  intro n
  induction n with
  | zero =>
    intro j h4 h5 h6
    rw [s0Search, if_neg (by omega)]
    congr 1
    omega
  | succ n ih =>
    intro j h4 h5 h6
    obtain ⟨⟨f', l'⟩, hv⟩ : ∃ v, vars[j]? = some v := ⟨_, List.getElem?_eq_getElem (by omega)⟩
    rw [s0Search, hv]
    simp only
    rcases Nat.lt_or_ge i j with hij | hij
    · have := hc.mono hij h1 hv
      rw [if_pos (by omega), if_neg (by omega)]
      congr 1
      omega
    · have : f' ≤ f := by
        rcases Nat.lt_or_ge j i with hlt | hge
        · have := hc.mono hlt hv h1
          have := hc.get hv
          omega
        · obtain rfl : i = j := by omega
          rw [h1] at hv
          cases hv
          exact le_refl _
      rw [if_neg (by omega)]
      exact ih (j + 1) (by omega) (by omega) (by omega)

/-- The index that the search returns is below the number of true facts. -/
theorem s0Search_lt {vars : List (Nat × Nat)} {b : Nat} : ∀ n j i, s0Search vars b n j = some i → i < j + n := by
  intro n
  induction n with
  | zero =>
    intro j i h
    rw [s0Search] at h
    split at h
    · cases h
    · cases h; omega
  | succ n ih =>
    intro j i h
    rw [s0Search] at h
    split at h
    · cases h
    · split at h
      · split at h
        · cases h
        · cases h; omega
      · have := ih _ _ h
        omega

/-- Different true facts of a consistent state belong to different variables. -/
theorem Consistent.unique {m : Nat} {vars : List (Nat × Nat)} (hc : Contig 0 vars m) {s : State} (hs : Consistent vars s)
    {b c i : Nat} (hb : varIdx vars b = some i) (hc' : varIdx vars c = some i) (h1 : s b) (h2 : s c) : b = c := by
  obtain ⟨f, l, k1, k2, k3⟩ := varIdx_some hb
  obtain ⟨f', l', k1', k2', k3'⟩ := varIdx_some hc'
  rw [k1] at k1'
  cases k1'
  rcases Nat.lt_or_ge f l with hlt | hge
  · obtain ⟨x, -, -, -, hx⟩ := hs _ (List.mem_of_getElem? k1) hlt
    rw [hx b k2 k3 h1, hx c k2' k3' h2]
  · omega

theorem s0_length_le {P : Problem} (hP : P.WF) {vars : List (Nat × Nat)} (hin : SasInput P vars) : P.s0.length ≤ vars.length := by
  have hcons := hin.inv [] _ (.nil _)
  have hnd : P.s0.Nodup := hin.sorted.imp fun h => Nat.ne_of_lt h
  have hex : ∀ b ∈ P.s0, ∃ i f l : Nat, varIdx vars b = some i ∧ vars[i]? = some (f, l) ∧ f ≤ b ∧ b ≤ l :=
    fun b hb => varIdx_exists hin.contig (Nat.zero_le _) (hP.s0_lt b hb)
  have := Finset.card_le_card_of_injOn (s := P.s0.toFinset) (t := Finset.range vars.length) (fun b => (varIdx vars b).getD 0)
    (fun b hb => by
      obtain ⟨i, f, l, h1, h2, -⟩ := hex b (by simpa using hb)
      simp only [h1, Option.getD_some, Finset.coe_range, Set.mem_Iio]
      exact (List.getElem?_eq_some_iff.1 h2).1)
    (fun b hb c hc heq => by
      have hb : b ∈ P.s0 := by simpa using hb
      have hc : c ∈ P.s0 := by simpa using hc
      obtain ⟨i, f, l, h1, h2, -⟩ := hex b hb
      obtain ⟨j, f', l', h1', h2', -⟩ := hex c hc
      simp only [h1, h1', Option.getD_some] at heq
      subst heq
      exact hcons.unique hin.contig h1 h1' hb hc)
  rwa [List.toFinset_card_of_nodup hnd, Finset.card_range] at this

/-- What the second loop of `s0ListSP` writes. -/
theorem s0Fold {n : Nat} {vars : List (Nat × Nat)} (init : List Nat) (l : List Nat)
    (hidx : ∀ b ∈ l, ∃ i, varIdx vars b = some i ∧ s0Search vars b n 0 = some i ∧ i < init.length)
    (huniq : ∀ b ∈ l, ∀ c ∈ l, varIdx vars b = varIdx vars c → b = c) :
    ∃ R, l.foldlM (fun acc b => (s0Search vars b n 0).map fun j => acc.set j (bitsToSP vars b)) init = some R ∧
      R.length = init.length ∧ (∀ i, (∀ b ∈ l, varIdx vars b ≠ some i) → R[i]? = init[i]?) ∧
      ∀ b ∈ l, ∀ i, varIdx vars b = some i → R[i]? = some (bitsToSP vars b) := by
  induction l using List.reverseRecOn with
  | nil => exact ⟨init, rfl, rfl, fun _ _ => rfl, by simp⟩
  | append_singleton l x ih =>
    obtain ⟨R, h1, h2, h3, h4⟩ := ih (fun b hb => hidx b (List.mem_append_left _ hb))
      (fun b hb c hc => huniq b (List.mem_append_left _ hb) c (List.mem_append_left _ hc))
    obtain ⟨j, hj1, hj2, hj3⟩ := hidx x (by simp)
    refine ⟨R.set j (bitsToSP vars x), ?_, by simpa using h2, ?_, ?_⟩
    · rw [List.foldlM_append, h1]
      simp [hj2]
    · intro i hi
      rw [List.getElem?_set_ne, h3 i fun b hb => hi b (List.mem_append_left _ hb)]
      rintro rfl
      exact hi x (by simp) hj1
    · intro b hb i hbi
      by_cases hij : i = j
      · subst hij
        have : b = x := huniq b hb x (by simp) (by rw [hbi, hj1])
        subst this
        rw [List.getElem?_set_self (by rw [h2]; exact hj3)]
      · rw [List.getElem?_set_ne (Ne.symm hij)]
        rcases List.mem_append.1 hb with hb | hb
        · exact h4 b hb i hbi
        · obtain rfl : b = x := by simpa using hb
          rw [hbi] at hj1
          cases hj1
          exact absurd rfl hij

theorem sorted_vars {b n : Nat} {vars : List (Nat × Nat)} (hc : Contig b vars n) {s0 : List Nat} (hs : s0.Pairwise (· < ·))
    (hr : ∀ x ∈ s0, b ≤ x ∧ x < n)
    (hu : ∀ v ∈ vars, ∃ x, v.1 ≤ x ∧ x ≤ v.2 ∧ x ∈ s0 ∧ ∀ y, v.1 ≤ y → y ≤ v.2 → y ∈ s0 → y = x) :
    List.Forall₂ (fun v x => v.1 ≤ x ∧ x ≤ v.2) vars s0 := by
  induction vars generalizing b s0 with
  | nil =>
    have hc : b = n := hc
    cases s0 with
    | nil => exact .nil
    | cons x r => have := hr x (.head _); omega
  | cons v r ih =>
    obtain ⟨f, l⟩ := v
    obtain ⟨rfl, h2, h3⟩ := hc
    obtain ⟨x, k1, k2, k3, k4⟩ := hu (f, l) (.head _)
    simp only at k1 k2 k4
    cases s0 with
    | nil => simp at k3
    | cons y t =>
      rw [List.pairwise_cons] at hs
      have hy := hr y (.head _)
      have hyx : y ≤ x := by
        rcases List.mem_cons.1 k3 with rfl | h
        · exact le_refl _
        · exact (hs.1 x h).le
      refine .cons ⟨hy.1, by simp only; omega⟩ (ih h3 hs.2 (fun z hz => ?_) fun v hv => ?_)
      · refine ⟨?_, (hr z (.tail _ hz)).2⟩
        by_contra hlt
        have e1 := k4 z (hr z (.tail _ hz)).1 (by omega) (.tail _ hz)
        have e2 := hs.1 z hz
        have e3 := k4 y hy.1 (by omega) (.head _)
        omega
      · obtain ⟨z, g1, g2, g3, g4⟩ := hu v (.tail _ hv)
        obtain ⟨i, hi⟩ := List.mem_iff_getElem?.1 hv
        have := h3.get hi
        refine ⟨z, g1, g2, ?_, fun w w1 w2 w3 => g4 w w1 w2 (.tail _ w3)⟩
        rcases List.mem_cons.1 g3 with rfl | h
        · omega
        · exact h

/-- `sasPlus` is defined and the initial values describe the initial state, if the search finds the variables of the true
facts. -/
theorem sasPlus_init {P : Problem} (hP : P.WF) {vars : List (Nat × Nat)} (hin : SasInput P vars) (hf : S0Fits P vars) :
    ∃ SP, sasPlus P vars = some SP ∧ SP.s0.length = vars.length ∧
      ∃ vals : List (Nat × Nat), SP.s0.map (conv SP.vars) = vals.map some ∧ vals.map Prod.fst = List.range vars.length ∧
        Corr vars P.initState fun i => ((vals[i]?).map Prod.snd).getD 0 := by
  have hcons := hin.inv [] _ (.nil _)
  obtain ⟨σ, hσ⟩ := hcons.exists_corr hin.contig
  -- it suffices that each initial fact has the value of σ
  suffices h : ∃ SP, sasPlus P vars = some SP ∧ SP.s0.length = vars.length ∧
      ∀ i < vars.length, ∀ b, SP.s0[i]? = some b → conv SP.vars b = some (i, σ i) by
    obtain ⟨SP, h1, h2, h3⟩ := h
    refine ⟨SP, h1, h2, (List.range vars.length).map fun i => (i, σ i), ?_, by simp [Function.comp_def], ?_⟩
    · apply List.ext_getElem?
      intro i
      simp only [List.getElem?_map, List.map_map]
      rcases Nat.lt_or_ge i vars.length with hi | hi
      · rw [List.getElem?_eq_getElem (by omega), List.getElem?_range hi]
        simp only [Option.map_some, Function.comp]
        rw [h3 i hi _ (List.getElem?_eq_getElem (by omega))]
      · rw [List.getElem?_eq_none (by omega), List.getElem?_eq_none (by simpa using hi)]
        rfl
    · have : ∀ i < vars.length, ((((List.range vars.length).map fun i => (i, σ i))[i]?).map Prod.snd).getD 0 = σ i := by
        intro i hi
        simp [List.getElem?_range hi]
      intro i f l hi
      simp only [this i (List.getElem?_eq_some_iff.1 hi).1]
      exact hσ i f l hi
  rw [sasPlus, if_neg hin.ne]
  split
  · rename_i hsing
    have hex : ∀ b ∈ P.s0, ∃ i f l : Nat, varIdx vars b = some i ∧ vars[i]? = some (f, l) ∧ f ≤ b ∧ b ≤ l :=
      fun b hb => varIdx_exists hin.contig (Nat.zero_le _) (hP.s0_lt b hb)
    obtain ⟨R, h1, h2, h3, h4⟩ := s0Fold (n := P.s0.length) (vars := vars) ((spVars 0 vars).map fun v => v.2.1) P.s0
      (fun b hb => by
        obtain ⟨i, f, l, k1, k2, -⟩ := hex b hb
        refine ⟨i, k1, s0Search_eq hin.contig k1 _ _ (by omega) (by have := hf hsing b hb i k1; omega)
          (by have := s0_length_le hP hin; omega), ?_⟩
        simp only [List.length_map, spVars_length]
        exact (List.getElem?_eq_some_iff.1 k2).1)
      (fun b hb c hc heq => by
        obtain ⟨i, f, l, k1, -⟩ := hex b hb
        exact hcons.unique hin.contig k1 (heq ▸ k1) hb hc)
    refine ⟨_, by rw [s0ListSP, h1]; rfl, by simp [h2, spVars_length], ?_⟩
    intro i hi b hb
    simp only at hb ⊢
    obtain ⟨⟨f, l⟩, hv⟩ : ∃ v, vars[i]? = some v := ⟨_, List.getElem?_eq_getElem hi⟩
    obtain ⟨g1, g2⟩ := hσ i f l hv
    have hfl := hin.contig.get hv
    by_cases ht : ∃ c ∈ P.s0, varIdx vars c = some i
    · obtain ⟨c, hc, hci⟩ := ht
      rw [h4 c hc i hci] at hb
      cases hb
      obtain ⟨f', l', e1, e2, e3⟩ := varIdx_some hci
      rw [hv] at e1
      cases e1
      rw [(bitsToSP_conv hin.contig hv e2 e3).1]
      congr 2
      refine ((g2 (c - f) (by omega)).1 ?_).symm
      rw [show f + (c - f) = c from by omega]
      exact hc
    · have hall : ∀ c, f ≤ c → c ≤ l → c ∉ P.s0 := by
        intro c h1 h2 h3
        exact ht ⟨c, h3, varIdx_eq hin.contig hv h1 h2⟩
      rcases Nat.lt_or_ge f l with hlt | hge
      · obtain ⟨x, e1, e2, e3, -⟩ := hcons _ (List.mem_of_getElem? hv) hlt
        exact absurd e3 (hall x e1 e2)
      · obtain rfl : f = l := by omega
        have hσ1 : σ i = 1 := by
          rcases g1 with g1 | g1
          · have : σ i = 0 := by omega
            exact absurd ((g2 0 (by omega)).2 this) (hall f (le_refl _) (le_refl _))
          · exact g1.2
        rw [h3 i fun c hc hci => ht ⟨c, hc, hci⟩, List.getElem?_map] at hb
        obtain ⟨o, ho⟩ := spVars_get 0 vars hv
        rw [ho] at hb
        simp only [if_true, Option.map_some, Option.some.injEq] at hb
        have := (bitsToSP_conv hin.contig hv (le_refl _) (le_refl _)).2 rfl
        have e : bitsToSP vars f = f + o := by
          rw [bitsToSP, varIdx_eq hin.contig hv (le_refl _) (le_refl _)]
          simp [ho]
        rw [e, hb] at this
        rw [this, hσ1]
  · rename_i hns
    have hmul : ∀ v ∈ vars, v.1 < v.2 := by
      intro v hv
      obtain ⟨i, hi⟩ := List.mem_iff_getElem?.1 hv
      have := hin.contig.get hi
      rcases Nat.lt_or_ge v.1 v.2 with h | h
      · exact h
      · exfalso
        apply hns
        rw [hasSingle, List.any_eq_true]
        exact ⟨v, hv, by simp; omega⟩
    have hF := sorted_vars hin.contig hin.sorted (fun x hx => ⟨Nat.zero_le _, hP.s0_lt x hx⟩) fun v hv => by
      obtain ⟨b, h1, h2, h3, h4⟩ := hcons v hv (hmul v hv)
      exact ⟨b, h1, h2, h3, h4⟩
    refine ⟨_, rfl, hF.length_eq.symm, ?_⟩
    intro i hi b hb
    simp only at hb ⊢
    obtain ⟨⟨f, l⟩, hv⟩ : ∃ v, vars[i]? = some v := ⟨_, List.getElem?_eq_getElem hi⟩
    have hvb : f ≤ b ∧ b ≤ l := by
      have h5 := List.forall₂_iff_get.1 hF
      obtain ⟨hi1, e1⟩ := List.getElem?_eq_some_iff.1 hv
      obtain ⟨hi2, e2⟩ := List.getElem?_eq_some_iff.1 hb
      have := h5.2 i hi1 hi2
      simp only [List.get_eq_getElem, e1, e2] at this
      exact this
    rw [conv_eq hin.contig hv hvb.1 hvb.2]
    congr 2
    refine (((hσ i f l hv).2 (b - f) (by omega)).1 ?_).symm
    rw [show f + (b - f) = b from by omega]
    exact List.mem_of_getElem? hb

end Verif.Sas

namespace Verif.Sas

open Verif.Htn

theorem s0Fold_ge {n : Nat} {vars : List (Nat × Nat)} (l : List Nat) {i : Nat} (hi : n ≤ i) : ∀ (init R : List Nat),
    l.foldlM (fun acc b => (s0Search vars b n 0).map fun j => acc.set j (bitsToSP vars b)) init = some R → R[i]? = init[i]? := by
  induction l with
  | nil =>
    intro init R h
    simp only [List.foldlM_nil, pure, Option.some.injEq] at h
    rw [h]
  | cons b r ih =>
    intro init R h
    rw [List.foldlM_cons] at h
    cases e : s0Search vars b n 0 with
    | none => simp [e] at h
    | some j =>
      have := s0Search_lt n 0 j e
      simp only [e, Option.map_some, Option.bind_eq_bind, Option.bind_some] at h
      rw [ih _ _ h, List.getElem?_set_ne (by omega)]

/-- A true fact that is alone in its variable is initially false after `sasPlus`, if the number of its variable is not below
the number of true facts. -/
theorem sasPlus_wrong {P : Problem} {vars : List (Nat × Nat)} (hc : Contig 0 vars P.numFacts) {SP : SasP}
    (h : sasPlus P vars = some SP) {i f : Nat} (hi : vars[i]? = some (f, f)) (hlen : P.s0.length ≤ i) :
    (SP.s0[i]?).map (conv SP.vars) = some (some (i, 1)) := by
  have hsing : hasSingle vars = true := by
    rw [hasSingle, List.any_eq_true]
    exact ⟨_, List.mem_of_getElem? hi, by simp⟩
  rw [sasPlus] at h
  split at h
  · cases h
  cases e : s0ListSP vars P.s0 with
  | none => simp [e] at h
  | some R =>
    simp only [e, Option.map_some, Option.some.injEq] at h
    subst h
    simp only
    rw [s0ListSP] at e
    rw [s0Fold_ge P.s0 hlen _ _ e, List.getElem?_map]
    obtain ⟨o, ho⟩ := spVars_get 0 vars hi
    have := (bitsToSP_conv hc hi (le_refl _) (le_refl _)).2 rfl
    have e : bitsToSP vars f = f + o := by
      rw [bitsToSP, varIdx_eq hc hi (le_refl _) (le_refl _)]
      simp [ho]
    rw [e] at this
    simp [ho, this]

end Verif.Sas
