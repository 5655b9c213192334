import Verif.StripsMain

/-! # Completeness of the translation without conditional effects -/

namespace Verif.Sas

open Verif.Htn Relation

/-- The number of cells with tasks. -/
def occN (B : Nat) (τ : SV → Nat) : Nat := ((Finset.range B).filter fun x => τ (.task x) ≠ 0).card

section

variable {B : Nat} {τ τ' : SV → Nat} {j : Nat}

theorem ClearStep.occN (h : ClearStep B τ τ' j) (h0 : τ (.task j) ≠ 0) : occN B τ' + 1 = occN B τ := by
  have hm : j ∈ (Finset.range B).filter fun x => τ (.task x) ≠ 0 := Finset.mem_filter.2 ⟨Finset.mem_range.2 h.lt, h0⟩
  have he : ((Finset.range B).filter fun x => τ' (.task x) ≠ 0) = ((Finset.range B).filter fun x => τ (.task x) ≠ 0).erase j := by
    ext x
    simp only [Finset.mem_filter, Finset.mem_range, Finset.mem_erase]
    constructor
    · rintro ⟨h1, h2⟩
      have hx : x ≠ j := by
        rintro rfl
        exact h2 h.task
      exact ⟨hx, h1, by rw [← h.task' x h1 hx]; exact h2⟩
    · rintro ⟨hx, h1, h2⟩
      exact ⟨h1, by rw [h.task' x h1 hx]; exact h2⟩
  rw [Sas.occN, he, Finset.card_erase_of_mem hm, Sas.occN]
  have := Finset.card_pos.2 ⟨j, hm⟩
  omega

theorem DecStep.occN {P : Problem} {m : Nat} {last : Bool} {K : Nat → Prop} {g : Nat → Nat} (h : DecStep P m B τ τ' j last K g) :
    occN B τ' ≤ occN B τ + (P.sub m).length := by
  classical
  have hs : ((Finset.range B).filter fun x => τ' (.task x) ≠ 0) ⊆
      ((Finset.range B).filter fun x => τ (.task x) ≠ 0) ∪ (Finset.range (P.sub m).length).image g := by
    intro x hx
    simp only [Finset.mem_union, Finset.mem_filter, Finset.mem_range, Finset.mem_image] at hx ⊢
    by_cases hK : K x
    · exact .inr (h.surj x hK)
    · by_cases e : x = j
      · exact .inl ⟨hx.1, e ▸ h.occ0⟩
      · exact .inl ⟨hx.1, by rw [← h.task' x hx.1 e hK]; exact hx.2⟩
  refine (Finset.card_le_card hs).trans ((Finset.card_union_le _ _).trans ?_)
  have := Finset.card_image_le (s := Finset.range (P.sub m).length) (f := g)
  rw [Finset.card_range] at this
  rw [Sas.occN]
  omega

/-- There are enough free cells, and the lowest ones are chosen. -/
theorem exists_subs (hj : τ (.task j) ≠ 0) (hjB : j < B) {k : Nat} (hk : k + occN B τ ≤ B) :
    ∃ subs, Subs B k subs ∧ ∀ c, (c ∈ subs → τ (.task (skip j c)) = 0) ∧
      (subs ≠ [] → c < subs.getLast?.getD 0 + 1 → τ (.task (skip j c)) = 0 → c ∈ subs) := by
  classical
  obtain ⟨F, hFdef⟩ : ∃ F, F = (List.range (B - 1)).filter fun c => decide (τ (.task (skip j c)) = 0) := ⟨_, rfl⟩
  have hF : ∀ c, c ∈ F ↔ c < B - 1 ∧ τ (.task (skip j c)) = 0 := fun c => by rw [hFdef]; simp
  have hFs : F.Pairwise (· < ·) := by rw [hFdef]; exact List.pairwise_lt_range.filter _
  have hFl : k ≤ F.length := by
    have h1 := Finset.card_filter_add_card_filter_not (s := Finset.range B) (fun x => τ (.task x) ≠ 0)
    rw [Finset.card_range] at h1
    have h2 : ((Finset.range B).filter fun x => ¬ τ (.task x) ≠ 0) ⊆ F.toFinset.image (skip j) := by
      intro x hx
      simp only [Finset.mem_filter, Finset.mem_range, not_not] at hx
      have hxj : x ≠ j := by
        rintro rfl
        exact hj hx.2
      obtain ⟨c, hc, rfl⟩ := skip_surj hjB hx.1 hxj
      exact Finset.mem_image.2 ⟨c, List.mem_toFinset.2 ((hF c).2 ⟨hc, hx.2⟩), rfl⟩
    have h3 := (Finset.card_le_card h2).trans (Finset.card_image_le.trans (List.toFinset_card_le F))
    rw [occN] at hk
    omega
  refine ⟨F.take k, ⟨by simpa using hFl, hFs.sublist (List.take_sublist k F), fun c hc => ((hF c).1 (List.mem_of_mem_take hc)).1⟩,
    fun c => ⟨fun hc => ((hF c).1 (List.mem_of_mem_take hc)).2, fun hne hlt h0 => ?_⟩⟩
  rw [List.getLast?_eq_getLast_of_ne_nil hne, Option.getD_some] at hlt
  have hlm := List.getLast_mem hne
  have hl1 := ((hF _).1 (List.mem_of_mem_take hlm)).1
  have hcF : c ∈ F := (hF c).2 ⟨by omega, h0⟩
  rw [← List.take_append_drop k F] at hcF hFs
  rcases List.mem_append.1 hcF with h | h
  · exact h
  · have := (List.pairwise_append.1 hFs).2.2 _ hlm c h
    omega

end

section

variable {P : Problem} {vars : List (Nat × Nat)} {nA nT B : Nat} {T : STask SLab}

theorem SNet.occupied {τ : SV → Nat} {I : Finset Nat} {lab c : Nat → Nat} (hn : SNet B τ I lab c) {x : Nat} (hx : x < B)
    (h0 : τ (.task x) ≠ 0) : (∃ u ∈ I, c u = x) ∨ τ (.task x) = 1 := by
  by_cases h : ∃ u ∈ I, c u = x
  · exact .inl h
  · push Not at h
    exact .inr ((hn.other x hx h).resolve_left h0)

/-- Before each occupied cell there is one without predecessors. -/
theorem SNet.exists_first {τ : SV → Nat} {I : Finset Nat} {lab c : Nat → Nat} (hn : SNet B τ I lab c) {x : Nat} (hx : x < B)
    (h0 : τ (.task x) ≠ 0) : ∃ y < B, τ (.task y) ≠ 0 ∧ (∀ l < B, l ≠ y → τ (.con l y) = 0) ∧ (y = x ∨ TransGen (edge B τ) y x) := by
  obtain ⟨y, hy, hmin⟩ := exists_min (C := edge B τ) (B := B) (fun _ _ h => h.1.1) hn.acyc x
  have hmin' : y < B → ∀ l < B, l ≠ y → τ (.con l y) = 0 := by
    intro hyB l hl hne
    by_contra hc
    exact hmin l ⟨⟨hl, hyB, hne⟩, hc⟩
  rcases reflTransGen_iff_eq_or_transGen.1 hy with rfl | h
  · exact ⟨_, hx, h0, hmin' hx, .inl rfl⟩
  · obtain ⟨h1, h2⟩ := path_from (Q := fun z => z < B ∧ τ (.task z) ≠ 0) (fun a b hab => ⟨hab.1.1, (hn.con a b hab).1⟩) h
    exact ⟨y, h1, h2, hmin' h1, .inr h⟩

theorem methNum_le (P : Problem) (m : Nat) : mNum P m ≤ (P.sub m).length := by
  rw [mNum]
  split <;> omega

/-- Every solution is a plan if there are enough cells. -/
theorem st_complete (hin : PushInput P vars nA nT) (hf : ∀ a < nA, PrecFun vars P a) (hlast : LastOk P) (hT : StTask P vars nA B T) {M : Nat}
    (hM : ∀ m < P.numMethods, (P.sub m).length ≤ M) : ∀ (μ : Nat) {σ : Val} {s : State} {I : Finset Nat} {lab c : Nat → Nat} {π : List Nat}
    {k : Nat}, SEnc vars B σ s I lab c → Reach P s → SolvesN P I lab (cellLt B (sView vars.length B σ) c) s π k →
    occN B (sView vars.length B σ) + k * (M + 1) ≤ μ → occN B (sView vars.length B σ) + k * M ≤ B →
    ∃ ρ σ', SRun T σ ρ σ' ∧ T.Goal σ' ∧ stActs ρ = π := by
  intro μ
  induction μ using Nat.strong_induction_on with
  | _ μ ih =>
    intro σ s I lab c π k he hr hs hμ hB
    by_cases hE : ∃ j < B, sView vars.length B σ (.task j) = 1 ∧ ∀ l < B, l ≠ j → sView vars.length B σ (.con l j) = 0
    · obtain ⟨j, hj, h1, h2⟩ := hE
      have ho : SOpOk vars.length B [] [] (stPre B 1 j, stClear B j) :=
        clear_ok hj (fun _ h => by cases h) (fun _ h => by cases h) (fun _ h => by cases h)
      have happ : (sOp vars.length B [] [] (stPre B 1 j, stClear B j) (emptyCost P nA)).App σ :=
        (sOp_app ho).2 ⟨fun _ h => (by cases h), (stPre_holds hj).2 ⟨h1, h2⟩⟩
      obtain ⟨k1, k2, k3⟩ := he.empty_step hj happ
      have hoc := k2.occN (by rw [h1]; exact Nat.one_ne_zero)
      obtain ⟨ρ, σ', r1, r2, r3⟩ := ih (μ - 1) (by omega) k1 hr (hs.congr (fun _ _ => rfl) fun u hu v hv => (k3 u hu v hv).1) (by omega) (by omega)
      exact ⟨_ :: ρ, σ', .cons ((hT.ops _).2 (.inl ⟨j, hj, rfl⟩)) happ r1, r2, r3⟩
    have hfirst : ∀ u ∈ I, (∀ v ∈ I, ¬ cellLt B (sView vars.length B σ) c v u) →
        ∀ l < B, l ≠ c u → sView vars.length B σ (.con l (c u)) = 0 := by
      intro u hu hmin
      obtain ⟨y, hy, h1, h2, h3⟩ := he.net.exists_first (he.net.lt u hu) (by rw [he.net.task u hu]; omega)
      rcases h3 with rfl | h3
      · exact h2
      · rcases he.net.occupied hy h1 with ⟨v, hv, rfl⟩ | h4
        · exact absurd h3 (hmin v hv)
        · exact absurd ⟨y, hy, h4, h2⟩ hE
    by_cases hA : ∃ u ∈ I, (∀ l < B, l ≠ c u → sView vars.length B σ (.con l (c u)) = 0) ∧ P.prim (lab u) = false
    · obtain ⟨u, hu, hmin, habs⟩ := hA
      obtain ⟨m, hm, hhead, hk, hsub⟩ := hs.to_subst hu habs
      have htask := he.net.task u hu
      have hjB := he.net.lt u hu
      have hocc : 0 < occN B (sView vars.length B σ) :=
        Finset.card_pos.2 ⟨c u, Finset.mem_filter.2 ⟨Finset.mem_range.2 hjB, by rw [htask]; omega⟩⟩
      have hnum := methNum_le P m
      have hMm := hM m hm
      obtain ⟨k', rfl⟩ : ∃ k', k = k' + 1 := ⟨k - 1, by omega⟩
      rw [Nat.succ_mul] at hμ hB
      obtain ⟨subs, hs1, hs2⟩ := exists_subs (τ := sView vars.length B σ) (B := B) (j := c u) (k := mNum P m) (by rw [htask]; omega) hjB (by omega)
      have hok : MethOk P B m (c u) subs := ⟨hm, hjB, by omega, hs1⟩
      have ho := stMethD_ok hin hok vars.length
      have happ : (sOp vars.length B [] [] (stMethD P B m (c u) subs) 0).App σ := by
        refine (sOp_app ho).2 ⟨fun _ h => (by cases h), fun x hx => ?_⟩
        rcases (stMethD_pre hok).1 hx with hx | ⟨h1, ⟨d, hd, rfl⟩ | ⟨d, hd, rfl⟩⟩
        · exact (stPre_holds hjB).2 ⟨by rw [htask, hhead], hmin⟩ x hx
        · exact (hs2 d).1 hd
        · have hne : subs ≠ [] := by
            rintro rfl
            have := hs1.len
            rw [mNum] at this
            split_ifs at this <;> simp at this <;> omega
          have hd' : d < B - 1 := by
            rw [List.getLast?_eq_getLast_of_ne_nil hne, Option.getD_some] at hd
            have := hs1.lt _ (List.getLast_mem hne)
            omega
          simp only
          rw [he.net.occ _ (skip_lt hd')]
          by_cases h0 : sView vars.length B σ (.task (skip (c u) d)) = 0
          · rw [if_pos h0, if_pos ((hs2 d).2 hne hd h0)]
          · rw [if_neg h0, if_neg fun hm => h0 ((hs2 d).1 hm)]
      have hd := dec_step hin hlast hok happ
      obtain ⟨b, hb⟩ : ∃ b, ∀ v ∈ I, v < b := ⟨I.sup id + 1, fun v hv => Nat.lt_succ_of_le (Finset.le_sup (f := id) hv)⟩
      obtain ⟨I', lab', c', k1, k2, -⟩ := he.net.dec hd hu rfl hb
      have hoc := hd.occN
      have hs' := hsub _ _ _ _ k2
      rw [Nat.add_sub_cancel] at hs'
      obtain ⟨ρ, σ', r1, r2, r3⟩ := ih (μ - 1) (by omega) ⟨corr_congr he.corr fun i hi => by rw [sRes_base hi]; rfl, k1⟩ hr hs' (by omega)
        (by omega)
      exact ⟨_ :: ρ, σ', .cons ((hT.ops _).2 (.inr (.inr ⟨m, c u, subs, hok, rfl⟩))) happ r1, r2, r3⟩
    by_cases hI : I.Nonempty
    · obtain ⟨u, hu, hmin, happ, π', rfl, hs'⟩ := hs.unprogress hin.wf hI (fun u _ => he.net.acyc (c u)) (fun u hu hmin => by
        by_contra hp
        exact hA ⟨u, hu, hfirst u hu hmin, by simpa using hp⟩)
      have hmin' := hfirst u hu hmin
      have hp : P.prim (lab u) = true := by
        by_contra hp
        exact hA ⟨u, hu, hmin', by simpa using hp⟩
      have ha : lab u < nA := by
        rw [hin.prim] at hp
        simpa using hp
      have hjB := he.net.lt u hu
      have htask := he.net.task u hu
      obtain ⟨k1, k2, k3⟩ := he.act_step hin hu (hf _ ha) hr happ hmin' (cost := P.cost (lab u))
      have hoc := k2.occN (by rw [htask]; omega)
      have ho : SOpOk vars.length B (precV vars P (lab u)) (addV vars P (lab u)) (stPre B (lab u + 2) (c u), stClear B (c u)) :=
        clear_ok hjB (fun p hp => precV_lt hp) (hf _ ha) (fun p hp => addV_lt hp)
      have hap := (sOp_app (cost := P.cost (lab u)) ho).2
        ⟨(he.corr.applicable hin.wf hin.sas.contig (lab u)).2 happ, (stPre_holds hjB).2 ⟨htask, hmin'⟩⟩
      obtain ⟨ρ, σ', r1, r2, r3⟩ := ih (μ - 1) (by omega) k1 (hr.step happ)
        (hs'.congr (fun _ _ => rfl) fun v hv w hw => (k3 v hv w hw).1) (by omega) (by omega)
      refine ⟨(.prim (lab u) (c u), _) :: ρ, σ', .cons ((hT.ops _).2 (.inr (.inl ⟨lab u, c u, ha, hjB, rfl⟩))) hap r1, r2, ?_⟩
      rw [← r3]
      rfl
    · rw [Finset.not_nonempty_iff_eq_empty] at hI
      subst hI
      obtain ⟨rfl, -, hg⟩ := solvesN_empty.1 hs
      refine ⟨[], σ, .nil σ, (hT.goal σ).2 ⟨(he.corr.holds hin.sas.contig hin.wf.goal_lt).2 hg, fun j hj => ?_⟩, rfl⟩
      by_contra h0
      obtain ⟨y, hy, h1, h2, -⟩ := he.net.exists_first hj h0
      rcases he.net.occupied hy h1 with ⟨v, hv, -⟩ | h4
      · cases hv
      · exact hE ⟨y, hy, h4, h2⟩

end

end Verif.Sas
