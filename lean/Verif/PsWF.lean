import Verif.PsMain

/-! # The translation of parallel sequences is a well-formed input of the classical planner -/

namespace Verif.Sas

open Verif.Htn

theorem psTranslate_wf {P : Problem} {vars : List (Nat × Nat)} {nA nT : Nat} {h : List Nat} {T : STask Lab}
    (hin : PsInput P vars nA nT h.length) (h1 : ∀ p ∈ h, 1 ≤ p) (hT : psTranslate P vars nA nT h = some T) : T.WF := by
  obtain ⟨T', hT', hops, hgoal, hdl, hdv, hdn, hil, hc, htop, hz⟩ := psTranslate_eq hin h1
  rw [hT] at hT'
  cases hT'
  have hcontig := hin.sas.contig
  have inV : ∀ i f l v : Nat, vars[i]? = some (f, l) → v ≤ l - f ∨ f = l ∧ v = 1 → T.In (i, v) := by
    intro i f l v h1 h2
    refine ⟨_, hdv i f l h1, ?_⟩
    simp only
    rcases h2 with h2 | ⟨rfl, rfl⟩
    · omega
    · simp
  have inConv : ∀ b x, conv vars b = some x → T.In x := by
    intro b x h
    obtain ⟨f, l, h1, h2, h3, h4⟩ := conv_some (i := x.1) (v := x.2) h
    exact inV x.1 f l x.2 h1 (.inl (by omega))
  have inPrec : ∀ a, ∀ x ∈ precV vars P a, T.In x := by
    intro a x hx
    obtain ⟨b, -, h⟩ := List.mem_filterMap.1 hx
    exact inConv b x h
  have inAdd : ∀ a, ∀ x ∈ addV vars P a, T.In x := by
    intro a x hx
    rcases List.mem_append.1 hx with hx | hx
    · obtain ⟨b, -, h⟩ := List.mem_filterMap.1 hx
      exact inConv b x h
    · obtain ⟨b, hb, h⟩ := List.mem_filterMap.1 hx
      obtain ⟨i, hi', rfl⟩ := Option.map_eq_some_iff.1 h
      obtain ⟨f, l, h1, h2, h3⟩ := varIdx_some hi'
      exact inV i f l 1 h1 (.inr ⟨(bitAlone_iff hcontig h1 h2 h3).1 (List.mem_filter.1 hb).2, rfl⟩)
  have inNew : ∀ i s v, (psSizes nT h)[i]? = some s → v ≤ s → T.In (vars.length + i, v) := fun i s v hi hv =>
    ⟨_, hdn i s hi, by simp only; omega⟩
  have inTop : ∀ v, v ≤ 1 → T.In (vars.length, v) := fun v hv => inNew 0 1 v psSizes_top hv
  have inHead : ∀ k v, k < h.length → v ≤ hAt h k → T.In (psHead vars.length k, v) := by
    intro k v hk hv
    have := inNew _ _ v (psSizes_head hk) hv
    rwa [show vars.length + (1 + k) = psHead vars.length k from by rw [psHead]; omega] at this
  have inCon : ∀ c v, c < h.length * (h.length - 1) → v ≤ 1 → T.In (psCon vars.length h c, v) := by
    intro c v hk hv
    have := inNew _ _ v (psSizes_con hk) hv
    rwa [show vars.length + (1 + h.length + c) = psCon vars.length h c from by rw [psCon]; omega] at this
  have inSlot : ∀ k j v, k < h.length → j < hAt h k → v ≤ nT → T.In (psSlot vars.length h k j, v) := by
    intro k j v hk hj hv
    have := inNew _ _ v (psSizes_slot (slot_lt hk hj)) hv
    rwa [show vars.length + (1 + h.length + h.length * (h.length - 1) + ((h.take k).sum + j)) = psSlot vars.length h k j from by
      rw [psSlot]; omega] at this
  have inPre : ∀ k j t, k < h.length → j < hAt h k → t < nT → ∀ x ∈ psPre vars.length h k j t, T.In x := by
    intro k j t hk hj ht x hx
    rcases (mem_psPre hk).1 hx with rfl | rfl | ⟨l, hl, hne, rfl⟩
    · exact inHead _ _ hk (by omega)
    · exact inSlot _ _ _ hk hj (by omega)
    · exact inCon _ _ (conIdx_lt hl hk hne) (by omega)
  have hopsIn : ∀ x ∈ T.ops, (∀ p ∈ x.2.prevail, T.In p) ∧
      ∀ e ∈ x.2.eff, T.In (e.1, e.2.2) ∧ ∀ v, e.2.1 = some v → T.In (e.1, v) := by
    intro x hx
    rcases (hops x).1 hx with ⟨a, j, k, ha, hk, hj, rfl⟩ | ⟨m, j, k, hm, e, hk, hfit, rfl⟩ | ⟨m, hm, e, rfl⟩
    · have hnA := hin.nA_le
      refine mkOp_in ?_ ?_
      · intro x hx
        rcases List.mem_append.1 hx with hx | hx
        · exact inPrec a x hx
        · exact inPre k j a hk hj (by omega) x hx
      · intro x hx
        rcases List.mem_append.1 hx with hx | hx
        · exact inAdd a x hx
        · rcases (mem_psPop hk).1 hx with rfl | rfl | ⟨-, l, hl, hne, rfl⟩
          · exact inHead _ _ hk (by omega)
          · exact inSlot _ _ _ hk hj (by omega)
          · exact inCon _ _ (conIdx_lt hk hl (Ne.symm hne)) (by omega)
    · have hpos := List.length_pos_iff.2 (hin.wf.sub_ne m hm)
      refine mkOp_in (inPre k j _ hk (by omega) (hin.head_lt m hm)) fun x hx => ?_
      rcases mem_psPush.1 hx with ⟨u, hu, rfl⟩ | ⟨-, rfl⟩
      · rw [List.length_reverse] at hu
        refine inSlot _ _ _ hk (by omega) ?_
        rw [List.getElem?_eq_getElem (by rw [List.length_reverse]; exact hu), Option.getD_some]
        have := hin.sub_lt m hm _ (List.mem_reverse.1 (List.getElem_mem (l := (P.sub m).reverse) (by rw [List.length_reverse]; exact hu)))
        omega
      · refine inHead _ _ hk ?_
        rw [List.length_reverse]
        omega
    · have hl := hin.top_len m hm e
      refine mkOp_in (fun x hx => ?_) fun x hx => ?_
      · simp at hx
        subst hx
        exact inTop 1 (le_refl _)
      · rcases mem_psStart.1 hx with rfl | ⟨l, hlt, rfl⟩ | ⟨l, hlt, rfl⟩ | ⟨c, hc, rfl⟩
        · exact inTop 0 (by omega)
        · exact inHead _ _ hlt (hAt_pos h1 hlt)
        · refine inSlot _ _ _ hlt (hAt_pos h1 hlt) ?_
          have hlt' : l < (P.sub m).reverse.length := by rw [List.length_reverse, hl]; exact hlt
          rw [List.getElem?_eq_getElem hlt', Option.getD_some]
          exact hin.sub_lt m hm _ (List.mem_reverse.1 (List.getElem_mem hlt'))
        · exact inCon _ _ hc (by split <;> omega)
  refine ⟨by rw [hil, hdl], fun i v hi => ?_, fun g hg => ?_, fun x hx => (hopsIn x hx).1, fun x hx => (hopsIn x hx).2⟩
  · have hst : T.start i = v := by simp [STask.start, hi]
    rcases Nat.lt_or_ge i vars.length with hlt | hge
    · obtain ⟨⟨f, l⟩, hv⟩ : ∃ x, vars[i]? = some x := ⟨_, List.getElem?_eq_getElem hlt⟩
      have := (hc i f l hv).1
      rw [hst] at this
      exact inV i f l v hv this
    · have hlt : i < T.init.length := (List.getElem?_eq_some_iff.1 hi).1
      rcases Nat.lt_or_ge vars.length i with hgt | hle
      · have := hz (i - (vars.length + 1))
        rw [show vars.length + 1 + (i - (vars.length + 1)) = i from by omega, hst] at this
        subst this
        have hs : i - vars.length < (psSizes nT h).length := by omega
        have := inNew (i - vars.length) _ 0 (List.getElem?_eq_getElem hs) (Nat.zero_le _)
        rwa [show vars.length + (i - vars.length) = i from by omega] at this
      · obtain rfl : i = vars.length := by omega
        rw [htop] at hst
        subst hst
        exact inTop 1 (le_refl _)
  · rw [hgoal] at hg
    rcases List.mem_append.1 hg with hg | hg
    · obtain ⟨b, -, h⟩ := List.mem_filterMap.1 hg
      exact inConv b g h
    · rcases List.mem_cons.1 hg with rfl | hg
      · exact inTop 0 (by omega)
      · obtain ⟨k, hk, rfl⟩ := List.mem_map.1 hg
        exact inHead k 0 (by simpa using hk) (by omega)

end Verif.Sas
