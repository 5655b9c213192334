import Verif.ToTransMain

/-! # The translated problem is a well-formed input of the classical planner -/

namespace Verif.Sas

open Verif.Htn

section

variable {P : Problem} {vars : List (Nat × Nat)} {nA nT pgb : Nat} {tot : Nat → List Nat} {T : STask Lab}

theorem mkOp_in {p a : List (Nat × Nat)} {c : Nat} (hp : ∀ x ∈ p, T.In x) (ha : ∀ x ∈ a, T.In x) :
    (∀ x ∈ (mkOp p a c).prevail, T.In x) ∧
    ∀ e ∈ (mkOp p a c).eff, T.In (e.1, e.2.2) ∧ ∀ v, e.2.1 = some v → T.In (e.1, v) := by
  refine ⟨fun x hx => hp x (List.mem_filter.1 hx).1, fun e he => ?_⟩
  obtain ⟨q, hq, rfl⟩ := List.mem_map.1 he
  refine ⟨ha q hq, fun v hv => ?_⟩
  obtain ⟨x, hx, rfl⟩ := Option.map_eq_some_iff.1 hv
  have hx := List.mem_filter.1 (List.mem_of_getLast? hx)
  have he : x.1 = q.1 := by simpa using hx.2
  simp only [← he]
  exact hp x hx.1

theorem combPairs_in {tasks : List Nat} (hne : tasks ≠ []) {p a : List (Nat × Nat)} (h : combPairs vars P tasks = some (p, a)) :
    (∀ x ∈ p, ∃ t ∈ tasks, x ∈ precV vars P t) ∧ ∀ x ∈ a, ∃ t ∈ tasks, x ∈ addV vars P t := by
  rcases tasks with _ | ⟨t, _ | ⟨t', r⟩⟩
  · exact absurd rfl hne
  · simp only [combPairs, Option.some.injEq, Prod.mk.injEq] at h
    rw [← h.1, ← h.2]
    exact ⟨fun x hx => ⟨t, .head _, hx⟩, fun x hx => ⟨t, .head _, hx⟩⟩
  · obtain ⟨g, hg, rfl, rfl⟩ := combPairs_some (by simp) h
    constructor
    · rintro ⟨v, y⟩ hx
      obtain ⟨hv, hy⟩ := mem_filterMap_range.1 hx
      rcases (startEnd_mem (hg v hv)).1 y hy with h | ⟨z, hz, h⟩
      · cases h
      · obtain ⟨t, ht, rfl⟩ := List.mem_map.1 hz
        exact ⟨t, ht, lastVal_mem h⟩
    · rintro ⟨v, y⟩ hx
      obtain ⟨hv, hy⟩ := mem_filterMap_range.1 hx
      rcases (startEnd_mem (hg v hv)).2 y hy with h | ⟨z, hz, h⟩
      · cases h
      · obtain ⟨t, ht, rfl⟩ := List.mem_map.1 hz
        exact ⟨t, ht, lastVal_mem h⟩

theorem translate_wf (hin : TransInput P vars nA nT tot) (hp : 1 ≤ pgb) (hT : translate P vars nA nT pgb = some T) : T.WF := by
  obtain ⟨T', hT', hops, hgoal, hdl, hdv, hdh, hds, hil, hc, hh, hi, hz⟩ := translate_eq hin hp
  rw [hT] at hT'
  cases hT'
  have hcontig := hin.sas.contig
  have inV : ∀ i f l v : Nat, vars[i]? = some (f, l) → v ≤ l - f ∨ f = l ∧ v = 1 → T.In (i, v) := by
    intro i f l v h1 h2
    refine ⟨_, hdv i f l h1, ?_⟩
    simp only
    rcases h2 with h2 | ⟨rfl, rfl⟩
    · omega
    · simp
  have inConv : ∀ b x, conv vars b = some x → T.In x := by
    intro b x h
    obtain ⟨f, l, h1, h2, h3, h4⟩ := conv_some (i := x.1) (v := x.2) h
    exact inV x.1 f l x.2 h1 (.inl (by omega))
  have inPrec : ∀ a, ∀ x ∈ precV vars P a, T.In x := by
    intro a x hx
    obtain ⟨b, -, h⟩ := List.mem_filterMap.1 hx
    exact inConv b x h
  have inAdd : ∀ a, ∀ x ∈ addV vars P a, T.In x := by
    intro a x hx
    rcases List.mem_append.1 hx with hx | hx
    · obtain ⟨b, -, h⟩ := List.mem_filterMap.1 hx
      exact inConv b x h
    · obtain ⟨b, hb, h⟩ := List.mem_filterMap.1 hx
      obtain ⟨i, hi', rfl⟩ := Option.map_eq_some_iff.1 h
      obtain ⟨f, l, h1, h2, h3⟩ := varIdx_some hi'
      exact inV i f l 1 h1 (.inr ⟨(bitAlone_iff hcontig h1 h2 h3).1 (List.mem_filter.1 hb).2, rfl⟩)
  have inHead : ∀ v, v ≤ pgb → T.In (vars.length, v) := fun v hv => ⟨_, hdh, by simp only; omega⟩
  have inSlot : ∀ j v, j < pgb → v ≤ nT → T.In (vars.length + 1 + j, v) := fun j v hj hv => ⟨_, hds j hj, by simp only; omega⟩
  have hopsIn : ∀ x ∈ T.ops, (∀ p ∈ x.2.prevail, T.In p) ∧
      ∀ e ∈ x.2.eff, T.In (e.1, e.2.2) ∧ ∀ v, e.2.1 = some v → T.In (e.1, v) := by
    intro x hx
    rcases (hops x).1 hx with ⟨a, j, ha, hj, rfl⟩ | ⟨m, j, hm, hj, hfit, rfl⟩
    · have hnA := hin.nA_le
      refine mkOp_in ?_ ?_
      · intro x hx
        rcases List.mem_append.1 hx with hx | hx
        · exact inPrec a x hx
        · simp at hx
          rcases hx with rfl | rfl
          · exact inSlot _ _ hj (by omega)
          · exact inHead _ (by omega)
      · intro x hx
        rcases List.mem_append.1 hx with hx | hx
        · exact inAdd a x hx
        · simp at hx
          rcases hx with rfl | rfl
          · exact inSlot _ _ hj (by omega)
          · exact inHead _ (by omega)
    · have hhd := hin.head_lt m hm
      have hps : ∀ x ∈ [(vars.length, 1 + j), (vars.length + 1 + j, P.head m + 1)], T.In x := by
        intro x hx
        simp at hx
        rcases hx with rfl | rfl
        · exact inHead _ (by omega)
        · exact inSlot _ _ hj (by omega)
      have hlen := hin.len hm
      have hle := (hin.lead m hm).1
      have hse : ∀ x ∈ stackEff vars.length j ((tasksOf P tot m).drop (leadOf P m)).reverse, T.In x := by
        have hR : ∀ t ∈ ((tasksOf P tot m).drop (leadOf P m)).reverse, t < nT := fun t ht =>
          hin.sub_lt m hm t (tasksOf_mem hin.totOK hm (List.mem_of_mem_drop (List.mem_reverse.1 ht)))
        have hRl : ((tasksOf P tot m).drop (leadOf P m)).reverse.length + j ≤ pgb := by
          rw [List.length_reverse, List.length_drop]
          omega
        generalize ((tasksOf P tot m).drop (leadOf P m)).reverse = R at hR hRl
        intro x hx
        unfold stackEff at hx
        split at hx
        · simp at hx
          rcases hx with rfl | rfl
          · exact inHead _ (by omega)
          · exact inSlot _ _ hj (by omega)
        · next t =>
          simp at hx
          subst hx
          have := hR t (by simp)
          exact inSlot _ _ hj (by omega)
        · rcases List.mem_append.1 hx with hx | hx
          · obtain ⟨y, hy, rfl⟩ := List.mem_map.1 hx
            have hy : y < R.length := by simpa using hy
            have := hR (R[y]) (List.getElem_mem hy)
            rw [List.getElem?_eq_getElem hy, Option.getD_some, Nat.add_assoc (vars.length + 1)]
            exact inSlot _ _ (by omega) (by omega)
          · simp only [List.mem_singleton] at hx
            subst hx
            exact inHead _ (by omega)
      simp only [opM]
      split
      · exact mkOp_in hps hse
      · next hne =>
        cases hcp : combPairs vars P ((tasksOf P tot m).take (leadOf P m)) with
        | none => exact ⟨fun p hp => absurd hp (List.not_mem_nil), fun e he => absurd he (List.not_mem_nil)⟩
        | some q =>
          obtain ⟨p, a⟩ := q
          obtain ⟨h1, h2⟩ := combPairs_in hne hcp
          refine mkOp_in ?_ ?_
          · intro x hx
            rcases List.mem_append.1 hx with hx | hx
            · exact hps x hx
            · obtain ⟨t, -, ht⟩ := h1 x hx
              exact inPrec t x ht
          · intro x hx
            rcases List.mem_append.1 hx with hx | hx
            · exact hse x hx
            · obtain ⟨t, -, ht⟩ := h2 x hx
              exact inAdd t x ht
  refine ⟨by rw [hil, hdl], ?_, ?_, fun x hx => (hopsIn x hx).1, fun x hx => (hopsIn x hx).2⟩
  · intro i v hv
    have hs : T.start i = v := by simp [STask.start, hv]
    have hilt : i < vars.length + 1 + pgb := by
      rw [← hil]
      exact (List.getElem?_eq_some_iff.1 hv).1
    rcases Nat.lt_trichotomy i vars.length with hlt | rfl | hgt
    · obtain ⟨⟨f, l⟩, hfl⟩ : ∃ x, vars[i]? = some x := ⟨_, List.getElem?_eq_getElem hlt⟩
      have := (hc i f l hfl).1
      rw [hs] at this
      exact inV i f l v hfl this
    · rw [hs] at hh
      subst hh
      exact inHead 1 hp
    · obtain ⟨y, rfl⟩ : ∃ y, i = vars.length + 1 + y := ⟨i - vars.length - 1, by omega⟩
      have hinit := hin.init_lt
      refine inSlot y v (by omega) ?_
      rcases Nat.eq_zero_or_pos y with rfl | hy
      · rw [← hs, Nat.add_zero, hi]
        omega
      · rw [← hs, hz y hy]
        omega
  · intro g hg
    rw [hgoal] at hg
    rcases List.mem_append.1 hg with hg | hg
    · obtain ⟨b, -, h⟩ := List.mem_filterMap.1 hg
      exact inConv b g h
    · simp only [List.mem_singleton] at hg
      subst hg
      exact inHead 0 (by omega)

end

end Verif.Sas
