import Verif.HtnLemmas

/-! # Isomorphic task networks have the same solutions -/

namespace Verif.Htn

open Relation

variable {P : Problem}

/-- `e` and `g` are inverse bijections between the occurrences of two networks that keep labels
and order. -/
structure NetIso (I I' : Finset Nat) (lab lab' : Nat → Nat) (lt lt' : Nat → Nat → Prop)
    (e g : Nat → Nat) : Prop where
  e_mem : ∀ u ∈ I, e u ∈ I'
  g_mem : ∀ v ∈ I', g v ∈ I
  ge : ∀ u ∈ I, g (e u) = u
  eg : ∀ v ∈ I', e (g v) = v
  lab : ∀ u ∈ I, lab' (e u) = lab u
  lt : ∀ u ∈ I, ∀ v ∈ I, (lt' (e u) (e v) ↔ lt u v)

theorem NetIso.symm {I I' : Finset Nat} {lab lab' lt lt' e g} (h : NetIso I I' lab lab' lt lt' e g) :
    NetIso I' I lab' lab lt' lt g e where
  e_mem := h.g_mem
  g_mem := h.e_mem
  ge := h.eg
  eg := h.ge
  lab := fun v hv => by rw [← h.lab _ (h.g_mem v hv), h.eg v hv]
  lt := fun u hu v hv => by rw [← h.lt _ (h.g_mem u hu) _ (h.g_mem v hv), h.eg u hu, h.eg v hv]

theorem SolvesN.iso {I I' : Finset Nat} {lab lab' lt lt' e g s π k}
    (hi : NetIso I I' lab lab' lt lt' e g) (h : SolvesN P I lab lt s π k) :
    SolvesN P I' lab' lt' s π k := by
  obtain ⟨tr, hv, hk, ⟨occ, hn, ha, hp, hf⟩, hs⟩ := h
  have hmem : ∀ x ∈ occ, x.1 ∈ I := fun x hx => ((ha x).1 hx).1
  refine ⟨fun v => tr (g v), ?_, ?_, ⟨occ.map (fun x => (e x.1, x.2)), ?_, ?_, ?_, ?_⟩, hs⟩
  · intro v hv'
    have := hv _ (hi.g_mem v hv')
    rwa [← hi.lab _ (hi.g_mem v hv'), hi.eg v hv'] at this
  · rw [← hk]
    exact Finset.sum_nbij' g e hi.g_mem hi.e_mem hi.eg hi.ge (fun _ _ => rfl)
  · refine List.Nodup.map_on ?_ hn
    intro x hx y hy hxy
    simp only [Prod.mk.injEq] at hxy
    refine Prod.ext ?_ hxy.2
    rw [← hi.ge _ (hmem x hx), ← hi.ge _ (hmem y hy), hxy.1]
  · rintro ⟨v, p⟩
    rw [List.mem_map]
    constructor
    · rintro ⟨x, hx, hxe⟩
      obtain ⟨h1, a, h2⟩ := (ha x).1 hx
      simp only [Prod.mk.injEq] at hxe
      obtain ⟨rfl, rfl⟩ := hxe
      exact ⟨hi.e_mem _ h1, a, by simpa only [hi.ge _ h1] using h2⟩
    · rintro ⟨h1, a, h2⟩
      exact ⟨(g v, p), (ha _).2 ⟨hi.g_mem v h1, a, h2⟩, by simp only [hi.eg v h1]⟩
  · rw [List.pairwise_map]
    refine hp.imp_of_mem (fun {x y} hx hy hnb hb => hnb ?_)
    rcases hb with ⟨h1, h2⟩ | hb
    · simp only at h1 h2
      have : y.1 = x.1 := by rw [← hi.ge _ (hmem y hy), ← hi.ge _ (hmem x hx), h1]
      exact .inl ⟨this, by simpa only [hi.ge _ (hmem y hy)] using h2⟩
    · exact .inr ((hi.lt _ (hmem y hy) _ (hmem x hx)).1 hb)
  · have : ∀ (occ : List (Nat × List Nat)) (π : List Nat), (∀ x ∈ occ, x.1 ∈ I) →
        List.Forall₂ (fun x a => LeafAt P (tr x.1) x.2 a) occ π →
        List.Forall₂ (fun x a => LeafAt P (tr (g x.1)) x.2 a) (occ.map (fun x => (e x.1, x.2))) π := by
      intro occ π hm h
      induction h with
      | nil => exact .nil
      | cons h _ ih =>
        refine .cons ?_ (ih fun x hx => hm x (List.mem_cons_of_mem _ hx))
        simpa only [hi.ge _ (hm _ List.mem_cons_self)] using h
    exact this occ π hmem hf

theorem solvesN_iso_iff {I I' : Finset Nat} {lab lab' lt lt' e g s π k}
    (hi : NetIso I I' lab lab' lt lt' e g) :
    SolvesN P I lab lt s π k ↔ SolvesN P I' lab' lt' s π k :=
  ⟨fun h => h.iso hi, fun h => h.iso hi.symm⟩

/-! ## Networks that consist of parallel chains -/

/-- The network consists of the chains `cs`. -/
structure ChainNet (I : Finset Nat) (lt : Nat → Nat → Prop) (cs : List (List Nat)) : Prop where
  nodup : cs.flatten.Nodup
  mem : ∀ v, v ∈ I ↔ ∃ i j : Nat, (cs[i]?.bind (·[j]?)) = some v
  lt : ∀ i j i' j' u v : Nat, (cs[i]?.bind (·[j]?)) = some u → (cs[i']?.bind (·[j']?)) = some v →
    (lt u v ↔ i = i' ∧ j < j')

theorem flatten_pos_unique {cs : List (List Nat)} (hn : cs.flatten.Nodup) :
    ∀ {i j i' j' v : Nat}, (cs[i]?.bind (·[j]?)) = some v → (cs[i']?.bind (·[j']?)) = some v →
      i = i' ∧ j = j' := by
  induction cs with
  | nil => intro i j i' j' v h; simp at h
  | cons c cs ih =>
    intro i j i' j' v h h'
    rw [List.flatten_cons, List.nodup_append] at hn
    obtain ⟨h1, h2, h3⟩ := hn
    have hin : ∀ i j : Nat, ((cs[i]?).bind (·[j]?)) = some v → v ∈ cs.flatten := by
      intro i j h
      cases hc : cs[i]? with
      | none => simp [hc] at h
      | some c' =>
        rw [hc] at h
        exact List.mem_flatten.2 ⟨c', List.mem_of_getElem? hc, List.mem_of_getElem? h⟩
    cases i with
    | zero =>
      cases i' with
      | zero =>
        simp only [List.getElem?_cons_zero, Option.bind_some] at h h'
        refine ⟨rfl, ?_⟩
        obtain ⟨hj, e1⟩ := List.getElem?_eq_some_iff.1 h
        obtain ⟨hj', e2⟩ := List.getElem?_eq_some_iff.1 h'
        exact (List.Nodup.getElem_inj_iff h1).1 (e1.trans e2.symm)
      | succ i' =>
        simp only [List.getElem?_cons_zero, List.getElem?_cons_succ, Option.bind_some] at h h'
        exact absurd rfl (h3 v (List.mem_of_getElem? h) v (hin _ _ h'))
    | succ i =>
      cases i' with
      | zero =>
        simp only [List.getElem?_cons_zero, List.getElem?_cons_succ, Option.bind_some] at h h'
        exact absurd rfl (h3 v (List.mem_of_getElem? h') v (hin _ _ h))
      | succ i' =>
        simp only [List.getElem?_cons_succ] at h h'
        obtain ⟨rfl, rfl⟩ := ih h2 h h'
        exact ⟨rfl, rfl⟩

/-- Same label sequences: isomorphic. -/
theorem ChainNet.iso {I I' : Finset Nat} {lt lt' lab lab'} {cs ds : List (List Nat)} (hc : ChainNet I lt cs)
    (hd : ChainNet I' lt' ds) (hl : cs.map (·.map lab) = ds.map (·.map lab')) :
    ∃ e g, NetIso I I' lab lab' lt lt' e g := by
  classical
  -- positions correspond
  have hpos : ∀ i j : Nat, ((cs[i]?.bind (·[j]?)).map lab) = ((ds[i]?.bind (·[j]?)).map lab') := by
    intro i j
    have h1 := congrArg (fun l : List (List Nat) => (l[i]?).bind (·[j]?)) hl
    simp only [List.getElem?_map] at h1
    cases hci : cs[i]? <;> cases hdi : ds[i]? <;> simp_all
  have hex : ∀ v ∈ I, ∃ w, ∃ i j : Nat, (cs[i]?.bind (·[j]?)) = some v ∧ (ds[i]?.bind (·[j]?)) = some w := by
    intro v hv
    obtain ⟨i, j, hij⟩ := (hc.mem v).1 hv
    have := hpos i j
    rw [hij] at this
    cases hw : (ds[i]?.bind (·[j]?)) with
    | none => simp [hw] at this
    | some w => exact ⟨w, i, j, hij, hw⟩
  have hex' : ∀ w ∈ I', ∃ v, ∃ i j : Nat, (cs[i]?.bind (·[j]?)) = some v ∧ (ds[i]?.bind (·[j]?)) = some w := by
    intro w hw
    obtain ⟨i, j, hij⟩ := (hd.mem w).1 hw
    have := hpos i j
    rw [hij] at this
    cases hv : (cs[i]?.bind (·[j]?)) with
    | none => simp [hv] at this
    | some v => exact ⟨v, i, j, hv, hij⟩
  let e : Nat → Nat := fun v => if hv : v ∈ I then (hex v hv).choose else 0
  let g : Nat → Nat := fun w => if hw : w ∈ I' then (hex' w hw).choose else 0
  have he : ∀ v ∈ I, ∃ i j : Nat, (cs[i]?.bind (·[j]?)) = some v ∧ (ds[i]?.bind (·[j]?)) = some (e v) := by
    intro v hv
    simp only [e, dif_pos hv]
    exact (hex v hv).choose_spec
  have hg : ∀ w ∈ I', ∃ i j : Nat, (cs[i]?.bind (·[j]?)) = some (g w) ∧ (ds[i]?.bind (·[j]?)) = some w := by
    intro w hw
    simp only [g, dif_pos hw]
    exact (hex' w hw).choose_spec
  have hem : ∀ v ∈ I, e v ∈ I' := fun v hv => by
    obtain ⟨i, j, -, h⟩ := he v hv
    exact (hd.mem _).2 ⟨i, j, h⟩
  have hgm : ∀ w ∈ I', g w ∈ I := fun w hw => by
    obtain ⟨i, j, h, -⟩ := hg w hw
    exact (hc.mem _).2 ⟨i, j, h⟩
  refine ⟨e, g, ⟨hem, hgm, ?_, ?_, ?_, ?_⟩⟩
  · intro v hv
    obtain ⟨i, j, h1, h2⟩ := he v hv
    obtain ⟨i', j', h3, h4⟩ := hg _ (hem v hv)
    obtain ⟨rfl, rfl⟩ := flatten_pos_unique hd.nodup h2 h4
    rw [h1] at h3
    exact (Option.some.inj h3).symm
  · intro w hw
    obtain ⟨i, j, h1, h2⟩ := hg w hw
    obtain ⟨i', j', h3, h4⟩ := he _ (hgm w hw)
    obtain ⟨rfl, rfl⟩ := flatten_pos_unique hc.nodup h1 h3
    rw [h2] at h4
    exact (Option.some.inj h4).symm
  · intro v hv
    obtain ⟨i, j, h1, h2⟩ := he v hv
    have := hpos i j
    rw [h1, h2] at this
    exact (Option.some.inj this).symm
  · intro u hu v hv
    obtain ⟨i, j, h1, h2⟩ := he u hu
    obtain ⟨i', j', h3, h4⟩ := he v hv
    rw [hc.lt i j i' j' u v h1 h3, hd.lt i j i' j' _ _ h2 h4]

/-- Chains may be listed in any order. -/
theorem ChainNet.perm {I : Finset Nat} {lt} {cs cs' : List (List Nat)} (hc : ChainNet I lt cs) (hp : cs.Perm cs') :
    ChainNet I lt cs' := by
  have hn : cs'.flatten.Nodup := (hp.flatten.nodup_iff).1 hc.nodup
  have key : ∀ {l l' : List (List Nat)}, l.Perm l' → ∀ i j v : Nat, (l[i]?.bind (·[j]?)) = some v →
      ∃ (c : List Nat) (i' : Nat), l[i]? = some c ∧ l'[i']? = some c ∧ c[j]? = some v := by
    intro l l' hp i j v h
    cases hci : l[i]? with
    | none => simp [hci] at h
    | some c =>
      rw [hci] at h
      obtain ⟨i', hi'⟩ := List.getElem?_of_mem (hp.mem_iff.1 (List.mem_of_getElem? hci))
      exact ⟨c, i', rfl, hi', h⟩
  refine ⟨hn, ?_, ?_⟩
  · intro v
    rw [hc.mem v]
    constructor
    · rintro ⟨i, j, h⟩
      obtain ⟨c, i', -, h1, h2⟩ := key hp i j v h
      exact ⟨i', j, by simp [h1, h2]⟩
    · rintro ⟨i, j, h⟩
      obtain ⟨c, i', -, h1, h2⟩ := key hp.symm i j v h
      exact ⟨i', j, by simp [h1, h2]⟩
  · intro i j i' j' u v h h'
    obtain ⟨c, k, e1, e2, e3⟩ := key hp.symm i j u h
    obtain ⟨c', k', e1', e2', e3'⟩ := key hp.symm i' j' v h'
    rw [hc.lt k j k' j' u v (by simp [e2, e3]) (by simp [e2', e3'])]
    refine and_congr_left fun _ => ?_
    constructor
    · rintro rfl
      rw [e2] at e2'
      obtain rfl := Option.some.inj e2'
      have e4 : (cs'[i']?.bind (·[j]?)) = some u := by simp [e1', e3]
      exact (flatten_pos_unique hn h e4).1
    · rintro rfl
      rw [e1] at e1'
      obtain rfl := Option.some.inj e1'
      have e4 : (cs[k']?.bind (·[j]?)) = some u := by simp [e2', e3]
      have e5 : (cs[k]?.bind (·[j]?)) = some u := by simp [e2, e3]
      exact (flatten_pos_unique hc.nodup e5 e4).1

theorem perm_map_lift {α β : Type} (f : α → β) : ∀ {l : List β} {ds : List α}, (ds.map f).Perm l →
    ∃ ds', ds.Perm ds' ∧ ds'.map f = l := by
  intro l ds h
  generalize hm : ds.map f = m at h
  induction h generalizing ds with
  | nil => exact ⟨ds, List.Perm.refl _, hm⟩
  | cons x _ ih =>
    cases ds with
    | nil => simp at hm
    | cons d ds =>
      simp only [List.map_cons, List.cons.injEq] at hm
      obtain ⟨ds', h1, h2⟩ := ih hm.2
      exact ⟨d :: ds', h1.cons d, by simp [hm.1, h2]⟩
  | swap x y l =>
    match ds, hm with
    | d :: d' :: ds, hm =>
      simp only [List.map_cons, List.cons.injEq] at hm
      exact ⟨d' :: d :: ds, List.Perm.swap _ _ _, by simp [hm]⟩
  | trans _ _ ih1 ih2 =>
    obtain ⟨ds1, h1, h2⟩ := ih1 hm
    obtain ⟨ds2, h3, h4⟩ := ih2 h2
    exact ⟨ds2, h1.trans h3, h4⟩

/-- Same multiset of label sequences: isomorphic. -/
theorem ChainNet.iso_perm {I I' : Finset Nat} {lt lt' lab lab'} {cs ds : List (List Nat)} (hc : ChainNet I lt cs)
    (hd : ChainNet I' lt' ds) (hl : (cs.map (·.map lab)).Perm (ds.map (·.map lab'))) :
    ∃ e g, NetIso I I' lab lab' lt lt' e g := by
  obtain ⟨cs', h1, h2⟩ := perm_map_lift (fun c : List Nat => c.map lab) hl
  exact (hc.perm h1).iso hd h2

end Verif.Htn
