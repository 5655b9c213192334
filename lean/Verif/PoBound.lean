import Verif.PoExact

/-! # The number of vertices that the placement uses, and where the edges come from -/

namespace Verif.Sog

open Verif.Htn

theorem poPick_le {P : Problem} {compact : Bool} {o : List (Nat × Nat)} {s : POSt} {done : List (Nat × Nat)} {st task : Nat} :
    poPick P compact s o done st task ≤ s.nv := by
  have hc : ∀ v ∈ poCands P compact s o done st task, v ≤ s.nv := by
    intro v hv
    unfold poCands at hv
    rw [List.mem_filter, List.mem_range] at hv
    omega
  unfold poPick
  cases hf : (poCands P compact s o done st task).find? fun v => (s.lab v).contains task with
  | some v => exact hc v (List.mem_of_find?_eq_some hf)
  | none =>
    simp only
    cases hl : poCands P compact s o done st task with
    | nil => exact Nat.le_refl _
    | cons v l => exact hc v (by rw [hl]; simp)

theorem poMeth_nv {P : Problem} {compact : Bool} {o : List (Nat × Nat)} {m : Nat} : ∀ (l : List Nat) (done : List (Nat × Nat)) (s : POSt),
    (poMeth P compact o m l done s).1.nv ≤ s.nv + l.length
  | [], done, s => Nat.le_refl _
  | st :: rest, done, s => by
    rw [poMeth]
    refine (poMeth_nv rest _ _).trans ?_
    have : poPick P compact s o done st ((P.sub m).getD st 0) ≤ s.nv := poPick_le
    simp only [poPut, List.length_cons]
    omega

theorem poMeths_nv {P : Problem} {tot : Nat → List Nat} {clo : Nat → List (Nat × Nat)} {compact : Bool} : ∀ (ms : List Nat) (s : POSt),
    (poMeths P tot clo compact ms s).1.nv ≤ s.nv + (ms.map fun m => (tot m).length).sum
  | [], s => Nat.le_refl _
  | m :: ms, s => by
    rw [poMeths]
    refine (poMeths_nv ms _).trans ?_
    have := poMeth_nv (P := P) (compact := compact) (o := clo m) (m := m) (tot m) [] s
    simp only [List.map_cons, List.sum_cons]
    omega

theorem poAll_nv {P : Problem} {tot : Nat → List Nat} {clo : Nat → List (Nat × Nat)} {compact : Bool} {ms : List Nat}
    (ht : ∀ m ∈ ms, (tot m).length = (P.sub m).length) :
    (poAll P tot clo compact ms).1.nv ≤ (ms.map fun m => (P.sub m).length).sum := by
  cases ms with
  | nil => exact Nat.le_refl _
  | cons m ms =>
    rw [poAll]
    refine (poMeths_nv ms _).trans ?_
    have : (ms.map fun m => (tot m).length) = ms.map fun m => (P.sub m).length :=
      List.map_congr_left fun m' h => ht m' (List.mem_cons_of_mem _ h)
    rw [this]
    simp [poFirst]

/-! ## Where the edges come from -/

theorem poMeth_prov {P : Problem} {compact : Bool} {o : List (Nat × Nat)} {m : Nat} : ∀ (l : List Nat) (done : List (Nat × Nat)) (s : POSt),
    (∀ q ∈ done, q ∈ (poMeth P compact o m l done s).2) ∧
    ∀ e ∈ (poMeth P compact o m l done s).1.adj, e ∈ s.adj ∨
      ∃ q ∈ (poMeth P compact o m l done s).2, ∃ r ∈ (poMeth P compact o m l done s).2, (q.1, r.1) ∈ o ∧ e = (q.2, r.2)
  | [], done, s => ⟨fun _ h => h, fun _ h => .inl h⟩
  | st :: rest, done, s => by
    rw [poMeth]
    generalize poPick P compact s o done st ((P.sub m).getD st 0) = v
    obtain ⟨h1, h2⟩ := poMeth_prov (P := P) (compact := compact) (o := o) (m := m) rest ((st, v) :: done)
      (poPut P s o done st ((P.sub m).getD st 0) v)
    refine ⟨fun q hq => h1 q (List.mem_cons_of_mem _ hq), fun e he => ?_⟩
    rcases h2 e he with h | h
    · have h : e ∈ _ ++ s.adj := h
      rw [List.mem_append, List.mem_filterMap] at h
      rcases h with ⟨q, hq, h⟩ | h
      · right
        have hq' := h1 q (List.mem_cons_of_mem _ hq)
        have hst := h1 (st, v) List.mem_cons_self
        simp only [List.contains_iff_mem] at h
        split_ifs at h with ha hb
        · exact ⟨_, hst, _, hq', ha, (Option.some.inj h).symm⟩
        · exact ⟨_, hq', _, hst, hb, (Option.some.inj h).symm⟩
      · exact .inl h
    · exact .inr h

/-- An edge is an ordering of one of the methods. -/
def FromMeth (clo : Nat → List (Nat × Nat)) (e : Nat × Nat) (x : Nat × List Nat) : Prop :=
  ∃ a b, (a, b) ∈ clo x.1 ∧ e = (x.2.getD a 0, x.2.getD b 0)

theorem poMeths_prov {P : Problem} {tot : Nat → List Nat} {clo : Nat → List (Nat × Nat)} {compact : Bool} : ∀ (ms : List Nat) (s : POSt),
    (∀ m ∈ ms, (tot m).Perm (List.range (P.sub m).length)) →
    (∀ m ∈ ms, ∀ i j, (i, j) ∈ clo m → (j, i) ∉ clo m) → EdgesIn s.adj s.nv →
    ∀ e ∈ (poMeths P tot clo compact ms s).1.adj, e ∈ s.adj ∨
      ∃ x ∈ ms.zip (poMeths P tot clo compact ms s).2, FromMeth clo e x
  | [], s, _, _, _ => fun _ h => .inl h
  | m :: ms, s, ht, ha, hs => by
    intro e he
    have hord := ht m (by simp)
    obtain ⟨hinv, hfst⟩ := poMeth_spec (P := P) (compact := compact) (ha m (by simp)) (m := m) (s0 := s) (tot m) [] s
      ⟨Nat.le_refl _, fun _ h => h, hs, by simp, .nil, by simp⟩
    have hprov := (poMeth_prov (P := P) (compact := compact) (o := clo m) (m := m) (tot m) [] s).2
    rw [poMeths] at he ⊢
    simp only at he ⊢
    generalize hr : poMeth P compact (clo m) m (tot m) [] s = r at hinv hfst hprov he
    obtain ⟨s', done⟩ := r
    simp only [List.map_nil, List.append_nil] at hfst hinv hprov he ⊢
    have hnd : (done.map Prod.fst).Nodup := by
      rw [hfst, List.nodup_reverse]
      exact hord.nodup_iff.2 List.nodup_range
    have hget : ∀ q ∈ done, (poMap (P.sub m).length done).getD q.1 0 = q.2 := by
      intro q hq
      have hlt : q.1 < (P.sub m).length := by
        have : q.1 ∈ done.map Prod.fst := List.mem_map_of_mem hq
        rw [hfst, List.mem_reverse, hord.mem_iff, List.mem_range] at this
        exact this
      have hl : (poMap (P.sub m).length done)[q.1]? = some q.2 := by
        unfold poMap
        rw [List.getElem?_map, List.getElem?_range hlt]
        simp [lookup_of_mem hnd (show (q.1, q.2) ∈ done from hq)]
      rw [List.getD_eq_getElem?_getD, hl]; rfl
    rcases poMeths_prov ms s' (fun m' hm' => ht m' (by simp [hm'])) (fun m' hm' => ha m' (by simp [hm'])) hinv.edges e he with h | ⟨x, hx, h⟩
    · rcases hprov e h with h | ⟨q, hq, r, hr', ho, rfl⟩
      · exact .inl h
      · right
        refine ⟨(m, poMap (P.sub m).length done), by simp, q.1, r.1, ho, ?_⟩
        simp only
        rw [hget q hq, hget r hr']
    · exact .inr ⟨x, by rw [List.zip_cons_cons]; exact List.mem_cons_of_mem _ hx, h⟩

/-- The edges of the graph are the orderings of the methods. -/
theorem poAll_prov {P : Problem} {tot : Nat → List Nat} {clo : Nat → List (Nat × Nat)} {compact : Bool} {ms : List Nat}
    (ht : ∀ m ∈ ms, (tot m).Perm (List.range (P.sub m).length))
    (hc : ∀ m ∈ ms, (∀ i j, (i, j) ∈ clo m → (j, i) ∉ clo m) ∧ ∀ i j, (i, j) ∈ clo m → i < (P.sub m).length ∧ j < (P.sub m).length) :
    ∀ e, e ∈ (poAll P tot clo compact ms).1.adj ↔ ∃ x ∈ ms.zip (poAll P tot clo compact ms).2, FromMeth clo e x := by
  intro e
  constructor
  · intro he
    cases ms with
    | nil => simp [poAll] at he
    | cons m ms =>
      have hm := hc m (by simp)
      rw [poAll] at he ⊢
      rcases poMeths_prov ms (poFirst P (clo m) m) (fun m' hm' => ht m' (by simp [hm'])) (fun m' hm' => (hc m' (by simp [hm'])).1)
        (fun e he => hm.2 e.1 e.2 he) e he with h | ⟨x, hx, h⟩
      · have h : (e.1, e.2) ∈ clo m := h
        refine ⟨(m, List.range (P.sub m).length), by simp, e.1, e.2, h, ?_⟩
        simp only
        rw [getD_range (hm.2 _ _ h).1, getD_range (hm.2 _ _ h).2]
      · exact ⟨x, by rw [List.zip_cons_cons]; exact List.mem_cons_of_mem _ hx, h⟩
  · rintro ⟨⟨m, mp⟩, hx, a, b, hab, rfl⟩
    exact ((List.forall₂_zip (poAll_spec (P := P) (compact := compact) ht hc).2.2 hx).2) a b hab

end Verif.Sog

namespace Verif.Pdt

open Verif.Htn Verif.Sog

/-- No method is applicable twice. -/
theorem applicable_nodup {P : Problem} {d : ND} (hd : d.OK P) : ((applicable P d).map (·.1)).Nodup := by
  unfold applicable
  rw [List.map_flatMap, List.nodup_flatMap]
  have hz : ∀ {α : Type} (l : List α) (k : Nat), (l.zipIdx k).map Prod.fst = l := by
    intro α l k; exact List.zipIdx_map_fst k l
  constructor
  · rintro t -
    rw [List.map_map]
    have : ((fun x : Nat × Nat × Nat => x.1) ∘ fun m : Nat × Nat => (m.1, t.2, m.2)) = Prod.fst := rfl
    rw [this, hz]
    exact (List.nodup_range).filter _
  · have hn : (d.abss.zipIdx).Pairwise fun a b => a.1 ≠ b.1 := by
      rw [← List.pairwise_map (f := Prod.fst) (R := fun a b => a ≠ b), hz]
      exact hd.nodupA
    refine hn.imp fun {a b} hab => ?_
    intro m h1 h2
    simp only [List.map_map] at h1 h2
    obtain ⟨x, hx, rfl⟩ := List.mem_map.1 h1
    obtain ⟨y, hy, hxy⟩ := List.mem_map.1 h2
    have hx' : x.1 ∈ meths P a.1 := by rw [← hz (meths P a.1) 0]; exact List.mem_map_of_mem hx
    have hy' : y.1 ∈ meths P b.1 := by rw [← hz (meths P b.1) 0]; exact List.mem_map_of_mem hy
    simp only [Function.comp_apply] at hxy
    rw [← hxy] at hx'
    have e1 := (List.mem_filter.1 hx').2
    have e2 := (List.mem_filter.1 hy').2
    simp only [beq_iff_eq] at e1 e2
    exact hab (e1.symm.trans e2)

theorem sublist_sum {l l' : List Nat} (h : l.Sublist l') : l.sum ≤ l'.sum := by
  induction h with
  | slnil => exact Nat.le_refl _
  | cons a _ ih => simp only [List.sum_cons]; omega
  | cons_cons a _ ih => simp only [List.sum_cons]; omega

/-- If all methods together have at most 65536 subtasks, the children of the vertices can be numbered with 16 bits. -/
theorem bound_of {P : Problem} {cfg : Cfg} (htot : ∀ m < P.numMethods, (cfg.tot m).Perm (List.range (P.sub m).length))
    (hsort : SortOK P cfg.sortM) (hcf : cfg.compact = false)
    (hsum : ((List.range P.numMethods).map fun m => (P.sub m).length).sum ≤ 65536) (d : ND) (hd : d.OK P) :
    verticesOf P cfg ((cfg.sortM (applicable P d)).map (·.1)) ≤ 65536 := by
  have hp : ((cfg.sortM (applicable P d)).map (·.1)).Perm ((applicable P d).map (·.1)) := (hsort _).1.map _
  have hnd := (hp.nodup_iff).2 (applicable_nodup hd)
  have hsub : ∀ m ∈ (cfg.sortM (applicable P d)).map (·.1), m < P.numMethods := by
    intro m hm
    rw [hp.mem_iff] at hm
    obtain ⟨⟨m', ti, mi⟩, h, rfl⟩ := List.mem_map.1 hm
    obtain ⟨t, -, h2⟩ := mem_applicable.1 h
    have := List.mem_of_getElem? h2
    unfold meths at this
    simpa using (List.mem_filter.1 this).1
  generalize (cfg.sortM (applicable P d)).map (·.1) = ms at hnd hsub
  have hle : (ms.map fun m => (P.sub m).length).sum ≤ 65536 := by
    refine le_trans ?_ hsum
    have hsp : ms.Subperm (List.range P.numMethods) := hnd.subperm fun m hm => List.mem_range.2 (hsub m hm)
    obtain ⟨l, hl, hs⟩ := hsp
    rw [← (hl.map _).sum_eq]
    exact sublist_sum (hs.map _)
  unfold verticesOf
  split_ifs with h
  · exact (poAll_nv fun m hm => by rw [(htot m (hsub m hm)).length_eq, List.length_range]).trans hle
  · refine le_trans ?_ hle
    cases ms with
    | nil => exact Nat.zero_le _
    | cons m ms => simp [numVertices, hcf]

theorem msAt_nodup {P : Problem} {cfg : Cfg} (hc : CfgOK P cfg) {d : ND} (hd : d.OK P) : (msAt P cfg d).Nodup :=
  (((hc.sort _).1.map _).nodup_iff).2 (applicable_nodup hd)

/-- Vertices at which at most one of the methods has orderings. -/
theorem closed_of_one {P : Problem} {cfg : Cfg} {d : ND} (hP : P.WF) (hc : CfgOK P cfg) (hpo : cfg.po = true) (hd : d.OK P) {m0 : Nat}
    (h : ∀ m ∈ msAt P cfg d, m ≠ m0 → ∀ i j, ¬ P.OrdRel m i j) : ClosedAt P cfg d := by
  have hclo := hc.clo hpo
  have ht : ∀ m ∈ msAt P cfg d, (cfg.tot m).Perm (List.range (P.sub m).length) := fun m hm => hc.tot m (msAt_lt hc m hm)
  have hcl : ∀ m ∈ msAt P cfg d, (∀ i j, (i, j) ∈ cfg.clo m → (j, i) ∉ cfg.clo m) ∧
      ∀ i j, (i, j) ∈ cfg.clo m → i < (P.sub m).length ∧ j < (P.sub m).length :=
    fun m hm => clo_asym hP hclo (msAt_lt hc m hm)
  have hprov := poAll_prov (P := P) (compact := cfg.compact) ht hcl
  have hspec := (poAll_spec (P := P) (compact := cfg.compact) ht hcl).2.2
  have hone : ∀ x ∈ (msAt P cfg d).zip (poAll P cfg.tot cfg.clo cfg.compact (msAt P cfg d)).2, ∀ e, FromMeth cfg.clo e x → x.1 = m0 := by
    rintro ⟨m, mp⟩ hx e ⟨a, b, hab, -⟩
    by_contra hne
    have hm := (List.of_mem_zip hx).1
    have := (hclo.closed m (msAt_lt hc m hm) a b).1 hab
    induction this with
    | single h' => exact h m hm hne _ _ h'
    | tail _ h' _ => exact h m hm hne _ _ h'
  have huniq : ∀ x ∈ (msAt P cfg d).zip (poAll P cfg.tot cfg.clo cfg.compact (msAt P cfg d)).2,
      ∀ y ∈ (msAt P cfg d).zip (poAll P cfg.tot cfg.clo cfg.compact (msAt P cfg d)).2, x.1 = y.1 → x = y := by
    intro x hx y hy hxy
    obtain ⟨i, hi, rfl⟩ := List.mem_iff_getElem.1 hx
    obtain ⟨j, hj, rfl⟩ := List.mem_iff_getElem.1 hy
    simp only [List.getElem_zip] at hxy ⊢
    have hi' : i < (msAt P cfg d).length := by simp at hi; omega
    have hj' : j < (msAt P cfg d).length := by simp at hj; omega
    have := (List.Nodup.getElem_inj_iff (msAt_nodup hc hd) (hi := hi') (hj := hj')).1 hxy
    subst this
    rfl
  intro hu i j k hij hjk
  rw [hprov] at hij hjk ⊢
  obtain ⟨x, hx, h1⟩ := hij
  obtain ⟨y, hy, h2⟩ := hjk
  obtain rfl := huniq x hx y hy ((hone x hx _ h1).trans (hone y hy _ h2).symm)
  obtain ⟨m, mp⟩ := x
  obtain ⟨a, b, hab, e1⟩ := h1
  obtain ⟨b', c, hbc, e2⟩ := h2
  obtain ⟨rfl, rfl⟩ := Prod.mk.inj e1
  obtain ⟨e3, rfl⟩ := Prod.mk.inj e2
  have hm := (List.of_mem_zip hx).1
  have hlt := msAt_lt hc m hm
  have hpl := (List.forall₂_zip hspec hx).1
  simp only at hab hbc e3
  obtain rfl : b = b' := by
    by_contra hne
    have hmb : b ∈ cfg.tot m := (ht m hm).mem_iff.2 (List.mem_range.2 ((hcl m hm).2 _ _ hab).2)
    have hmb' : b' ∈ cfg.tot m := (ht m hm).mem_iff.2 (List.mem_range.2 ((hcl m hm).2 _ _ hbc).1)
    obtain ⟨x, hx1, hx2⟩ := List.mem_iff_getElem.1 hmb
    obtain ⟨y, hy1, hy2⟩ := List.mem_iff_getElem.1 hmb'
    have hp := List.pairwise_iff_getElem.1 hpl.inj
    rcases Nat.lt_trichotomy x y with hxy | rfl | hxy
    · exact hp x y hx1 hy1 hxy (by rw [hx2, hy2]; exact e3)
    · exact hne (hx2.symm.trans hy2)
    · exact hp y x hy1 hx1 hxy (by rw [hx2, hy2]; exact e3.symm)
  exact ⟨_, hx, a, c, (hclo.closed m hlt a c).2 (((hclo.closed m hlt a b).1 hab).trans ((hclo.closed m hlt b c).1 hbc)), rfl⟩

end Verif.Pdt
