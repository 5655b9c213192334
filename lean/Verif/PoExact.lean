import Verif.PoLoop

/-! # The edges between the subtasks of a method are exactly its orderings

The forbidden edges (`antiAdj`) keep other methods from adding edges between the vertices of a method.  What they do not
prevent are paths over other vertices. -/

namespace Verif.Sog

open Verif.Htn

section
variable {P : Problem} {compact : Bool} {o : List (Nat × Nat)}

/-- No edge is forbidden, and there are no loops. -/
structure XInv (s : POSt) : Prop where
  edges : EdgesIn s.adj s.nv
  anti : EdgesIn s.anti s.nv
  disj : ∀ e ∈ s.adj, e ∉ s.anti
  loop : ∀ e ∈ s.adj, e.1 ≠ e.2

/-- The vertex is new or suits the subtasks that are placed. -/
theorem poPick_fits {s : POSt} {done : List (Nat × Nat)} {st task : Nat} :
    poPick P compact s o done st task = s.nv ∨ poFits s o done st (poPick P compact s o done st task) = true := by
  have hc : ∀ v ∈ poCands P compact s o done st task, poFits s o done st v = true := by
    intro v hv
    unfold poCands at hv
    rw [List.mem_filter, Bool.and_eq_true] at hv
    exact hv.2.2
  unfold poPick
  cases hf : (poCands P compact s o done st task).find? fun v => (s.lab v).contains task with
  | some v => exact .inr (hc v (List.mem_of_find?_eq_some hf))
  | none =>
    simp only
    cases hl : poCands P compact s o done st task with
    | nil => exact .inl rfl
    | cons v l => exact .inr (hc v (by rw [hl]; simp))

/-- Placement of a method: pairs without ordering are forbidden edges. -/
structure XMeth (o : List (Nat × Nat)) (s0 s : POSt) (done : List (Nat × Nat)) : Prop where
  inv : XInv s
  nv : s0.nv ≤ s.nv
  sub : ∀ e ∈ s0.anti, e ∈ s.anti
  lt : ∀ q ∈ done, q.2 < s.nv
  inj : done.Pairwise fun a b => a.2 ≠ b.2
  free : ∀ q ∈ done, ∀ r ∈ done, q.2 ≠ r.2 → (q.1, r.1) ∉ o → (q.2, r.2) ∈ s.anti

theorem pair_inj {done : List (Nat × Nat)} (h : done.Pairwise fun a b => a.2 ≠ b.2) {q r : Nat × Nat} (hq : q ∈ done) (hr : r ∈ done)
    (he : q.2 = r.2) : q = r := by
  obtain ⟨a, ha, rfl⟩ := List.mem_iff_getElem.1 hq
  obtain ⟨b, hb, rfl⟩ := List.mem_iff_getElem.1 hr
  have hp := List.pairwise_iff_getElem.1 h
  rcases Nat.lt_trichotomy a b with hab | hab | hab
  · exact absurd he (hp a b ha hb hab)
  · subst hab; rfl
  · exact absurd he.symm (hp b a hb ha hab)

theorem poMeth_x {m : Nat} {s0 : POSt} : ∀ (l : List Nat) (done : List (Nat × Nat)) (s : POSt), XMeth o s0 s done →
    XMeth o s0 (poMeth P compact o m l done s).1 (poMeth P compact o m l done s).2 ∧
      ((poMeth P compact o m l done s).2.map Prod.fst) = l.reverse ++ done.map Prod.fst
  | [], _, _, h => ⟨h, rfl⟩
  | st :: rest, done, s, h => by
    rw [poMeth]
    obtain ⟨hv, hne⟩ := poPick_spec (P := P) (compact := compact) (o := o) (st := st) (task := (P.sub m).getD st 0) h.lt
    have hfit := poPick_fits (P := P) (compact := compact) (o := o) (s := s) (done := done) (st := st) (task := (P.sub m).getD st 0)
    generalize poPick P compact s o done st ((P.sub m).getD st 0) = v at hv hne hfit
    generalize (P.sub m).getD st 0 = task
    have hnv : (poPut P s o done st task v).nv = max s.nv (v + 1) := rfl
    have hadj : ∀ e, e ∈ (poPut P s o done st task v).adj ↔ (∃ q ∈ done, ((st, q.1) ∈ o ∧ e = (v, q.2)) ∨
        ((st, q.1) ∉ o ∧ (q.1, st) ∈ o ∧ e = (q.2, v))) ∨ e ∈ s.adj := by
      intro e
      show e ∈ _ ++ s.adj ↔ _
      rw [List.mem_append, List.mem_filterMap]
      refine or_congr (exists_congr fun q => and_congr_right fun hq => ?_) Iff.rfl
      simp only [List.contains_iff_mem]
      by_cases h1 : (st, q.1) ∈ o
      · simp [h1, eq_comm]
      · by_cases h2 : (q.1, st) ∈ o
        · simp [h1, h2, eq_comm]
        · simp [h1, h2]
    have hanti : ∀ e, e ∈ (poPut P s o done st task v).anti ↔ (∃ q ∈ done, ((st, q.1) ∈ o ∧ e = (q.2, v)) ∨
        ((st, q.1) ∉ o ∧ (q.1, st) ∈ o ∧ e = (v, q.2)) ∨
        ((st, q.1) ∉ o ∧ (q.1, st) ∉ o ∧ (e = (v, q.2) ∨ e = (q.2, v)))) ∨ e ∈ s.anti := by
      intro e
      show e ∈ _ ++ s.anti ↔ _
      rw [List.mem_append, List.mem_flatMap]
      refine or_congr (exists_congr fun q => and_congr_right fun hq => ?_) Iff.rfl
      simp only [List.contains_iff_mem]
      by_cases h1 : (st, q.1) ∈ o
      · simp [h1]
      · by_cases h2 : (q.1, st) ∈ o
        · simp [h1, h2]
        · simp [h1, h2]
    -- the old graph against the new pairs
    have hfree : ∀ q ∈ done, ((st, q.1) ∈ o → (q.2, v) ∉ s.adj ∧ (v, q.2) ∉ s.anti) ∧
        ((st, q.1) ∉ o → (q.1, st) ∈ o → (v, q.2) ∉ s.adj ∧ (q.2, v) ∉ s.anti) ∧
        ((st, q.1) ∉ o → (q.1, st) ∉ o → (v, q.2) ∉ s.adj ∧ (q.2, v) ∉ s.adj) := by
      intro q hq
      rcases hfit with rfl | hfit
      · have e1 : ∀ e ∈ s.adj, e.1 < s.nv ∧ e.2 < s.nv := h.inv.edges
        have e2 : ∀ e ∈ s.anti, e.1 < s.nv ∧ e.2 < s.nv := h.inv.anti
        have n1 : (q.2, s.nv) ∉ s.adj := fun hh => by have := e1 _ hh; simp only at this; omega
        have n2 : (s.nv, q.2) ∉ s.adj := fun hh => by have := e1 _ hh; simp only at this; omega
        have n3 : (q.2, s.nv) ∉ s.anti := fun hh => by have := e2 _ hh; simp only at this; omega
        have n4 : (s.nv, q.2) ∉ s.anti := fun hh => by have := e2 _ hh; simp only at this; omega
        exact ⟨fun _ => ⟨n1, n4⟩, fun _ _ => ⟨n2, n3⟩, fun _ _ => ⟨n2, n1⟩⟩
      · have := List.all_eq_true.1 hfit q hq
        simp only [List.contains_iff_mem] at this
        refine ⟨fun h1 => ?_, fun h1 h2 => ?_, fun h1 h2 => ?_⟩
        · rw [if_pos h1] at this; simpa using this
        · rw [if_neg h1, if_pos h2] at this; simpa using this
        · rw [if_neg h1, if_neg h2] at this; simpa using this
    have hinv : XMeth o s0 (poPut P s o done st task v) ((st, v) :: done) := by
      refine ⟨⟨?_, ?_, ?_, ?_⟩, ?_, ?_, ?_, ?_, ?_⟩
      · intro e he
        rw [hnv]
        rcases (hadj e).1 he with ⟨q, hq, ⟨-, rfl⟩ | ⟨-, -, rfl⟩⟩ | he
        · have := h.lt q hq; simp only; omega
        · have := h.lt q hq; simp only; omega
        · have := h.inv.edges e he; omega
      · intro e he
        rw [hnv]
        rcases (hanti e).1 he with ⟨q, hq, ⟨-, rfl⟩ | ⟨-, -, rfl⟩ | ⟨-, -, rfl | rfl⟩⟩ | he
        · have := h.lt q hq; simp only; omega
        · have := h.lt q hq; simp only; omega
        · have := h.lt q hq; simp only; omega
        · have := h.lt q hq; simp only; omega
        · have := h.inv.anti e he; omega
      · intro e he ha
        rcases (hadj e).1 he with ⟨q, hq, ⟨k1, rfl⟩ | ⟨k1, k2, rfl⟩⟩ | he
        · rcases (hanti _).1 ha with ⟨r, hr, ⟨j1, e1⟩ | ⟨j1, j2, e1⟩ | ⟨j1, j2, e1 | e1⟩⟩ | ha
          · exact hne r hr (Prod.mk.inj e1).1.symm
          · obtain rfl := pair_inj h.inj hq hr (Prod.mk.inj e1).2
            exact j1 k1
          · obtain rfl := pair_inj h.inj hq hr (Prod.mk.inj e1).2
            exact j1 k1
          · exact hne r hr (Prod.mk.inj e1).1.symm
          · exact ((hfree q hq).1 k1).2 ha
        · rcases (hanti _).1 ha with ⟨r, hr, ⟨j1, e1⟩ | ⟨j1, j2, e1⟩ | ⟨j1, j2, e1 | e1⟩⟩ | ha
          · obtain rfl := pair_inj h.inj hq hr (Prod.mk.inj e1).1
            exact k1 j1
          · exact hne q hq (Prod.mk.inj e1).1
          · exact hne q hq (Prod.mk.inj e1).1
          · obtain rfl := pair_inj h.inj hq hr (Prod.mk.inj e1).1
            exact j2 k2
          · exact ((hfree q hq).2.1 k1 k2).2 ha
        · rcases (hanti _).1 ha with ⟨r, hr, ⟨j1, rfl⟩ | ⟨j1, j2, rfl⟩ | ⟨j1, j2, rfl | rfl⟩⟩ | ha
          · exact ((hfree r hr).1 j1).1 he
          · exact ((hfree r hr).2.1 j1 j2).1 he
          · exact ((hfree r hr).2.2 j1 j2).1 he
          · exact ((hfree r hr).2.2 j1 j2).2 he
          · exact h.inv.disj e he ha
      · intro e he
        rcases (hadj e).1 he with ⟨q, hq, ⟨-, rfl⟩ | ⟨-, -, rfl⟩⟩ | he
        · exact (hne q hq).symm
        · exact hne q hq
        · exact h.inv.loop e he
      · rw [hnv]; have := h.nv; omega
      · exact fun e he => (hanti e).2 (.inr (h.sub e he))
      · intro q hq
        rw [hnv]
        rcases List.mem_cons.1 hq with rfl | hq
        · simp only; omega
        · have := h.lt q hq; omega
      · exact List.pairwise_cons.2 ⟨fun q hq => (hne q hq).symm, h.inj⟩
      · intro q hq r hr hqr hno
        rw [hanti]
        rcases List.mem_cons.1 hq with rfl | hq <;> rcases List.mem_cons.1 hr with rfl | hr
        · exact absurd rfl hqr
        · by_cases h2 : (r.1, st) ∈ o
          · exact .inl ⟨r, hr, .inr (.inl ⟨hno, h2, rfl⟩)⟩
          · exact .inl ⟨r, hr, .inr (.inr ⟨hno, h2, .inl rfl⟩)⟩
        · by_cases h1 : (st, q.1) ∈ o
          · exact .inl ⟨q, hq, .inl ⟨h1, rfl⟩⟩
          · exact .inl ⟨q, hq, .inr (.inr ⟨h1, hno, .inr rfl⟩)⟩
        · exact .inr (h.free q hq r hr hqr hno)
    obtain ⟨h1, h2⟩ := poMeth_x rest _ _ hinv
    exact ⟨h1, by rw [h2]; simp⟩

/-- Pairs of subtasks without ordering are forbidden edges. -/
def Frees (n : Nat) (o anti : List (Nat × Nat)) (mp : List Nat) : Prop :=
  ∀ i < n, ∀ j < n, mp.getD i 0 ≠ mp.getD j 0 → (i, j) ∉ o → (mp.getD i 0, mp.getD j 0) ∈ anti

theorem poMeth_frees {m n : Nat} {ord : List Nat} (hord : ord.Perm (List.range n)) {s : POSt} (hs : XInv s) :
    XInv (poMeth P compact o m ord [] s).1 ∧ s.nv ≤ (poMeth P compact o m ord [] s).1.nv ∧
      (∀ e ∈ s.anti, e ∈ (poMeth P compact o m ord [] s).1.anti) ∧
      Frees n o (poMeth P compact o m ord [] s).1.anti (poMap n (poMeth P compact o m ord [] s).2) := by
  obtain ⟨hinv, hfst⟩ := poMeth_x (P := P) (compact := compact) (o := o) (m := m) (s0 := s) ord [] s
    ⟨hs, Nat.le_refl _, fun _ h => h, by simp, .nil, by simp⟩
  generalize poMeth P compact o m ord [] s = r at hinv hfst
  obtain ⟨s', done⟩ := r
  simp only [List.map_nil, List.append_nil] at hfst hinv ⊢
  have hnd : (done.map Prod.fst).Nodup := by
    rw [hfst, List.nodup_reverse]
    exact hord.nodup_iff.2 List.nodup_range
  have hget : ∀ i < n, ∃ v, (i, v) ∈ done ∧ (poMap n done).getD i 0 = v := by
    intro i hi
    have hm : i ∈ done.map Prod.fst := by
      rw [hfst, List.mem_reverse, hord.mem_iff, List.mem_range]; exact hi
    obtain ⟨⟨i', v⟩, hq, rfl⟩ := List.mem_map.1 hm
    refine ⟨v, hq, ?_⟩
    have hl : (poMap n done)[i']? = some v := by
      unfold poMap
      rw [List.getElem?_map, List.getElem?_range hi]
      simp [lookup_of_mem hnd hq]
    rw [List.getD_eq_getElem?_getD, hl]; rfl
  refine ⟨hinv.inv, hinv.nv, hinv.sub, fun i hi j hj hij hno => ?_⟩
  obtain ⟨v, hv, he⟩ := hget i hi
  obtain ⟨w, hw, he'⟩ := hget j hj
  rw [he, he'] at hij ⊢
  exact hinv.free _ hv _ hw hij hno

theorem poMeths_frees {tot : Nat → List Nat} {clo : Nat → List (Nat × Nat)} : ∀ (ms : List Nat) (s : POSt),
    (∀ m ∈ ms, (tot m).Perm (List.range (P.sub m).length)) → XInv s →
    XInv (poMeths P tot clo compact ms s).1 ∧ (∀ e ∈ s.anti, e ∈ (poMeths P tot clo compact ms s).1.anti) ∧
      List.Forall₂ (fun m mp => Frees (P.sub m).length (clo m) (poMeths P tot clo compact ms s).1.anti mp) ms (poMeths P tot clo compact ms s).2
  | [], s, _, hs => ⟨hs, fun _ h => h, .nil⟩
  | m :: ms, s, ht, hs => by
    obtain ⟨h1, -, h3, h4⟩ := poMeth_frees (P := P) (compact := compact) (o := clo m) (m := m) (ht m (by simp)) hs
    obtain ⟨k1, k2, k3⟩ := poMeths_frees ms (poMeth P compact (clo m) m (tot m) [] s).1
      (fun m' hm' => ht m' (by simp [hm'])) h1
    rw [poMeths]
    exact ⟨k1, fun e he => k2 e (h3 e he), .cons (fun i hi j hj hij hno => k2 _ (h4 i hi j hj hij hno)) k3⟩

/-- **The edges between the vertices of a method are its orderings**, and there are no loops. -/
theorem poAll_direct {tot : Nat → List Nat} {clo : Nat → List (Nat × Nat)} {ms : List Nat}
    (ht : ∀ m ∈ ms, (tot m).Perm (List.range (P.sub m).length))
    (hc : ∀ m ∈ ms, (∀ i j, (i, j) ∈ clo m → (j, i) ∉ clo m) ∧ ∀ i j, (i, j) ∈ clo m → i < (P.sub m).length ∧ j < (P.sub m).length) :
    (∀ e ∈ (poAll P tot clo compact ms).1.adj, e.1 ≠ e.2) ∧
      List.Forall₂ (fun m mp => ∀ i < (P.sub m).length, ∀ j < (P.sub m).length,
        (mp.getD i 0, mp.getD j 0) ∈ (poAll P tot clo compact ms).1.adj → (i, j) ∈ clo m) ms (poAll P tot clo compact ms).2 := by
  cases ms with
  | nil => exact ⟨by intro e he; simp [poAll] at he, .nil⟩
  | cons m ms =>
    have hm := hc m (by simp)
    have hx : XInv (poFirst P (clo m) m) := by
      refine ⟨fun e he => hm.2 e.1 e.2 he, fun e he => ?_, fun e he ha => ?_, fun e he h => ?_⟩
      · obtain ⟨i, hi, he⟩ := List.mem_flatMap.1 he
        obtain ⟨j, hj, rfl⟩ := List.mem_map.1 he
        exact ⟨List.mem_range.1 hi, List.mem_range.1 (List.mem_filter.1 hj).1⟩
      · obtain ⟨i, hi, ha⟩ := List.mem_flatMap.1 ha
        obtain ⟨j, hj, rfl⟩ := List.mem_map.1 ha
        have := (List.mem_filter.1 hj).2
        rw [Bool.and_eq_true] at this
        have h2 := this.2
        rw [List.contains_iff_mem.2 (show (i, j) ∈ clo m from he)] at h2
        simp at h2
      · have he' : (e.1, e.2) ∈ clo m := he
        rw [← h] at he'
        exact hm.1 _ _ he' he'
    obtain ⟨k1, k2, k3⟩ := poMeths_frees (P := P) (compact := compact) (tot := tot) (clo := clo) ms (poFirst P (clo m) m)
      (fun m' hm' => ht m' (by simp [hm'])) hx
    have key : ∀ m' mp, Frees (P.sub m').length (clo m') (poMeths P tot clo compact ms (poFirst P (clo m) m)).1.anti mp →
        ∀ i < (P.sub m').length, ∀ j < (P.sub m').length,
          (mp.getD i 0, mp.getD j 0) ∈ (poMeths P tot clo compact ms (poFirst P (clo m) m)).1.adj → (i, j) ∈ clo m' := by
      intro m' mp hf i hi j hj he
      by_contra hno
      exact k1.disj _ he (hf i hi j hj (k1.loop _ he) hno)
    rw [poAll]
    refine ⟨k1.loop, .cons (key m _ fun i hi j hj hij hno => ?_) (k3.imp fun m' mp h => key m' mp h)⟩
    rw [getD_range hi, getD_range hj] at hij ⊢
    refine k2 _ ?_
    show _ ∈ List.flatMap _ _
    refine List.mem_flatMap.2 ⟨i, List.mem_range.2 hi, List.mem_map.2 ⟨j, List.mem_filter.2 ⟨List.mem_range.2 hj, ?_⟩, rfl⟩⟩
    rw [Bool.and_eq_true]
    exact ⟨by simpa using hij, by simpa using hno⟩

/-- Without orderings there are no edges. -/
theorem poMeth_noEdges {m : Nat} (ho : o = []) : ∀ (l : List Nat) (done : List (Nat × Nat)) (s : POSt),
    (poMeth P compact o m l done s).1.adj = s.adj
  | [], _, _ => rfl
  | st :: rest, done, s => by
    rw [poMeth, poMeth_noEdges ho rest]
    show List.filterMap _ _ ++ s.adj = s.adj
    rw [List.filterMap_eq_nil_iff.2 (by intro q _; simp [ho]), List.nil_append]

theorem poMeths_noEdges {tot : Nat → List Nat} {clo : Nat → List (Nat × Nat)} : ∀ (ms : List Nat) (s : POSt), (∀ m ∈ ms, clo m = []) →
    (poMeths P tot clo compact ms s).1.adj = s.adj
  | [], _, _ => rfl
  | m :: ms, s, h => by
    rw [poMeths, poMeths_noEdges ms _ fun m' hm' => h m' (by simp [hm']), poMeth_noEdges (h m (by simp))]

theorem poAll_noEdges {tot : Nat → List Nat} {clo : Nat → List (Nat × Nat)} {ms : List Nat} (h : ∀ m ∈ ms, clo m = []) :
    (poAll P tot clo compact ms).1.adj = [] := by
  cases ms with
  | nil => rfl
  | cons m ms =>
    rw [poAll]
    simp only
    rw [poMeths_noEdges ms _ fun m' hm' => h m' (by simp [hm'])]
    exact h m (by simp)

end

end Verif.Sog

namespace Verif.Pdt

open Verif.Htn Verif.Sog Verif.Sat Relation

section
variable {P : Problem} {cfg : Cfg} {d : ND}

/-- The graph of a vertex is transitively closed. -/
def ClosedAt (P : Problem) (cfg : Cfg) (d : ND) : Prop :=
  usesPO cfg (msAt P cfg d) = true → ∀ i j k, (i, j) ∈ (poAll P cfg.tot cfg.clo cfg.compact (msAt P cfg d)).1.adj →
    (j, k) ∈ (poAll P cfg.tot cfg.clo cfg.compact (msAt P cfg d)).1.adj →
    (i, k) ∈ (poAll P cfg.tot cfg.clo cfg.compact (msAt P cfg d)).1.adj

theorem msAt_lt (hc : CfgOK P cfg) : ∀ m ∈ msAt P cfg d, m < P.numMethods := fun m hm => by
  obtain ⟨ti, mi, h⟩ := (mem_msAt hc).1 hm
  exact (lt_of_isMeth h).1

/-- A transitively closed graph has no cycle and imposes nothing more than the methods. -/
theorem closed_good (hP : P.WF) (hc : CfgOK P cfg) (hpo : cfg.po = true) (h : ClosedAt P cfg d) : AcyclicAt P cfg d ∧ ExactAt P cfg d := by
  have hclo := hc.clo hpo
  obtain ⟨hloop, hdir⟩ := poAll_direct (P := P) (compact := cfg.compact) (tot := cfg.tot) (clo := cfg.clo) (ms := msAt P cfg d)
    (fun m hm => hc.tot m (msAt_lt hc m hm)) (fun m hm => clo_asym hP hclo (msAt_lt hc m hm))
  constructor
  · intro hu
    have htr := h hu
    generalize (poAll P cfg.tot cfg.clo cfg.compact (msAt P cfg d)).1.adj = adj at hloop htr
    refine ⟨fun i => ((adj.map Prod.fst).filter fun k => decide ((k, i) ∈ adj)).length, fun i j hij => ?_⟩
    refine filter_length_lt _ _ _ (fun x _ hx => ?_) (k := i) (List.mem_map.2 ⟨_, hij, rfl⟩) (by simpa using hij) ?_
    · simp only [decide_eq_true_eq] at hx ⊢
      exact htr x i j hx hij
    · simp only [decide_eq_false_iff_not]
      exact fun hh => hloop _ hh rfl
  · intro hu m mp hm i hi j hj hij
    have htr := h hu
    have hz := (List.forall₂_iff_zip.1 hdir).2 hm
    have hmn := msAt_lt hc m (List.of_mem_zip hm).1
    refine (hclo.closed m hmn i j).1 (hz i hi j hj ?_)
    generalize (poAll P cfg.tot cfg.clo cfg.compact (msAt P cfg d)).1.adj = adj at hij htr
    generalize mp.getD i 0 = x at hij
    generalize mp.getD j 0 = y at hij
    induction hij with
    | single h => exact h
    | tail _ h1 ih => exact htr _ _ _ ih h1

/-- Vertices with totally ordered methods only, with one method only, or with methods without orderings only. -/
theorem closed_of (hc : CfgOK P cfg) (hpo : cfg.po = true)
    (h : (∀ m ∈ msAt P cfg d, cfg.isTO m = true) ∨ (∃ m, msAt P cfg d = [m]) ∨ ∀ m ∈ msAt P cfg d, ∀ i j, ¬ P.OrdRel m i j) :
    ClosedAt P cfg d := by
  have hclo := hc.clo hpo
  intro hu i j k hij hjk
  rcases h with h | ⟨m, h⟩ | h
  · unfold usesPO at hu
    rw [Bool.and_eq_true, Bool.not_eq_true', List.all_eq_true.2 h] at hu
    simp at hu
  · have hm := msAt_lt (d := d) hc m (by rw [h]; simp)
    rw [h] at hij hjk ⊢
    exact (hclo.closed m hm i k).2 (((hclo.closed m hm i j).1 hij).trans ((hclo.closed m hm j k).1 hjk))
  · rw [poAll_noEdges] at hij
    · simp at hij
    · intro m hm
      rw [List.eq_nil_iff_forall_not_mem]
      rintro ⟨a, b⟩ hab
      have := (hclo.closed m (msAt_lt hc m hm) a b).1 hab
      induction this with
      | single h' => exact h m hm _ _ h'
      | tail _ h' _ => exact h m hm _ _ h'

end

end Verif.Pdt
