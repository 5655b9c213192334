import Verif.Sog
import Mathlib.Logic.Relation

/-! # Model of the placement of subtasks for partially ordered methods (src/sat/sog.cpp 8-174, 539-572)

All methods that may be applied at a vertex of the decomposition tree put their subtasks on the vertices of a common
ordered graph ("SOG").  The first method defines the graph.  Every other method puts its subtasks, one after the other,
on vertices that are not taken yet and whose edges do not contradict its own order, or on new vertices.

`bdj` and `antiBdj` are the transposed graphs of `adj` and `antiAdj` throughout; here the graphs are lists of pairs.
Vertices are numbered with 16 bits; the model does not follow the numbers that wrap around (`placePO` is `none` if there
are more than 65536 vertices). -/

namespace Verif.Sog

open Verif.Htn

/-- The graph under construction: number of vertices, labels, edges, forbidden edges, vertices with effectless actions. -/
structure POSt where
  nv : Nat
  lab : Labels
  adj : List (Nat × Nat)
  anti : List (Nat × Nat)
  effl : List Nat

/-- The first method (sog.cpp 11-44); `o` are the (transitively closed) orderings of the method. -/
def poFirst (P : Problem) (o : List (Nat × Nat)) (m : Nat) : POSt where
  nv := (P.sub m).length
  lab := fun i => (P.sub m)[i]?.toList
  adj := o
  anti := (List.range (P.sub m).length).flatMap fun i =>
    ((List.range (P.sub m).length).filter fun j => i != j && !o.contains (i, j)).map fun j => (i, j)
  effl := (List.range (P.sub m).length).filter fun i => effectless P ((P.sub m).getD i 0)

/-- May subtask `st` be put on vertex `v`?  `done` are the subtasks of the method placed before, with their vertices
(sog.cpp 69-87). -/
def poFits (s : POSt) (o : List (Nat × Nat)) (done : List (Nat × Nat)) (st v : Nat) : Bool :=
  done.all fun q =>
    if o.contains (st, q.1) then !s.adj.contains (q.2, v) && !s.anti.contains (v, q.2)
    else if o.contains (q.1, st) then !s.adj.contains (v, q.2) && !s.anti.contains (q.2, v)
    else !s.adj.contains (v, q.2) && !s.adj.contains (q.2, v)

/-- `matchingVertices` (sog.cpp 62-92). -/
def poCands (P : Problem) (compact : Bool) (s : POSt) (o : List (Nat × Nat)) (done : List (Nat × Nat)) (st task : Nat) : List Nat :=
  (List.range s.nv).filter fun v =>
    !done.any (fun q => q.2 == v) && (!compact || effectless P task == s.effl.contains v) && poFits s o done st v

/-- The vertex that is chosen (sog.cpp 94-121). -/
def poPick (P : Problem) (compact : Bool) (s : POSt) (o : List (Nat × Nat)) (done : List (Nat × Nat)) (st task : Nat) : Nat :=
  match (poCands P compact s o done st task).find? fun v => (s.lab v).contains task with
  | some v => v
  | none => (poCands P compact s o done st task).headD s.nv

/-- Placing a subtask on vertex `v` (sog.cpp 94-104, 145-170). -/
def poPut (P : Problem) (s : POSt) (o : List (Nat × Nat)) (done : List (Nat × Nat)) (st task v : Nat) : POSt where
  nv := max s.nv (v + 1)
  lab := Function.update s.lab v (task :: s.lab v)
  adj := done.filterMap (fun q =>
      if o.contains (st, q.1) then some (v, q.2) else if o.contains (q.1, st) then some (q.2, v) else none) ++ s.adj
  anti := done.flatMap (fun q =>
      if o.contains (st, q.1) then [(q.2, v)] else if o.contains (q.1, st) then [(v, q.2)] else [(v, q.2), (q.2, v)]) ++ s.anti
  effl := if effectless P task then v :: s.effl else s.effl

/-- The loop over the subtasks of a method in topological order (sog.cpp 53-171). -/
def poMeth (P : Problem) (compact : Bool) (o : List (Nat × Nat)) (m : Nat) : List Nat → List (Nat × Nat) → POSt → POSt × List (Nat × Nat)
  | [], done, s => (s, done)
  | st :: rest, done, s =>
    let task := (P.sub m).getD st 0
    let v := poPick P compact s o done st task
    poMeth P compact o m rest ((st, v) :: done) (poPut P s o done st task v)

/-- `mapping` of a method with `n` subtasks. -/
def poMap (n : Nat) (done : List (Nat × Nat)) : List Nat := (List.range n).map fun i => (done.lookup i).getD 0

/-- The loop over the methods (sog.cpp 47-173). -/
def poMeths (P : Problem) (tot : Nat → List Nat) (clo : Nat → List (Nat × Nat)) (compact : Bool) : List Nat → POSt → POSt × List (List Nat)
  | [], s => (s, [])
  | m :: ms, s =>
    let r := poMeth P compact (clo m) m (tot m) [] s
    let r' := poMeths P tot clo compact ms r.1
    (r'.1, poMap (P.sub m).length r.2 :: r'.2)

/-- `optimiseSOG` (sog.cpp 539-572) with `runPOSOGOptimiser` (sog.cpp 8-174): `ms` is the sorted list of methods. -/
def poAll (P : Problem) (tot : Nat → List Nat) (clo : Nat → List (Nat × Nat)) (compact : Bool) (ms : List Nat) : POSt × List (List Nat) :=
  match ms with
  | [] => (⟨0, fun _ => [], [], [], []⟩, [])
  | m :: ms =>
    let r := poMeths P tot clo compact ms (poFirst P (clo m) m)
    (r.1, List.range (P.sub m).length :: r.2)

/-- The mapping from subtasks to vertices. -/
def placePO (P : Problem) (tot : Nat → List Nat) (clo : Nat → List (Nat × Nat)) (compact : Bool) (ms : List Nat) :
    Option (Nat × List (List Nat)) :=
  if (poAll P tot clo compact ms).1.nv ≤ 65536 then
    some ((poAll P tot clo compact ms).1.nv, (poAll P tot clo compact ms).2)
  else none

/-! ## What the placement guarantees -/

/-- What every placement guarantees: different subtasks get different vertices below `nv`. -/
structure PlacedW (ord : List Nat) (nv : Nat) (mp : List Nat) : Prop where
  length : mp.length = ord.length
  lt : ∀ i ∈ ord, mp.getD i 0 < nv
  inj : ord.Pairwise fun i j => mp.getD i 0 ≠ mp.getD j 0

theorem Placed.weak {ord : List Nat} {nv : Nat} {mp : List Nat} (h : Placed ord nv mp) : PlacedW ord nv mp :=
  ⟨h.length, h.lt, h.mono.imp fun h => Nat.ne_of_lt h⟩

/-- The orderings of a method that is placed are edges of the graph. -/
def Keeps (o : List (Nat × Nat)) (adj : List (Nat × Nat)) (mp : List Nat) : Prop :=
  ∀ i j, (i, j) ∈ o → (mp.getD i 0, mp.getD j 0) ∈ adj

/-- Edges lead from vertices to vertices. -/
def EdgesIn (adj : List (Nat × Nat)) (nv : Nat) : Prop := ∀ e ∈ adj, e.1 < nv ∧ e.2 < nv

section
variable {P : Problem} {compact : Bool} {o : List (Nat × Nat)}

theorem poPick_spec {s : POSt} {done : List (Nat × Nat)} {st task : Nat} (hd : ∀ q ∈ done, q.2 < s.nv) :
    poPick P compact s o done st task ≤ s.nv ∧ ∀ q ∈ done, q.2 ≠ poPick P compact s o done st task := by
  have hc : ∀ v ∈ poCands P compact s o done st task, v < s.nv ∧ ∀ q ∈ done, q.2 ≠ v := by
    intro v hv
    unfold poCands at hv
    rw [List.mem_filter, List.mem_range] at hv
    simp only [Bool.and_eq_true, Bool.not_eq_true', List.any_eq_false, beq_iff_eq] at hv
    exact ⟨hv.1, fun q hq => hv.2.1.1 q hq⟩
  unfold poPick
  cases hf : (poCands P compact s o done st task).find? fun v => (s.lab v).contains task with
  | some v =>
    have := hc v (List.mem_of_find?_eq_some hf)
    exact ⟨by simp only; omega, this.2⟩
  | none =>
    simp only
    cases hl : poCands P compact s o done st task with
    | nil => exact ⟨Nat.le_refl _, fun q hq => by have := hd q hq; simp only [List.headD_nil]; omega⟩
    | cons v l =>
      have := hc v (by rw [hl]; simp)
      exact ⟨by simp only [List.headD_cons]; omega, this.2⟩

/-- State of the placement of a method. -/
structure MInv (o : List (Nat × Nat)) (s0 s : POSt) (done : List (Nat × Nat)) : Prop where
  nv : s0.nv ≤ s.nv
  sub : ∀ e ∈ s0.adj, e ∈ s.adj
  edges : EdgesIn s.adj s.nv
  lt : ∀ q ∈ done, q.2 < s.nv
  inj : done.Pairwise fun a b => a.2 ≠ b.2
  keep : ∀ q ∈ done, ∀ r ∈ done, (q.1, r.1) ∈ o → (q.2, r.2) ∈ s.adj

theorem poMeth_spec (hasym : ∀ i j, (i, j) ∈ o → (j, i) ∉ o) {m : Nat} {s0 : POSt} :
    ∀ (l : List Nat) (done : List (Nat × Nat)) (s : POSt), MInv o s0 s done →
      MInv o s0 (poMeth P compact o m l done s).1 (poMeth P compact o m l done s).2 ∧
      ((poMeth P compact o m l done s).2.map Prod.fst) = l.reverse ++ done.map Prod.fst
  | [], _, _, h => ⟨h, rfl⟩
  | st :: rest, done, s, h => by
    rw [poMeth]
    obtain ⟨hv, hne⟩ := poPick_spec (P := P) (compact := compact) (o := o) (st := st) (task := (P.sub m).getD st 0) h.lt
    generalize poPick P compact s o done st ((P.sub m).getD st 0) = v at hv hne
    generalize (P.sub m).getD st 0 = task
    have hnv : (poPut P s o done st task v).nv = max s.nv (v + 1) := rfl
    have hadj : ∀ e, e ∈ (poPut P s o done st task v).adj ↔ (∃ q ∈ done, ((st, q.1) ∈ o ∧ e = (v, q.2)) ∨
        ((st, q.1) ∉ o ∧ (q.1, st) ∈ o ∧ e = (q.2, v))) ∨ e ∈ s.adj := by
      intro e
      show e ∈ _ ++ s.adj ↔ _
      rw [List.mem_append, List.mem_filterMap]
      refine or_congr (exists_congr fun q => and_congr_right fun hq => ?_) Iff.rfl
      simp only [List.contains_iff_mem]
      by_cases h1 : (st, q.1) ∈ o
      · simp [h1, eq_comm]
      · by_cases h2 : (q.1, st) ∈ o
        · simp [h1, h2, eq_comm]
        · simp [h1, h2]
    have hinv : MInv o s0 (poPut P s o done st task v) ((st, v) :: done) := by
      refine ⟨?_, ?_, ?_, ?_, ?_, ?_⟩
      · rw [hnv]; have := h.nv; omega
      · exact fun e he => (hadj e).2 (.inr (h.sub e he))
      · intro e he
        rw [hnv]
        rcases (hadj e).1 he with ⟨q, hq, ⟨-, rfl⟩ | ⟨-, -, rfl⟩⟩ | he
        · have := h.lt q hq; simp only; omega
        · have := h.lt q hq; simp only; omega
        · have := h.edges e he; omega
      · intro q hq
        rw [hnv]
        rcases List.mem_cons.1 hq with rfl | hq
        · simp only; omega
        · have := h.lt q hq; omega
      · exact List.pairwise_cons.2 ⟨fun q hq => (hne q hq).symm, h.inj⟩
      · intro q hq r hr hqr
        rw [hadj]
        rcases List.mem_cons.1 hq with rfl | hq <;> rcases List.mem_cons.1 hr with rfl | hr
        · exact absurd hqr (hasym _ _ hqr)
        · exact .inl ⟨r, hr, .inl ⟨hqr, rfl⟩⟩
        · exact .inl ⟨q, hq, .inr ⟨hasym _ _ hqr, hqr, rfl⟩⟩
        · exact .inr (h.keep q hq r hr hqr)
    obtain ⟨h1, h2⟩ := poMeth_spec hasym rest _ _ hinv
    exact ⟨h1, by rw [h2]; simp⟩

theorem lookup_of_mem : ∀ {l : List (Nat × Nat)}, (l.map Prod.fst).Nodup → ∀ {i v : Nat}, (i, v) ∈ l → l.lookup i = some v
  | [], _, _, _, h => absurd h (by simp)
  | (a, b) :: l, hn, i, v, h => by
    rw [List.map_cons, List.nodup_cons] at hn
    rw [List.lookup_cons]
    rcases List.mem_cons.1 h with h' | h'
    · obtain ⟨rfl, rfl⟩ := Prod.mk.inj h'
      simp
    · have : i ≠ a := fun he => hn.1 (List.mem_map.2 ⟨(i, v), h', he⟩)
      rw [show (i == a) = false by simpa using this]
      exact lookup_of_mem hn.2 h'

/-- The placement of one further method. -/
theorem poMeth_placed (hasym : ∀ i j, (i, j) ∈ o → (j, i) ∉ o) {m n : Nat} {ord : List Nat} (hord : ord.Perm (List.range n))
    (ho : ∀ i j, (i, j) ∈ o → i < n ∧ j < n) {s : POSt} (hs : EdgesIn s.adj s.nv) :
    ∃ done s', poMeth P compact o m ord [] s = (s', done) ∧ s.nv ≤ s'.nv ∧ (∀ e ∈ s.adj, e ∈ s'.adj) ∧ EdgesIn s'.adj s'.nv ∧
      PlacedW ord s'.nv (poMap n done) ∧ Keeps o s'.adj (poMap n done) := by
  obtain ⟨hinv, hfst⟩ := poMeth_spec (P := P) (compact := compact) hasym (m := m) (s0 := s) ord [] s
    ⟨Nat.le_refl _, fun _ h => h, hs, by simp, .nil, by simp⟩
  generalize hr : poMeth P compact o m ord [] s = r at hinv hfst
  obtain ⟨s', done⟩ := r
  simp only [List.map_nil, List.append_nil] at hfst hinv
  have hnd : (done.map Prod.fst).Nodup := by
    rw [hfst, List.nodup_reverse]
    exact hord.nodup_iff.2 List.nodup_range
  have hget : ∀ i < n, ∃ v, (i, v) ∈ done ∧ (poMap n done).getD i 0 = v := by
    intro i hi
    have hm : i ∈ done.map Prod.fst := by
      rw [hfst, List.mem_reverse, hord.mem_iff, List.mem_range]; exact hi
    obtain ⟨⟨i', v⟩, hq, rfl⟩ := List.mem_map.1 hm
    refine ⟨v, hq, ?_⟩
    have hl : (poMap n done)[i']? = some v := by
      unfold poMap
      rw [List.getElem?_map, List.getElem?_range hi]
      simp [lookup_of_mem hnd hq]
    rw [List.getD_eq_getElem?_getD, hl]; rfl
  have hlt : ∀ i ∈ ord, i < n := fun i hi => List.mem_range.1 (hord.mem_iff.1 hi)
  refine ⟨done, s', rfl, hinv.nv, hinv.sub, hinv.edges, ⟨?_, ?_, ?_⟩, ?_⟩
  · unfold poMap; rw [List.length_map, hord.length_eq]
  · intro i hi
    obtain ⟨v, hv, he⟩ := hget i (hlt i hi)
    rw [he]
    exact hinv.lt _ hv
  · have hn : ord.Nodup := hord.nodup_iff.2 List.nodup_range
    refine hn.imp_of_mem fun {i j} hi hj hij heq => ?_
    obtain ⟨v, hv, he⟩ := hget i (hlt i hi)
    obtain ⟨w, hw, he'⟩ := hget j (hlt j hj)
    rw [he, he'] at heq
    subst heq
    obtain ⟨a, ha, hae⟩ := List.mem_iff_getElem.1 hv
    obtain ⟨b, hb, hbe⟩ := List.mem_iff_getElem.1 hw
    have hp := List.pairwise_iff_getElem.1 hinv.inj
    rcases Nat.lt_trichotomy a b with hab | hab | hab
    · exact hp a b ha hb hab (by rw [hae, hbe])
    · subst hab
      rw [hae] at hbe
      exact hij (Prod.mk.inj hbe).1
    · exact hp b a hb ha hab (by rw [hae, hbe])
  · intro i j hij
    obtain ⟨v, hv, he⟩ := hget i (ho i j hij).1
    obtain ⟨w, hw, he'⟩ := hget j (ho i j hij).2
    rw [he, he']
    exact hinv.keep _ hv _ hw hij

theorem PlacedW.mono_nv {ord nv nv' mp} (h : PlacedW ord nv mp) (hn : nv ≤ nv') : PlacedW ord nv' mp :=
  ⟨h.length, fun i hi => (h.lt i hi).trans_le hn, h.inj⟩

theorem poMeths_spec {tot : Nat → List Nat} {clo : Nat → List (Nat × Nat)} : ∀ (ms : List Nat) (s : POSt),
    (∀ m ∈ ms, (tot m).Perm (List.range (P.sub m).length)) →
    (∀ m ∈ ms, (∀ i j, (i, j) ∈ clo m → (j, i) ∉ clo m) ∧ ∀ i j, (i, j) ∈ clo m → i < (P.sub m).length ∧ j < (P.sub m).length) →
    EdgesIn s.adj s.nv →
    s.nv ≤ (poMeths P tot clo compact ms s).1.nv ∧ (∀ e ∈ s.adj, e ∈ (poMeths P tot clo compact ms s).1.adj) ∧
      EdgesIn (poMeths P tot clo compact ms s).1.adj (poMeths P tot clo compact ms s).1.nv ∧
      List.Forall₂ (fun m mp => PlacedW (tot m) (poMeths P tot clo compact ms s).1.nv mp ∧
        Keeps (clo m) (poMeths P tot clo compact ms s).1.adj mp) ms (poMeths P tot clo compact ms s).2
  | [], s, _, _, hs => ⟨Nat.le_refl _, fun _ h => h, hs, .nil⟩
  | m :: ms, s, ht, hc, hs => by
    obtain ⟨done, s', he, h1, h2, h3, h4, h5⟩ := poMeth_placed (P := P) (compact := compact) (m := m) (hc m (by simp)).1
      (ht m (by simp)) (hc m (by simp)).2 hs
    obtain ⟨k1, k2, k3, k4⟩ := poMeths_spec ms s' (fun m' hm' => ht m' (by simp [hm'])) (fun m' hm' => hc m' (by simp [hm'])) h3
    rw [poMeths, he]
    exact ⟨h1.trans k1, fun e he => k2 e (h2 e he), k3, .cons ⟨h4.mono_nv k1, fun i j hij => k2 _ (h5 i j hij)⟩ k4⟩

theorem getD_range {n i : Nat} (hi : i < n) : (List.range n).getD i 0 = i := by
  rw [List.getD_eq_getElem _ _ (by simpa using hi), List.getElem_range]

/-- The graph of all methods: different subtasks of a method are on different vertices, and the orderings of every
method are edges. -/
theorem poAll_spec {tot : Nat → List Nat} {clo : Nat → List (Nat × Nat)} {ms : List Nat}
    (ht : ∀ m ∈ ms, (tot m).Perm (List.range (P.sub m).length))
    (hc : ∀ m ∈ ms, (∀ i j, (i, j) ∈ clo m → (j, i) ∉ clo m) ∧ ∀ i j, (i, j) ∈ clo m → i < (P.sub m).length ∧ j < (P.sub m).length) :
    EdgesIn (poAll P tot clo compact ms).1.adj (poAll P tot clo compact ms).1.nv ∧ (ms = [] → (poAll P tot clo compact ms).1.nv = 0) ∧
      List.Forall₂ (fun m mp => PlacedW (tot m) (poAll P tot clo compact ms).1.nv mp ∧
        Keeps (clo m) (poAll P tot clo compact ms).1.adj mp) ms (poAll P tot clo compact ms).2 := by
  cases ms with
  | nil => exact ⟨by intro e he; simp [poAll] at he, fun _ => rfl, .nil⟩
  | cons m ms =>
    have hm := hc m (by simp)
    have hp := ht m (by simp)
    obtain ⟨k1, k2, k3, k4⟩ := poMeths_spec (P := P) (compact := compact) (tot := tot) (clo := clo) ms (poFirst P (clo m) m)
      (fun m' hm' => ht m' (by simp [hm'])) (fun m' hm' => hc m' (by simp [hm'])) (fun e he => hm.2 e.1 e.2 he)
    have hlt : ∀ i ∈ tot m, i < (P.sub m).length := fun i hi => List.mem_range.1 (hp.mem_iff.1 hi)
    rw [poAll]
    refine ⟨k3, by simp, .cons ⟨⟨by simp [hp.length_eq], fun i hi => ?_, ?_⟩, fun i j hij => ?_⟩ k4⟩
    · rw [getD_range (hlt i hi)]
      exact (hlt i hi).trans_le k1
    · refine (hp.nodup_iff.2 List.nodup_range).imp_of_mem fun {i j} hi hj hij => ?_
      rw [getD_range (hlt i hi), getD_range (hlt j hj)]
      exact hij
    · rw [getD_range (hm.2 i j hij).1, getD_range (hm.2 i j hij).2]
      exact k2 _ hij

end

end Verif.Sog
