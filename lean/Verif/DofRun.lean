import Verif.DofNet

/-! # `recreateModel` -/

namespace Verif.Dof

open Verif.Htn Verif.Prog Verif.TaskCounter Verif.Scc Verif.PG Verif.IntUtil Verif.Props Verif.Rc Verif.AO Verif.Strips Relation

/-! ## Landmarks of everything that occurs -/

theorem tree_ders {P : Problem} {nA nT : Nat} {G : Graph} {s : State} {R A : Nat → Prop} (hC : Covers P nA nT G s R) {t : Nat} {tr : Tree}
    (hv : Valid P t tr) (hl : ∀ p a, LeafAt P tr p a → Der G A (tN P a)) (hT : ∀ t, TaskIn P tr t → R (tN P t) ∧ ¬ A (tN P t))
    (hM : ∀ m, Uses P tr m → R (mN P nT m) ∧ ¬ A (mN P nT m)) :
    (∀ t', TaskIn P tr t' → Der G A (tN P t')) ∧ ∀ m, Uses P tr m → Der G A (mN P nT m) := by
  induction hv with
  | @leaf a h =>
    refine ⟨fun t' h => ?_, fun m h => by cases h⟩
    cases h
    exact hl [] a .here
  | @node m cs hm hcs ih =>
    have hch : ∀ i, (hi : i < (P.sub m).length) → (∀ t', TaskIn P (cs i) t' → Der G A (tN P t')) ∧ ∀ m', Uses P (cs i) m' → Der G A (mN P nT m') :=
      fun i hi => ih i _ (List.getElem?_eq_getElem hi) (fun p a h => hl (i :: p) a (.child hi h)) (fun t h => hT t (.child hi h))
        fun m' h => hM m' (.child hi h)
    have hd := tree_der hC (.node hm hcs) hl hT hM
    refine ⟨fun t' h => ?_, fun m' h => ?_⟩
    · cases h with
      | node => exact hd
      | child hi h => exact (hch _ hi).1 t' h
    · cases h with
      | here =>
        obtain ⟨hr, hnA⟩ := hM m .here
        obtain ⟨hk, hp⟩ := hC.meth m hm hr
        refine .and hk hnA fun p hpp => ?_
        obtain ⟨t, ht, rfl⟩ := hp p hpp
        obtain ⟨i, hi, he⟩ := List.mem_iff_getElem.1 ht
        have hg : (P.sub m)[i]? = some t := by rw [List.getElem?_eq_getElem hi, he]
        exact (hch i hi).1 t (Valid.taskIn (hcs i t hg))
      | child hi h => exact (hch _ hi).2 m' h

/-- The landmarks of every node of the graph that occurs in the solution occur. -/
theorem nodes_met {P : Problem} {nA nT : Nat} {G : Graph} {s s' : State} {R : Nat → Prop} (hC : Covers P nA nT G s R) (hP : P.WF) (hR : RcOK P nA nT)
    {I : Finset Nat} {lab : Nat → Nat} {lt : Nat → Nat → Prop} {tr : Nat → Tree} {occ : List (Nat × List Nat)} {π : List Nat}
    (hlab : ∀ u ∈ I, lab u < nT) (hl : LinNet P I lab lt tr occ π) (hex : Exec P s π s')
    (hRT : ∀ u ∈ I, ∀ t, TaskIn P (tr u) t → R (tN P t)) (hRM : ∀ u ∈ I, ∀ m, Uses P (tr u) m → R (mN P nT m)) {x : Nat} :
    (∀ u ∈ I, ∀ t, TaskIn P (tr u) t → ¬ Der G (· = x) (tN P t) → Met P nT s π I tr x) ∧
      (∀ u ∈ I, ∀ m, Uses P (tr u) m → ¬ Der G (· = x) (mN P nT m) → Met P nT s π I tr x) ∧
      (∀ f < P.numFacts, FactIn P s π f → (R f ∨ s f) → ¬ Der G (· = x) f → Met P nT s π I tr x) := by
  obtain ⟨hv, hnd, hall, -, hf2⟩ := hl
  set A : Nat → Prop := fun n => ¬ Met P nT s π I tr n with hA
  have hTA : ∀ u ∈ I, ∀ t, TaskIn P (tr u) t → ¬ A (tN P t) := fun u hu t ht h => h (.inr (.inl ⟨t, TaskIn.lt hR (hv u hu) (hlab u hu) t ht, rfl, u, hu, ht⟩))
  have hMA : ∀ u ∈ I, ∀ m, Uses P (tr u) m → ¬ A (mN P nT m) := fun u hu m hm h => h (.inr (.inr ⟨m, Uses.lt (hv u hu) m hm, rfl, u, hu, hm⟩))
  have hπ : ∀ a ∈ π, ∃ u ∈ I, TaskIn P (tr u) a ∧ P.prim a = true := by
    intro a ha
    obtain ⟨y, hy, hya⟩ := forall₂_mem_right hf2 a ha
    have hyI := ((hall y).1 hy).1
    exact ⟨y.1, hyI, LeafAt.taskIn hya, (leaf_reach (hv _ hyI) hya).2⟩
  have hπA : ∀ a ∈ π, a < nA ∧ R (tN P a) := by
    intro a ha
    obtain ⟨u, hu, h1, h2⟩ := hπ a ha
    refine ⟨?_, hRT u hu a h1⟩
    have := hR.prim a (TaskIn.lt hR (hv u hu) (hlab u hu) a h1)
    rw [h2] at this
    simpa using this.symm
  have hstart : ∀ f < P.numFacts, FactIn P s π f → ¬ A f := fun f hf hfi h => h (.inl ⟨f, hf, rfl, hfi⟩)
  have hs0 : ∀ f < P.numFacts, s f → (R f ∨ s f) → Der G A f := fun f hf hsf _ =>
    .init (hC.start f hf hsf) (hstart f hf ⟨[], π, s, rfl, .nil _, hsf⟩)
  obtain ⟨d1, d2⟩ := exec_der hC hP hex hπA (fun a ha => by
    obtain ⟨u, hu, h1, -⟩ := hπ a ha
    exact hTA u hu a h1) hstart hs0
  have hconv : ∀ n, Der G A n → ¬ Der G (· = x) n → Met P nT s π I tr x := by
    intro n hd hnd
    by_contra hno
    exact hnd (hd.anti fun m hm => by rw [hm]; exact hno)
  have hder : ∀ u ∈ I, (∀ t', TaskIn P (tr u) t' → Der G A (tN P t')) ∧ ∀ m, Uses P (tr u) m → Der G A (mN P nT m) := fun u hu =>
    tree_ders hC (hv u hu) (fun p a hpa => d2 a (by
      obtain ⟨b, hb, hlb⟩ := forall₂_mem_left hf2 (u, p) ((hall (u, p)).2 ⟨hu, a, hpa⟩)
      rw [hpa.unique hlb]
      exact hb)) (fun t ht => ⟨hRT u hu t ht, hTA u hu t ht⟩) fun m hm => ⟨hRM u hu m hm, hMA u hu m hm⟩
  exact ⟨fun u hu t ht => hconv _ ((hder u hu).1 t ht), fun u hu m hm => hconv _ ((hder u hu).2 m hm), fun f hf hfi hr => hconv _ (d1 f hf hfi hr)⟩

/-! ## The run -/

section

variable (P : Problem) (nA nT U : Nat) (pq : PQ) (S : Sccs) (vars : List (Nat × Nat)) (cf : Conf)

/-- The LM-cut heuristic of the constructor (hhDOfree.cpp 324). -/
def lmcOpt (mi : Nat → Nat) (fuel : Nat) : RcOpt := ⟨.distance, false, mi, lmCut (Est.model P nA nT .distance) pq U fuel⟩

/-- `causalLMs->calcLMs(n, pg)` and the sets that its iterators visit (LmCausal.cpp 786-832): `L.lms` and `L.imp`. -/
def LmsRun (n : Node) (r : PgRes) (L : Lms) : Prop :=
  ∃ (srt : (Nat → Nat) → List Nat → List Nat) (pick : List (Nat × Nat) → Nat) (key : AoNode → Nat → Nat) (old : Nat → List Int) (fuel : Nat) (s : CSt)
    (lms : Finset Nat), SortOK srt ∧ calcLms P nA nT srt pick key (pgReach P nT r) old fuel n = .done lms ∧
    causalLoop srt pick key (causalGraph P nA nT) (stateOf n) (pgReach P nT r) fuel
      (causalStart (causalGraph P nA nT) (stateOf n) (pgReach P nT r) (List.range P.numFacts) (precLess P nA) old) = .done s ∧
    (∀ x, x ∈ L.lms ↔ x ∈ lms) ∧ ∀ y, L.imp y = if (s.node y).full then [] else (s.node y).set.map Int.toNat

/-- From line 436 on: the planning graph, the tests and the program. -/
def IlpRun (ints : Bool) (c : Reach.Cache) (n : Node) (cuts : List (Nat × List Nat)) (v : Nat) : Prop :=
  ∃ l r fuel, riOf c n = some l ∧ pgCalc P nA nT pq U (stateOf n) (fun t => decide (t ∈ l)) fuel = .done r ∧
    match dofVerdict P U n r with
    | .unreach => v = U
    | .zero => v = 0
    | .ilp => ∃ L o, L.cuts = cuts ∧ (cf.ao ≠ .none → LmsRun P nA nT n r L) ∧ Solver ints (prog P nA nT U S vars cf n r L) o ∧ v = result U o

/-- `recreateModel` (hhDOfree.cpp 428-1023) returns `v`. -/
def DofRun (ints : Bool) (fuel : Nat) (c : Reach.Cache) (n : Node) (st : RcSets) (v : Nat) : Prop :=
  if cf.lmc then
    ∃ mi st' w cuts, rcValue P nA U (lmcOpt P nA nT U pq mi fuel) c n st = some (st', w, cuts) ∧
      if w = U then v = U else ∃ cs, cuts.map (splitCut nA) = cs.map some ∧ IlpRun P nA nT U pq S vars cf ints c n cs v
  else IlpRun P nA nT U pq S vars cf ints c n [] v

end

end Verif.Dof
