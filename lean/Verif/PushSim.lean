import Verif.PushOps
import Verif.ProgSpec
import Mathlib.Algebra.Order.BigOperators.Group.Finset

/-! # States of the translation of partially ordered problems and task networks -/

namespace Verif.Sas

open Verif.Htn

/-- The input of the translation: the variables partition the facts; actions are numbered before the abstract tasks; `reorderTasks`
can handle the orderings of the methods. -/
structure PushInput (P : Problem) (vars : List (Nat × Nat)) (nA nT : Nat) : Prop where
  wf : P.WF
  sas : SasInput P vars
  fits : S0Fits P vars
  prim : ∀ t, P.prim t = decide (t < nA)
  nA_le : nA ≤ nT
  head_lt : ∀ m < P.numMethods, P.head m < nT
  sub_lt : ∀ m < P.numMethods, ∀ t ∈ P.sub m, t < nT
  init_lt : P.init < nT
  top : ∀ m < P.numMethods, TopOrd (P.sub m).length (P.ord m)

/-- The values describe the state and the network: `c` are the cells of the tasks. -/
structure QEnc (vars : List (Nat × Nat)) (nT B : Nat) (σ : Val) (s : State) (I : Finset Nat) (lab : Nat → Nat) (R : Nat → Nat → Prop)
    (c : Nat → Nat) : Prop where
  corr : Corr vars s σ
  lt : ∀ u ∈ I, c u < B
  inj : ∀ u ∈ I, ∀ v ∈ I, c u = c v → u = v
  lab_lt : ∀ u ∈ I, lab u < nT
  task : ∀ u ∈ I, view vars.length B σ (.task (c u)) = lab u + 1
  task0 : ∀ j < B, (∀ u ∈ I, c u ≠ j) → view vars.length B σ (.task j) = 0
  occ : ∀ u ∈ I, view vars.length B σ (.occ (c u)) = 1
  occ0 : ∀ j < B, (∀ u ∈ I, c u ≠ j) → view vars.length B σ (.occ j) = 0
  con1 : ∀ u ∈ I, ∀ v ∈ I, R u v → c v < c u ∧ view vars.length B σ (.con (c u) (c v)) = 1
  con0 : ∀ k j, j < k → k < B → view vars.length B σ (.con k j) ≠ 0 → ∃ u ∈ I, ∃ v ∈ I, c u = k ∧ c v = j ∧ R u v

section

variable {P : Problem} {vars : List (Nat × Nat)} {nA nT B : Nat} {σ : Val} {s : State} {I : Finset Nat} {lab : Nat → Nat}
  {R : Nat → Nat → Prop} {c : Nat → Nat}

theorem QEnc.cell {j : Nat} (he : QEnc vars nT B σ s I lab R c) (hj : j < B) (h : view vars.length B σ (.task j) ≠ 0) :
    ∃ u ∈ I, c u = j := by
  by_contra hn
  exact h (he.task0 j hj fun u hu e => hn ⟨u, hu, e⟩)

theorem QEnc.free {j : Nat} (he : QEnc vars nT B σ s I lab R c) (h : view vars.length B σ (.task j) = 0) : ∀ u ∈ I, c u ≠ j := by
  rintro u hu rfl
  have := he.task u hu
  omega

/-- The state of the problem is as before. -/
theorem corr_congr {s : State} {σ σ' : Val} (h : Corr vars s σ) (e : ∀ i < vars.length, σ' i = σ i) : Corr vars s σ' := by
  intro i f l hi
  have := e i (List.getElem?_eq_some_iff.1 hi).1
  rw [this]
  exact h i f l hi

theorem lPre_fun {t j : Nat} (hj : j < B) : FunP (lPre B t j) := by
  intro x hx y hy e
  rcases (mem_lPre hj).1 hx with ⟨k, hk, rfl⟩ | ⟨k, h1, h2, rfl⟩ | rfl <;>
    rcases (mem_lPre hj).1 hy with ⟨k', hk', rfl⟩ | ⟨k', h1', h2', rfl⟩ | rfl <;> first | rfl | simp at e

/-- The preconditions on the cells hold iff the cell has that task, it has no predecessors and the lower cells are occupied. -/
theorem QEnc.pre (he : QEnc vars nT B σ s I lab R c) {t j : Nat} (hj : j < B) :
    (∀ x ∈ lPre B (t + 1) j, view vars.length B σ x.1 = x.2) ↔
      ∃ u ∈ I, c u = j ∧ lab u = t ∧ (∀ v ∈ I, ¬ R v u) ∧ ∀ k < j, ∃ v ∈ I, c v = k := by
  constructor
  · intro h
    have ht := h _ ((mem_lPre hj).2 (.inr (.inr rfl)))
    obtain ⟨u, hu, rfl⟩ := he.cell hj (by rw [ht]; simp)
    have h1 := he.task u hu
    simp only at ht
    refine ⟨u, hu, rfl, by omega, fun v hv hR => ?_, fun k hk => ?_⟩
    · obtain ⟨h2, h3⟩ := he.con1 v hv u hu hR
      have h4 := h _ ((mem_lPre hj).2 (.inr (.inl ⟨c v, h2, he.lt v hv, rfl⟩)))
      simp only at h4
      omega
    · have h2 := h _ ((mem_lPre hj).2 (.inl ⟨k, hk, rfl⟩))
      simp only at h2
      by_contra hn
      have h3 := he.occ0 k (by omega) fun v hv e => hn ⟨v, hv, e⟩
      omega
  · rintro ⟨u, hu, rfl, rfl, hmin, hlow⟩ x hx
    rcases (mem_lPre hj).1 hx with ⟨k, hk, rfl⟩ | ⟨k, h1, h2, rfl⟩ | rfl
    · obtain ⟨v, hv, rfl⟩ := hlow k hk
      exact he.occ v hv
    · by_contra hn
      obtain ⟨v, hv, w, hw, e1, e2, hR⟩ := he.con0 k (c u) h1 h2 hn
      rw [he.inj w hw u hu e2] at hR
      exact hmin v hv hR
    · exact he.task u hu

/-! ## Actions -/

theorem opAct_ok {a j : Nat} (hf : PrecFun vars P a) (hj : j < B) : (opAct P vars B a j).Ok vars.length B where
  bpre p hp := precV_lt hp
  bfun := hf
  badd p hp := addV_lt hp
  pre x hx := (lPre_ok (nT := a + 1) hj (le_refl _) x hx).1
  pfun := lPre_fun hj
  add x hx := (lClear_ok (nT := 0) hj x hx).1
  cond e he := by cases he
  idle p hp := by cases hp
  one := .inl rfl

theorem opAct_app (hin : PushInput P vars nA nT) {a j : Nat} (hf : PrecFun vars P a) (hj : j < B) (he : QEnc vars nT B σ s I lab R c) :
    ((opAct P vars B a j).toC vars.length B).App σ ↔
      P.Applicable s a ∧ ∃ u ∈ I, c u = j ∧ lab u = a ∧ (∀ v ∈ I, ¬ R v u) ∧ ∀ k < j, ∃ v ∈ I, c v = k := by
  rw [toC_app (opAct_ok hf hj)]
  exact and_congr (he.corr.applicable hin.wf hin.sas.contig a) (he.pre hj)

theorem lClear_fun {j : Nat} : FunP (lClear j) := by
  intro x hx y hy e
  rcases mem_lClear.1 hx with ⟨k, hk, rfl⟩ | rfl | rfl <;> rcases mem_lClear.1 hy with ⟨k', hk', rfl⟩ | rfl | rfl <;> rfl

theorem opAct_step (hin : PushInput P vars nA nT) {u : Nat} (hf : PrecFun vars P (lab u)) (he : QEnc vars nT B σ s I lab R c) (hu : u ∈ I)
    (hmin : ∀ v ∈ I, ¬ R v u) (hr : Reach P s) (happ : P.Applicable s (lab u)) :
    QEnc vars nT B (((opAct P vars B (lab u) (c u)).toC vars.length B).res σ) (P.result s (lab u)) (I.erase u) lab R c ∧
      ∀ j < B, view vars.length B (((opAct P vars B (lab u) (c u)).toC vars.length B).res σ) (.mov j) = view vars.length B σ (.mov j) := by
  have hj := he.lt u hu
  have hok := opAct_ok (B := B) hf hj
  have heff : (opAct P vars B (lab u) (c u)).effs (view vars.length B σ) = lClear (c u) := by simp [PvOp.effs, opAct]
  have hmem : ∀ q w, (q, w) ∈ lClear (c u) → view vars.length B (((opAct P vars B (lab u) (c u)).toC vars.length B).res σ) q = w :=
    fun q w h => res_mem hok (by rw [heff]; exact lClear_fun) (by rw [heff]; exact h)
  have hnot : ∀ q, VOk B q → (∀ w, (q, w) ∉ lClear (c u)) →
      view vars.length B (((opAct P vars B (lab u) (c u)).toC vars.length B).res σ) q = view vars.length B σ q :=
    fun q hq h => res_not hok hq (by rw [heff]; exact h)
  obtain ⟨π, hπ⟩ := hr.step happ
  have hc := he.corr.result hin.wf hin.sas.contig hin.sas.noClash (hin.sas.inv π _ hπ)
  have hne : ∀ v ∈ I.erase u, v ∈ I ∧ c v ≠ c u := fun v hv =>
    ⟨(Finset.mem_erase.1 hv).2, fun e => (Finset.mem_erase.1 hv).1 (he.inj v (Finset.mem_erase.1 hv).2 u hu e)⟩
  refine ⟨?_, fun j hj => hnot _ hj fun w hw => ?_⟩
  · refine ⟨corr_congr hc fun i hi => res_base hok hi, fun v hv => he.lt v (hne v hv).1,
      fun v hv w hw => he.inj v (hne v hv).1 w (hne w hw).1, fun v hv => he.lab_lt v (hne v hv).1, ?_, ?_, ?_, ?_, ?_, ?_⟩
    · intro v hv
      rw [hnot (.task (c v)) (he.lt v (hne v hv).1) ?_, he.task v (hne v hv).1]
      intro w hw
      rcases mem_lClear.1 hw with ⟨k, hk, e⟩ | e | e <;> simp at e
      exact (hne v hv).2 e.1
    · intro j hjB hfree
      by_cases e : j = c u
      · subst e
        exact hmem _ _ (mem_lClear.2 (.inr (.inl rfl)))
      · rw [hnot (.task j) hjB ?_]
        · exact he.task0 j hjB fun v hv e' => hfree v (Finset.mem_erase.2 ⟨fun e2 => e (by rw [← e', e2]), hv⟩) e'
        · intro w hw
          rcases mem_lClear.1 hw with ⟨k, hk, e⟩ | e | e <;> simp at e
          omega
    · intro v hv
      rw [hnot (.occ (c v)) (he.lt v (hne v hv).1) ?_, he.occ v (hne v hv).1]
      intro w hw
      rcases mem_lClear.1 hw with ⟨k, hk, e⟩ | e | e <;> simp at e
      exact (hne v hv).2 e.1
    · intro j hjB hfree
      by_cases e : j = c u
      · subst e
        exact hmem _ _ (mem_lClear.2 (.inr (.inr rfl)))
      · rw [hnot (.occ j) hjB ?_]
        · exact he.occ0 j hjB fun v hv e' => hfree v (Finset.mem_erase.2 ⟨fun e2 => e (by rw [← e', e2]), hv⟩) e'
        · intro w hw
          rcases mem_lClear.1 hw with ⟨k, hk, e⟩ | e | e <;> simp at e
          omega
    · intro v hv w hw hR
      obtain ⟨h1, h2⟩ := he.con1 v (hne v hv).1 w (hne w hw).1 hR
      refine ⟨h1, ?_⟩
      rw [hnot (.con (c v) (c w)) ⟨h1, he.lt v (hne v hv).1⟩ ?_, h2]
      intro w hw
      rcases mem_lClear.1 hw with ⟨k, hk, e⟩ | e | e <;> simp at e
      exact (hne v hv).2 e.1.1
    · intro k j hjk hk hcon
      by_cases e : k = c u
      · subst e
        exact absurd (hmem _ _ (mem_lClear.2 (.inl ⟨j, hjk, rfl⟩))) hcon
      · rw [hnot (.con k j) ⟨hjk, hk⟩ ?_] at hcon
        · obtain ⟨v, hv, w, hw, h1, h2, hR⟩ := he.con0 k j hjk hk hcon
          refine ⟨v, Finset.mem_erase.2 ⟨fun e2 => e (by rw [← h1, e2]), hv⟩, w, Finset.mem_erase.2 ⟨?_, hw⟩, h1, h2, hR⟩
          rintro rfl
          exact hmin v hv hR
        · intro w hw
          rcases mem_lClear.1 hw with ⟨k, hk, e⟩ | e | e <;> simp at e
          omega
  · rcases mem_lClear.1 hw with ⟨k, hk, e⟩ | e | e <;> simp at e

/-! ## Methods -/

/-- The operator of a method in cell `j`. -/
def opMeth (P : Problem) (B m j : Nat) : PvOp := opDec B (P.head m) j (P.sub m).reverse (revOrd (P.sub m).length (P.ord m))

theorem revOrd_lt (hin : PushInput P vars nA nT) {m : Nat} (hm : m < P.numMethods) :
    ∀ o ∈ revOrd (P.sub m).length (P.ord m), o.2 < o.1 ∧ o.1 < (P.sub m).length := by
  intro o ho
  obtain ⟨p, hp, rfl⟩ := List.mem_map.1 ho
  obtain ⟨h1, h2⟩ := hin.wf.ord_lt m hm p.1 p.2 hp
  have h3 : p.1 < p.2 := by
    rcases hin.top m hm with h | h
    · rw [h] at hp
      cases hp
    · exact h.1 p hp
  simp only
  omega

theorem opMeth_ok (hin : PushInput P vars nA nT) {m j : Nat} (hm : m < P.numMethods) (hj : (P.sub m).length + j ≤ B) :
    (opMeth P B m j).Ok vars.length B where
  bpre p hp := by cases hp
  bfun p hp := by cases hp
  badd p hp := by cases hp
  pre x hx := by
    have hpos := List.length_pos_iff.2 (hin.wf.sub_ne m hm)
    rcases List.mem_append.1 hx with hx | hx
    · exact (lPre_ok (nT := P.head m + 1) (by omega) (le_refl _) x hx).1
    · obtain ⟨l, hl, rfl⟩ := List.mem_map.1 hx
      exact show B - 1 - l < B by omega
  pfun := by
    have hpos := List.length_pos_iff.2 (hin.wf.sub_ne m hm)
    intro x hx y hy e
    rcases List.mem_append.1 hx with hx | hx <;> rcases List.mem_append.1 hy with hy | hy
    · exact lPre_fun (by omega) x hx y hy e
    · obtain ⟨l, hl, rfl⟩ := List.mem_map.1 hy
      have := List.mem_range.1 hl
      rw [List.length_reverse] at this
      rcases (mem_lPre (by omega)).1 hx with ⟨k, hk, rfl⟩ | ⟨k, h1, h2, rfl⟩ | rfl <;> simp at e
      omega
    · obtain ⟨l, hl, rfl⟩ := List.mem_map.1 hx
      have := List.mem_range.1 hl
      rw [List.length_reverse] at this
      rcases (mem_lPre (by omega)).1 hy with ⟨k, hk, rfl⟩ | ⟨k, h1, h2, rfl⟩ | rfl <;> simp at e
      omega
    · obtain ⟨l, hl, rfl⟩ := List.mem_map.1 hx
      obtain ⟨l', hl', rfl⟩ := List.mem_map.1 hy
      rfl
  add x hx := by
    have hpos := List.length_pos_iff.2 (hin.wf.sub_ne m hm)
    rcases List.mem_cons.1 hx with rfl | hx
    · exact show j < B by omega
    rcases List.mem_append.1 hx with hx | hx
    · obtain ⟨l, hl, rfl⟩ := List.mem_map.1 hx
      have := List.mem_range.1 hl
      simp only [List.length_reverse] at this ⊢
      exact show B - (P.sub m).length + 1 + l < B by omega
    · obtain ⟨l, hl, rfl⟩ := List.mem_map.1 hx
      exact show B - 1 - l < B by omega
  cond e he := by
    have hpos := List.length_pos_iff.2 (hin.wf.sub_ne m hm)
    rcases List.mem_append.1 he with he | he
    · obtain ⟨l, hl, he⟩ := List.mem_flatMap.1 he
      obtain ⟨x, hx, rfl⟩ := List.mem_map.1 he
      have := List.mem_range.1 hl
      have := List.mem_range.1 hx
      simp only [List.length_reverse] at *
      exact ⟨show x < B - l - 1 by omega, show B - l - 1 < B by omega⟩
    · obtain ⟨o, ho, rfl⟩ := List.mem_map.1 he
      obtain ⟨g1, g2⟩ := revOrd_lt hin hm o ho
      simp only [List.length_reverse]
      exact ⟨puCell_mono hj g2 g1, puCell_lt hj g2⟩
  idle p hp := by cases hp
  one := .inl rfl

theorem opMeth_app (hin : PushInput P vars nA nT) {m j : Nat} (hm : m < P.numMethods) (hj : (P.sub m).length + j ≤ B)
    (he : QEnc vars nT B σ s I lab R c) : ((opMeth P B m j).toC vars.length B).App σ ↔
      (∃ u ∈ I, c u = j ∧ lab u = P.head m ∧ (∀ v ∈ I, ¬ R v u) ∧ ∀ k < j, ∃ v ∈ I, c v = k) ∧
      ∀ l < (P.sub m).length - 1, view vars.length B σ (.task (B - 1 - l)) = 0 := by
  have hpos := List.length_pos_iff.2 (hin.wf.sub_ne m hm)
  rw [toC_app (opMeth_ok hin hm hj), ← he.pre (by omega)]
  have h0 : Holds σ (opMeth P B m j).bpre := fun p hp => by cases hp
  simp only [h0, true_and]
  constructor
  · intro h
    exact ⟨fun x hx => h x (List.mem_append_left _ hx), fun l hl =>
      h _ (List.mem_append_right _ (List.mem_map.2 ⟨l, List.mem_range.2 (by simpa using hl), rfl⟩))⟩
  · rintro ⟨h1, h2⟩ x hx
    rcases List.mem_append.1 hx with hx | hx
    · exact h1 x hx
    · obtain ⟨l, hl, rfl⟩ := List.mem_map.1 hx
      exact h2 l (by simpa using hl)

/-- The effects of a method. -/
theorem mem_opMeth_effs (hin : PushInput P vars nA nT) {m j : Nat} (hm : m < P.numMethods) (hj : (P.sub m).length + j ≤ B) {τ : PV → Nat}
    {x : PV × Nat} : x ∈ (opMeth P B m j).effs τ ↔
      (∃ i t, (P.sub m)[i]? = some t ∧ x = (.task (puCell B (P.sub m).length j ((P.sub m).length - 1 - i)), t + 1)) ∨
      (∃ l < (P.sub m).length - 1, x = (.occ (B - 1 - l), 1)) ∨
      (∃ l < (P.sub m).length - 1, ∃ y < j, τ (.con j y) = 1 ∧ x = (.con (B - 1 - l) y, 1)) ∨
      ∃ i i', (i, i') ∈ P.ord m ∧ τ (.con (puCell B (P.sub m).length j ((P.sub m).length - 1 - i))
          (puCell B (P.sub m).length j ((P.sub m).length - 1 - i'))) = 0 ∧
        x = (.con (puCell B (P.sub m).length j ((P.sub m).length - 1 - i)) (puCell B (P.sub m).length j ((P.sub m).length - 1 - i')), 1) := by
  have hpos := List.length_pos_iff.2 (hin.wf.sub_ne m hm)
  have hrev : ∀ k < (P.sub m).length, ∃ t, (P.sub m)[(P.sub m).length - 1 - k]? = some t ∧ (P.sub m).reverse[k]?.getD 0 = t := by
    intro k hk
    refine ⟨_, List.getElem?_eq_getElem (by omega), ?_⟩
    rw [List.getElem?_reverse hk, List.getElem?_eq_getElem (by omega)]
    rfl
  simp only [PvOp.effs, opMeth, opDec, List.length_reverse, List.mem_append, List.mem_cons, List.mem_map, List.mem_range, List.mem_filter,
    List.mem_flatMap, revOrd]
  constructor
  · rintro ((rfl | ⟨l, hl, rfl⟩ | ⟨l, hl, rfl⟩) | ⟨e, ⟨⟨l, hl, y, hy, rfl⟩ | ⟨o, ⟨p, hp, rfl⟩, rfl⟩, hc⟩, rfl⟩)
    · obtain ⟨t, h1, h2⟩ := hrev 0 hpos
      refine .inl ⟨(P.sub m).length - 1 - 0, t, h1, ?_⟩
      rw [h2, show (P.sub m).length - 1 - ((P.sub m).length - 1 - 0) = 0 by omega, puCell, if_pos rfl, Nat.add_comm]
    · obtain ⟨t, h1, h2⟩ := hrev (l + 1) (by omega)
      refine .inl ⟨_, t, h1, ?_⟩
      rw [h2, show (P.sub m).length - 1 - ((P.sub m).length - 1 - (l + 1)) = l + 1 by omega, puCell, if_neg (by omega), Nat.add_comm 1 t]
      congr 2
      omega
    · exact .inr (.inl ⟨l, hl, rfl⟩)
    · refine .inr (.inr (.inl ⟨l, hl, y, hy, by simpa using hc, ?_⟩))
      rw [show B - 1 - l = B - l - 1 by omega]
    · exact .inr (.inr (.inr ⟨p.1, p.2, hp, by simpa using hc, rfl⟩))
  · rintro (⟨i, t, hi, rfl⟩ | ⟨l, hl, rfl⟩ | ⟨l, hl, y, hy, hc, rfl⟩ | ⟨i, i', hp, hc, rfl⟩)
    · have hil := (List.getElem?_eq_some_iff.1 hi).1
      obtain ⟨t', h1, h2⟩ := hrev ((P.sub m).length - 1 - i) (by omega)
      rw [show (P.sub m).length - 1 - ((P.sub m).length - 1 - i) = i by omega, hi] at h1
      obtain rfl : t = t' := by simpa using h1
      left
      by_cases e : (P.sub m).length - 1 - i = 0
      · left
        rw [e] at h2 ⊢
        rw [h2, puCell, if_pos rfl, Nat.add_comm]
      · right
        left
        refine ⟨(P.sub m).length - 1 - i - 1, by omega, ?_⟩
        rw [show (P.sub m).length - 1 - i - 1 + 1 = (P.sub m).length - 1 - i by omega, h2, puCell, if_neg e, Nat.add_comm 1 t]
        congr 2
        omega
    · exact .inl (.inr (.inr ⟨l, hl, rfl⟩))
    · refine .inr ⟨_, ⟨.inl ⟨l, hl, y, hy, rfl⟩, by simpa using hc⟩, ?_⟩
      rw [show B - 1 - l = B - l - 1 by omega]
    · exact .inr ⟨_, ⟨.inr ⟨_, ⟨(i, i'), hp, rfl⟩, rfl⟩, by simpa using hc⟩, rfl⟩

theorem opMeth_step (hin : PushInput P vars nA nT) {m u b : Nat} {I' : Finset Nat} {lab' : Nat → Nat} {R' : Nat → Nat → Prop}
    (hm : m < P.numMethods) (he : QEnc vars nT B σ s I lab R c) (hu : u ∈ I) (hmin : ∀ v ∈ I, ¬ R v u)
    (hj : (P.sub m).length + c u ≤ B) (hfree : ∀ l < (P.sub m).length - 1, view vars.length B σ (.task (B - 1 - l)) = 0)
    (hS : Refines P I lab R u m b I' lab' R') :
    (∃ c', QEnc vars nT B (((opMeth P B m (c u)).toC vars.length B).res σ) s I' lab' R' c' ∧ (∀ v ∈ I, c' v = c v) ∧
        ∀ i < (P.sub m).length, c' (b + i) = puCell B (P.sub m).length (c u) ((P.sub m).length - 1 - i)) ∧
      ∀ j < B, view vars.length B (((opMeth P B m (c u)).toC vars.length B).res σ) (.mov j) = view vars.length B σ (.mov j) := by
  have hpos := List.length_pos_iff.2 (hin.wf.sub_ne m hm)
  have hok := opMeth_ok hin hm hj
  have hme : ∀ {x}, x ∈ (opMeth P B m (c u)).effs (view vars.length B σ) ↔ _ := mem_opMeth_effs hin hm hj
  set n := (P.sub m).length with hn
  set E := (opMeth P B m (c u)).effs (view vars.length B σ) with hE
  set τ := view vars.length B σ with hτ
  set τ' := view vars.length B (((opMeth P B m (c u)).toC vars.length B).res σ) with hτ'
  -- the cells of the subtasks
  have hcell : ∀ i < n, puCell B n (c u) (n - 1 - i) = if i = n - 1 then c u else B - 1 - i := by
    intro i hi
    rw [puCell]
    split_ifs <;> omega
  have hcinj : ∀ i < n, ∀ i' < n, puCell B n (c u) (n - 1 - i) = puCell B n (c u) (n - 1 - i') → i = i' := by
    intro i hi i' hi' e
    rw [hcell i hi, hcell i' hi'] at e
    split_ifs at e <;> omega
  have hE1 : ∀ i < n, ∃ t, (P.sub m)[i]? = some t ∧ (PV.task (puCell B n (c u) (n - 1 - i)), t + 1) ∈ E := by
    intro i hi
    exact ⟨_, List.getElem?_eq_getElem hi, hme.2 (.inl ⟨i, _, List.getElem?_eq_getElem hi, rfl⟩)⟩
  have hfun : FunP E := by
    intro x hx y hy e
    rcases hme.1 hx with ⟨i, t, hi, rfl⟩ | ⟨l, hl, rfl⟩ | ⟨l, hl, z, hz, hc, rfl⟩ | ⟨i, i', hp, hc, rfl⟩ <;>
      rcases hme.1 hy with ⟨k, t', hk, rfl⟩ | ⟨l', hl', rfl⟩ | ⟨l', hl', z', hz', hc', rfl⟩ | ⟨k, k', hp', hc', rfl⟩ <;>
      first
      | rfl
      | (simp at e; done)
      | skip
    have h1 := (List.getElem?_eq_some_iff.1 hi).1
    have h2 := (List.getElem?_eq_some_iff.1 hk).1
    simp only [PV.task.injEq] at e
    obtain rfl := hcinj i h1 k h2 e
    rw [hi] at hk
    obtain rfl : t = t' := by simpa using hk
    rfl
  have hmem : ∀ q w, (q, w) ∈ E → τ' q = w := fun q w h => res_mem hok hfun h
  have hnot : ∀ q, VOk B q → (∀ w, (q, w) ∉ E) → τ' q = τ q := fun q hq h => res_not hok hq h
  -- old tasks are in other cells
  have hold : ∀ v ∈ I, v ≠ u → ∀ i < n, c v ≠ puCell B n (c u) (n - 1 - i) := by
    intro v hv hvu i hi e
    rw [hcell i hi] at e
    split at e
    · exact hvu (he.inj v hv u hu e)
    · exact he.free (hfree i (by omega)) v hv e
  have hcon_mono : ∀ k j, j < k → k < B → τ (.con k j) = 1 → τ' (.con k j) = 1 := by
    intro k j hjk hk h
    by_cases hw : ∃ w, (PV.con k j, w) ∈ E
    · obtain ⟨w, hw⟩ := hw
      rw [hmem _ _ hw]
      rcases hme.1 hw with ⟨i, t, hi, e⟩ | ⟨l, hl, e⟩ | ⟨l, hl, z, hz, hc, e⟩ | ⟨i, i', hp, hc, e⟩ <;> simp at e
      · exact e.2
      · exact e.2
    · rw [hnot (.con k j) ⟨hjk, hk⟩ fun w h => hw ⟨w, h⟩, h]
  let c' : Nat → Nat := fun v => if v < b then c v else puCell B n (c u) (n - 1 - (v - b))
  have hc'o : ∀ v ∈ I, c' v = c v := fun v hv => if_pos (hS.fresh v hv)
  have hc'n : ∀ i, c' (b + i) = puCell B n (c u) (n - 1 - i) := fun i => by
    simp only [c']
    rw [if_neg (by omega), Nat.add_sub_cancel_left]
  have hbase : ∀ i < vars.length, ((opMeth P B m (c u)).toC vars.length B).res σ i = σ i := fun i hi => by
    rw [res_base hok hi]
    rfl
  refine ⟨⟨c', ⟨corr_congr he.corr hbase, ?_, ?_, ?_, ?_, ?_, ?_, ?_, ?_, ?_⟩, hc'o, fun i _ => hc'n i⟩, fun j hj => hnot _ hj fun w hw => ?_⟩
  · intro v hv
    rcases (hS.mem v).1 hv with ⟨h1, -⟩ | ⟨i, hi, rfl⟩
    · rw [hc'o v h1]
      exact he.lt v h1
    · rw [hc'n]
      exact puCell_lt hj (by omega)
  · intro v hv w hw e
    rcases (hS.mem v).1 hv with ⟨h1, h2⟩ | ⟨i, hi, rfl⟩ <;> rcases (hS.mem w).1 hw with ⟨h3, h4⟩ | ⟨i', hi', rfl⟩
    · rw [hc'o v h1, hc'o w h3] at e
      exact he.inj v h1 w h3 e
    · rw [hc'o v h1, hc'n] at e
      exact absurd e (hold v h1 h2 i' hi')
    · rw [hc'o w h3, hc'n] at e
      exact absurd e.symm (hold w h3 h4 i hi)
    · rw [hc'n, hc'n] at e
      rw [hcinj i hi i' hi' e]
  · intro v hv
    rcases (hS.mem v).1 hv with ⟨h1, h2⟩ | ⟨i, hi, rfl⟩
    · rw [hS.lab_old v h1 h2]
      exact he.lab_lt v h1
    · obtain ⟨t, ht, -⟩ := hE1 i hi
      rw [hS.lab_new i t ht]
      exact hin.sub_lt m hm t (List.mem_of_getElem? ht)
  · intro v hv
    rcases (hS.mem v).1 hv with ⟨h1, h2⟩ | ⟨i, hi, rfl⟩
    · rw [hc'o v h1, hS.lab_old v h1 h2, ← he.task v h1]
      refine hnot (.task (c v)) (he.lt v h1) fun w hw => ?_
      rcases hme.1 hw with ⟨i, t, hi, e⟩ | ⟨l, hl, e⟩ | ⟨l, hl, z, hz, hc, e⟩ | ⟨i, i', hp, hc, e⟩ <;> simp at e
      exact hold v h1 h2 i (List.getElem?_eq_some_iff.1 hi).1 e.1
    · obtain ⟨t, ht, hE1⟩ := hE1 i hi
      rw [hc'n, hS.lab_new i t ht]
      exact hmem _ _ hE1
  · intro j hjB hfr
    have hfr' : ∀ v ∈ I, v ≠ u → c v ≠ j := fun v hv hvu e => hfr v ((hS.mem v).2 (.inl ⟨hv, hvu⟩)) (by rw [hc'o v hv, e])
    have hfn : ∀ i < n, puCell B n (c u) (n - 1 - i) ≠ j := fun i hi e => hfr (b + i) ((hS.mem _).2 (.inr ⟨i, hi, rfl⟩)) (by rw [hc'n, e])
    have hju : c u ≠ j := fun e => hfn (n - 1) (by omega) (by rw [hcell _ (by omega), if_pos rfl, e])
    rw [← hτ', hnot (.task j) hjB ?_]
    · refine he.task0 j hjB fun v hv => ?_
      by_cases e : v = u
      · rw [e]
        exact hju
      · exact hfr' v hv e
    · intro w hw
      rcases hme.1 hw with ⟨i, t, hi, e⟩ | ⟨l, hl, e⟩ | ⟨l, hl, z, hz, hc, e⟩ | ⟨i, i', hp, hc, e⟩ <;> simp at e
      exact hfn i (List.getElem?_eq_some_iff.1 hi).1 e.1.symm
  · intro v hv
    rw [← hτ']
    have hone : ∀ w, (PV.occ (c' v), w) ∈ E → w = 1 := by
      intro w hw
      rcases hme.1 hw with ⟨i, t, hi, e⟩ | ⟨l, hl, e⟩ | ⟨l, hl, z, hz, hc, e⟩ | ⟨i, i', hp, hc, e⟩ <;> simp at e
      exact e.2
    by_cases hw : ∃ w, (PV.occ (c' v), w) ∈ E
    · obtain ⟨w, hw⟩ := hw
      rw [hmem _ _ hw, hone w hw]
    · rcases (hS.mem v).1 hv with ⟨h1, h2⟩ | ⟨i, hi, rfl⟩
      · have h3 := hc'o v h1
        rw [h3] at hw ⊢
        rw [hnot (.occ (c v)) (he.lt v h1) fun w h => hw ⟨w, h⟩]
        exact he.occ v h1
      · have h3 := hc'n i
        rw [hcell i hi] at h3
        split at h3
        · rw [h3] at hw ⊢
          rw [hnot (.occ (c u)) (he.lt u hu) fun w h => hw ⟨w, h⟩]
          exact he.occ u hu
        · rw [h3] at hw
          exact absurd ⟨1, hme.2 (.inr (.inl ⟨i, by omega, rfl⟩))⟩ hw
  · intro j hjB hfr
    have hfr' : ∀ v ∈ I, v ≠ u → c v ≠ j := fun v hv hvu e => hfr v ((hS.mem v).2 (.inl ⟨hv, hvu⟩)) (by rw [hc'o v hv, e])
    have hfn : ∀ i < n, puCell B n (c u) (n - 1 - i) ≠ j := fun i hi e => hfr (b + i) ((hS.mem _).2 (.inr ⟨i, hi, rfl⟩)) (by rw [hc'n, e])
    have hju : c u ≠ j := fun e => hfn (n - 1) (by omega) (by rw [hcell _ (by omega), if_pos rfl, e])
    rw [← hτ', hnot (.occ j) hjB ?_]
    · refine he.occ0 j hjB fun v hv => ?_
      by_cases e : v = u
      · rw [e]
        exact hju
      · exact hfr' v hv e
    · intro w hw
      rcases hme.1 hw with ⟨i, t, hi, e⟩ | ⟨l, hl, e⟩ | ⟨l, hl, z, hz, hc, e⟩ | ⟨i, i', hp, hc, e⟩ <;> simp at e
      exact hfn l (by omega) (by rw [hcell l (by omega), if_neg (by omega), e.1])
  · intro v hv w hw hR
    rcases (hS.mem v).1 hv with ⟨h1, h2⟩ | ⟨i, hi, rfl⟩ <;> rcases (hS.mem w).1 hw with ⟨h3, h4⟩ | ⟨i', hi', rfl⟩
    · obtain ⟨g1, g2⟩ := he.con1 v h1 w h3 ((hS.old v h1 w h3 h2 h4).1 hR)
      rw [hc'o v h1, hc'o w h3]
      exact ⟨g1, hcon_mono _ _ g1 (he.lt v h1) g2⟩
    · exact absurd ((hS.old_new v i' h1 h2 hi').1 hR) (hmin v h1)
    · obtain ⟨g1, g2⟩ := he.con1 u hu w h3 ((hS.new_old i w hi h3 h4).1 hR)
      rw [hc'o w h3, hc'n, hcell i hi]
      split
      · exact ⟨g1, hcon_mono _ _ g1 (he.lt u hu) g2⟩
      · exact ⟨by omega, hmem _ _ (hme.2 (.inr (.inr (.inl ⟨i, by omega, c w, g1, g2, rfl⟩))))⟩
    · have hp := (hS.new i i' hi hi').1 hR
      have hlt : i < i' := by
        rcases hin.top m hm with h | h
        · rw [Problem.OrdRel, h] at hp
          cases hp
        · exact h.1 (i, i') hp
      rw [hc'n, hc'n]
      refine ⟨puCell_mono hj (by omega) (by omega), ?_⟩
      refine hmem _ _ (hme.2 (.inr (.inr (.inr ⟨i, i', hp, ?_, rfl⟩))))
      by_contra hne
      obtain ⟨v, hv, w, hw, e1, e2, -⟩ := he.con0 _ _ (puCell_mono hj (by omega) (by omega)) (puCell_lt hj (by omega)) hne
      rw [hcell i hi, if_neg (by omega)] at e1
      exact he.free (hfree i (by omega)) v hv e1
  · intro k j hjk hk hne
    rw [← hτ'] at hne
    by_cases hw : ∃ w, (PV.con k j, w) ∈ E
    · obtain ⟨w, hw⟩ := hw
      rcases hme.1 hw with ⟨i, t, hi, e⟩ | ⟨l, hl, e⟩ | ⟨l, hl, z, hz, hc, e⟩ | ⟨i, i', hp, hc, e⟩ <;>
        simp only [Prod.mk.injEq, PV.con.injEq, reduceCtorEq, false_and] at e
      · obtain ⟨⟨rfl, rfl⟩, -⟩ := e
        obtain ⟨v, hv, w', hw', e1, e2, hR⟩ := he.con0 (c u) j hz (he.lt u hu) (by rw [← hτ, hc]; simp)
        obtain rfl := he.inj v hv u hu e1
        have hwv : w' ≠ v := fun e => by rw [e] at hR; exact hmin v hv hR
        refine ⟨b + l, (hS.mem _).2 (.inr ⟨l, by omega, rfl⟩), w', (hS.mem _).2 (.inl ⟨hw', hwv⟩), ?_, ?_, ?_⟩
        · rw [hc'n, hcell l (by omega), if_neg (by omega)]
        · rw [hc'o w' hw', e2]
        · exact (hS.new_old l w' (by omega) hw' hwv).2 hR
      · obtain ⟨⟨rfl, rfl⟩, -⟩ := e
        obtain ⟨h1, h2⟩ := hin.wf.ord_lt m hm i i' hp
        exact ⟨b + i, (hS.mem _).2 (.inr ⟨i, h1, rfl⟩), b + i', (hS.mem _).2 (.inr ⟨i', h2, rfl⟩), hc'n i, hc'n i', (hS.new i i' h1 h2).2 hp⟩
    · rw [hnot (.con k j) ⟨hjk, hk⟩ fun w h => hw ⟨w, h⟩] at hne
      obtain ⟨v, hv, w, hw', e1, e2, hR⟩ := he.con0 k j hjk hk hne
      have hwu : w ≠ u := fun e => by rw [e] at hR; exact hmin v hv hR
      by_cases hvu : v = u
      · subst hvu
        refine ⟨b + (n - 1), (hS.mem _).2 (.inr ⟨n - 1, by omega, rfl⟩), w, (hS.mem _).2 (.inl ⟨hw', hwu⟩), ?_, ?_, ?_⟩
        · rw [hc'n, hcell _ (by omega), if_pos rfl, e1]
        · rw [hc'o w hw', e2]
        · exact (hS.new_old _ w (by omega) hw' hwu).2 hR
      · exact ⟨v, (hS.mem _).2 (.inl ⟨hv, hvu⟩), w, (hS.mem _).2 (.inl ⟨hw', hwu⟩), by rw [hc'o v hv, e1], by rw [hc'o w hw', e2],
          (hS.old v hv w hw' hvu hwu).2 hR⟩
  · rcases hme.1 hw with ⟨i, t, hi, e⟩ | ⟨l, hl, e⟩ | ⟨l, hl, z, hz, hc, e⟩ | ⟨i, i', hp, hc, e⟩ <;> simp at e

/-! ## Moves -/

theorem opMove_ok (hne : vars ≠ []) {t j : Nat} (hj0 : 0 < j) (hj : j < B) : (opMove B t j).Ok vars.length B where
  bpre p hp := by cases hp
  bfun p hp := by cases hp
  badd p hp := by cases hp
  pre x hx := by
    simp only [opMove, List.mem_append, List.mem_cons, List.not_mem_nil, or_false, List.mem_map, List.mem_range] at hx
    rcases hx with (rfl | rfl | rfl | rfl) | ⟨l, hl, rfl⟩
    · exact hj
    · exact hj
    · exact show j - 1 < B by omega
    · exact show j - 1 < B by omega
    · split
      · exact show l < B by omega
      · exact show l + 1 < B by omega
  pfun := by
    intro x hx y hy e
    simp only [opMove, List.mem_append, List.mem_cons, List.not_mem_nil, or_false, List.mem_map, List.mem_range] at hx hy
    rcases hx with (rfl | rfl | rfl | rfl) | ⟨l, hl, rfl⟩ <;> rcases hy with (rfl | rfl | rfl | rfl) | ⟨l', hl', rfl⟩ <;>
      (try split at e) <;> (try split) <;> (try split at e) <;> (try split) <;> first | rfl | (simp at e; omega) | (simp at e; done)
  add x hx := by
    simp only [opMove, List.mem_append, List.mem_cons, List.not_mem_nil, or_false, List.mem_map, List.mem_range] at hx
    rcases hx with (rfl | rfl | rfl | rfl | rfl) | ⟨l, hl, rfl⟩
    · exact hj
    · exact hj
    · exact show j - 1 < B by omega
    · exact show j - 1 < B by omega
    · exact hj
    · split
      · exact show l < j ∧ j < B by omega
      · exact show j < l + 2 ∧ l + 2 < B by omega
  cond e he := by
    simp only [opMove, List.mem_append, List.mem_map, List.mem_range] at he
    rcases he with ⟨l, hl, rfl⟩ | he
    · split
      · exact show l < j - 1 ∧ j - 1 < B by omega
      · exact show j - 1 < l + 2 ∧ l + 2 < B by omega
    · split at he
      · simp only [List.mem_cons, List.not_mem_nil, or_false] at he
        rcases he with rfl | rfl
        · exact show j - 1 < B by omega
        · exact show j - 1 < B by omega
      · cases he
  idle p hp := by
    have := List.length_pos_iff.2 hne
    simp only [opMove, List.mem_cons, List.not_mem_nil, or_false, or_self] at hp
    rw [hp]
    exact this
  one := .inr rfl

/-- The effects of a move. -/
theorem mem_opMove_effs {t j : Nat} (hj0 : 0 < j) {τ : PV → Nat} {x : PV × Nat} : x ∈ (opMove B t j).effs τ ↔
    x = (.task j, 0) ∨ x = (.occ j, 0) ∨ x = (.task (j - 1), t + 1) ∨ x = (.occ (j - 1), 1) ∨ x = (.mov j, 0) ∨
    (∃ l, l < j - 1 ∧ l + 2 < B ∧ x = (.con j l, 0)) ∨ (∃ l, j < l ∧ l < B ∧ x = (.con l j, 0)) ∨
    (∃ l, l < j - 1 ∧ l + 2 < B ∧ τ (.con j l) = 1 ∧ x = (.con (j - 1) l, 1)) ∨
    (∃ l, j < l ∧ l < B ∧ τ (.con l j) = 1 ∧ x = (.con l (j - 1), 1)) ∨
    (1 < j ∧ τ (.occ (j - 2)) = 0 ∧ x = (.mov (j - 1), 1)) ∨ (1 < j ∧ τ (.occ (j - 2)) = 1 ∧ x = (.mov (j - 1), 0)) := by
  simp only [PvOp.effs, opMove, List.mem_append, List.mem_cons, List.not_mem_nil, or_false, List.mem_map, List.mem_range, List.mem_filter]
  constructor
  · rintro (((rfl | rfl | rfl | rfl | rfl) | ⟨l, hl, rfl⟩) | ⟨e, ⟨⟨l, hl, rfl⟩ | he, hc⟩, rfl⟩)
    · simp
    · simp
    · simp [Nat.add_comm]
    · simp
    · simp
    · split
      · exact .inr (.inr (.inr (.inr (.inr (.inl ⟨l, by omega, by omega, rfl⟩)))))
      · exact .inr (.inr (.inr (.inr (.inr (.inr (.inl ⟨l + 2, by omega, by omega, rfl⟩))))))
    · by_cases h : l < j - 1
      · rw [if_pos h] at hc ⊢
        exact .inr (.inr (.inr (.inr (.inr (.inr (.inr (.inl ⟨l, h, by omega, by simpa using hc, rfl⟩)))))))
      · rw [if_neg h] at hc ⊢
        exact .inr (.inr (.inr (.inr (.inr (.inr (.inr (.inr (.inl ⟨l + 2, by omega, by omega, by simpa using hc, rfl⟩))))))))
    · split at he
      · simp only [List.mem_cons, List.not_mem_nil, or_false] at he
        rcases he with rfl | rfl
        · exact .inr (.inr (.inr (.inr (.inr (.inr (.inr (.inr (.inr (.inl ⟨by assumption, by simpa using hc, rfl⟩)))))))))
        · exact .inr (.inr (.inr (.inr (.inr (.inr (.inr (.inr (.inr (.inr ⟨by assumption, by simpa using hc, rfl⟩)))))))))
      · cases he
  · rintro (rfl | rfl | rfl | rfl | rfl | ⟨l, h1, h2, rfl⟩ | ⟨l, h1, h2, rfl⟩ | ⟨l, h1, h2, h3, rfl⟩ | ⟨l, h1, h2, h3, rfl⟩ |
      ⟨h1, h2, rfl⟩ | ⟨h1, h2, rfl⟩)
    · simp
    · simp
    · simp [Nat.add_comm]
    · simp
    · simp
    · exact .inl (.inr ⟨l, by omega, by rw [if_pos h1]⟩)
    · refine .inl (.inr ⟨l - 2, by omega, ?_⟩)
      rw [if_neg (by omega), show l - 2 + 2 = l by omega]
    · exact .inr ⟨((.con j l, 1), (.con (j - 1) l, 1)), ⟨.inl ⟨l, by omega, by rw [if_pos h1]⟩, by simpa using h3⟩, rfl⟩
    · refine .inr ⟨((.con l j, 1), (.con l (j - 1), 1)), ⟨.inl ⟨l - 2, by omega, ?_⟩, by simpa using h3⟩, rfl⟩
      rw [if_neg (by omega), show l - 2 + 2 = l by omega]
    · exact .inr ⟨((.occ (j - 2), 0), (.mov (j - 1), 1)), ⟨.inr (by rw [if_pos h1]; simp), by simpa using h2⟩, rfl⟩
    · exact .inr ⟨((.occ (j - 2), 1), (.mov (j - 1), 0)), ⟨.inr (by rw [if_pos h1]; simp), by simpa using h2⟩, rfl⟩

theorem opMove_app_of (hne : vars ≠ []) (he : QEnc vars nT B σ s I lab R c) {u : Nat} (hu : u ∈ I) (hj0 : 0 < c u)
    (hfree : ∀ v ∈ I, c v ≠ c u - 1) (hmov : ∀ l < B, l ≠ c u → view vars.length B σ (.mov l) = 0) :
    ((opMove B (lab u) (c u)).toC vars.length B).App σ := by
  have hj := he.lt u hu
  rw [toC_app (opMove_ok hne hj0 hj)]
  refine ⟨fun p hp => (by cases hp), fun x hx => ?_⟩
  simp only [opMove, List.mem_append, List.mem_cons, List.not_mem_nil, or_false, List.mem_map, List.mem_range] at hx
  rcases hx with (rfl | rfl | rfl | rfl) | ⟨l, hl, rfl⟩
  · rw [Nat.add_comm]
    exact he.task u hu
  · exact he.occ u hu
  · exact he.task0 _ (by omega) hfree
  · exact he.occ0 _ (by omega) hfree
  · split
    · exact hmov l (by omega) (by omega)
    · exact hmov (l + 1) (by omega) (by omega)

theorem opMove_app_imp (hne : vars ≠ []) (he : QEnc vars nT B σ s I lab R c) {t j : Nat} (hj0 : 0 < j) (hj : j < B)
    (h : ((opMove B t j).toC vars.length B).App σ) : ∃ u ∈ I, c u = j ∧ lab u = t ∧ ∀ v ∈ I, c v ≠ j - 1 := by
  have h2 := ((toC_app (opMove_ok hne hj0 hj)).1 h).2
  have ht : view vars.length B σ (.task j) = 1 + t := h2 (.task j, 1 + t) (by simp [opMove])
  obtain ⟨u, hu, rfl⟩ := he.cell hj (by omega)
  have := he.task u hu
  exact ⟨u, hu, rfl, by omega, he.free (h2 (.task (c u - 1), 0) (by simp [opMove]))⟩

theorem opMove_step (hne : vars ≠ []) (he : QEnc vars nT B σ s I lab R c) {u : Nat} (hu : u ∈ I) (hj0 : 0 < c u)
    (hfree : ∀ v ∈ I, c v ≠ c u - 1) :
    QEnc vars nT B (((opMove B (lab u) (c u)).toC vars.length B).res σ) s I lab R (Function.update c u (c u - 1)) ∧
    view vars.length B (((opMove B (lab u) (c u)).toC vars.length B).res σ) (.mov (c u)) = 0 ∧
    (∀ l < B, l ≠ c u → l ≠ c u - 1 →
      view vars.length B (((opMove B (lab u) (c u)).toC vars.length B).res σ) (.mov l) = view vars.length B σ (.mov l)) ∧
    (1 < c u → view vars.length B σ (.occ (c u - 2)) = 1 →
      view vars.length B (((opMove B (lab u) (c u)).toC vars.length B).res σ) (.mov (c u - 1)) = 0) ∧
    (c u = 1 → view vars.length B (((opMove B (lab u) (c u)).toC vars.length B).res σ) (.mov 0) = view vars.length B σ (.mov 0)) := by
  have hj := he.lt u hu
  have hok := opMove_ok (t := lab u) hne hj0 hj
  have hme : ∀ {x}, x ∈ (opMove B (lab u) (c u)).effs (view vars.length B σ) ↔ _ := mem_opMove_effs hj0
  set E := (opMove B (lab u) (c u)).effs (view vars.length B σ) with hE
  set τ := view vars.length B σ with hτ
  set τ' := view vars.length B (((opMove B (lab u) (c u)).toC vars.length B).res σ) with hτ'
  have hfun : FunP E := by
    intro x hx y hy e
    rcases hme.1 hx with rfl | rfl | rfl | rfl | rfl | ⟨l, h1, h2, rfl⟩ | ⟨l, h1, h2, rfl⟩ | ⟨l, h1, h2, h3, rfl⟩ | ⟨l, h1, h2, h3, rfl⟩ |
        ⟨h1, h2, rfl⟩ | ⟨h1, h2, rfl⟩ <;>
      rcases hme.1 hy with rfl | rfl | rfl | rfl | rfl | ⟨l', h1', h2', rfl⟩ | ⟨l', h1', h2', rfl⟩ | ⟨l', h1', h2', h3', rfl⟩ |
        ⟨l', h1', h2', h3', rfl⟩ | ⟨h1', h2', rfl⟩ | ⟨h1', h2', rfl⟩ <;>
      first
      | rfl
      | (simp only [reduceCtorEq] at e; done)
      | (simp only [PV.task.injEq, PV.occ.injEq, PV.mov.injEq, PV.con.injEq] at e; omega)
      | omega
  have hmem : ∀ q w, (q, w) ∈ E → τ' q = w := fun q w h => res_mem hok hfun h
  have hnot : ∀ q, VOk B q → (∀ w, (q, w) ∉ E) → τ' q = τ q := fun q hq h => res_not hok hq h
  have hbase : ∀ i < vars.length, ((opMove B (lab u) (c u)).toC vars.length B).res σ i = σ i := fun i hi => by
    rw [res_base hok hi]
    rfl
  have hcu : Function.update c u (c u - 1) u = c u - 1 := Function.update_self _ _ _
  have hcv : ∀ v, v ≠ u → Function.update c u (c u - 1) v = c v := fun v hv => Function.update_of_ne hv _ _
  have hne' : ∀ v ∈ I, v ≠ u → c v ≠ c u := fun v hv hvu e => hvu (he.inj v hv u hu e)
  -- the variables that change
  have htask : ∀ j < B, j ≠ c u → j ≠ c u - 1 → τ' (.task j) = τ (.task j) := by
    intro j hjB h1 h2
    refine hnot (.task j) hjB fun w hw => ?_
    have := hme.1 hw
    simp [h1, h2] at this
  have hocc : ∀ j < B, j ≠ c u → j ≠ c u - 1 → τ' (.occ j) = τ (.occ j) := by
    intro j hjB h1 h2
    refine hnot (.occ j) hjB fun w hw => ?_
    have := hme.1 hw
    simp [h1, h2] at this
  have hcon : ∀ k j, j < k → k < B → k ≠ c u → k ≠ c u - 1 → j ≠ c u → j ≠ c u - 1 → τ' (.con k j) = τ (.con k j) := by
    intro k j hjk hk h1 h2 h3 h4
    refine hnot (.con k j) ⟨hjk, hk⟩ fun w hw => ?_
    have := hme.1 hw
    simp only [Prod.mk.injEq, PV.con.injEq, reduceCtorEq, false_and, and_false, false_or, or_false] at this
    rcases this with ⟨l, -, -, ⟨e, -⟩, -⟩ | ⟨l, -, -, ⟨-, e⟩, -⟩ | ⟨l, -, -, -, ⟨e, -⟩, -⟩ | ⟨l, -, -, -, ⟨-, e⟩, -⟩ <;> omega
  refine ⟨⟨corr_congr he.corr hbase, ?_, ?_, he.lab_lt, ?_, ?_, ?_, ?_, ?_, ?_⟩, ?_, ?_, ?_, ?_⟩
  · intro v hv
    by_cases e : v = u
    · rw [e, hcu]
      omega
    · rw [hcv v e]
      exact he.lt v hv
  · intro v hv w hw e
    by_cases hvu : v = u <;> by_cases hwu : w = u
    · rw [hvu, hwu]
    · rw [hvu, hcu, hcv w hwu] at e
      exact absurd e.symm (hfree w hw)
    · rw [hwu, hcu, hcv v hvu] at e
      exact absurd e (hfree v hv)
    · rw [hcv v hvu, hcv w hwu] at e
      exact he.inj v hv w hw e
  · intro v hv
    by_cases e : v = u
    · rw [e, hcu]
      exact hmem _ _ (hme.2 (by simp))
    · rw [hcv v e, ← he.task v hv]
      exact htask _ (he.lt v hv) (hne' v hv e) (hfree v hv)
  · intro j hjB hfr
    by_cases e : j = c u
    · rw [e]
      exact hmem _ _ (hme.2 (by simp))
    · have h1 : j ≠ c u - 1 := fun e1 => hfr u hu (by rw [hcu, e1])
      rw [← hτ', htask j hjB e h1]
      refine he.task0 j hjB fun v hv => ?_
      by_cases e' : v = u
      · rw [e']
        exact Ne.symm e
      · rw [← hcv v e']
        exact hfr v hv
  · intro v hv
    by_cases e : v = u
    · rw [e, hcu]
      exact hmem _ _ (hme.2 (by simp))
    · rw [hcv v e, ← he.occ v hv]
      exact hocc _ (he.lt v hv) (hne' v hv e) (hfree v hv)
  · intro j hjB hfr
    by_cases e : j = c u
    · rw [e]
      exact hmem _ _ (hme.2 (by simp))
    · have h1 : j ≠ c u - 1 := fun e1 => hfr u hu (by rw [hcu, e1])
      rw [← hτ', hocc j hjB e h1]
      refine he.occ0 j hjB fun v hv => ?_
      by_cases e' : v = u
      · rw [e']
        exact Ne.symm e
      · rw [← hcv v e']
        exact hfr v hv
  · intro v hv w hw hR
    obtain ⟨h1, h2⟩ := he.con1 v hv w hw hR
    by_cases hvu : v = u
    · subst hvu
      have hwv : w ≠ v := by
        rintro rfl
        omega
      have h3 := hfree w hw
      rw [hcu, hcv w hwv]
      refine ⟨by omega, hmem _ _ (hme.2 ?_)⟩
      exact .inr (.inr (.inr (.inr (.inr (.inr (.inr (.inl ⟨c w, by omega, by omega, h2, rfl⟩)))))))
    · by_cases hwu : w = u
      · subst hwu
        rw [hcu, hcv v hvu]
        refine ⟨by omega, hmem _ _ (hme.2 ?_)⟩
        exact .inr (.inr (.inr (.inr (.inr (.inr (.inr (.inr (.inl ⟨c v, h1, he.lt v hv, h2, rfl⟩))))))))
      · rw [hcv v hvu, hcv w hwu]
        exact ⟨h1, by rw [← hτ', hcon _ _ h1 (he.lt v hv) (hne' v hv hvu) (hfree v hv) (hne' w hw hwu) (hfree w hw)]; exact h2⟩
  · intro k j hjk hk hne2
    rw [← hτ'] at hne2
    -- a set bit that has not changed
    have hkeep : τ (.con k j) ≠ 0 → k ≠ c u → j ≠ c u → ∃ v ∈ I, ∃ w ∈ I, Function.update c u (c u - 1) v = k ∧
        Function.update c u (c u - 1) w = j ∧ R v w := by
      intro h0 h1 h2
      obtain ⟨v, hv, w, hw, e1, e2, hR⟩ := he.con0 k j hjk hk h0
      have hvu : v ≠ u := fun e => h1 (by rw [← e1, e])
      have hwu : w ≠ u := fun e => h2 (by rw [← e2, e])
      exact ⟨v, hv, w, hw, by rw [hcv v hvu, e1], by rw [hcv w hwu, e2], hR⟩
    by_cases hw : ∃ w, (PV.con k j, w) ∈ E
    · obtain ⟨w, hw⟩ := hw
      have hw0 := hmem _ _ hw
      have := hme.1 hw
      simp only [Prod.mk.injEq, PV.con.injEq, reduceCtorEq, false_and, and_false, false_or, or_false] at this
      rcases this with ⟨l, -, -, -, e⟩ | ⟨l, -, -, -, e⟩ | ⟨l, h1, h2, h3, ⟨rfl, rfl⟩, -⟩ | ⟨l, h1, h2, h3, ⟨rfl, rfl⟩, -⟩
      · exact absurd (hw0.trans e) hne2
      · exact absurd (hw0.trans e) hne2
      · obtain ⟨v, hv, w', hw', e1, e2, hR⟩ := he.con0 (c u) j (by omega) hj (by rw [← hτ, h3]; simp)
        obtain rfl := he.inj v hv u hu e1
        have hwv : w' ≠ v := by
          rintro rfl
          omega
        exact ⟨v, hv, w', hw', hcu, by rw [hcv w' hwv, e2], hR⟩
      · obtain ⟨v, hv, w', hw', e1, e2, hR⟩ := he.con0 k (c u) h1 hk (by rw [← hτ, h3]; simp)
        obtain rfl := he.inj w' hw' u hu e2
        have hvw : v ≠ w' := by
          rintro rfl
          omega
        exact ⟨v, hv, w', hw', by rw [hcv v hvw, e1], hcu, hR⟩
    · rw [hnot (.con k j) ⟨hjk, hk⟩ fun w h => hw ⟨w, h⟩] at hne2
      refine hkeep hne2 ?_ ?_
      · rintro rfl
        by_cases h1 : j = c u - 1
        · obtain ⟨v, hv, w, hw', e1, e2, hR⟩ := he.con0 (c u) j hjk hk hne2
          exact hfree w hw' (by rw [e2, h1])
        · have h2 : j < c u - 1 ∧ j + 2 < B := by
            clear hkeep
            omega
          exact hw ⟨0, hme.2 (.inr (.inr (.inr (.inr (.inr (.inl ⟨j, h2.1, h2.2, rfl⟩))))))⟩
      · rintro rfl
        exact hw ⟨0, hme.2 (.inr (.inr (.inr (.inr (.inr (.inr (.inl ⟨k, hjk, hk, rfl⟩)))))))⟩
  · exact hmem _ _ (hme.2 (by simp))
  · intro l hl h1 h2
    refine hnot (.mov l) hl fun w hw => ?_
    have := hme.1 hw
    simp [h1, h2] at this
  · intro h1 h2
    exact hmem _ _ (hme.2 (.inr (.inr (.inr (.inr (.inr (.inr (.inr (.inr (.inr (.inr ⟨h1, h2, rfl⟩)))))))))))
  · intro h1
    refine hnot (.mov 0) (show 0 < B by omega) fun w hw => ?_
    have := hme.1 hw
    simp [h1] at this

end

end Verif.Sas
