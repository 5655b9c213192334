import Verif.ToTransSim

/-! # Plans of the translated problem and solutions -/

namespace Verif.Sas

open Verif.Htn

/-! ## Values of the stack variables -/

/-- The values describe the state and the stack (top first). -/
structure Enc (vars : List (Nat × Nat)) (pgb : Nat) (σ : Val) (s : State) (st : List Nat) : Prop where
  corr : Corr vars s σ
  le : st.length ≤ pgb
  head : σ vars.length = st.length
  slot : ∀ y < pgb, σ (vars.length + 1 + y) = (st.reverse[y]?).elim 0 (· + 1)

theorem Enc.top {vars : List (Nat × Nat)} {pgb : Nat} {σ : Val} {s : State} {st : List Nat} (h : Enc vars pgb σ s st) {j t : Nat}
    (hj : j < pgb) : (σ vars.length = 1 + j ∧ σ (vars.length + 1 + j) = t + 1) ↔ ∃ r, st = t :: r ∧ r.length = j := by
  rw [h.head, h.slot j hj]
  constructor
  · rintro ⟨h1, h2⟩
    cases st with
    | nil => simp at h1; omega
    | cons x r =>
      simp only [List.length_cons] at h1
      obtain rfl : r.length = j := by omega
      rw [List.reverse_cons, List.getElem?_append_right (by simp)] at h2
      simp only [List.length_reverse, Nat.sub_self, List.getElem?_cons_zero, Option.elim_some] at h2
      obtain rfl : x = t := by omega
      exact ⟨r, rfl, rfl⟩
  · rintro ⟨r, rfl, rfl⟩
    refine ⟨by simp; omega, ?_⟩
    rw [List.reverse_cons, List.getElem?_append_right (by simp)]
    simp

theorem assign_low {h : Nat} {E A : List (Nat × Nat)} (hE : ∀ p ∈ E, h ≤ p.1) {v : Nat} (hv : v < h) (σ : Val) :
    assign σ (E ++ A) v = assign σ A v ∧ assign σ (A ++ E) v = assign σ A v := by
  have : lastVal v E = none := lastVal_none.2 fun p hp e => by have := hE p hp; omega
  simp [assign_eq, lastVal_append, this]

theorem assign_high {h : Nat} {E A : List (Nat × Nat)} (hA : ∀ p ∈ A, p.1 < h) {v : Nat} (hv : h ≤ v) (σ : Val) :
    assign σ (E ++ A) v = assign σ E v ∧ assign σ (A ++ E) v = assign σ E v := by
  have : lastVal v A = none := lastVal_none.2 fun p hp e => by have := hA p hp; omega
  simp [assign_eq, lastVal_append, this]

theorem Corr.congr {vars : List (Nat × Nat)} {s : State} {σ σ' : Val} (h : Corr vars s σ) (he : ∀ v < vars.length, σ' v = σ v) :
    Corr vars s σ' := by
  intro i f l hi
  rw [he i (List.getElem?_eq_some_iff.1 hi).1]
  exact h i f l hi

theorem stackEff_ge {h j : Nat} {R : List Nat} : ∀ p ∈ stackEff h j R, h ≤ p.1 := by
  intro p hp
  unfold stackEff at hp
  split at hp
  · simp at hp; rcases hp with rfl | rfl <;> simp <;> omega
  · simp at hp; subst hp; simp; omega
  · rcases List.mem_append.1 hp with hp | hp
    · obtain ⟨x, -, rfl⟩ := List.mem_map.1 hp
      simp only; omega
    · simp at hp; subst hp; simp

/-- What a method does with the stack variables. -/
theorem assign_stackEff {h j : Nat} {R : List Nat} {σ : Val} (hσ : σ h = 1 + j) :
    assign σ (stackEff h j R) h = j + R.length ∧
    ∀ y, assign σ (stackEff h j R) (h + 1 + y) =
      if y < j then σ (h + 1 + y) else if y < j + R.length then 1 + R[y - j]?.getD 0 else if y = j then 0 else σ (h + 1 + y) := by
  match R with
  | [] =>
    simp only [stackEff, assign, List.foldl_cons, List.foldl_nil, List.length_nil, Nat.add_zero]
    refine ⟨by rw [Function.update_of_ne (by omega), Function.update_self], fun y => ?_⟩
    by_cases hy : y = j
    · subst hy
      simp
    · rw [Function.update_of_ne (by omega), Function.update_of_ne (by omega)]
      split_ifs <;> first | rfl | omega
  | [t] =>
    simp only [stackEff, assign, List.foldl_cons, List.foldl_nil, List.length_cons, List.length_nil]
    refine ⟨by rw [Function.update_of_ne (by omega), hσ]; omega, fun y => ?_⟩
    by_cases hy : y = j
    · subst hy
      simp
    · rw [Function.update_of_ne (by omega)]
      split_ifs <;> first | rfl | omega
  | t :: t' :: r =>
    have hse : stackEff h j (t :: t' :: r) = ((List.range (t :: t' :: r).length).map fun x =>
        (h + 1 + j + x, 1 + (t :: t' :: r)[x]?.getD 0)) ++ [(h, j + (t :: t' :: r).length)] := rfl
    generalize hR : t :: t' :: r = R at hse ⊢
    have hlen : 2 ≤ R.length := by rw [← hR]; simp
    rw [hse]
    constructor
    · rw [assign_eq, lastVal_append]
      simp [lastVal]
    · intro y
      rw [assign_eq, lastVal_append]
      have hl1 : lastVal (h + 1 + y) [(h, j + R.length)] = none := by
        rw [lastVal_none]
        intro p hp e
        simp at hp
        subst hp
        simp only at e
        omega
      rw [hl1, Option.none_or]
      by_cases hin : j ≤ y ∧ y < j + R.length
      · have : lastVal (h + 1 + y) ((List.range R.length).map fun x => (h + 1 + j + x, 1 + R[x]?.getD 0)) = some (1 + R[y - j]?.getD 0) := by
          apply lastVal_fun
          · rintro x hx z hz e
            obtain ⟨x', -, rfl⟩ := List.mem_map.1 hx
            obtain ⟨z', -, rfl⟩ := List.mem_map.1 hz
            simp only at e ⊢
            obtain rfl : x' = z' := by omega
            rfl
          · exact List.mem_map.2 ⟨y - j, by simp; omega, by simp only [Prod.mk.injEq, and_true]; omega⟩
        rw [this, if_neg (by omega), if_pos hin.2]
        rfl
      · have : lastVal (h + 1 + y) ((List.range R.length).map fun x => (h + 1 + j + x, 1 + R[x]?.getD 0)) = none := by
          rw [lastVal_none]
          intro p hp e
          obtain ⟨x, hx, rfl⟩ := List.mem_map.1 hp
          have hx : x < R.length := by simpa using hx
          simp only at e
          omega
        rw [this]
        split_ifs <;> first | rfl | omega

/-! ## Steps -/

section

variable {P : Problem} {vars : List (Nat × Nat)} {nA nT : Nat} {tot : Nat → List Nat}

/-- A state that is reached by executing actions. -/
def Reach (P : Problem) (s : State) : Prop := ∃ π, Exec P P.initState π s

theorem Reach.step {s : State} (h : Reach P s) {a : Nat} (ha : P.Applicable s a) : Reach P (P.result s a) := by
  obtain ⟨π, hπ⟩ := h
  exact ⟨π ++ [a], exec_append.2 ⟨s, hπ, .cons ha (.nil _)⟩⟩

theorem Reach.exec {s s' : State} (h : Reach P s) {ρ : List Nat} (he : Exec P s ρ s') : Reach P s' := by
  obtain ⟨π, hπ⟩ := h
  exact ⟨π ++ ρ, exec_append.2 ⟨s, hπ, he⟩⟩

/-- Executing a sequence and its values. -/
theorem seqHolds_iff (hin : TransInput P vars nA nT tot) : ∀ (l : List Nat) {s : State} {σ : Val}, Reach P s → Corr vars s σ →
    (SeqHolds vars P σ l ↔ ∃ s', Exec P s l s') ∧ ∀ s', Exec P s l s' → Corr vars s' (seqRes vars P σ l) := by
  intro l
  induction l with
  | nil =>
    intro s σ hr hc
    refine ⟨⟨fun _ => ⟨s, .nil _⟩, fun _ => trivial⟩, fun s' he => ?_⟩
    cases he
    exact hc
  | cons a l ih =>
    intro s σ hr hc
    have happ := hc.applicable hin.wf hin.sas.contig a
    have hres : P.Applicable s a → Corr vars (P.result s a) (assign σ (addV vars P a)) := fun ha =>
      hc.result hin.wf hin.sas.contig hin.sas.noClash (by
        obtain ⟨π, hπ⟩ := hr.step ha
        exact hin.sas.inv π _ hπ)
    constructor
    · constructor
      · rintro ⟨h1, h2⟩
        have ha := happ.1 h1
        obtain ⟨s', hs'⟩ := (ih (hr.step ha) (hres ha)).1.1 h2
        exact ⟨s', .cons ha hs'⟩
      · rintro ⟨s', hs'⟩
        obtain _ | ⟨ha, he⟩ := hs'
        exact ⟨happ.2 ha, (ih (hr.step ha) (hres ha)).1.2 ⟨s', he⟩⟩
    · intro s' hs'
      obtain _ | ⟨ha, he⟩ := hs'
      exact (ih (hr.step ha) (hres ha)).2 s' he

theorem opA_fun (hnc : NoConflict P vars nA tot) {a j : Nat} (ha : a < nA) :
    ∀ x ∈ precV vars P a ++ [(vars.length + 1 + j, 1 + a), (vars.length, 1 + j)],
      ∀ y ∈ precV vars P a ++ [(vars.length + 1 + j, 1 + a), (vars.length, 1 + j)], x.1 = y.1 → x.2 = y.2 := by
  intro x hx y hy e
  rcases List.mem_append.1 hx with hx | hx <;> rcases List.mem_append.1 hy with hy | hy
  · exact hnc.precFun a ha x hx y hy e
  · have := precV_lt hx
    simp at hy
    rcases hy with rfl | rfl <;> simp only at e <;> omega
  · have := precV_lt hy
    simp at hx
    rcases hx with rfl | rfl <;> simp only at e <;> omega
  · simp at hx hy
    rcases hx with rfl | rfl <;> rcases hy with rfl | rfl <;> simp only at e ⊢ <;> omega

theorem opA_holds (hin : TransInput P vars nA nT tot) {pgb a j : Nat} (hj : j < pgb) {σ : Val} {s : State}
    {st : List Nat} (he : Enc vars pgb σ s st) :
    (∀ p ∈ precV vars P a ++ [(vars.length + 1 + j, 1 + a), (vars.length, 1 + j)], σ p.1 = p.2) ↔
      P.Applicable s a ∧ ∃ r, st = a :: r ∧ r.length = j := by
  rw [← he.corr.applicable hin.wf hin.sas.contig a, ← he.top hj]
  constructor
  · intro h
    refine ⟨fun p hp => h p (List.mem_append_left _ hp), h (vars.length, 1 + j) (by simp), ?_⟩
    have := h (vars.length + 1 + j, 1 + a) (by simp)
    simp only at this
    omega
  · rintro ⟨h1, h2, h3⟩ p hp
    rcases List.mem_append.1 hp with hp | hp
    · exact h1 p hp
    · simp at hp
      rcases hp with rfl | rfl
      · simp only; omega
      · exact h2

/-- The operator of an action is applicable only if the action is on top of the stack and applicable. -/
theorem opA_top (hin : TransInput P vars nA nT tot) (hnc : NoConflict P vars nA tot) {pgb a j : Nat} (ha : a < nA) (hj : j < pgb)
    {σ : Val} {s : State} {st : List Nat} (he : Enc vars pgb σ s st) (happ : (opA P vars a j).2.App σ) :
    P.Applicable s a ∧ ∃ r, st = a :: r ∧ r.length = j := by
  rw [opA, mkOp_app_iff (opA_fun hnc ha)] at happ
  exact (opA_holds hin hj he).1 happ

/-- If the action is on top of the stack and applicable, its operator is applicable, executes it and removes it. -/
theorem opA_step (hin : TransInput P vars nA nT tot) {pgb a : Nat} {σ : Val} {s : State} {r : List Nat}
    (he : Enc vars pgb σ s (a :: r)) (hr : Reach P s) (happ : P.Applicable s a) :
    r.length < pgb ∧ (opA P vars a r.length).2.App σ ∧ Enc vars pgb ((opA P vars a r.length).2.res σ) (P.result s a) r := by
  have hj : r.length < pgb := by have := he.le; simp at this; omega
  refine ⟨hj, mkOp_app_of ((opA_holds hin hj he).2 ⟨happ, r, rfl, rfl⟩), ?_⟩
  obtain ⟨π, hπ⟩ := hr.step happ
  have hc := he.corr.result hin.wf hin.sas.contig hin.sas.noClash (hin.sas.inv π _ hπ)
  rw [opA]
  simp only [mkOp_res]
  have hE : ∀ p ∈ [(vars.length + 1 + r.length, 0), (vars.length, r.length)], vars.length ≤ p.1 := by
    intro p hp
    simp at hp
    rcases hp with rfl | rfl <;> simp only <;> omega
  have hA : ∀ p ∈ addV vars P a, p.1 < vars.length := fun p hp => addV_lt hp
  refine ⟨hc.congr fun v hv => (assign_low hE hv σ).2, by omega, ?_, fun y hy => ?_⟩
  · rw [(assign_high hA (le_refl _) σ).2]
    simp [assign]
  · rw [(assign_high hA (by omega) σ).2]
    have hs := he.slot y hy
    simp only [assign, List.foldl_cons, List.foldl_nil]
    rw [Function.update_of_ne (by omega)]
    by_cases hyr : y = r.length
    · subst hyr
      rw [Function.update_self, List.getElem?_eq_none (by simp)]
      rfl
    · rw [Function.update_of_ne (by omega), hs, List.reverse_cons]
      rcases Nat.lt_or_ge y r.length with hlt | hge
      · rw [List.getElem?_append_left (by simpa using hlt)]
      · rw [List.getElem?_eq_none (by simp; omega), List.getElem?_eq_none (by simpa using hge)]

/-- The stack variables after a method. -/
theorem enc_stackEff {pgb : Nat} {σ : Val} {s s' : State} {t : Nat} {r L : List Nat} (he : Enc vars pgb σ s (t :: r))
    (hfit : L.length + r.length ≤ pgb) {A : List (Nat × Nat)} (hA : ∀ p ∈ A, p.1 < vars.length) (hc : Corr vars s' (assign σ A)) :
    Enc vars pgb (assign σ (stackEff vars.length r.length L.reverse ++ A)) s' (L ++ r) := by
  have hσ : σ vars.length = 1 + r.length := by
    rw [he.head]
    simp only [List.length_cons]
    omega
  obtain ⟨h1, h2⟩ := assign_stackEff (R := L.reverse) hσ
  refine ⟨hc.congr fun v hv => (assign_low stackEff_ge hv σ).1, by rw [List.length_append]; exact hfit, ?_, fun y hy => ?_⟩
  · rw [(assign_high hA (le_refl _) σ).1, h1, List.length_append, List.length_reverse]
    omega
  · rw [(assign_high hA (by omega) σ).1, h2 y, he.slot y hy, List.reverse_append, List.length_reverse]
    rcases Nat.lt_or_ge y r.length with hlt | hge
    · rw [if_pos hlt, List.reverse_cons, List.getElem?_append_left (by simpa using hlt),
        List.getElem?_append_left (by simpa using hlt)]
    · rw [if_neg (by omega)]
      rw [List.getElem?_append_right (l₁ := r.reverse) (l₂ := L.reverse) (by simpa using hge), List.length_reverse]
      rcases Nat.lt_or_ge y (r.length + L.length) with hlt | hge'
      · rw [if_pos hlt, List.getElem?_eq_getElem (by simp; omega)]
        simp only [Option.getD_some, Option.elim_some]
        omega
      · rw [if_neg (by omega), List.getElem?_eq_none (l := L.reverse) (by simp; omega)]
        split
        · rfl
        · rw [List.getElem?_eq_none (by simp; omega)]

theorem combPairs_low {tasks : List Nat} {p a : List (Nat × Nat)} (hne : tasks ≠ []) (h : combPairs vars P tasks = some (p, a)) :
    (∀ x ∈ p, x.1 < vars.length) ∧ ∀ x ∈ a, x.1 < vars.length := by
  rcases tasks with _ | ⟨t, _ | ⟨t', r⟩⟩
  · exact absurd rfl hne
  · simp only [combPairs, Option.some.injEq, Prod.mk.injEq] at h
    rw [← h.1, ← h.2]
    exact ⟨fun x hx => precV_lt hx, fun x hx => addV_lt hx⟩
  · obtain ⟨g, -, rfl, rfl⟩ := combPairs_some (by simp) h
    exact ⟨fun x hx => (mem_filterMap_range.1 hx).1, fun x hx => (mem_filterMap_range.1 hx).1⟩

theorem opM_fun (hnc : NoConflict P vars nA tot) {m j : Nat} (hm : m < P.numMethods) {p a : List (Nat × Nat)}
    (hne : (tasksOf P tot m).take (leadOf P m) ≠ [])
    (h : combPairs vars P ((tasksOf P tot m).take (leadOf P m)) = some (p, a)) :
    ∀ x ∈ [(vars.length, 1 + j), (vars.length + 1 + j, P.head m + 1)] ++ p,
      ∀ y ∈ [(vars.length, 1 + j), (vars.length + 1 + j, P.head m + 1)] ++ p, x.1 = y.1 → x.2 = y.2 := by
  have hlt := (combPairs_low hne h).1
  have hf := combPairs_fun hne (fun a ha => (hnc.prefOK m hm).precFun ha) h
  intro x hx y hy e
  rcases List.mem_append.1 hx with hx | hx <;> rcases List.mem_append.1 hy with hy | hy
  · simp at hx hy
    rcases hx with rfl | rfl <;> rcases hy with rfl | rfl <;> simp only at e ⊢ <;> omega
  · have := hlt y hy
    simp at hx
    rcases hx with rfl | rfl <;> simp only at e <;> omega
  · have := hlt x hx
    simp at hy
    rcases hy with rfl | rfl <;> simp only at e <;> omega
  · exact hf x hx y hy e

/-- The operator of a method without leading tasks. -/
theorem opM_nil {m j : Nat} (hnil : (tasksOf P tot m).take (leadOf P m) = []) :
    (opM P vars tot m j).2 = mkOp [(vars.length, 1 + j), (vars.length + 1 + j, P.head m + 1)]
      (stackEff vars.length j ((tasksOf P tot m).drop (leadOf P m)).reverse ++ []) 0 := by
  simp only [opM, if_pos hnil, List.append_nil]

/-- The operator of a method with leading tasks. -/
theorem opM_cons {m j : Nat} (hnil : (tasksOf P tot m).take (leadOf P m) ≠ []) :
    (opM P vars tot m j).2 = match combPairs vars P ((tasksOf P tot m).take (leadOf P m)) with
      | none => blankOp
      | some (p, a) => mkOp ([(vars.length, 1 + j), (vars.length + 1 + j, P.head m + 1)] ++ p)
        (stackEff vars.length j ((tasksOf P tot m).drop (leadOf P m)).reverse ++ a)
        ((((tasksOf P tot m).take (leadOf P m)).map P.cost).sum) := by
  simp only [opM, if_neg hnil]
  cases combPairs vars P ((tasksOf P tot m).take (leadOf P m)) <;> rfl

theorem mkOp_ne_blank {j : Nat} {h : Nat} (p : List (Nat × Nat)) (E : List Nat) (A : List (Nat × Nat)) (c : Nat) :
    mkOp p (stackEff h j E ++ A) c ≠ blankOp := by
  intro h
  have := congrArg SOp.eff h
  simp only [mkOp, blankOp, List.map_eq_nil_iff, List.append_eq_nil_iff] at this
  have := this.1
  unfold stackEff at this
  split at this <;> simp at this

/-- The costs of a method that is not blank. -/
theorem opM_cost {m j : Nat} (hb : (opM P vars tot m j).2 ≠ blankOp) :
    (opM P vars tot m j).2.cost = (((tasksOf P tot m).take (leadOf P m)).map P.cost).sum := by
  by_cases hnil : (tasksOf P tot m).take (leadOf P m) = []
  · rw [opM_nil hnil, hnil]
    rfl
  · rw [opM_cons hnil] at hb ⊢
    cases hc : combPairs vars P ((tasksOf P tot m).take (leadOf P m)) with
    | none =>
      rw [hc] at hb
      exact absurd rfl hb
    | some x => rfl

/-- The operator of a method that is not blank is applicable only if its task is on top of the stack and the leading tasks are
executable. -/
theorem opM_top (hin : TransInput P vars nA nT tot) (hnc : NoConflict P vars nA tot) {pgb m j : Nat} (hm : m < P.numMethods)
    (hj : j < pgb) {σ : Val} {s : State} {st : List Nat} (he : Enc vars pgb σ s st) (hr : Reach P s)
    (hb : (opM P vars tot m j).2 ≠ blankOp) (happ : (opM P vars tot m j).2.App σ) :
    ∃ r s₁, st = P.head m :: r ∧ r.length = j ∧ Exec P s ((tasksOf P tot m).take (leadOf P m)) s₁ := by
  by_cases hnil : (tasksOf P tot m).take (leadOf P m) = []
  · rw [opM_nil hnil, mkOp_app_iff] at happ
    · obtain ⟨r, h1, h2⟩ := (he.top (t := P.head m) hj).1 ⟨happ (vars.length, 1 + j) (by simp),
        happ (vars.length + 1 + j, P.head m + 1) (by simp)⟩
      exact ⟨r, s, h1, h2, by rw [hnil]; exact .nil _⟩
    · intro x hx y hy e
      simp at hx hy
      rcases hx with rfl | rfl <;> rcases hy with rfl | rfl <;> simp only at e ⊢ <;> omega
  · rw [opM_cons hnil] at hb happ
    cases hc : combPairs vars P ((tasksOf P tot m).take (leadOf P m)) with
    | none =>
      rw [hc] at hb
      exact absurd rfl hb
    | some x =>
      obtain ⟨p, a⟩ := x
      rw [hc] at happ
      simp only at happ
      rw [mkOp_app_iff (opM_fun hnc hm hnil hc)] at happ
      obtain ⟨r, h1, h2⟩ := (he.top (t := P.head m) hj).1 ⟨happ (vars.length, 1 + j) (by simp),
        happ (vars.length + 1 + j, P.head m + 1) (by simp)⟩
      obtain ⟨hs, -⟩ := combPairs_sound (hnc.prefOK m hm) hc (fun q hq => happ q (List.mem_append_right _ hq)) hnil
      obtain ⟨s₁, hs₁⟩ := (seqHolds_iff hin _ hr he.corr).1.1 hs
      exact ⟨r, s₁, h1, h2, hs₁⟩

/-- If the task of a method is on top of the stack and the leading tasks are executable, its operator is applicable, executes
them and puts the other subtasks on the stack. -/
theorem opM_step (hin : TransInput P vars nA nT tot) {pgb m : Nat} (hm : m < P.numMethods) {r : List Nat}
    (hfit : (P.sub m).length - leadOf P m + r.length ≤ pgb) {σ : Val} {s s₁ : State} (he : Enc vars pgb σ s (P.head m :: r))
    (hr : Reach P s) (hex : Exec P s ((tasksOf P tot m).take (leadOf P m)) s₁) :
    (opM P vars tot m r.length).2 ≠ blankOp ∧ (opM P vars tot m r.length).2.App σ ∧
      Enc vars pgb ((opM P vars tot m r.length).2.res σ) s₁ ((tasksOf P tot m).drop (leadOf P m) ++ r) := by
  have hlen := hin.len hm
  have hle := (hin.lead m hm).1
  have hj : r.length < pgb := by have := he.le; simp at this; omega
  have htop := (he.top hj).2 ⟨r, rfl, rfl⟩
  by_cases hnil : (tasksOf P tot m).take (leadOf P m) = []
  · rw [hnil] at hex
    cases hex
    rw [opM_nil hnil]
    refine ⟨mkOp_ne_blank _ _ _ _, mkOp_app_of ?_, ?_⟩
    · intro p hp
      simp at hp
      rcases hp with rfl | rfl
      · exact htop.1
      · exact htop.2
    · rw [mkOp_res]
      exact enc_stackEff he (by rw [List.length_drop]; omega) (by simp) he.corr
  · rw [opM_cons hnil]
    obtain ⟨hseq1, hseq2⟩ := seqHolds_iff hin ((tasksOf P tot m).take (leadOf P m)) hr he.corr
    obtain ⟨p, a, hc, hh, hres⟩ := combPairs_complete hnil (hseq1.2 ⟨s₁, hex⟩)
    rw [hc]
    simp only
    have hcorr := hseq2 s₁ hex
    rw [← hres] at hcorr
    refine ⟨mkOp_ne_blank _ _ _ _, mkOp_app_of ?_, ?_⟩
    · intro q hq
      rcases List.mem_append.1 hq with hq | hq
      · simp at hq
        rcases hq with rfl | rfl
        · exact htop.1
        · exact htop.2
      · exact hh q hq
    · rw [mkOp_res]
      exact enc_stackEff he (by rw [List.length_drop]; omega) (combPairs_low hnil hc).2 hcorr

/-! ## Plans -/

/-- The actions that the name of an operator stands for. -/
def labActs (P : Problem) : Lab → List Nat
  | .prim a _ => [a]
  | .meth m _ => ((reorder P.prim (P.sub m) (P.ord m)).map Reo.prefixTasks).getD []

/-- The actions of a plan of the translated problem. -/
def acts (P : Problem) (ρ : List (Lab × SOp)) : List Nat := ρ.flatMap fun x => labActs P x.1

theorem labActs_meth (hin : TransInput P vars nA nT tot) {m j : Nat} (hm : m < P.numMethods) :
    labActs P (.meth m j) = (tasksOf P tot m).take (leadOf P m) := by
  obtain ⟨r, hr, ho⟩ := hin.reo m hm
  have h := (hin.lead m hm).1
  have hlen := hin.len hm
  rw [hin.lead_eq hr] at h ⊢
  simp only [labActs, hr, Option.map_some, Option.getD_some]
  exact prefixTasks_eq ho (by omega)

variable {pgb : Nat} {T : STask Lab}

/-- The operators of the task. -/
def OpsOK (P : Problem) (vars : List (Nat × Nat)) (nA : Nat) (tot : Nat → List Nat) (pgb : Nat) (T : STask Lab) : Prop :=
  ∀ x, x ∈ T.ops ↔ (∃ a j, a < nA ∧ j < pgb ∧ x = opA P vars a j) ∨
    ∃ m j, m < P.numMethods ∧ j < pgb ∧ (P.sub m).length - leadOf P m + j ≤ pgb ∧ x = opM P vars tot m j

theorem run_sound (hin : TransInput P vars nA nT tot) (hnc : NoConflict P vars nA tot) (hops : OpsOK P vars nA tot pgb T)
    {σ σ' : Val} {ρ : List (Lab × SOp)} (h : SRun T σ ρ σ') (hb : ∀ x ∈ ρ, x.2 ≠ blankOp) (hz : σ' vars.length = 0) :
    ∀ {s : State} {st : List Nat}, Enc vars pgb σ s st → Reach P s →
    ∃ s', Stk P tot (leadOf P) pgb s st (acts P ρ) s' ∧ Corr vars s' σ' := by
  induction h with
  | nil σ =>
    intro s st he _
    have := he.head
    rw [hz] at this
    obtain rfl := List.length_eq_zero_iff.1 this.symm
    exact ⟨s, .nil s, he.corr⟩
  | @cons σ σ' x ρ hx happ hrun ih =>
    intro s st he hr
    have hbx := hb x (.head _)
    rcases (hops x).1 hx with ⟨a, j, ha, hj, rfl⟩ | ⟨m, j, hm, hj, hfit, rfl⟩
    · obtain ⟨hap, r, rfl, rfl⟩ := opA_top hin hnc ha hj he happ
      obtain ⟨-, -, h2⟩ := opA_step hin he hr hap
      obtain ⟨s', h3, h4⟩ := ih (fun y hy => hb y (.tail _ hy)) hz h2 (hr.step hap)
      exact ⟨s', .act (by rw [hin.prim]; simpa using ha) hap h3, h4⟩
    · obtain ⟨r, s₁, rfl, rfl, hex⟩ := opM_top hin hnc hm hj he hr hbx happ
      obtain ⟨-, -, henc⟩ := opM_step hin hm hfit he hr hex
      obtain ⟨s', h4, h5⟩ := ih (fun y hy => hb y (.tail _ hy)) hz henc (hr.exec hex)
      have e : acts P (opM P vars tot m r.length :: ρ) = (tasksOf P tot m).take (leadOf P m) ++ acts P ρ := by
        rw [acts, List.flatMap_cons]
        congr 1
        exact labActs_meth hin hm
      rw [e]
      exact ⟨s', .meth hm hfit hex h4, h5⟩

/-- The cost of a plan is the cost of its actions. -/
theorem run_cost (hin : TransInput P vars nA nT tot) (hops : OpsOK P vars nA tot pgb T) {σ σ' : Val} {ρ : List (Lab × SOp)}
    (h : SRun T σ ρ σ') (hb : ∀ x ∈ ρ, x.2 ≠ blankOp) : planCost ρ = P.planCost (acts P ρ) := by
  induction h with
  | nil σ => rfl
  | @cons σ σ' x ρ hx happ hrun ih =>
    have h5 := ih fun y hy => hb y (.tail _ hy)
    have hbx := hb x (.head _)
    rcases (hops x).1 hx with ⟨a, j, ha, hj, rfl⟩ | ⟨m, j, hm, hj, hfit, rfl⟩
    · have e : acts P (opA P vars a j :: ρ) = a :: acts P ρ := rfl
      rw [e]
      simp only [planCost, Problem.planCost, List.map_cons, List.sum_cons] at h5 ⊢
      rw [h5]
      rfl
    · have e : acts P (opM P vars tot m j :: ρ) = (tasksOf P tot m).take (leadOf P m) ++ acts P ρ := by
        rw [acts, List.flatMap_cons]
        congr 1
        exact labActs_meth hin hm
      rw [e]
      simp only [planCost, Problem.planCost, List.map_cons, List.sum_cons, List.map_append, List.sum_append] at h5 ⊢
      rw [h5, opM_cost hbx]

theorem run_complete (hin : TransInput P vars nA nT tot) (hops : OpsOK P vars nA tot pgb T) {s s' : State} {st π : List Nat}
    (h : Stk P tot (leadOf P) pgb s st π s') : ∀ {σ : Val}, Enc vars pgb σ s st → Reach P s →
    ∃ ρ σ', SRun T σ ρ σ' ∧ (∀ x ∈ ρ, x.2 ≠ blankOp) ∧ acts P ρ = π ∧ Corr vars s' σ' ∧ σ' vars.length = 0 := by
  induction h with
  | nil s =>
    intro σ he _
    exact ⟨[], σ, .nil _, by simp, rfl, he.corr, he.head⟩
  | @act s s' a r π hp hap hs ih =>
    intro σ he hr
    have ha : a < nA := by rw [hin.prim] at hp; simpa using hp
    obtain ⟨hj, h1, h2⟩ := opA_step hin he hr hap
    obtain ⟨ρ, σ', k1, k2, k3, k4⟩ := ih h2 (hr.step hap)
    refine ⟨opA P vars a r.length :: ρ, σ', .cons ((hops _).2 (.inl ⟨a, _, ha, hj, rfl⟩)) h1 k1, ?_, ?_, k4⟩
    · intro x hx
      rcases List.mem_cons.1 hx with rfl | hx
      · intro h
        have := congrArg SOp.eff h
        simp [opA, mkOp, blankOp] at this
      · exact k2 x hx
    · rw [← k3]
      rfl
  | @meth s s₁ s' m r π hm hfit hex hs ih =>
    intro σ he hr
    have hj : r.length < pgb := by have := he.le; simp at this; omega
    obtain ⟨hnb, happ, henc⟩ := opM_step hin hm hfit he hr hex
    obtain ⟨ρ, σ', k1, k2, k3, k4⟩ := ih henc (hr.exec hex)
    refine ⟨opM P vars tot m r.length :: ρ, σ', .cons ((hops _).2 (.inr ⟨m, _, hm, hj, hfit, rfl⟩)) happ k1, ?_, ?_, k4⟩
    · intro x hx
      rcases List.mem_cons.1 hx with rfl | hx
      · exact hnb
      · exact k2 x hx
    · rw [← k3, acts, List.flatMap_cons]
      congr 1
      exact labActs_meth hin hm

theorem start_enc (hin : TransInput P vars nA nT tot) (hp : 1 ≤ pgb) {σ : Val} (h1 : Corr vars P.initState σ)
    (h2 : σ vars.length = 1) (h3 : σ (vars.length + 1) = P.init + 1) (h4 : ∀ y, 1 ≤ y → σ (vars.length + 1 + y) = 0) :
    Enc vars pgb σ P.initState [P.init] := by
  refine ⟨h1, by simpa using hp, by simpa using h2, fun y hy => ?_⟩
  cases y with
  | zero => simpa using h3
  | succ y =>
    rw [h4 (y + 1) (by omega)]
    simp

theorem goal_iff (hin : TransInput P vars nA nT tot) (hgoal : T.goal = P.goal.filterMap (conv vars) ++ [(vars.length, 0)])
    {s : State} {σ : Val} (hcs : Corr vars s σ) : T.Goal σ ↔ P.GoalState s ∧ σ vars.length = 0 := by
  rw [STask.Goal, hgoal]
  have := hcs.holds hin.sas.contig (l := P.goal) hin.wf.goal_lt
  constructor
  · intro h
    exact ⟨this.1 fun p hp => h p (List.mem_append_left _ hp), h (vars.length, 0) (by simp)⟩
  · rintro ⟨h1, h2⟩ g hg
    rcases List.mem_append.1 hg with hg | hg
    · exact this.2 h1 g hg
    · simp at hg
      subst hg
      exact h2

/-- Every solution that can be worked off with a stack of `pgb` cells is a plan of the translated problem. -/
theorem plans_complete (hin : TransInput P vars nA nT tot) (hp : 1 ≤ pgb) (hT : translate P vars nA nT pgb = some T) {π : List Nat}
    (h : SolutionFits P tot (leadOf P) pgb π) :
    ∃ ρ, T.Plan ρ ∧ (∀ x ∈ ρ, x.2 ≠ blankOp) ∧ acts P ρ = π ∧ planCost ρ = P.planCost π := by
  obtain ⟨T', hT', hops, hgoal, -, -, -, -, -, hc, hh, hi, hz⟩ := translate_eq hin hp
  rw [hT] at hT'
  cases hT'
  have henc := start_enc hin hp hc hh hi hz
  obtain ⟨s', h1, h2⟩ := (stk_iff hin.totOK (fun m hm => (hin.lead m hm).2) hin.wf hp).1 h
  obtain ⟨ρ, σ', k1, k2, k3, k4, k5⟩ := run_complete hin hops h1 henc ⟨[], .nil _⟩
  refine ⟨ρ, ⟨σ', k1, (goal_iff hin hgoal k4).2 ⟨h2, k5⟩⟩, k2, k3, ?_⟩
  rw [← k3]
  exact run_cost hin hops k1 k2

/-- Every plan of the translated problem without blank operators is a solution. -/
theorem plans_sound (hin : TransInput P vars nA nT tot) (hnc : NoConflict P vars nA tot) (hp : 1 ≤ pgb)
    (hT : translate P vars nA nT pgb = some T) {ρ : List (Lab × SOp)} (h : T.Plan ρ) (hb : ∀ x ∈ ρ, x.2 ≠ blankOp) :
    SolutionFits P tot (leadOf P) pgb (acts P ρ) ∧ planCost ρ = P.planCost (acts P ρ) := by
  obtain ⟨T', hT', hops, hgoal, -, -, -, -, -, hc, hh, hi, hz⟩ := translate_eq hin hp
  rw [hT] at hT'
  cases hT'
  have henc := start_enc hin hp hc hh hi hz
  obtain ⟨σ, hrun, hg⟩ := h
  have hz : σ vars.length = 0 := hg (vars.length, 0) (by rw [hgoal]; simp)
  obtain ⟨s', h1, h2⟩ := run_sound hin hnc hops hrun hb hz henc ⟨[], .nil _⟩
  exact ⟨(stk_iff hin.totOK (fun m hm => (hin.lead m hm).2) hin.wf hp).2 ⟨s', h1, ((goal_iff hin hgoal h2).1 hg).1⟩,
    run_cost hin hops hrun hb⟩

/-- Blank operators can be left out of a plan; each costs 1. -/
theorem plan_drop_blank {L : Type} {T : STask L} {ρ : List (L × SOp)} (h : T.Plan ρ) :
    T.Plan (ρ.filter fun x => decide (x.2 ≠ blankOp)) ∧
    planCost ρ = planCost (ρ.filter fun x => decide (x.2 ≠ blankOp)) + (ρ.filter fun x => decide (x.2 = blankOp)).length := by
  obtain ⟨σ, hrun, hg⟩ := h
  have : SRun T T.start (ρ.filter fun x => decide (x.2 ≠ blankOp)) σ ∧ planCost ρ =
      planCost (ρ.filter fun x => decide (x.2 ≠ blankOp)) + (ρ.filter fun x => decide (x.2 = blankOp)).length := by
    clear hg
    generalize T.start = σ₀ at hrun ⊢
    induction hrun with
    | nil σ => exact ⟨.nil _, rfl⟩
    | @cons σ σ' x ρ hx happ hrun ih =>
      obtain ⟨ih1, ih2⟩ := ih
      by_cases hb : x.2 = blankOp
      · have hres : x.2.res σ = σ := by rw [hb]; rfl
        have hcost : x.2.cost = 1 := by rw [hb]; rfl
        rw [hres] at ih1
        rw [List.filter_cons_of_neg (by simpa using hb), List.filter_cons_of_pos (by simpa using hb)]
        refine ⟨ih1, ?_⟩
        simp only [planCost, List.map_cons, List.sum_cons, List.length_cons] at ih2 ⊢
        omega
      · rw [List.filter_cons_of_pos (by simpa using hb), List.filter_cons_of_neg (by simpa using hb)]
        refine ⟨.cons hx happ ih1, ?_⟩
        simp only [planCost, List.map_cons, List.sum_cons] at ih2 ⊢
        omega
  exact ⟨⟨σ, this.1, hg⟩, this.2⟩

end

end Verif.Sas
