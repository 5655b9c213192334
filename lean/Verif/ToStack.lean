import Verif.TotalOrder

/-! # Decomposing with a bounded stack

Totally ordered problems are solved with a stack of tasks: the task on top is executed, or replaced by the subtasks of a
method.  This file is about the specification only: which decomposition trees can be worked off with a stack of a given
height, if the first `lead m` subtasks of method `m` are executed at once and never put on the stack. -/

namespace Verif.Htn

variable (P : Problem) (tot : Nat → List Nat) (lead : Nat → Nat)

/-- `Fits P tot lead tr h`: a stack with `h` cells suffices for the tree.  A method with `k` subtasks besides the leading ones
needs `k` cells; when its subtask `x` is worked off, the `k - 1 - x` later ones are still on the stack. -/
inductive Fits : Tree → Nat → Prop
  | leaf {a h : Nat} : 1 ≤ h → Fits (.leaf a) h
  | node {m h : Nat} {cs : Nat → Tree} : 1 ≤ h → (P.sub m).length - lead m ≤ h →
      (∀ x i, (tot m)[lead m + x]? = some i → Fits (cs i) (h - ((P.sub m).length - lead m - 1 - x))) → Fits (.node m cs) h

/-- `π` is a plan with a decomposition that can be worked off with a stack of `h` cells. -/
def SolutionFits (h : Nat) (π : List Nat) : Prop :=
  ∃ tr, Valid P P.init tr ∧ Fits P tot lead tr h ∧ (∃ occ, Linearises P tr occ π) ∧ ∃ s', Exec P P.initState π s' ∧ P.GoalState s'

/-- The subtasks of a method in their order. -/
def tasksOf (m : Nat) : List Nat := (tot m).map fun i => (P.sub m)[i]?.getD 0

/-- Working off a stack of tasks (top first) with at most `h` cells: `Stk s st π s'`. -/
inductive Stk (h : Nat) : State → List Nat → List Nat → State → Prop
  | nil (s : State) : Stk h s [] [] s
  | act {s s' : State} {a : Nat} {r π : List Nat} : P.prim a = true → P.Applicable s a → Stk h (P.result s a) r π s' →
      Stk h s (a :: r) (a :: π) s'
  | meth {s s₁ s' : State} {m : Nat} {r π : List Nat} : m < P.numMethods →
      (P.sub m).length - lead m + r.length ≤ h → Exec P s ((tasksOf P tot m).take (lead m)) s₁ →
      Stk h s₁ ((tasksOf P tot m).drop (lead m) ++ r) π s' →
      Stk h s (P.head m :: r) ((tasksOf P tot m).take (lead m) ++ π) s'

variable {P tot lead}

theorem Fits.mono {tr : Tree} {h : Nat} (hf : Fits P tot lead tr h) : ∀ h', h ≤ h' → Fits P tot lead tr h' := by
  induction hf with
  | leaf h1 => exact fun h' hh => .leaf (by omega)
  | node h1 h2 _ ih => exact fun h' hh => .node (by omega) (by omega) fun x i hi => ih x i hi _ (by omega)

theorem Fits.pos {tr : Tree} {h : Nat} (hf : Fits P tot lead tr h) : 1 ≤ h := by cases hf <;> assumption

/-- Every tree fits if the stack is high enough. -/
theorem exists_fits {t : Nat} {tr : Tree} (ht : TotOK P tot) (hv : Valid P t tr) : ∃ h, Fits P tot lead tr h := by
  induction hv with
  | leaf _ => exact ⟨1, .leaf (le_refl _)⟩
  | @node m cs hm hc ih =>
    have key : ∀ l : List Nat, (∀ i ∈ l, i < (P.sub m).length) → ∃ h, ∀ i ∈ l, Fits P tot lead (cs i) h := by
      intro l
      induction l with
      | nil => exact fun _ => ⟨0, by simp⟩
      | cons i l ihl =>
        intro hl
        obtain ⟨h, hh⟩ := ihl fun j hj => hl j (.tail _ hj)
        obtain ⟨h', hh'⟩ := ih i _ (List.getElem?_eq_getElem (hl i (.head _)))
        refine ⟨h + h', fun j hj => ?_⟩
        rcases List.mem_cons.1 hj with rfl | hj
        · exact hh'.mono _ (by omega)
        · exact (hh j hj).mono _ (by omega)
    obtain ⟨h, hh⟩ := key (tot m) fun i hi => by simpa using (ht m hm).1.mem_iff.1 hi
    refine ⟨h + (P.sub m).length + 1, .node (by omega) (by omega) fun x i hi => ?_⟩
    exact (hh i (List.mem_of_getElem? hi)).mono _ (by omega)

/-- Solutions are yields of trees. -/
theorem solutionFits_iff (hP : P.WF) (ht : TotOK P tot) {h : Nat} {π : List Nat} : SolutionFits P tot lead h π ↔
    ∃ tr, Valid P P.init tr ∧ Fits P tot lead tr h ∧ π = yield tot tr ∧ ∃ s', Exec P P.initState π s' ∧ P.GoalState s' := by
  constructor
  · rintro ⟨tr, h1, h2, ⟨occ, h3⟩, h4⟩
    exact ⟨tr, h1, h2, linearises_unique hP ht h1 h3, h4⟩
  · rintro ⟨tr, h1, h2, rfl, h4⟩
    exact ⟨tr, h1, h2, ⟨_, linearises_canon hP ht h1⟩, h4⟩

theorem SolutionFits.isSolution {h : Nat} {π : List Nat} (hs : SolutionFits P tot lead h π) : IsSolution P π := by
  obtain ⟨tr, h1, -, h2, h3⟩ := hs
  exact ⟨_, tr, h1, rfl, h2, h3⟩

theorem IsSolution.fits (ht : TotOK P tot) {π : List Nat} (hs : IsSolution P π) : ∃ h, ∀ h' ≥ h, SolutionFits P tot lead h' π := by
  obtain ⟨_, tr, h1, -, h2, h3⟩ := hs
  obtain ⟨h, hh⟩ := exists_fits (lead := lead) ht h1
  exact ⟨h, fun h' hh' => ⟨tr, h1, hh.mono h' hh', h2, h3⟩⟩

/-! ## The stack machine and the trees -/

theorem tasksOf_length {m : Nat} (ht : TotOK P tot) (hm : m < P.numMethods) : (tasksOf P tot m).length = (P.sub m).length := by
  rw [tasksOf, List.length_map, (ht m hm).1.length_eq, List.length_range]

/-- The trees of the stack, top first, with the cells that are left for them. -/
inductive Stack (P : Problem) (tot : Nat → List Nat) (lead : Nat → Nat) (h : Nat) : List Nat → List Tree → Prop
  | nil : Stack P tot lead h [] []
  | cons {t : Nat} {tr : Tree} {r : List Nat} {ts : List Tree} : Valid P t tr → Fits P tot lead tr (h - r.length) →
      Stack P tot lead h r ts → Stack P tot lead h (t :: r) (tr :: ts)

theorem Stack.append {h : Nat} {l r : List Nat} {ts us : List Tree} (hr : Stack P tot lead h r us)
    (hl : List.Forall₂ (fun t tr => Valid P t tr) l ts)
    (hf : ∀ (x : Nat) tr, ts[x]? = some tr → Fits P tot lead tr (h - (l.length - 1 - x + r.length))) :
    Stack P tot lead h (l ++ r) (ts ++ us) := by
  induction hl with
  | nil => exact hr
  | @cons t tr l ts h1 h2 ih =>
    rw [List.cons_append, List.cons_append]
    refine .cons h1 ?_ (ih fun x tr' hx => ?_)
    · have := hf 0 tr rfl
      simp only [List.length_cons] at this
      rw [List.length_append]
      simpa using this
    · have := hf (x + 1) tr' (by simpa using hx)
      simp only [List.length_cons] at this
      rwa [show l.length + 1 - 1 - (x + 1) = l.length - 1 - x from by omega] at this

theorem Stack.split {h : Nat} {l r : List Nat} {ts : List Tree} (hs : Stack P tot lead h (l ++ r) ts) :
    ∃ us ws, ts = us ++ ws ∧ List.Forall₂ (fun t tr => Valid P t tr) l us ∧ Stack P tot lead h r ws ∧
      ∀ (x : Nat) tr, us[x]? = some tr → Fits P tot lead tr (h - (l.length - 1 - x + r.length)) := by
  induction l generalizing ts with
  | nil => exact ⟨[], ts, rfl, .nil, hs, by simp⟩
  | cons t l ih =>
    rw [List.cons_append] at hs
    obtain _ | ⟨h1, h2, h3⟩ := hs
    obtain ⟨us, ws, rfl, k1, k2, k3⟩ := ih h3
    refine ⟨_ :: us, ws, rfl, .cons h1 k1, k2, fun x tr hx => ?_⟩
    cases x with
    | zero =>
      simp only [List.getElem?_cons_zero, Option.some.injEq] at hx
      subst hx
      rw [List.length_append] at h2
      simpa using h2
    | succ x =>
      have := k3 x tr (by simpa using hx)
      simp only [List.length_cons]
      rwa [show l.length + 1 - 1 - (x + 1) = l.length - 1 - x from by omega]

theorem flatMap_leaf (tot : Nat → List Nat) (l : List Nat) : (l.map Tree.leaf).flatMap (yield tot) = l := by
  induction l with
  | nil => rfl
  | cons a l ih => simp [yield, ih]

/-- Building the tree of a method from the trees of its subtasks in their order. -/
theorem node_of_list (ht : TotOK P tot) {m : Nat} (hm : m < P.numMethods) {ts : List Tree}
    (hts : List.Forall₂ (fun t tr => Valid P t tr) (tasksOf P tot m) ts) :
    ∃ cs, Valid P (P.head m) (.node m cs) ∧ yield tot (.node m cs) = ts.flatMap (yield tot) ∧
      ∀ (x i : Nat), (tot m)[x]? = some i → ts[x]? = some (cs i) := by
  have hperm := (ht m hm).1
  have hnd : (tot m).Nodup := hperm.nodup_iff.2 List.nodup_range
  have hlen : ts.length = (tot m).length := by
    rw [← hts.length_eq, tasksOf, List.length_map]
  refine ⟨fun i => (ts[(tot m).idxOf i]?).getD (.leaf 0), .node hm fun i t hi => ?_, ?_, ?_⟩
  · have him : i ∈ tot m := hperm.mem_iff.2 (by simpa using (List.getElem?_eq_some_iff.1 hi).1)
    have hx := List.idxOf_lt_length_of_mem him
    have hget : (tot m)[(tot m).idxOf i]? = some i := by
      rw [List.getElem?_eq_getElem hx, List.getElem_idxOf]
    have h1 : (tasksOf P tot m)[(tot m).idxOf i]? = some t := by simp [tasksOf, hget, hi]
    rw [List.getElem?_eq_getElem (by omega), Option.getD_some]
    obtain ⟨hx1, h1⟩ := List.getElem?_eq_some_iff.1 h1
    have := (List.forall₂_iff_get.1 hts).2 _ hx1 (by omega)
    simpa [List.get_eq_getElem, h1] using this
  · rw [yield]
    have key : ((tot m).map fun i => (ts[(tot m).idxOf i]?).getD (.leaf 0)) = ts := by
      apply List.ext_getElem (by simp [hlen])
      intro x h1 h2
      have hx : x < (tot m).length := by simpa using h1
      simp only [List.getElem_map, hnd.idxOf_getElem x hx, List.getElem?_eq_getElem h2, Option.getD_some]
    conv_rhs => rw [← key]
    rw [List.flatMap_map]
  · intro x i hi
    obtain ⟨hx, rfl⟩ := List.getElem?_eq_some_iff.1 hi
    simp only [hnd.idxOf_getElem x hx]
    rw [List.getElem?_eq_getElem (by omega)]
    rfl

/-- The trees of the subtasks of a method in their order. -/
theorem list_of_node (ht : TotOK P tot) {m : Nat} (hm : m < P.numMethods) {cs : Nat → Tree}
    (hv : ∀ i t, (P.sub m)[i]? = some t → Valid P t (cs i)) :
    List.Forall₂ (fun t tr => Valid P t tr) (tasksOf P tot m) ((tot m).map cs) := by
  have hperm := (ht m hm).1
  rw [tasksOf, List.forall₂_map_left_iff, List.forall₂_map_right_iff, List.forall₂_same]
  intro i hi
  have hlt : i < (P.sub m).length := by simpa using hperm.mem_iff.1 hi
  rw [List.getElem?_eq_getElem hlt]
  exact hv i _ (List.getElem?_eq_getElem hlt)

/-- What the machine does corresponds to trees. -/
theorem Stk.sound (ht : TotOK P tot)
    (hlead : ∀ m < P.numMethods, ∀ t ∈ (tasksOf P tot m).take (lead m), P.prim t = true) {h : Nat} {s s' : State} {st π : List Nat}
    (hs : Stk P tot lead h s st π s') (hh : st.length ≤ h) :
    ∃ ts, Stack P tot lead h st ts ∧ π = ts.flatMap (yield tot) ∧ Exec P s π s' := by
  induction hs with
  | nil s => exact ⟨[], .nil, rfl, .nil _⟩
  | @act s s' a r π h1 h2 h3 ih =>
    simp only [List.length_cons] at hh
    obtain ⟨ts, k1, rfl, k3⟩ := ih (by omega)
    exact ⟨.leaf a :: ts, .cons (.leaf h1) (.leaf (by omega)) k1, rfl, .cons h2 k3⟩
  | @meth s s₁ s' m r π hm hfit hex hs ih =>
    simp only [List.length_cons] at hh
    have hlen := tasksOf_length ht hm
    obtain ⟨ts, k1, rfl, k3⟩ := ih (by rw [List.length_append, List.length_drop]; omega)
    obtain ⟨us, ws, rfl, g1, g2, g3⟩ := k1.split
    have hall : List.Forall₂ (fun t tr => Valid P t tr) (tasksOf P tot m)
        (((tasksOf P tot m).take (lead m)).map Tree.leaf ++ us) := by
      rw [← List.take_append_drop (lead m) (tasksOf P tot m)]
      refine List.rel_append ?_ (by simpa using g1)
      rw [List.take_append_drop, List.forall₂_map_right_iff, List.forall₂_same]
      exact fun t htm => .leaf (hlead m hm t htm)
    obtain ⟨cs, c1, c2, c3⟩ := node_of_list ht hm hall
    refine ⟨.node m cs :: ws, .cons c1 (.node (by omega) (by omega) fun x i hi => ?_) g2, ?_, exec_append.2 ⟨s₁, hex, k3⟩⟩
    · have hx : lead m + x < (tot m).length := (List.getElem?_eq_some_iff.1 hi).1
      have hlt : (tot m).length = (P.sub m).length := by rw [← hlen, tasksOf, List.length_map]
      have htk : ((tasksOf P tot m).take (lead m)).length = lead m := by rw [List.length_take]; omega
      have := c3 (lead m + x) i hi
      rw [List.getElem?_append_right (by simp only [List.length_map]; omega)] at this
      simp only [List.length_map, htk, show lead m + x - lead m = x from by omega] at this
      have := g3 x _ this
      rw [List.length_drop, hlen] at this
      rwa [show h - r.length - ((P.sub m).length - lead m - 1 - x) = h - ((P.sub m).length - lead m - 1 - x + r.length) from by omega]
    · rw [List.flatMap_cons, c2, List.flatMap_append, List.flatMap_append, flatMap_leaf, List.append_assoc]

theorem stk_list {h : Nat} {l r : List Nat} {ts : List Tree} {π : List Nat} {s' : State}
    (hl : List.Forall₂ (fun (t : Nat) (tr : Tree) => ∀ (r π : List Nat) (s s₁ : State), Fits P tot lead tr (h - r.length) →
      Exec P s (yield tot tr) s₁ → Stk P tot lead h s₁ r π s' → Stk P tot lead h s (t :: r) (yield tot tr ++ π) s') l ts)
    (hf : ∀ (x : Nat) tr, ts[x]? = some tr → Fits P tot lead tr (h - (l.length - 1 - x + r.length))) : ∀ {s s₁ : State},
    Exec P s (ts.flatMap (yield tot)) s₁ → Stk P tot lead h s₁ r π s' →
      Stk P tot lead h s (l ++ r) (ts.flatMap (yield tot) ++ π) s' := by
  induction hl with
  | nil =>
    intro s s₁ hex hs
    cases hex
    exact hs
  | @cons t tr l ts h1 h2 ih =>
    intro s s₁ hex hs
    rw [List.flatMap_cons, exec_append] at hex
    obtain ⟨s₂, hex1, hex2⟩ := hex
    have := ih (fun x tr' hx => by
      have := hf (x + 1) tr' (by simpa using hx)
      simp only [List.length_cons] at this
      rwa [show l.length + 1 - 1 - (x + 1) = l.length - 1 - x from by omega] at this) hex2 hs
    rw [List.flatMap_cons, List.append_assoc]
    refine h1 (l ++ r) _ s s₂ ?_ hex1 this
    have := hf 0 tr rfl
    simp only [List.length_cons] at this
    rw [List.length_append]
    simpa using this

/-- Every tree that fits is worked off. -/
theorem Stk.of_tree (ht : TotOK P tot)
    (hlead : ∀ m < P.numMethods, ∀ t ∈ (tasksOf P tot m).take (lead m), P.prim t = true) (hP : P.WF) {h : Nat} {s' : State}
    {t : Nat} {tr : Tree} (hv : Valid P t tr) : ∀ (r π : List Nat) (s s₁ : State), Fits P tot lead tr (h - r.length) →
      Exec P s (yield tot tr) s₁ → Stk P tot lead h s₁ r π s' → Stk P tot lead h s (t :: r) (yield tot tr ++ π) s' := by
  induction hv with
  | @leaf a ha =>
    intro r π s s₁ _ hex hs
    obtain _ | ⟨h1, h2⟩ := hex
    cases h2
    exact .act ha h1 hs
  | @node m cs hm hc ih =>
    intro r π s s₁ hf hex hs
    obtain _ | ⟨f1, f2, f3⟩ := hf
    have hlen := tasksOf_length ht hm
    have hlt : (tot m).length = (P.sub m).length := by rw [← hlen, tasksOf, List.length_map]
    have hall := list_of_node ht hm hc
    -- the yields of the leading tasks
    have hlm : ∀ x i, (tot m)[x]? = some i → x < lead m → cs i = .leaf ((P.sub m)[i]?.getD 0) := by
      intro x i hx hxl
      have hi : i < (P.sub m).length := by simpa using (ht m hm).1.mem_iff.1 (List.mem_of_getElem? hx)
      have hp : P.prim ((P.sub m)[i]?.getD 0) = true := by
        apply hlead m hm
        rw [List.mem_iff_getElem?]
        exact ⟨x, by rw [List.getElem?_take_of_lt hxl]; simp [tasksOf, hx]⟩
      rw [List.getElem?_eq_getElem hi] at hp ⊢
      exact (hc i _ (List.getElem?_eq_getElem hi)).prim_eq hP hp
    have hy : yield tot (.node m cs) = (tasksOf P tot m).take (lead m) ++ (((tot m).drop (lead m)).map cs).flatMap (yield tot) := by
      rw [yield]
      conv_lhs => rw [← List.take_append_drop (lead m) (tot m)]
      rw [List.flatMap_append, List.flatMap_map]
      congr 1
      have : (((tot m).take (lead m)).map fun i => yield tot (cs i)) = ((tasksOf P tot m).take (lead m)).map fun t => [t] := by
        apply List.ext_getElem?
        intro x
        simp only [List.getElem?_map]
        rcases Nat.lt_or_ge x (lead m) with hx | hx
        · rw [List.getElem?_take_of_lt hx, List.getElem?_take_of_lt hx]
          cases e : (tot m)[x]? with
          | none => simp [tasksOf, e]
          | some i => simp [tasksOf, e, hlm x i e hx, yield]
        · rw [List.getElem?_eq_none (by rw [List.length_take]; omega), List.getElem?_eq_none (by rw [List.length_take]; omega)]
          rfl
      rw [List.flatMap_def, this]
      induction (tasksOf P tot m).take (lead m) with
      | nil => rfl
      | cons a l ih => simp [ih]
    rw [hy, exec_append] at hex
    obtain ⟨s₂, hex1, hex2⟩ := hex
    rw [hy, List.append_assoc]
    refine .meth hm (by omega) hex1 ?_
    have hdrop : (tasksOf P tot m).drop (lead m) = ((tot m).drop (lead m)).map fun i => (P.sub m)[i]?.getD 0 := by
      rw [tasksOf, List.map_drop]
    refine stk_list (l := (tasksOf P tot m).drop (lead m)) (ts := ((tot m).drop (lead m)).map cs) ?_ ?_ hex2 hs
    · rw [hdrop, List.forall₂_map_left_iff, List.forall₂_map_right_iff, List.forall₂_same]
      intro i hi
      have hi' : i < (P.sub m).length := by simpa using (ht m hm).1.mem_iff.1 (List.mem_of_mem_drop hi)
      rw [List.getElem?_eq_getElem hi']
      exact ih i _ (List.getElem?_eq_getElem hi')
    · intro x tr hx
      simp only [List.getElem?_map, List.getElem?_drop, Option.map_eq_some_iff] at hx
      obtain ⟨i, hi, rfl⟩ := hx
      have := f3 x i hi
      rw [List.length_drop, hlen]
      rwa [show h - r.length - ((P.sub m).length - lead m - 1 - x) = h - ((P.sub m).length - lead m - 1 - x + r.length) from by
        omega] at this

/-- The plans of the machine are the solutions whose decomposition fits. -/
theorem stk_iff (ht : TotOK P tot)
    (hlead : ∀ m < P.numMethods, ∀ t ∈ (tasksOf P tot m).take (lead m), P.prim t = true) (hP : P.WF) {h : Nat} (hh : 1 ≤ h)
    {π : List Nat} :
    SolutionFits P tot lead h π ↔ ∃ s', Stk P tot lead h P.initState [P.init] π s' ∧ P.GoalState s' := by
  rw [solutionFits_iff hP ht]
  constructor
  · rintro ⟨tr, h1, h2, rfl, s', h3, h4⟩
    refine ⟨s', ?_, h4⟩
    simpa using Stk.of_tree ht hlead hP h1 [] [] P.initState s' (by simpa using h2) h3 (.nil _)
  · rintro ⟨s', h1, h2⟩
    obtain ⟨ts, k1, rfl, k3⟩ := h1.sound ht hlead (by simpa using hh)
    obtain _ | ⟨g1, g2, g3⟩ := k1
    cases g3
    exact ⟨_, g1, by simpa using g2, by simp, s', k3, h2⟩

end Verif.Htn
