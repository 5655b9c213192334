import Verif.VisSound

/-! # Comparison of networks in the visited list

Modelled: src/VisitedList.cpp 137-147 (`dfsdfs`), 164-279 (`matchingGenerate`, `matchingDFS`,
`searchNodePSHead`, `matching`), 430-505 (additional information in the key for partially ordered
instances), 559-596 (list of nodes as payload). -/

namespace Verif.Prog

open Verif.Htn Verif.TaskCounter Verif.Bits Verif.CST Relation

variable {P : Problem} {cfg : Cfg}

/-- A loop over candidates that ends with the first success. -/
def firstTrue (p : Nat → Option Bool) : List Nat → Option Bool
  | [] => some false
  | v :: vs =>
    match p v with
    | none => none
    | some true => some true
    | some false => firstTrue p vs

/-- The maps `mapping` and `backmapping` (which are always changed together), as a list of pairs. -/
abbrev Pairs := List (Nat × Nat)

/-- The two conditions for skipping a candidate (src/VisitedList.cpp 192-193): one of the steps has
already got another partner. -/
def clash (m : Pairs) (u v : Nat) : Bool := m.any fun p => (p.1 == u && p.2 != v) || (p.2 == v && p.1 != u)

/-- `mapping.count(u)` -/
def mapped (m : Pairs) (u : Nat) : Bool := m.any fun p => p.1 == u

/-- `matchingGenerate` (src/VisitedList.cpp 164-219).  The groups of steps with the same task are not
built: `us` is the list of remaining steps of the first network in the order in which they are
processed, `os` the remaining steps of the other network; candidates are those with the same task.
The maps extended by the recursive calls are local. -/
def matchGen (dfs : Nat → Nat → Pairs → Option Bool) (h : Heap) : List Nat → List Nat → Pairs → Option Bool
  | [], _, _ => some true
  | u :: us, os, m =>
    firstTrue (fun v =>
      if clash m u v then some false
      else if mapped m u then matchGen dfs h us (os.erase v) m
      else
        match dfs u v ((u, v) :: m) with
        | some true => matchGen dfs h us (os.erase v) ((u, v) :: m)
        | r => r) (os.filter fun v => taskOf h v == taskOf h u)

/-- `matchingDFS` (src/VisitedList.cpp 221-250) on the successor lists of two steps.  The maps are
passed by value, as in the code: what is added to them is lost when the function returns.
`ordA`, `ordB`: iteration orders (by hash value of the task, and by address).
Outcome `none`: out of fuel. -/
def matchLists (ordA ordB : List Nat → List Nat) (h : Heap) : Nat → List Nat → List Nat → Pairs → Option Bool
  | 0, _, _, _ => none
  | f + 1, us, vs, m =>
    if us.length = vs.length then
      if ∀ t ∈ (us ++ vs).map (taskOf h),
          (us.dedup.map (taskOf h)).count t = (vs.dedup.map (taskOf h)).count t then
        matchGen (fun u v m => matchLists ordA ordB h f (succsOf h u) (succsOf h v) m) h
          (ordA us.dedup) (ordB vs.dedup) m
      else some false
    else some false

/-- `matching` (src/VisitedList.cpp 253-279); the two heads are not steps of the networks. -/
def matching (ordA ordB : List Nat → List Nat) (h : Heap) (f : Nat) (n o : Node) : Option Bool :=
  matchLists ordA ordB h f (n.abs ++ n.prims) (o.abs ++ o.prims) []

/-! ## What acceptance means -/

theorem firstTrue_true {p : Nat → Option Bool} : ∀ {l : List Nat}, firstTrue p l = some true →
    ∃ v ∈ l, p v = some true := by
  intro l
  induction l with
  | nil => intro h; simp [firstTrue] at h
  | cons v vs ih =>
    intro h
    unfold firstTrue at h
    cases hp : p v with
    | none => rw [hp] at h; simp at h
    | some b =>
      rw [hp] at h
      cases b with
      | true => exact ⟨v, by simp, hp⟩
      | false =>
        obtain ⟨w, h1, h2⟩ := ih h
        exact ⟨w, List.mem_cons_of_mem _ h1, h2⟩

theorem firstTrue_intro {p : Nat → Option Bool} : ∀ {l : List Nat}, (∀ v ∈ l, p v ≠ none) →
    (∃ v ∈ l, p v = some true) → firstTrue p l = some true := by
  intro l
  induction l with
  | nil => rintro - ⟨v, hv, -⟩; simp at hv
  | cons w vs ih =>
    rintro h1 ⟨v, hv, h2⟩
    unfold firstTrue
    cases hp : p w with
    | none => exact absurd hp (h1 w (by simp))
    | some b =>
      cases b with
      | true => rfl
      | false =>
        refine ih (fun x hx => h1 x (List.mem_cons_of_mem _ hx)) ?_
        rcases List.mem_cons.1 hv with rfl | hv
        · rw [hp] at h2; simp at h2
        · exact ⟨v, hv, h2⟩

theorem firstTrue_ne_none {p : Nat → Option Bool} : ∀ {l : List Nat}, (∀ v ∈ l, p v ≠ none) →
    firstTrue p l ≠ none := by
  intro l
  induction l with
  | nil => intro _ h; simp [firstTrue] at h
  | cons w vs ih =>
    intro h1
    unfold firstTrue
    cases hp : p w with
    | none => exact absurd hp (h1 w (by simp))
    | some b =>
      cases b with
      | true => simp
      | false => exact ih fun x hx => h1 x (List.mem_cons_of_mem _ hx)

/-- `C` pairs the elements of two lists one to one, with equal tasks, such that `M` holds. -/
structure PairsUp (M : Nat → Nat → Prop) (h : Heap) (us vs : List Nat) (C : Nat → Nat → Prop) : Prop where
  mem : ∀ x y, C x y → x ∈ us ∧ y ∈ vs ∧ taskOf h y = taskOf h x ∧ M x y
  left : ∀ x ∈ us, ∃ y, C x y
  right : ∀ y ∈ vs, ∃ x, C x y
  fn : ∀ x y y', C x y → C x y' → y = y'
  inj : ∀ x x' y, C x y → C x' y → x = x'

theorem matchGen_sound {dfs : Nat → Nat → Pairs → Option Bool} {h : Heap} {us0 : List Nat} {m0 : Pairs} :
    ∀ {us os : List Nat} {m : Pairs}, matchGen dfs h us os m = some true → us.Nodup → os.Nodup →
      us.length = os.length → us ⊆ us0 → (∀ u ∈ us, mapped m u = false) → (∀ p ∈ m, p ∈ m0 ∨ p.1 ∈ us0) →
      ∃ C, PairsUp (fun u v => ∃ m', dfs u v m' = some true ∧ ∀ p ∈ m', p ∈ m0 ∨ p.1 ∈ us0) h us os C := by
  intro us
  induction us with
  | nil =>
    intro os m _ _ _ hl _ _ _
    have : os = [] := List.length_eq_zero_iff.1 hl.symm
    subst this
    exact ⟨fun _ _ => False, by simp, by simp, by simp, by simp, by simp⟩
  | cons u us ih =>
    intro os m h hn ho hl hsub hm hm0
    unfold matchGen at h
    obtain ⟨v, hv, h⟩ := firstTrue_true h
    rw [List.mem_filter, beq_iff_eq] at hv
    obtain ⟨hvo, hvt⟩ := hv
    have hnm : mapped m u = false := hm u (by simp)
    rw [List.nodup_cons] at hn
    rw [hnm] at h
    by_cases hcl : clash m u v = true
    · simp [hcl] at h
    · simp only [hcl, Bool.false_eq_true, if_false] at h
      cases hd : dfs u v ((u, v) :: m) with
      | none => rw [hd] at h; simp at h
      | some b =>
        cases b with
        | false => rw [hd] at h; simp at h
        | true =>
          rw [hd] at h
          have hu0 : u ∈ us0 := hsub (by simp)
          have hm1 : ∀ p ∈ (u, v) :: m, p ∈ m0 ∨ p.1 ∈ us0 := by
            intro p hp
            rcases List.mem_cons.1 hp with rfl | hp
            · exact .inr hu0
            · exact hm0 p hp
          have hlen : us.length = (os.erase v).length := by
            rw [List.length_erase_of_mem hvo]; simp at hl; omega
          have hmap : ∀ x ∈ us, mapped ((u, v) :: m) x = false := by
            intro x hx
            have hx1 := hm x (List.mem_cons_of_mem _ hx)
            have hne : u ≠ x := fun e => hn.1 (e ▸ hx)
            unfold mapped at hx1 ⊢
            rw [List.any_cons, hx1]; simp [hne]
          obtain ⟨C, hC⟩ := ih h hn.2 (ho.erase v) hlen (fun x hx => hsub (List.mem_cons_of_mem _ hx)) hmap hm1
          refine ⟨fun x y => (x = u ∧ y = v) ∨ C x y, ?_, ?_, ?_, ?_, ?_⟩
          · rintro x y (⟨rfl, rfl⟩ | hc)
            · exact ⟨by simp, hvo, hvt, _, hd, hm1⟩
            · obtain ⟨h1, h2, h3⟩ := hC.mem x y hc
              exact ⟨List.mem_cons_of_mem _ h1, List.mem_of_mem_erase h2, h3⟩
          · intro x hx
            rcases List.mem_cons.1 hx with rfl | hx
            · exact ⟨v, .inl ⟨rfl, rfl⟩⟩
            · obtain ⟨y, hy⟩ := hC.left x hx
              exact ⟨y, .inr hy⟩
          · intro y hy
            by_cases hyv : y = v
            · exact ⟨u, .inl ⟨rfl, hyv⟩⟩
            · obtain ⟨x, hx⟩ := hC.right y ((List.mem_erase_of_ne hyv).2 hy)
              exact ⟨x, .inr hx⟩
          · rintro x y y' (⟨rfl, rfl⟩ | hc) (⟨h1, h2⟩ | hc')
            · exact h2.symm
            · exact absurd (hC.mem _ _ hc').1 hn.1
            · exact absurd (hC.mem _ _ hc).1 (h1 ▸ hn.1)
            · exact hC.fn _ _ _ hc hc'
          · have hv' : ∀ x, ¬ C x v := fun x hc => (ho.not_mem_erase) (hC.mem x v hc).2.1
            rintro x x' y (⟨rfl, rfl⟩ | hc) (⟨h1, h2⟩ | hc')
            · exact h1.symm
            · exact absurd hc' (hv' _)
            · exact absurd (h2 ▸ hc) (hv' _)
            · exact hC.inj _ _ _ hc hc'

theorem count_perm {h : Heap} {us vs : List Nat} (hc : ∀ t ∈ (us ++ vs).map (taskOf h),
      (us.dedup.map (taskOf h)).count t = (vs.dedup.map (taskOf h)).count t) :
    (us.dedup.map (taskOf h)).Perm (vs.dedup.map (taskOf h)) := by
  rw [List.perm_iff_count]
  intro t
  by_cases ht : t ∈ (us ++ vs).map (taskOf h)
  · exact hc t ht
  · simp only [List.map_append, List.mem_append, List.mem_map, not_or, not_exists, not_and] at ht
    rw [List.count_eq_zero_of_not_mem, List.count_eq_zero_of_not_mem]
    · simp only [List.mem_map, List.mem_dedup]; rintro ⟨x, h1, h2⟩; exact ht.2 x h1 h2
    · simp only [List.mem_map, List.mem_dedup]; rintro ⟨x, h1, h2⟩; exact ht.1 x h1 h2

theorem PairsUp.perm {M h us vs us' vs' C} (hc : PairsUp M h us vs C) (h1 : ∀ x, x ∈ us ↔ x ∈ us')
    (h2 : ∀ x, x ∈ vs ↔ x ∈ vs') : PairsUp M h us' vs' C :=
  ⟨fun x y hxy => by rw [← h1, ← h2]; exact hc.mem x y hxy, fun x hx => hc.left x ((h1 x).2 hx),
    fun x hx => hc.right x ((h2 x).2 hx), hc.fn, hc.inj⟩

variable {ordA ordB : List Nat → List Nat}

theorem matchLists_sound (hA : ∀ l, (ordA l).Perm l) (hB : ∀ l, (ordB l).Perm l) {h : Heap} {f us vs m}
    (hl : matchLists ordA ordB h f us vs m = some true) (hm : ∀ u ∈ us, mapped m u = false) :
    ∃ C, PairsUp (fun u v => ∃ f' m', matchLists ordA ordB h f' (succsOf h u) (succsOf h v) m' = some true ∧
      ∀ p ∈ m', p ∈ m ∨ p.1 ∈ us) h us vs C := by
  cases f with
  | zero => simp [matchLists] at hl
  | succ f =>
    unfold matchLists at hl
    split at hl
    · split at hl
      · rename_i h1 h2
        have hp := count_perm h2
        obtain ⟨C, hC⟩ := matchGen_sound (us0 := us) (m0 := m) hl ((hA _).nodup_iff.2 (List.nodup_dedup _))
          ((hB _).nodup_iff.2 (List.nodup_dedup _))
          (by rw [(hA _).length_eq, (hB _).length_eq]; simpa using hp.length_eq)
          (fun x hx => List.mem_dedup.1 ((hA _).mem_iff.1 hx))
          (fun u hu => hm u (List.mem_dedup.1 ((hA _).mem_iff.1 hu))) (fun p hp => .inl hp)
        have hC2 := hC.perm (us' := us) (vs' := vs) (fun x => by rw [(hA _).mem_iff, List.mem_dedup])
          (fun x => by rw [(hB _).mem_iff, List.mem_dedup])
        refine ⟨C, ?_, hC2.left, hC2.right, hC2.fn, hC2.inj⟩
        intro x y hxy
        obtain ⟨h1, h2, h3, h4⟩ := hC2.mem x y hxy
        obtain ⟨m', h5, h6⟩ := h4
        exact ⟨h1, h2, h3, f, m', h5, h6⟩
      · simp at hl
    · simp at hl

/-! ## Forests -/

/-- Every step has at most one direct predecessor. -/
def ForestNode (h : Heap) (n : Node) : Prop :=
  ∀ u ∈ live h n, ∀ u' ∈ live h n, ∀ v, Edge h u v → Edge h u' v → u = u'

/-- Pairs obtained from pairs of first steps by going to paired successors. -/
inductive Corr (C0 : Nat → Nat → Prop) (C : Nat → Nat → Nat → Nat → Prop) : Nat → Nat → Prop
  | root {x y} : C0 x y → Corr C0 C x y
  | step {u v x y} : Corr C0 C u v → C u v x y → Corr C0 C x y

theorem live_succ {h : Heap} {n : Node} (hh : HeapOK h) (hn : ∀ u ∈ n.firsts, u < h.length) {u v}
    (hu : u ∈ live h n) (he : Edge h u v) : v ∈ live h n := by
  rw [mem_live hh hn] at hu ⊢
  obtain ⟨x, hx, hr⟩ := hu
  exact ⟨x, hx, hr.tail he⟩

/-- A step of the network is a first step, or has a direct predecessor. -/
theorem live_cases {h : Heap} {n : Node} (hh : HeapOK h) (hn : ∀ u ∈ n.firsts, u < h.length) {u}
    (hu : u ∈ live h n) : u ∈ n.firsts ∨ ∃ w ∈ live h n, Edge h w u := by
  rw [mem_live hh hn] at hu
  obtain ⟨x, hx, hr⟩ := hu
  rcases ReflTransGen.cases_tail hr with rfl | ⟨w, h1, h2⟩
  · exact .inl hx
  · exact .inr ⟨w, (mem_live hh hn).2 ⟨x, hx, h1⟩, h2⟩

theorem corr_trans {h : Heap} {R : Nat → Nat → Prop} (hs : ∀ x y x', R x y → Edge h x x' → ∃ y', Edge h y y' ∧ R x' y')
    (hf : ∀ x y y', R x y → R x y' → y = y') {x x' y y'} (ht : TransGen (Edge h) x x') (h1 : R x y) (h2 : R x' y') :
    TransGen (Edge h) y y' := by
  have key : ∃ y1, TransGen (Edge h) y y1 ∧ R x' y1 := by
    clear h2
    induction ht with
    | single he =>
      obtain ⟨y1, h3, h4⟩ := hs _ _ _ h1 he
      exact ⟨y1, .single h3, h4⟩
    | tail _ he ih =>
      obtain ⟨y1, h3, h4⟩ := ih
      obtain ⟨y2, h5, h6⟩ := hs _ _ _ h4 he
      exact ⟨y2, h3.tail h5, h6⟩
  obtain ⟨y1, h3, h4⟩ := key
  rw [hf _ _ _ h2 h4]; exact h3

/-- One-to-one pairings of the first steps and of the successors of paired steps give an
isomorphism, if both networks are forests. -/
theorem forest_iso {h : Heap} {n o : Node} (hn : Good P cfg h n) (ho : Good P cfg h o) (fn : ForestNode h n)
    (fo : ForestNode h o) {M : Nat → Nat → Prop} (h0 : ∃ C, PairsUp M h n.firsts o.firsts C)
    (hs : ∀ u ∈ live h n, ∀ v ∈ live h o, M u v → ∃ C, PairsUp M h (succsOf h u) (succsOf h v) C) :
    ∃ e g, NetIso (live h n) (live h o) (taskOf h) (taskOf h) (TransGen (Edge h)) (TransGen (Edge h)) e g := by
  classical
  obtain ⟨C0, h0⟩ := h0
  have hs' : ∀ u v, ∃ C, u ∈ live h n → v ∈ live h o → M u v → PairsUp M h (succsOf h u) (succsOf h v) C := by
    intro u v
    by_cases hc : u ∈ live h n ∧ v ∈ live h o ∧ M u v
    · obtain ⟨C, hC⟩ := hs u hc.1 v hc.2.1 hc.2.2
      exact ⟨C, fun _ _ _ => hC⟩
    · exact ⟨fun _ _ => False, fun h1 h2 h3 => absurd ⟨h1, h2, h3⟩ hc⟩
  choose C hC using hs'
  let R := Corr C0 C
  have hfl : ∀ {k : Node}, Good P cfg h k → ∀ x ∈ k.firsts, x ∈ live h k := fun hk x hx =>
    (hk.node.first_min hk.heap hx).1
  have hnp : ∀ {k : Node}, Good P cfg h k → ∀ x ∈ k.firsts, ∀ w ∈ live h k, ¬ Edge h w x := fun hk x hx w hw he =>
    (hk.node.first_min hk.heap hx).2 w hw (.single he)
  have hR : ∀ x y, R x y → x ∈ live h n ∧ y ∈ live h o ∧ taskOf h y = taskOf h x ∧ M x y := by
    intro x y hxy
    induction hxy with
    | root hc =>
      obtain ⟨h1, h2, h3, h4⟩ := h0.mem _ _ hc
      exact ⟨hfl hn _ h1, hfl ho _ h2, h3, h4⟩
    | step _ hc ih =>
      obtain ⟨h1, h2, h3, h4⟩ := ih
      obtain ⟨h5, h6, h7, h8⟩ := (hC _ _ h1 h2 h4).mem _ _ hc
      exact ⟨live_succ hn.heap hn.node.lt h1 (mem_succsOf.1 h5), live_succ ho.heap ho.node.lt h2 (mem_succsOf.1 h6), h7, h8⟩
  have hstep : ∀ x y, R x y → PairsUp M h (succsOf h x) (succsOf h y) (C x y) := fun x y hxy =>
    hC x y (hR x y hxy).1 (hR x y hxy).2.1 (hR x y hxy).2.2.2
  have hfn : ∀ x y, R x y → ∀ y', R x y' → y = y' := by
    intro x y hxy
    induction hxy with
    | @root x y hc =>
      intro y' hxy'
      have hx := (h0.mem _ _ hc).1
      cases hxy' with
      | root hc' => exact h0.fn _ _ _ hc hc'
      | step hr hc' =>
        exact absurd (mem_succsOf.1 ((hstep _ _ hr).mem _ _ hc').1) (hnp hn _ hx _ (hR _ _ hr).1)
    | @step u v x y hr hc ih =>
      intro y' hxy'
      have he := mem_succsOf.1 ((hstep _ _ hr).mem _ _ hc).1
      cases hxy' with
      | root hc' => exact absurd he (hnp hn _ (h0.mem _ _ hc').1 _ (hR _ _ hr).1)
      | @step u' v' _ _ hr' hc' =>
        have he' := mem_succsOf.1 ((hstep _ _ hr').mem _ _ hc').1
        obtain rfl := fn _ (hR _ _ hr).1 _ (hR _ _ hr').1 _ he he'
        obtain rfl := ih _ hr'
        exact (hstep _ _ hr).fn _ _ _ hc hc'
  have hinj : ∀ x y, R x y → ∀ x', R x' y → x = x' := by
    intro x y hxy
    induction hxy with
    | @root x y hc =>
      intro x' hxy'
      have hy := (h0.mem _ _ hc).2.1
      cases hxy' with
      | root hc' => exact h0.inj _ _ _ hc hc'
      | step hr hc' =>
        exact absurd (mem_succsOf.1 ((hstep _ _ hr).mem _ _ hc').2.1) (hnp ho _ hy _ (hR _ _ hr).2.1)
    | @step u v x y hr hc ih =>
      intro x' hxy'
      have he := mem_succsOf.1 ((hstep _ _ hr).mem _ _ hc).2.1
      cases hxy' with
      | root hc' => exact absurd he (hnp ho _ (h0.mem _ _ hc').2.1 _ (hR _ _ hr).2.1)
      | @step u' v' _ _ hr' hc' =>
        have he' := mem_succsOf.1 ((hstep _ _ hr').mem _ _ hc').2.1
        obtain rfl := fo _ (hR _ _ hr).2.1 _ (hR _ _ hr').2.1 _ he he'
        obtain rfl := ih _ hr'
        exact (hstep _ _ hr).inj _ _ _ hc hc'
  have hsl : ∀ x y x', R x y → Edge h x x' → ∃ y', Edge h y y' ∧ R x' y' := by
    intro x y x' hxy he
    obtain ⟨y', hy⟩ := (hstep x y hxy).left x' (mem_succsOf.2 he)
    exact ⟨y', mem_succsOf.1 ((hstep x y hxy).mem _ _ hy).2.1, .step hxy hy⟩
  have hsr : ∀ y x y', R x y → Edge h y y' → ∃ x', Edge h x x' ∧ R x' y' := by
    intro y x y' hxy he
    obtain ⟨x', hx⟩ := (hstep x y hxy).right y' (mem_succsOf.2 he)
    exact ⟨x', mem_succsOf.1 ((hstep x y hxy).mem _ _ hx).1, .step hxy hx⟩
  have htl : ∀ x ∈ live h n, ∃ y, R x y := by
    intro x hx
    rw [mem_live hn.heap hn.node.lt] at hx
    obtain ⟨r, hr, hp⟩ := hx
    induction hp with
    | refl => obtain ⟨y, hy⟩ := h0.left r hr; exact ⟨y, .root hy⟩
    | tail _ he ih =>
      obtain ⟨y, hy⟩ := ih
      obtain ⟨y', -, h1⟩ := hsl _ _ _ hy he
      exact ⟨y', h1⟩
  have htr : ∀ y ∈ live h o, ∃ x, R x y := by
    intro y hy
    rw [mem_live ho.heap ho.node.lt] at hy
    obtain ⟨r, hr, hp⟩ := hy
    induction hp with
    | refl => obtain ⟨y, hy⟩ := h0.right r hr; exact ⟨y, .root hy⟩
    | tail _ he ih =>
      obtain ⟨y, hy⟩ := ih
      obtain ⟨y', -, h1⟩ := hsr _ _ _ hy he
      exact ⟨y', h1⟩
  have he : ∀ x, ∃ y, x ∈ live h n → R x y := fun x => by
    by_cases hx : x ∈ live h n
    · obtain ⟨y, hy⟩ := htl x hx; exact ⟨y, fun _ => hy⟩
    · exact ⟨0, fun h => absurd h hx⟩
  have hg : ∀ y, ∃ x, y ∈ live h o → R x y := fun y => by
    by_cases hy : y ∈ live h o
    · obtain ⟨x, hx⟩ := htr y hy; exact ⟨x, fun _ => hx⟩
    · exact ⟨0, fun h => absurd h hy⟩
  choose e he using he
  choose g hg using hg
  refine ⟨e, g, fun u hu => (hR _ _ (he u hu)).2.1, fun v hv => (hR _ _ (hg v hv)).1, fun u hu => ?_, fun v hv => ?_,
    fun u hu => (hR _ _ (he u hu)).2.2.1, fun u hu v hv => ⟨fun ht => ?_, fun ht => ?_⟩⟩
  · exact hinj _ _ (hg _ (hR _ _ (he u hu)).2.1) _ (he u hu)
  · exact hfn _ _ (he _ (hR _ _ (hg v hv)).1) _ (hg v hv)
  · exact corr_trans (R := fun y x => R x y) (fun y x y' h1 h2 => hsr y x y' h1 h2)
      (fun y x x' h1 h2 => hinj _ _ h1 _ h2) ht (he u hu) (he v hv)
  · exact corr_trans (R := R) hsl (fun x y y' h1 h2 => hfn _ _ h1 _ h2) ht (he u hu) (he v hv)

/-- If the comparison of two forests succeeds, they are isomorphic. -/
theorem matching_forest (hA : ∀ l, (ordA l).Perm l) (hB : ∀ l, (ordB l).Perm l) {h : Heap} {n o : Node}
    (hn : Good P cfg h n) (ho : Good P cfg h o) (fn : ForestNode h n) (fo : ForestNode h o) {f}
    (hm : matching ordA ordB h f n o = some true) :
    ∃ e g, NetIso (live h n) (live h o) (taskOf h) (taskOf h) (TransGen (Edge h)) (TransGen (Edge h)) e g := by
  let M : Nat → Nat → Prop := fun u v => ∃ f m, matchLists ordA ordB h f (succsOf h u) (succsOf h v) m = some true ∧
    ∀ p ∈ m, ¬ TransGen (Edge h) u p.1
  have hfl : ∀ x ∈ n.firsts, x ∈ live h n := fun x hx => (hn.node.first_min hn.heap hx).1
  have hmem : ∀ (k : Node) x, x ∈ k.abs ++ k.prims ↔ x ∈ k.firsts := fun k x => by
    simp [Node.firsts, or_comm]
  refine forest_iso hn ho fn fo (M := M) ?_ ?_
  · obtain ⟨C, hC⟩ := matchLists_sound hA hB hm (by simp [mapped])
    have hC := hC.perm (hmem n) (hmem o)
    refine ⟨C, fun x y hxy => ?_, hC.left, hC.right, hC.fn, hC.inj⟩
    obtain ⟨h1, h2, h3, f', m', h4, h5⟩ := hC.mem x y hxy
    refine ⟨h1, h2, h3, f', m', h4, fun p hp ht => ?_⟩
    rcases h5 p hp with h6 | h6
    · simp at h6
    · exact hn.node.min x h1 p.1 ((hmem n _).1 h6) ht
  · rintro u hu v hv ⟨f', m, h1, h2⟩
    obtain ⟨C, hC⟩ := matchLists_sound hA hB h1 (by
      intro x hx
      unfold mapped
      rw [List.any_eq_false]
      intro p hp h3
      rw [beq_iff_eq] at h3
      exact h2 p hp (h3 ▸ .single (mem_succsOf.1 hx)))
    refine ⟨C, fun x y hxy => ?_, hC.left, hC.right, hC.fn, hC.inj⟩
    obtain ⟨h3, h4, h5, f'', m', h6, h7⟩ := hC.mem x y hxy
    refine ⟨h3, h4, h5, f'', m', h6, fun p hp ht => ?_⟩
    rcases h7 p hp with h8 | h8
    · exact h2 p h8 (ht.head (mem_succsOf.1 h3))
    · have e1 := mem_succsOf.1 h3
      have hx := live_succ hn.heap hn.node.lt hu e1
      obtain ⟨w, h9, h10⟩ := TransGen.tail'_iff.1 ht
      have hw : w ∈ live h n := by
        clear h10 ht
        induction h9 with
        | refl => exact hx
        | tail _ he ih => exact live_succ hn.heap hn.node.lt ih he
      obtain rfl := fn w hw u hu _ h10 (mem_succsOf.1 h8)
      exact hn.heap.irrefl (TransGen.head' e1 h9)

/-! ## Isomorphic networks are accepted -/

/-- `e`, `g` are inverse bijections of the steps of two nodes that keep tasks and direct successors. -/
structure GraphIso (h : Heap) (n o : Node) (e g : Nat → Nat) : Prop where
  e_mem : ∀ u ∈ live h n, e u ∈ live h o
  g_mem : ∀ v ∈ live h o, g v ∈ live h n
  ge : ∀ u ∈ live h n, g (e u) = u
  eg : ∀ v ∈ live h o, e (g v) = v
  task : ∀ u ∈ live h n, taskOf h (e u) = taskOf h u
  edge : ∀ u ∈ live h n, ∀ v ∈ live h n, (Edge h (e u) (e v) ↔ Edge h u v)
  /-- lists of successors have the same length (no duplicates) -/
  len : ∀ u ∈ live h n, (succsOf h (e u)).length = (succsOf h u).length

theorem matchGen_complete {dfs : Nat → Nat → Pairs → Option Bool} {h : Heap} {e : Nat → Nat} {L : Nat → Prop}
    (hinj : ∀ x y, L x → L y → e x = e y → x = y)
    (ht : ∀ x, L x → taskOf h (e x) = taskOf h x)
    : ∀ {us os : List Nat} {m : Pairs}, (∀ u ∈ us, ∀ v ∈ os, ∀ m', dfs u v m' ≠ none) →
      matchGen dfs h us os m ≠ none ∧
      ((∀ u ∈ us, L u) → us.Nodup → os.Nodup → (∀ u ∈ us, e u ∈ os) → (∀ p ∈ m, L p.1 ∧ p.2 = e p.1) →
        (∀ u ∈ us, ∀ m', (∀ p ∈ m', L p.1 ∧ p.2 = e p.1) → dfs u (e u) m' = some true) →
        matchGen dfs h us os m = some true) := by
  intro us
  induction us with
  | nil => intro os m _; exact ⟨by simp [matchGen], fun _ _ _ _ _ _ => rfl⟩
  | cons u us ih =>
    intro os m hnone
    have hstep : ∀ v ∈ os.filter (fun v => taskOf h v == taskOf h u), (if clash m u v then some false
        else if mapped m u then matchGen dfs h us (os.erase v) m
        else match dfs u v ((u, v) :: m) with
          | some true => matchGen dfs h us (os.erase v) ((u, v) :: m)
          | r => r) ≠ none := by
      intro v hv
      have hvo := (List.mem_filter.1 hv).1
      have hsub : ∀ x ∈ us, ∀ w ∈ os.erase v, ∀ m', dfs x w m' ≠ none := fun x hx w hw m' =>
        hnone x (List.mem_cons_of_mem _ hx) w (List.mem_of_mem_erase hw) m'
      by_cases h1 : clash m u v = true
      · simp [h1]
      · by_cases h2 : mapped m u = true
        · simp only [h1, h2, if_true]
          simpa using (ih hsub).1
        · simp only [h1, h2]
          cases hd : dfs u v ((u, v) :: m) with
          | none => exact absurd hd (hnone u (by simp) v hvo _)
          | some b =>
            cases b with
            | true => simpa using (ih hsub).1
            | false => simp
    refine ⟨?_, ?_⟩
    · unfold matchGen
      exact firstTrue_ne_none hstep
    · intro hL hn ho he hm hd
      unfold matchGen
      refine firstTrue_intro hstep ⟨e u, ?_, ?_⟩
      · rw [List.mem_filter, beq_iff_eq]
        exact ⟨he u (by simp), ht u (hL u (by simp))⟩
      · have hcl : clash m u (e u) = false := by
          unfold clash
          rw [List.any_eq_false]
          intro p hp
          obtain ⟨h1, h2⟩ := hm p hp
          by_cases hpu : p.1 = u
          · simp [hpu, h2]
          · have : p.2 ≠ e u := fun h3 => hpu (hinj _ _ h1 (hL u (by simp)) (h2 ▸ h3))
            simp [hpu, this]
        rw [List.nodup_cons] at hn
        have hsub : ∀ x ∈ us, ∀ w ∈ os.erase (e u), ∀ m', dfs x w m' ≠ none := fun x hx w hw m' =>
          hnone x (List.mem_cons_of_mem _ hx) w (List.mem_of_mem_erase hw) m'
        have hrest : ∀ m', (∀ p ∈ m', L p.1 ∧ p.2 = e p.1) → matchGen dfs h us (os.erase (e u)) m' = some true := by
          intro m' hm'
          refine (ih hsub).2 (fun x hx => hL x (List.mem_cons_of_mem _ hx)) hn.2 (ho.erase _) ?_ hm'
            (fun x hx => hd x (List.mem_cons_of_mem _ hx))
          intro x hx
          refine (List.mem_erase_of_ne ?_).2 (he x (List.mem_cons_of_mem _ hx))
          intro h1
          exact hn.1 (hinj _ _ (hL x (List.mem_cons_of_mem _ hx)) (hL u (by simp)) h1 ▸ hx)
        have hm1 : ∀ p ∈ (u, e u) :: m, L p.1 ∧ p.2 = e p.1 := by
          intro p hp
          rcases List.mem_cons.1 hp with rfl | hp
          · exact ⟨hL _ (by simp), rfl⟩
          · exact hm p hp
        rw [hcl, hd u (by simp) _ hm1]
        simp only [Bool.false_eq_true, if_false]
        split
        · exact hrest m hm
        · exact hrest _ hm1

/-- With enough fuel, the comparison ends. -/
theorem matchLists_total (hA : ∀ l, (ordA l).Perm l) {h : Heap} (hh : HeapOK h) : ∀ f us vs m (S : Finset Nat),
    (∀ s ∈ S, s < h.length ∧ ∀ u ∈ us, u < h.length ∧ TransGen (Edge h) s u) → (∀ u ∈ us, u < h.length) →
    h.length < S.card + f → matchLists ordA ordB h f us vs m ≠ none := by
  intro f
  induction f with
  | zero =>
    intro us vs m S hS hu hc
    have : S.card ≤ (Finset.range h.length).card :=
      Finset.card_le_card fun s hs => Finset.mem_range.2 (hS s hs).1
    simp at this; omega
  | succ f ih =>
    intro us vs m S hS hu hc
    unfold matchLists
    split
    · split
      · refine (matchGen_complete (e := id) (L := fun _ => True) (fun _ _ _ _ h => h) (fun _ _ => rfl) ?_).1
        intro u hu' v _ m'
        have hu' := List.mem_dedup.1 ((hA _).mem_iff.1 hu')
        have hnu : u ∉ S := fun h1 => hh.irrefl ((hS u h1).2 u hu').2
        refine ih _ _ _ (insert u S) ?_ ?_ ?_
        · intro s hs
          rcases Finset.mem_insert.1 hs with rfl | hs
          · exact ⟨hu _ hu', fun x hx => ⟨hh.succ_lt _ _ (mem_succsOf.1 hx), .single (mem_succsOf.1 hx)⟩⟩
          · exact ⟨(hS s hs).1, fun x hx => ⟨hh.succ_lt _ _ (mem_succsOf.1 hx),
              ((hS s hs).2 u hu').2.tail (mem_succsOf.1 hx)⟩⟩
        · intro x hx
          exact hh.succ_lt _ _ (mem_succsOf.1 hx)
        · rw [Finset.card_insert_of_notMem hnu]; omega
      · simp
    · simp

theorem GraphIso.perm {h n o e g} (hi : GraphIso h n o e g) {us vs : List Nat}
    (hu : ∀ u ∈ us, u ∈ live h n) (hm : ∀ v, v ∈ vs ↔ ∃ u ∈ us, e u = v) : vs.dedup.Perm (us.dedup.map e) := by
  refine (List.perm_ext_iff_of_nodup (List.nodup_dedup _) ?_).2 ?_
  · refine List.Nodup.map_on ?_ (List.nodup_dedup _)
    intro x hx y hy hxy
    have := congrArg g hxy
    rwa [hi.ge x (hu x (List.mem_dedup.1 hx)), hi.ge y (hu y (List.mem_dedup.1 hy))] at this
  · intro v
    rw [List.mem_dedup, hm, List.mem_map]
    simp

theorem matchLists_complete (hA : ∀ l, (ordA l).Perm l) (hB : ∀ l, (ordB l).Perm l) {h : Heap} {n o : Node}
    (hn : Good P cfg h n) (ho : Good P cfg h o) {e g} (hi : GraphIso h n o e g) : ∀ f us vs m (S : Finset Nat),
    (∀ s ∈ S, s < h.length ∧ ∀ u ∈ us, u < h.length ∧ TransGen (Edge h) s u) →
    (∀ u ∈ us, u ∈ live h n) → (∀ v, v ∈ vs ↔ ∃ u ∈ us, e u = v) → us.length = vs.length →
    (∀ p ∈ m, p.1 ∈ live h n ∧ p.2 = e p.1) → h.length < S.card + f →
    matchLists ordA ordB h f us vs m = some true := by
  intro f
  induction f with
  | zero =>
    intro us vs m S hS _ _ _ _ hc
    have : S.card ≤ (Finset.range h.length).card :=
      Finset.card_le_card fun s hs => Finset.mem_range.2 (hS s hs).1
    simp at this; omega
  | succ f ih =>
    intro us vs m S hS hu hm hl hp hc
    unfold matchLists
    have hperm := hi.perm hu hm
    rw [if_pos hl, if_pos]
    · have hS' : ∀ u ∈ us, (∀ s ∈ insert u S, s < h.length ∧ ∀ x ∈ succsOf h u, x < h.length ∧ TransGen (Edge h) s x) ∧
          h.length < (insert u S).card + f := by
        intro u hu'
        have hnu : u ∉ S := fun h1 => hn.heap.irrefl ((hS u h1).2 u hu').2
        refine ⟨?_, by rw [Finset.card_insert_of_notMem hnu]; omega⟩
        intro s hs
        rcases Finset.mem_insert.1 hs with rfl | hs
        · exact ⟨live_lt (hu _ hu'), fun x hx => ⟨hn.heap.succ_lt _ _ (mem_succsOf.1 hx), .single (mem_succsOf.1 hx)⟩⟩
        · exact ⟨(hS s hs).1, fun x hx => ⟨hn.heap.succ_lt _ _ (mem_succsOf.1 hx),
            ((hS s hs).2 u hu').2.tail (mem_succsOf.1 hx)⟩⟩
      have hmA : ∀ u, u ∈ ordA us.dedup ↔ u ∈ us := fun u => by rw [(hA _).mem_iff, List.mem_dedup]
      refine (matchGen_complete (e := e) (L := fun u => u ∈ live h n) ?_ hi.task ?_).2 ?_ ?_ ?_ ?_ hp ?_
      · intro x y hx hy hxy
        have := congrArg g hxy
        rwa [hi.ge x hx, hi.ge y hy] at this
      · intro u hu' v _ m'
        obtain ⟨h1, h2⟩ := hS' u ((hmA u).1 hu')
        exact matchLists_total hA hn.heap _ _ _ _ _ h1 (fun x hx => hn.heap.succ_lt _ _ (mem_succsOf.1 hx)) h2
      · exact fun u hu' => hu u ((hmA u).1 hu')
      · exact (hA _).nodup_iff.2 (List.nodup_dedup _)
      · exact (hB _).nodup_iff.2 (List.nodup_dedup _)
      · intro u hu'
        rw [(hB _).mem_iff, List.mem_dedup, hm]
        exact ⟨u, (hmA u).1 hu', rfl⟩
      · intro u hu' m' hm'
        have hu1 := (hmA u).1 hu'
        obtain ⟨h1, h2⟩ := hS' u hu1
        refine ih _ _ _ _ h1 (fun x hx => live_succ hn.heap hn.node.lt (hu u hu1) (mem_succsOf.1 hx)) ?_
          (hi.len u (hu u hu1)).symm hm' h2
        intro v
        rw [mem_succsOf]
        constructor
        · intro he
          have hv := live_succ ho.heap ho.node.lt (hi.e_mem u (hu u hu1)) he
          refine ⟨g v, ?_, hi.eg v hv⟩
          rw [mem_succsOf, ← hi.edge u (hu u hu1) (g v) (hi.g_mem v hv), hi.eg v hv]
          exact he
        · rintro ⟨x, hx, rfl⟩
          have hx := mem_succsOf.1 hx
          exact (hi.edge u (hu u hu1) x (live_succ hn.heap hn.node.lt (hu u hu1) hx)).2 hx
    · intro t _
      rw [(hperm.map (taskOf h)).count_eq, List.map_map]
      congr 1
      refine List.map_congr_left fun u hu' => ?_
      exact (hi.task u (hu u (List.mem_dedup.1 hu'))).symm

theorem matching_complete (hA : ∀ l, (ordA l).Perm l) (hB : ∀ l, (ordB l).Perm l) {h : Heap} {n o : Node}
    (hn : Good P cfg h n) (ho : Good P cfg h o) {e g} (hi : GraphIso h n o e g) {f} (hf : h.length < f) :
    matching ordA ordB h f n o = some true := by
  have hmem : ∀ (k : Node) x, x ∈ k.abs ++ k.prims ↔ x ∈ k.firsts := fun k x => by
    simp [Node.firsts, or_comm]
  have hfl : ∀ {k : Node}, Good P cfg h k → ∀ x ∈ k.firsts, x ∈ live h k := fun hk x hx =>
    (hk.node.first_min hk.heap hx).1
  have hfirst : ∀ v, v ∈ o.abs ++ o.prims ↔ ∃ u ∈ n.abs ++ n.prims, e u = v := by
    intro v
    constructor
    · intro hv
      have hv := (hmem o v).1 hv
      have hvl := hfl ho v hv
      refine ⟨g v, (hmem n _).2 ?_, hi.eg v hvl⟩
      rcases live_cases hn.heap hn.node.lt (hi.g_mem v hvl) with h1 | ⟨w, h1, h2⟩
      · exact h1
      · rw [← hi.edge w h1 _ (hi.g_mem v hvl), hi.eg v hvl] at h2
        exact absurd (TransGen.single h2) ((ho.node.first_min ho.heap hv).2 _ (hi.e_mem w h1))
    · rintro ⟨u, hu, rfl⟩
      have hu := (hmem n u).1 hu
      have hul := hfl hn u hu
      rw [hmem]
      rcases live_cases ho.heap ho.node.lt (hi.e_mem u hul) with h1 | ⟨w, h1, h2⟩
      · exact h1
      · have h3 : Edge h (e (g w)) (e u) := by rw [hi.eg w h1]; exact h2
        rw [hi.edge _ (hi.g_mem w h1) u hul] at h3
        exact absurd (TransGen.single h3) ((hn.node.first_min hn.heap hu).2 _ (hi.g_mem w h1))
  have hul : ∀ u ∈ n.abs ++ n.prims, u ∈ live h n := fun u hu => hfl hn u ((hmem n u).1 hu)
  refine matchLists_complete hA hB hn ho hi _ _ _ _ ∅ (by simp) hul hfirst ?_ (by simp) (by simpa using hf)
  have hnd : ∀ {k : Node}, Good P cfg h k → (k.abs ++ k.prims).Nodup := fun hk =>
    (List.perm_append_comm.nodup_iff).1 hk.node.nodup
  have := (hi.perm hul hfirst).length_eq
  rw [(hnd hn).dedup, (hnd ho).dedup, List.length_map] at this
  exact this.symm

end Verif.Prog
