import Verif.Reached

/-! # Model of the reference counts of plan steps and solution steps

`pointersToMe` in src/ProgressionNetwork.h, ProgressionNetwork.cpp 26-54, 83-112 and Model.cpp.  Addresses of plan steps are
indices into the heap of `Verif.Progression`, addresses of solution steps their instance numbers.  Access to a step
that is freed is undefined behaviour. -/

namespace Verif.Prog

open Verif.Htn Verif.TaskCounter Relation

/-! ## Counted objects -/

/-- The field `pointersToMe` of the objects; `none`: not allocated or freed. -/
abbrev Cnt := Nat → Option Int

/-- `x->pointersToMe++`. -/
def inc (c : Cnt) (u : Nat) : Option Cnt :=
  match c u with
  | none => none
  | some k => some (Function.update c u (some (k + 1)))

/-- Increments in sequence. -/
def incs (c : Cnt) (us : List Nat) : Option Cnt := us.foldlM inc c

/-- `x->pointersToMe--; if (x->pointersToMe == 0) delete x;` with the destructors `~planStep` and `~solutionStep`
(ProgressionNetwork.cpp 26-33, 42-54).  The object is released after the body of its destructor.  Outcome `none`:
undefined behaviour or out of fuel. -/
def dec (kids : Nat → List Nat) : Nat → Cnt → Nat → Option Cnt
  | 0, _, _ => none
  | f + 1, c, u =>
    match c u with
    | none => none
    | some k =>
      if k - 1 = 0 then
        ((kids u).foldlM (fun c v => dec kids f c v) (Function.update c u (some (k - 1)))).map fun c => Function.update c u none
      else some (Function.update c u (some (k - 1)))

/-- Decrements in sequence. -/
def decs (kids : Nat → List Nat) (f : Nat) (c : Cnt) (us : List Nat) : Option Cnt := us.foldlM (fun c v => dec kids f c v) c

/-- Counts are numbers of references: `L` are the allocated objects, `R` the references from outside. -/
structure RInvC (kids : Nat → List Nat) (c : Cnt) (L : Finset Nat) (R : List Nat) : Prop where
  dom : ∀ u, u ∉ L → c u = none
  cnt : ∀ u ∈ L, c u = some ((R.count u + ∑ v ∈ L, (kids v).count u : Nat) : Int)
  pos : ∀ u ∈ L, 0 < R.count u + ∑ v ∈ L, (kids v).count u
  roots : ∀ u ∈ R, u ∈ L
  closed : ∀ v ∈ L, ∀ u ∈ kids v, u ∈ L

section
variable {kids : Nat → List Nat} {c : Cnt} {L : Finset Nat} {R : List Nat}

theorem RInvC.perm (h : RInvC kids c L R) {R' : List Nat} (hp : R'.Perm R) : RInvC kids c L R' := by
  refine ⟨h.dom, fun u hu => ?_, fun u hu => ?_, fun u hu => h.roots u (hp.mem_iff.1 hu), h.closed⟩
  · rw [hp.count_eq]; exact h.cnt u hu
  · rw [hp.count_eq]; exact h.pos u hu

theorem RInvC.congr (h : RInvC kids c L R) {kids' : Nat → List Nat} (hk : ∀ v ∈ L, kids' v = kids v) : RInvC kids' c L R := by
  have hs : ∀ u, ∑ v ∈ L, (kids' v).count u = ∑ v ∈ L, (kids v).count u := fun u =>
    Finset.sum_congr rfl fun v hv => by rw [hk v hv]
  exact ⟨h.dom, fun u hu => by rw [hs]; exact h.cnt u hu, fun u hu => by rw [hs]; exact h.pos u hu, h.roots,
    fun v hv u hu => h.closed v hv u (by rw [← hk v hv]; exact hu)⟩

theorem incs_spec : ∀ (us : List Nat) (c : Cnt), (∀ u ∈ us, c u ≠ none) →
    ∃ c', incs c us = some c' ∧ ∀ w, c' w = (c w).map (· + (us.count w : Int)) := by
  intro us
  induction us with
  | nil => intro c _; exact ⟨c, rfl, fun w => by simp⟩
  | cons u us ih =>
    intro c h
    obtain ⟨k, hk⟩ := Option.ne_none_iff_exists'.1 (h u List.mem_cons_self)
    obtain ⟨c', h1, h2⟩ := ih (Function.update c u (some (k + 1))) (fun v hv => by
      by_cases he : v = u
      · subst he; simp
      · rw [Function.update_of_ne he]; exact h v (List.mem_cons_of_mem _ hv))
    refine ⟨c', ?_, fun w => ?_⟩
    · unfold incs at h1 ⊢
      rw [List.foldlM_cons]
      unfold inc
      rw [hk]
      exact h1
    · rw [h2 w]
      by_cases he : w = u
      · subst he
        rw [Function.update_self, hk, List.count_cons_self]
        simp only [Option.map_some, Option.some.injEq]
        push_cast
        omega
      · rw [Function.update_of_ne he, List.count_cons_of_ne (Ne.symm he)]

/-- New references from outside. -/
theorem RInvC.incs (h : RInvC kids c L R) {us : List Nat} (hu : ∀ u ∈ us, u ∈ L) :
    ∃ c', incs c us = some c' ∧ RInvC kids c' L (us ++ R) := by
  obtain ⟨c', h1, h2⟩ := incs_spec us c fun u hu' => by rw [h.cnt u (hu u hu')]; simp
  refine ⟨c', h1, fun u hu' => by rw [h2, h.dom u hu']; rfl, fun u hu' => ?_, fun u hu' => ?_, fun u hu' => ?_, h.closed⟩
  · rw [h2, h.cnt u hu', List.count_append]
    simp only [Option.map_some, Option.some.injEq]
    push_cast
    omega
  · have := h.pos u hu'
    rw [List.count_append]
    omega
  · rcases List.mem_append.1 hu' with hu' | hu'
    · exact hu u hu'
    · exact h.roots u hu'

/-- What is not allocated is not touched. -/
theorem dec_frame {x : Nat} {y : Option Int} : ∀ (f : Nat) (c : Cnt) (u : Nat) (c' : Cnt), c x = none → dec kids f c u = some c' →
    dec kids f (Function.update c x y) u = some (Function.update c' x y) ∧ c' x = none := by
  intro f
  induction f with
  | zero => intro c u c' _ h; simp [dec] at h
  | succ f ih =>
    intro c u c' hx h
    have hl : ∀ (us : List Nat) (c c' : Cnt), c x = none → us.foldlM (fun c v => dec kids f c v) c = some c' →
        us.foldlM (fun c v => dec kids f c v) (Function.update c x y) = some (Function.update c' x y) ∧ c' x = none := by
      intro us
      induction us with
      | nil => intro c c' hx h; cases h; exact ⟨rfl, hx⟩
      | cons v us ihl =>
        intro c c' hx h
        rw [List.foldlM_cons, Option.bind_eq_bind, Option.bind_eq_some_iff] at h
        obtain ⟨c1, h1, h2⟩ := h
        obtain ⟨k1, k2⟩ := ih c v c1 hx h1
        rw [List.foldlM_cons, k1]
        exact ihl c1 c' k2 h2
    rw [dec] at h ⊢
    have hux : u ≠ x := by
      rintro rfl
      rw [hx] at h
      simp at h
    rw [Function.update_of_ne hux]
    cases hc : c u with
    | none => rw [hc] at h; simp at h
    | some k =>
      rw [hc] at h
      simp only at h ⊢
      split_ifs at h ⊢ with hk
      · rw [Option.map_eq_some_iff] at h
        obtain ⟨c1, h1, rfl⟩ := h
        obtain ⟨k1, k2⟩ := hl (kids u) _ c1 (by rw [Function.update_of_ne (Ne.symm hux)]; exact hx) h1
        rw [Function.update_comm hux.symm, k1]
        exact ⟨by rw [Option.map_some, Function.update_comm hux.symm], by rw [Function.update_of_ne (Ne.symm hux)]; exact k2⟩
      · cases h
        exact ⟨by rw [Function.update_comm hux.symm], by rw [Function.update_of_ne (Ne.symm hux)]; exact hx⟩

/-- A reference from outside is removed: nothing that is freed is touched, and afterwards the counts are right again. -/
theorem dec_inv : ∀ (f : Nat) (L : Finset Nat) (c : Cnt) (u : Nat) (R : List Nat), L.card < f → RInvC kids c L (u :: R) →
    ∃ c' L', L' ⊆ L ∧ dec kids f c u = some c' ∧ RInvC kids c' L' R := by
  intro f
  induction f with
  | zero => intro L c u R h; omega
  | succ f ih =>
    intro L c u R hf h
    have hl : ∀ (us : List Nat) (L : Finset Nat) (c : Cnt) (R : List Nat), L.card < f → RInvC kids c L (us ++ R) →
        ∃ c' L', L' ⊆ L ∧ us.foldlM (fun c v => dec kids f c v) c = some c' ∧ RInvC kids c' L' R := by
      intro us
      induction us with
      | nil => intro L c R _ h; exact ⟨c, L, Finset.Subset.refl _, rfl, h⟩
      | cons v us ihl =>
        intro L c R hc h
        obtain ⟨c1, L1, h1, h2, h3⟩ := ih L c v (us ++ R) hc h
        obtain ⟨c2, L2, k1, k2, k3⟩ := ihl L1 c1 R ((Finset.card_le_card h1).trans_lt hc) h3
        exact ⟨c2, L2, k1.trans h1, by rw [List.foldlM_cons, h2]; exact k2, k3⟩
    have hu : u ∈ L := h.roots u List.mem_cons_self
    have hcu := h.cnt u hu
    rw [List.count_cons_self] at hcu
    rw [dec, hcu]
    simp only
    split_ifs with hk
    · have h0 : R.count u = 0 ∧ ∑ v ∈ L, (kids v).count u = 0 := by omega
      have hR : u ∉ R := List.count_eq_zero.1 h0.1
      have hK : ∀ v ∈ L, u ∉ kids v := fun v hv => List.count_eq_zero.1 (Finset.sum_eq_zero_iff.1 h0.2 v hv)
      have hsum : ∀ w, ∑ v ∈ L, (kids v).count w = (kids u).count w + ∑ v ∈ L.erase u, (kids v).count w := fun w =>
        (Finset.add_sum_erase L (fun v => (kids v).count w) hu).symm
      have hI : RInvC kids (Function.update c u none) (L.erase u) (kids u ++ R) := by
        refine ⟨fun w hw => ?_, fun w hw => ?_, fun w hw => ?_, fun w hw => ?_, fun v hv w hw => ?_⟩
        · by_cases hwu : w = u
          · subst hwu; simp
          · rw [Function.update_of_ne hwu]
            exact h.dom w fun hw' => hw (Finset.mem_erase.2 ⟨hwu, hw'⟩)
        · obtain ⟨hwu, hw⟩ := Finset.mem_erase.1 hw
          rw [Function.update_of_ne hwu, h.cnt w hw, List.count_cons_of_ne (Ne.symm hwu), hsum, List.count_append]
          congr 2
          omega
        · obtain ⟨hwu, hw⟩ := Finset.mem_erase.1 hw
          have := h.pos w hw
          rw [List.count_cons_of_ne (Ne.symm hwu), hsum] at this
          rw [List.count_append]
          omega
        · rcases List.mem_append.1 hw with hw | hw
          · exact Finset.mem_erase.2 ⟨fun e => hK u hu (e ▸ hw), h.closed u hu w hw⟩
          · exact Finset.mem_erase.2 ⟨fun e => hR (e ▸ hw), h.roots w (List.mem_cons_of_mem _ hw)⟩
        · obtain ⟨-, hv⟩ := Finset.mem_erase.1 hv
          exact Finset.mem_erase.2 ⟨fun e => hK v hv (e ▸ hw), h.closed v hv w hw⟩
      have hcard : (L.erase u).card < f := by
        rw [Finset.card_erase_of_mem hu]
        have : 0 < L.card := Finset.card_pos.2 ⟨u, hu⟩
        omega
      obtain ⟨c2, L2, h1, h2, h3⟩ := hl (kids u) (L.erase u) _ R hcard hI
      have hfr : ∀ (us : List Nat) (c c' : Cnt), c u = none → us.foldlM (fun c v => dec kids f c v) c = some c' →
          ∀ y, us.foldlM (fun c v => dec kids f c v) (Function.update c u y) = some (Function.update c' u y) ∧ c' u = none := by
        intro us
        induction us with
        | nil => intro c c' hx h y; cases h; exact ⟨rfl, hx⟩
        | cons v us ihl =>
          intro c c' hx h y
          rw [List.foldlM_cons, Option.bind_eq_bind, Option.bind_eq_some_iff] at h
          obtain ⟨c1, h1, h2⟩ := h
          obtain ⟨k1, k2⟩ := dec_frame (y := y) f c v c1 hx h1
          rw [List.foldlM_cons, k1]
          exact ihl c1 c' k2 h2 y
      obtain ⟨g1, g2⟩ := hfr (kids u) _ c2 (by simp) h2 (some ((R.count u + 1 + ∑ v ∈ L, (kids v).count u : Nat) - 1 : Int))
      rw [Function.update_idem] at g1
      refine ⟨c2, L2, h1.trans (Finset.erase_subset _ _), ?_, h3⟩
      rw [g1, Option.map_some, Function.update_idem, ← g2, Function.update_eq_self]
    · refine ⟨_, L, Finset.Subset.refl _, rfl, fun w hw => ?_, fun w hw => ?_, fun w hw => ?_, fun w hw => h.roots w (List.mem_cons_of_mem _ hw),
        h.closed⟩
      · rw [Function.update_of_ne (fun e => hw (by rw [e]; exact hu))]
        exact h.dom w hw
      · by_cases hwu : w = u
        · subst hwu
          rw [Function.update_self]
          congr 1
          push_cast
          omega
        · rw [Function.update_of_ne hwu, h.cnt w hw, List.count_cons_of_ne (Ne.symm hwu)]
      · by_cases hwu : w = u
        · subst hwu
          omega
        · have := h.pos w hw
          rwa [List.count_cons_of_ne (Ne.symm hwu)] at this

theorem decs_inv {f : Nat} : ∀ (us : List Nat) (L : Finset Nat) (c : Cnt) (R : List Nat), L.card < f → RInvC kids c L (us ++ R) →
    ∃ c' L', L' ⊆ L ∧ decs kids f c us = some c' ∧ RInvC kids c' L' R := by
  intro us
  induction us with
  | nil => intro L c R _ h; exact ⟨c, L, Finset.Subset.refl _, rfl, h⟩
  | cons v us ihl =>
    intro L c R hc h
    obtain ⟨c1, L1, h1, h2, h3⟩ := dec_inv f L c v (us ++ R) hc h
    obtain ⟨c2, L2, k1, k2, k3⟩ := ihl L1 c1 R ((Finset.card_le_card h1).trans_lt hc) h3
    exact ⟨c2, L2, k1.trans h1, by unfold decs at k2 ⊢; rw [List.foldlM_cons, h2]; exact k2, k3⟩

/-- Without cycles exactly the objects that can be reached from outside are allocated. -/
theorem RInvC.live (h : RInvC kids c L R) {rank : Nat → Nat} (hr : ∀ u, ∀ v ∈ kids u, rank v < rank u) (u : Nat) :
    c u ≠ none ↔ ∃ x ∈ R, ReflTransGen (fun a b => b ∈ kids a) x u := by
  have hmem : c u ≠ none ↔ u ∈ L := by
    constructor
    · intro hn
      by_contra hu
      exact hn (h.dom u hu)
    · intro hu
      rw [h.cnt u hu]
      simp
  rw [hmem]
  constructor
  · obtain ⟨B, hB⟩ : ∃ B, ∀ v ∈ L, rank v ≤ B := ⟨L.sup rank, fun v hv => Finset.le_sup (f := rank) hv⟩
    have : ∀ d u, u ∈ L → B - rank u = d → ∃ x ∈ R, ReflTransGen (fun a b => b ∈ kids a) x u := by
      intro d
      induction d using Nat.strong_induction_on with
      | _ d ih =>
        intro u hu hd
        have hp := h.pos u hu
        by_cases hR : u ∈ R
        · exact ⟨u, hR, .refl⟩
        · rw [List.count_eq_zero.2 hR, Nat.zero_add] at hp
          obtain ⟨v, hv, hc⟩ := Finset.exists_ne_zero_of_sum_ne_zero (Nat.pos_iff_ne_zero.1 hp)
          have hk : u ∈ kids v := List.count_pos_iff.1 (Nat.pos_of_ne_zero hc)
          have h1 := hr v u hk
          have h2 := hB v hv
          obtain ⟨x, hx, hxv⟩ := ih (B - rank v) (by omega) v hv rfl
          exact ⟨x, hx, hxv.tail hk⟩
    exact fun hu => this _ u hu rfl
  · rintro ⟨x, hx, hxu⟩
    clear hmem
    induction hxu with
    | refl => exact h.roots x hx
    | tail _ hk ih => exact h.closed _ ih _ hk

/-- A new object with one reference from outside. -/
theorem RInvC.alloc (h : RInvC kids c L R) {x : Nat} (hx : x ∉ L) {ks : List Nat} (hks : ∀ u ∈ ks, u ∈ L) :
    ∃ c', Verif.Prog.incs (Function.update c x (some 1)) ks = some c' ∧ RInvC (Function.update kids x ks) c' (insert x L) (x :: R) := by
  obtain ⟨c', h1, h2⟩ := incs_spec ks (Function.update c x (some 1)) fun u hu => by
    rw [Function.update_of_ne (fun e : u = x => hx (e ▸ hks u hu)), h.cnt u (hks u hu)]
    simp
  have hxk : ks.count x = 0 := List.count_eq_zero.2 fun hm => hx (hks x hm)
  have hxR : R.count x = 0 := List.count_eq_zero.2 fun hm => hx (h.roots x hm)
  have hsum : ∀ w, ∑ v ∈ insert x L, (Function.update kids x ks v).count w = ks.count w + ∑ v ∈ L, (kids v).count w := by
    intro w
    rw [Finset.sum_insert hx, Function.update_self]
    congr 1
    exact Finset.sum_congr rfl fun v hv => by rw [Function.update_of_ne (fun e : v = x => hx (e ▸ hv))]
  have hxs : ∑ v ∈ L, (kids v).count x = 0 := Finset.sum_eq_zero fun v hv => List.count_eq_zero.2 fun hm => hx (h.closed v hv x hm)
  refine ⟨c', h1, fun w hw => ?_, fun w hw => ?_, fun w hw => ?_, fun w hw => ?_, fun v hv w hw => ?_⟩
  · rw [Finset.mem_insert, not_or] at hw
    rw [h2, Function.update_of_ne hw.1, h.dom w hw.2]
    rfl
  · rw [hsum, h2]
    by_cases hwx : w = x
    · subst hwx
      rw [Function.update_self, List.count_cons_self, hxk, hxR, hxs]
      rfl
    · rw [Function.update_of_ne hwx, h.cnt w ((Finset.mem_insert.1 hw).resolve_left hwx), List.count_cons_of_ne (Ne.symm hwx),
        Option.map_some]
      congr 1
      push_cast
      omega
  · rw [hsum]
    by_cases hwx : w = x
    · subst hwx
      rw [List.count_cons_self]
      omega
    · have := h.pos w ((Finset.mem_insert.1 hw).resolve_left hwx)
      rw [List.count_cons_of_ne (Ne.symm hwx)]
      omega
  · rcases List.mem_cons.1 hw with rfl | hw
    · exact Finset.mem_insert_self _ _
    · exact Finset.mem_insert_of_mem (h.roots w hw)
  · by_cases hvx : v = x
    · subst hvx
      rw [Function.update_self] at hw
      exact Finset.mem_insert_of_mem (hks w hw)
    · rw [Function.update_of_ne hvx] at hw
      exact Finset.mem_insert_of_mem (h.closed v ((Finset.mem_insert.1 hv).resolve_left hvx) w hw)

end

/-! ## Search nodes -/

/-- The counts of plan steps and solution steps, and the field `prev` of the solution steps. -/
structure Mem where
  step : Cnt
  sol : Cnt
  prev : Nat → List Nat

/-- The pointer `solution` of a node. -/
def solRoot (n : Node) : List Nat := (n.sol.head?.map SolStep.inst).toList

/-- `searchNode::~searchNode` (ProgressionNetwork.cpp 83-112). -/
def Mem.release (M : Mem) (g : Glob) (n : Node) : Option Mem := do
  let s ← decs (succsOf g.heap) (g.heap.length + 1) M.step n.abs
  let s ← decs (succsOf g.heap) (g.heap.length + 1) s n.prims
  let t ← decs M.prev (g.inst + 1) M.sol (solRoot n)
  return { M with step := s, sol := t }

/-- `result->solution = new solutionStep()` with one pointer to it, and one more to the solution of the parent (Model.cpp
1146-1161, 702-711, 727-728). -/
def Mem.newSol (M : Mem) (g : Glob) (n : Node) : Option Mem := do
  let t ← incs (Function.update M.sol g.inst (some 1)) (solRoot n)
  return { M with sol := t, prev := Function.update M.prev g.inst (solRoot n) }

/-- The counting in `Model::apply` (Model.cpp 1146-1168). -/
def Mem.applied (M : Mem) (g : Glob) (n n' : Node) : Option Mem := do
  let M ← M.newSol g n
  let s ← incs M.step n'.prims
  let s ← incs s n'.abs
  return { M with step := s }

variable (P : Problem) (cfg : Cfg)

/-- `initializeMethod`: new steps and the counts of the orderings (Model.cpp 963-987). -/
def Mem.methodSteps (M : Mem) (base m : Nat) : Option Cnt :=
  incs (fun v => if base ≤ v ∧ v < base + (P.sub m).length then some 0 else M.step v) ((P.ord m).map fun o => base + o.2)

/-- The counting in `Model::decompose` (Model.cpp 650, 702-728). -/
def Mem.decomposed (M : Mem) (g : Glob) (n n' : Node) (m : Nat) (outer : List Nat) : Option Mem := do
  let s ← M.methodSteps P g.heap.length m
  let s ← incs s n'.prims
  let s ← incs s n'.abs
  let s ← incs s (outer.flatMap fun u => List.replicate ((List.range (P.sub m).length).filter (isLast P m)).length u)
  let M ← M.newSol g n
  return { M with step := s }

/-- The loop over `effectLess` (Model.cpp 1340-1351 and 902-913) with `delete result`. -/
def effLoopM (app : Glob → Mem → Node → Nat → Option (Glob × Node × Mem)) :
    Nat → Glob → Mem → Node → Option Nat → Option (Glob × Node × Mem)
  | 0, _, _, _, _ => none
  | _ + 1, g, M, n, none => some (g, n, M)
  | f + 1, g, M, n, some ac =>
    match app g M n ac with
    | none => none
    | some (g', n', M') =>
      match M'.release g' n with
      | none => none
      | some M' => effLoopM app f g'.getNext.1 M' n' g'.getNext.2

/-- The one-modification part (Model.cpp 1352-1378 and 914-940) with `delete result`. -/
def oneModStepM (app : Glob → Mem → Node → Nat → Option (Glob × Node × Mem)) (g : Glob) (M : Mem) (n : Node) :
    Option (Glob × Node × Mem) :=
  if n.abs.isEmpty && !n.prims.isEmpty then
    match (List.range n.prims.length).filter
        (fun j => isApplicable P n.state (taskOf g.heap (n.prims[j]?.getD 0))) with
    | [] => some (g, { n with reachable := false }, M)
    | [j] =>
      match app g M n j with
      | none => none
      | some (g', n', M') => (M'.release g' n).map fun M' => (g', n', M')
    | _ => some (g, n, M)
  else some (g, n, M)

/-- Automatic progression (Model.cpp 1340-1378, 902-940). -/
def postM (app : Glob → Mem → Node → Nat → Option (Glob × Node × Mem)) (fuel : Nat) (g : Glob) (M : Mem) (n : Node) :
    Option (Glob × Node × Mem) :=
  match (if cfg.effLess then effLoopM app fuel g.getFirst.1 M n g.getFirst.2 else some (g, n, M)) with
  | none => none
  | some (g, n, M) => if cfg.oneMod then oneModStepM P app g M n else some (g, n, M)

/-- `Model::apply` (Model.cpp 1001-1393) with the counts. -/
def applyM : Nat → Glob → Mem → Node → Nat → Option (Glob × Node × Mem)
  | 0, _, _, _, _ => none
  | f + 1, g, M, n, i =>
    match applyBase P cfg f g n i with
    | none => none
    | some (g', n') =>
      match M.applied g n n' with
      | none => none
      | some M' => postM P cfg (applyM f) f g' M' n'

/-- `Model::decompose` (Model.cpp 604-956) with the counts. -/
def decomposeM (fuel : Nat) (g : Glob) (M : Mem) (n : Node) (j m : Nat) : Option (Glob × Node × Mem) :=
  match decomposeBase P cfg g n j m with
  | none => none
  | some (g', n') =>
    match M.decomposed P g n n' m (succsOf g.heap (n.abs.getD j 0)) with
    | none => none
    | some M' => postM P cfg (applyM P cfg fuel) fuel g' M' n'

variable {P : Problem} {cfg : Cfg}

/-- The list of solution steps of a node is the chain of `prev` pointers. -/
def SolChain (prev : Nat → List Nat) : List SolStep → Prop
  | [] => True
  | s :: l => prev s.inst = (l.head?.map SolStep.inst).toList ∧ SolChain prev l

/-- The counts are right for the live nodes `N`. -/
structure MInv (h : Heap) (inst : Nat) (M : Mem) (N : List Node) : Prop where
  steps : ∃ L, RInvC (succsOf h) M.step L (N.flatMap Node.firsts) ∧ ∀ u ∈ L, u < h.length
  sols : ∃ L, RInvC M.prev M.sol L (N.flatMap solRoot) ∧ ∀ u ∈ L, u < inst
  chain : ∀ n ∈ N, SolChain M.prev n.sol
  prev : ∀ u, ∀ v ∈ M.prev u, v < u

theorem MInv.perm {h : Heap} {inst : Nat} {M : Mem} {N N' : List Node} (hI : MInv h inst M N) (hp : N'.Perm N) : MInv h inst M N' := by
  obtain ⟨L, h1, h2⟩ := hI.steps
  obtain ⟨L', h3, h4⟩ := hI.sols
  exact ⟨⟨L, h1.perm (hp.flatMap_right _), h2⟩, ⟨L', h3.perm (hp.flatMap_right _), h4⟩, fun n hn => hI.chain n (hp.mem_iff.1 hn), hI.prev⟩

theorem card_lt {L : Finset Nat} {k : Nat} (h : ∀ u ∈ L, u < k) : L.card < k + 1 := by
  have : L ⊆ Finset.range k := fun u hu => Finset.mem_range.2 (h u hu)
  have := Finset.card_le_card this
  rw [Finset.card_range] at this
  omega

/-- A node is deleted. -/
theorem release_inv {g : Glob} {M : Mem} {n : Node} {N : List Node} (h : MInv g.heap g.inst M (n :: N)) :
    ∃ M', M.release g n = some M' ∧ MInv g.heap g.inst M' N := by
  obtain ⟨L, h1, h2⟩ := h.steps
  obtain ⟨L', h3, h4⟩ := h.sols
  rw [List.flatMap_cons] at h1 h3
  obtain ⟨c1, L1, k1, k2, k3⟩ := decs_inv n.abs L M.step (n.prims ++ N.flatMap Node.firsts) (card_lt h2) (h1.perm (by
    unfold Node.firsts
    rw [← List.append_assoc]
    exact List.perm_append_comm.append_right _))
  obtain ⟨c2, L2, g1, g2, g3⟩ := decs_inv n.prims L1 c1 (N.flatMap Node.firsts) (card_lt fun u hu => h2 u (k1 hu)) k3
  obtain ⟨c3, L3, e1, e2, e3⟩ := decs_inv (solRoot n) L' M.sol (N.flatMap solRoot) (card_lt h4) h3
  refine ⟨{ M with step := c2, sol := c3 }, ?_, ⟨L2, g3, fun u hu => h2 u (k1 (g1 hu))⟩, ⟨L3, e3, fun u hu => h4 u (e1 hu)⟩,
    fun m hm => h.chain m (List.mem_cons_of_mem _ hm), h.prev⟩
  unfold Mem.release
  simp only [k2, g2, e2, Option.bind_eq_bind, Option.bind_some, Option.pure_def]

theorem chain_mem {prev : Nat → List Nat} {L : Finset Nat} (hc : ∀ v ∈ L, ∀ u ∈ prev v, u ∈ L) : ∀ (l : List SolStep),
    SolChain prev l → (∀ u ∈ (l.head?.map SolStep.inst).toList, u ∈ L) → ∀ s ∈ l, s.inst ∈ L := by
  intro l
  induction l with
  | nil => intro _ _ s hs; simp at hs
  | cons x l ih =>
    intro h1 h2 s hs
    have hx : x.inst ∈ L := h2 _ (by simp)
    rcases List.mem_cons.1 hs with rfl | hs
    · exact hx
    · exact ih h1.2 (fun u hu => hc _ hx u (by rw [h1.1]; exact hu)) s hs

theorem chain_upd {prev : Nat → List Nat} {x : Nat} {ks : List Nat} : ∀ (l : List SolStep), (∀ s ∈ l, s.inst ≠ x) → SolChain prev l →
    SolChain (Function.update prev x ks) l := by
  intro l
  induction l with
  | nil => intro _ _; trivial
  | cons y l ih =>
    intro h1 h2
    exact ⟨by rw [Function.update_of_ne (h1 y List.mem_cons_self)]; exact h2.1,
      ih (fun s hs => h1 s (List.mem_cons_of_mem _ hs)) h2.2⟩

/-- A node with a new solution step. -/
theorem newSol_inv {g : Glob} {M : Mem} {n n' : Node} {N : List Node} (h : MInv g.heap g.inst M N) (hn : n ∈ N) {s : SolStep}
    (hs : n'.sol = s :: n.sol) (hi : s.inst = g.inst) :
    ∃ M', M.newSol g n = some M' ∧ M'.step = M.step ∧
      (∃ L, RInvC M'.prev M'.sol L ((n' :: N).flatMap solRoot) ∧ ∀ u ∈ L, u < g.inst + 1) ∧
      (∀ x ∈ n' :: N, SolChain M'.prev x.sol) ∧ ∀ u, ∀ v ∈ M'.prev u, v < u := by
  obtain ⟨L, h1, h2⟩ := h.sols
  have hroot : ∀ x ∈ N, ∀ u ∈ solRoot x, u ∈ L := fun x hx u hu => h1.roots u (List.mem_flatMap.2 ⟨x, hx, hu⟩)
  have hfresh : g.inst ∉ L := fun hm => Nat.lt_irrefl _ (h2 _ hm)
  obtain ⟨c', k1, k2⟩ := h1.alloc hfresh (hroot n hn)
  have hne : ∀ x ∈ N, ∀ s ∈ x.sol, s.inst ≠ g.inst := fun x hx s hs e =>
    hfresh (e ▸ chain_mem h1.closed x.sol (h.chain x hx) (hroot x hx) s hs)
  refine ⟨{ M with sol := c', prev := Function.update M.prev g.inst (solRoot n) }, by unfold Mem.newSol; rw [k1]; rfl, rfl,
    ⟨insert g.inst L, ?_, fun u hu => ?_⟩, fun x hx => ?_, fun u v hv => ?_⟩
  · rw [List.flatMap_cons]
    have : solRoot n' = [g.inst] := by unfold solRoot; rw [hs]; simp [hi]
    rw [this]
    exact k2
  · rcases Finset.mem_insert.1 hu with rfl | hu
    · omega
    · exact (h2 u hu).trans (Nat.lt_succ_self _)
  · rcases List.mem_cons.1 hx with rfl | hx
    · rw [hs]
      exact ⟨by rw [hi]; simp only [Function.update_self]; rfl, chain_upd _ (hne n hn) (h.chain n hn)⟩
    · exact chain_upd _ (hne x hx) (h.chain x hx)
  · simp only at hv
    by_cases hu : u = g.inst
    · subst hu
      rw [Function.update_self] at hv
      exact h2 v (hroot n hn v hv)
    · rw [Function.update_of_ne hu] at hv
      exact h.prev u v hv

theorem succsOf_some {h : Heap} {u : Nat} {ps : Step} (hps : h[u]? = some ps) : succsOf h u = ps.succs := by
  unfold succsOf
  rw [hps]
  rfl

theorem applied_inv (hcfg : cfg.Ok) {f : Nat} {g g' : Glob} {M : Mem} {n n' : Node} {N : List Node} {i : Nat} (h : MInv g.heap g.inst M N)
    (hn : n ∈ N) (ha : applyBase P cfg f g n i = some (g', n')) :
    ∃ M', M.applied g n n' = some M' ∧ MInv g'.heap g'.inst M' (n' :: N) := by
  obtain ⟨u, ps, pf, c, hu, hps, -, -, -, hh, hi, -, -, -, -, hsol, -⟩ := applyBase_some ha
  obtain ⟨pf', old, q1, q2, -, q4⟩ := applyBase_firsts hcfg ha hu hps
  obtain ⟨M1, m1, m2, m3, m4, m5⟩ := newSol_inv h hn hsol rfl
  obtain ⟨L, h1, h2⟩ := h.steps
  have hroot : ∀ v ∈ n.firsts, v ∈ L := fun v hv => h1.roots v (List.mem_flatMap.2 ⟨n, hn, hv⟩)
  have hnew : ∀ v ∈ n'.firsts, v ∈ L := by
    intro v hv
    rcases List.mem_append.1 (q2.mem_iff.1 hv) with hv | hv
    · exact hroot v (q1.mem_iff.2 (List.mem_cons_of_mem _ hv))
    · exact h1.closed u (hroot u (q1.mem_iff.2 List.mem_cons_self)) v (by rw [succsOf_some hps]; exact ((q4 v).1 hv).1)
  obtain ⟨c1, e1, e2⟩ := h1.incs (us := n'.prims) fun v hv => hnew v (List.mem_append_left _ hv)
  obtain ⟨c2, e3, e4⟩ := e2.incs (us := n'.abs) fun v hv => hnew v (List.mem_append_right _ hv)
  refine ⟨{ M1 with step := c2 }, ?_, ⟨L, ?_, by rw [hh]; exact h2⟩, by rw [hi]; exact m3, m4, m5⟩
  · unfold Mem.applied
    simp only [m1, m2, e1, e3, Option.bind_eq_bind, Option.bind_some, Option.pure_def]
  · rw [hh]
    refine e4.perm ?_
    rw [List.flatMap_cons]
    unfold Node.firsts
    rw [← List.append_assoc]
    exact List.perm_append_comm.append_right _

/-! ## decompose -/

theorem sum_filter_count {g : Nat × Nat → Nat} {w k : Nat} : ∀ (l : List (Nat × Nat)), (∀ o ∈ l, o.1 < k) →
    ∑ i ∈ Finset.range k, ((l.filter fun o => o.1 == i).map g).count w = (l.map g).count w := by
  intro l
  induction l with
  | nil => intro _; simp
  | cons o l ih =>
    intro h
    have h1 := ih fun x hx => h x (List.mem_cons_of_mem _ hx)
    have h2 : ∀ i, ((((o :: l).filter fun o => o.1 == i).map g).count w) =
        ((l.filter fun o => o.1 == i).map g).count w + if i = o.1 then (if g o = w then 1 else 0) else 0 := by
      intro i
      rw [List.filter_cons]
      by_cases hi : o.1 = i
      · subst hi
        simp [List.count_cons]
      · have : (o.1 == i) = false := by simpa using hi
        rw [this, if_neg (Ne.symm hi)]
        simp
    simp only [h2]
    rw [Finset.sum_add_distrib, h1, Finset.sum_ite_eq', if_pos (Finset.mem_range.2 (h o List.mem_cons_self)), List.map_cons,
      List.count_cons]
    simp

theorem sum_filter_range {p : Nat → Bool} {x : Nat} : ∀ k, ∑ i ∈ Finset.range k, (if p i = true then x else 0) =
    ((List.range k).filter p).length * x := by
  intro k
  induction k with
  | zero => simp
  | succ k ih =>
    rw [Finset.sum_range_succ, ih, List.range_succ, List.filter_append, List.length_append, Nat.add_mul]
    congr 1
    cases h : p k <;> simp [h]

theorem count_replicates {k w : Nat} : ∀ (l : List Nat), (l.flatMap fun u => List.replicate k u).count w = k * l.count w := by
  intro l
  induction l with
  | nil => simp
  | cons u l ih =>
    rw [List.flatMap_cons, List.count_append, ih, List.count_replicate, List.count_cons, Nat.mul_add, Nat.add_comm]
    congr 1
    by_cases h : u = w <;> simp [h]

theorem decomposed_inv (hP : P.WF) {g g' : Glob} {M : Mem} {n n' : Node} {N : List Node} {j m : Nat} (h : MInv g.heap g.inst M N)
    (hn : n ∈ N) (hm : m < P.numMethods) (hd : decomposeBase P cfg g n j m = some (g', n')) :
    ∃ M', M.decomposed P g n n' m (succsOf g.heap (n.abs.getD j 0)) = some M' ∧ MInv g'.heap g'.inst M' (n' :: N) := by
  obtain ⟨u, ps, c, hu, hps, -, hh, hi, -, hpr, hab, -, hsol, -⟩ := decomposeBase_some hd
  obtain ⟨M1, m1, m2, m3, m4, m5⟩ := newSol_inv h hn hsol rfl
  obtain ⟨L, h1, h2⟩ := h.steps
  have hgetD : n.abs.getD j 0 = u := by rw [List.getD_eq_getElem?_getD, hu]; rfl
  rw [hgetD, succsOf_some hps]
  have hroot : ∀ v ∈ n.firsts, v ∈ L := fun v hv => h1.roots v (List.mem_flatMap.2 ⟨n, hn, hv⟩)
  have huL : u ∈ L := hroot u (List.mem_append_right _ (List.mem_of_getElem? hu))
  have houter : ∀ v ∈ ps.succs, v ∈ L := fun v hv => h1.closed u huL v (by rw [succsOf_some hps]; exact hv)
  set base := g.heap.length with hbase
  set len := (P.sub m).length with hlen
  have hord : ∀ o ∈ P.ord m, o.1 < len ∧ o.2 < len := fun o ho => hP.ord_lt m hm o.1 o.2 ho
  set W : Finset Nat := (Finset.range len).image (base + ·) with hW
  have hmemW : ∀ w, w ∈ W ↔ base ≤ w ∧ w < base + len := by
    intro w
    rw [hW, Finset.mem_image]
    constructor
    · rintro ⟨i, hi, rfl⟩
      have := Finset.mem_range.1 hi
      omega
    · rintro ⟨hw1, hw2⟩
      exact ⟨w - base, Finset.mem_range.2 (by omega), by omega⟩
  have hdisj : Disjoint L W := by
    rw [Finset.disjoint_left]
    intro w hw hw'
    have := h2 w hw
    have := (hmemW w).1 hw'
    omega
  set R := N.flatMap Node.firsts with hR
  set c0 : Cnt := fun v => if base ≤ v ∧ v < base + len then some 0 else M.step v with hc0
  have hc0v : ∀ w ∈ L ∪ W, c0 w = some ((R.count w + ∑ v ∈ L, (succsOf g.heap v).count w : Nat) : Int) := by
    intro w hw
    rcases Finset.mem_union.1 hw with hw | hw
    · have := h2 w hw
      simp only [hc0]
      rw [if_neg (by omega)]
      exact h1.cnt w hw
    · have hwL : w ∉ L := fun hw' => Finset.disjoint_left.1 hdisj hw' hw
      have e1 : R.count w = 0 := List.count_eq_zero.2 fun hm => hwL (h1.roots w hm)
      have e2 : ∑ v ∈ L, (succsOf g.heap v).count w = 0 := Finset.sum_eq_zero fun v hv => List.count_eq_zero.2 fun hm =>
        hwL (h1.closed v hv w hm)
      simp only [hc0]
      rw [if_pos ((hmemW w).1 hw), e1, e2]
      rfl
  have hc0n : ∀ w, w ∉ L ∪ W → c0 w = none := by
    intro w hw
    rw [Finset.mem_union, not_or] at hw
    simp only [hc0]
    rw [if_neg (fun hb => hw.2 ((hmemW w).2 hb))]
    exact h1.dom w hw.1
  have hfirst : ∀ i ∈ firstTasks P m, base + i ∈ W := fun i hi => (hmemW _).2 ⟨by omega, by have := (mem_firstTasks.1 hi).1; omega⟩
  have hfirsts : n'.firsts.Perm (n.prims ++ n.abs.eraseIdx j ++ (firstTasks P m).map (base + ·)) := by
    unfold Node.firsts
    rw [hpr, hab]
    refine List.Perm.trans ?_ (List.Perm.append_left _ (filter_append_not_perm _ (fun v => P.prim (taskOf g'.heap v))))
    rw [List.append_assoc, List.append_assoc]
    refine List.Perm.append_left _ ?_
    rw [← List.append_assoc, ← List.append_assoc]
    exact List.perm_append_comm.append_right _
  have hnew : ∀ v ∈ n'.firsts, v ∈ L ∪ W := by
    intro v hv
    rw [hfirsts.mem_iff, List.mem_append, List.mem_append] at hv
    rcases hv with (hv | hv) | hv
    · exact Finset.mem_union_left _ (hroot v (List.mem_append_left _ hv))
    · exact Finset.mem_union_left _ (hroot v (List.mem_append_right _ (List.mem_of_mem_eraseIdx hv)))
    · obtain ⟨i, hi, rfl⟩ := List.mem_map.1 hv
      exact Finset.mem_union_right _ (hfirst i hi)
  have hsome : ∀ {c c' : Cnt} {us : List Nat}, (∀ w, c' w = (c w).map (· + (us.count w : Int))) → ∀ w, c w ≠ none → c' w ≠ none := by
    intro c c' us hc w hw
    obtain ⟨k, hk⟩ := Option.ne_none_iff_exists'.1 hw
    rw [hc, hk]
    simp
  have hL0 : ∀ w ∈ L ∪ W, c0 w ≠ none := fun w hw => by rw [hc0v w hw]; simp
  obtain ⟨c1, a1, b1⟩ := incs_spec ((P.ord m).map fun o => base + o.2) c0 (fun v hv => by
    obtain ⟨o, ho, rfl⟩ := List.mem_map.1 hv
    exact hL0 _ (Finset.mem_union_right _ ((hmemW _).2 ⟨by omega, by have := (hord o ho).2; omega⟩)))
  have hL1 : ∀ w ∈ L ∪ W, c1 w ≠ none := fun w hw => hsome b1 w (hL0 w hw)
  obtain ⟨c2, a2, b2⟩ := incs_spec n'.prims c1 fun v hv => hL1 v (hnew v (List.mem_append_left _ hv))
  have hL2 : ∀ w ∈ L ∪ W, c2 w ≠ none := fun w hw => hsome b2 w (hL1 w hw)
  obtain ⟨c3, a3, b3⟩ := incs_spec n'.abs c2 fun v hv => hL2 v (hnew v (List.mem_append_right _ hv))
  have hL3 : ∀ w ∈ L ∪ W, c3 w ≠ none := fun w hw => hsome b3 w (hL2 w hw)
  set q := ((List.range len).filter (isLast P m)).length with hq
  obtain ⟨c4, a4, b4⟩ := incs_spec (ps.succs.flatMap fun u => List.replicate q u) c3 fun v hv => by
    obtain ⟨x, hx, hv⟩ := List.mem_flatMap.1 hv
    rw [(List.mem_replicate.1 hv).2]
    exact hL3 x (Finset.mem_union_left _ (houter x hx))
  have hall : ∀ w, c4 w = (c0 w).map (· + ((((P.ord m).map fun o => base + o.2).count w + n'.firsts.count w + q * ps.succs.count w : Nat) : Int)) := by
    intro w
    rw [b4, b3, b2, b1, count_replicates]
    unfold Node.firsts
    rw [List.count_append]
    cases c0 w with
    | none => rfl
    | some k =>
      simp only [Option.map_some, Option.some.injEq]
      push_cast
      ring
  have hsuccOld : ∀ v ∈ L, succsOf g'.heap v = succsOf g.heap v := by
    intro v hv
    unfold succsOf
    rw [hh, extHeap_old (h2 v hv)]
  have hsuccNew : ∀ i < len, succsOf g'.heap (base + i) = if isLast P m i then ps.succs
      else ((P.ord m).filter fun o => o.1 == i).map fun o => base + o.2 := by
    intro i hi
    unfold succsOf
    rw [hh, extHeap_new hi]
    rfl
  have hsum : ∀ w, ∑ v ∈ L ∪ W, (succsOf g'.heap v).count w = ∑ v ∈ L, (succsOf g.heap v).count w +
      (((P.ord m).map fun o => base + o.2).count w + q * ps.succs.count w) := by
    intro w
    rw [Finset.sum_union hdisj]
    congr 1
    · exact Finset.sum_congr rfl fun v hv => by rw [hsuccOld v hv]
    · rw [hW, Finset.sum_image (fun a _ b _ hab => by simpa using hab), ← sum_filter_count (k := len) (P.ord m) (fun o ho => (hord o ho).1),
        hq, ← sum_filter_range, ← Finset.sum_add_distrib]
      refine Finset.sum_congr rfl fun i hi => ?_
      rw [hsuccNew i (Finset.mem_range.1 hi)]
      by_cases hl : isLast P m i = true
      · rw [if_pos hl, if_pos hl]
        have : (P.ord m).filter (fun o => o.1 == i) = [] := by
          rw [List.filter_eq_nil_iff]
          intro o ho hoi
          rw [isLast_iff] at hl
          have : o.1 = i := by simpa using hoi
          exact hl o.2 (by rw [← this]; exact ho)
        rw [this]
        simp
      · rw [if_neg hl, if_neg hl, Nat.add_zero]
  refine ⟨{ M1 with step := c4 }, ?_, ⟨L ∪ W, ⟨fun w hw => ?_, fun w hw => ?_, fun w hw => ?_, fun w hw => ?_, fun v hv w hw => ?_⟩, fun w hw => ?_⟩,
    by rw [hi]; exact m3, m4, m5⟩
  · unfold Mem.decomposed Mem.methodSteps
    simp only [← hbase, ← hlen, ← hc0, ← hq, a1, a2, a3, a4, m1, Option.bind_eq_bind, Option.bind_some, Option.pure_def]
  · show c4 w = none
    rw [hall, hc0n w hw]
    rfl
  · show c4 w = _
    rw [hall, hc0v w hw, hsum, List.flatMap_cons, List.count_append, Option.map_some]
    congr 1
    push_cast
    ring
  · rw [hsum, List.flatMap_cons, List.count_append, ← hR]
    rcases Finset.mem_union.1 hw with hw | hw
    · have := h1.pos w hw
      omega
    · obtain ⟨i, hi, rfl⟩ := Finset.mem_image.1 hw
      have hil := Finset.mem_range.1 hi
      by_cases hf : i ∈ firstTasks P m
      · have : 0 < n'.firsts.count (base + i) := List.count_pos_iff.2 (hfirsts.mem_iff.2 (List.mem_append_right _ (List.mem_map_of_mem hf)))
        omega
      · rw [mem_firstTasks] at hf
        push Not at hf
        obtain ⟨a, ha⟩ := hf hil
        have : 0 < ((P.ord m).map fun o => base + o.2).count (base + i) := List.count_pos_iff.2 (List.mem_map.2 ⟨(a, i), ha, rfl⟩)
        omega
  · rw [List.flatMap_cons] at hw
    rcases List.mem_append.1 hw with hw | hw
    · exact hnew w hw
    · exact Finset.mem_union_left _ (h1.roots w hw)
  · rcases Finset.mem_union.1 hv with hv | hv
    · rw [hsuccOld v hv] at hw
      exact Finset.mem_union_left _ (h1.closed v hv w hw)
    · obtain ⟨i, hi, rfl⟩ := Finset.mem_image.1 hv
      rw [hsuccNew i (Finset.mem_range.1 hi)] at hw
      split_ifs at hw
      · exact Finset.mem_union_left _ (houter w hw)
      · obtain ⟨o, ho, rfl⟩ := List.mem_map.1 hw
        exact Finset.mem_union_right _ ((hmemW _).2 ⟨by omega, by have := (hord o (List.mem_of_mem_filter ho)).2; omega⟩)
  · rw [hh, extHeap_length]
    rcases Finset.mem_union.1 hw with hw | hw
    · have := h2 w hw
      omega
    · exact ((hmemW w).1 hw).2

/-! ## Automatic progression -/

/-- `app` with the counts does what `app` does, and keeps the counts right. -/
def Counts (app : Glob → Node → Nat → Option (Glob × Node)) (appM : Glob → Mem → Node → Nat → Option (Glob × Node × Mem)) : Prop :=
  ∀ g M n i N g' n', n ∈ N → MInv g.heap g.inst M N → app g n i = some (g', n') →
    ∃ M', appM g M n i = some (g', n', M') ∧ MInv g'.heap g'.inst M' (n' :: N)

section
variable {app : Glob → Node → Nat → Option (Glob × Node)} {appM : Glob → Mem → Node → Nat → Option (Glob × Node × Mem)}

theorem app_release (hA : Counts app appM) {g : Glob} {M : Mem} {n : Node} {i : Nat} {N : List Node} {g' : Glob} {n' : Node}
    (hI : MInv g.heap g.inst M (n :: N)) (h : app g n i = some (g', n')) :
    ∃ M' M'', appM g M n i = some (g', n', M') ∧ M'.release g' n = some M'' ∧ MInv g'.heap g'.inst M'' (n' :: N) := by
  obtain ⟨M', h1, h2⟩ := hA g M n i (n :: N) g' n' List.mem_cons_self hI h
  obtain ⟨M'', h3, h4⟩ := release_inv (h2.perm (List.Perm.swap n' n N))
  exact ⟨M', M'', h1, h3, h4⟩

theorem effLoop_inv (hA : Counts app appM) : ∀ (f : Nat) (g : Glob) (M : Mem) (n : Node) (o : Option Nat) (N : List Node) (g' : Glob) (n' : Node),
    MInv g.heap g.inst M (n :: N) → effLoop app f g n o = some (g', n') →
    ∃ M', effLoopM appM f g M n o = some (g', n', M') ∧ MInv g'.heap g'.inst M' (n' :: N) := by
  intro f
  induction f with
  | zero => intro g M n o N g' n' _ h; simp [effLoop] at h
  | succ f ih =>
    intro g M n o N g' n' hI h
    cases o with
    | none =>
      rw [effLoop, Option.some.injEq, Prod.mk.injEq] at h
      obtain ⟨rfl, rfl⟩ := h
      exact ⟨M, rfl, hI⟩
    | some ac =>
      rw [effLoop] at h
      cases ha : app g n ac with
      | none => rw [ha] at h; simp at h
      | some r =>
        obtain ⟨g1, n1⟩ := r
        rw [ha] at h
        obtain ⟨M1, M2, h1, h2, h3⟩ := app_release hA hI ha
        obtain ⟨M3, h4, h5⟩ := ih g1.getNext.1 M2 n1 g1.getNext.2 N g' n' h3 h
        exact ⟨M3, by rw [effLoopM, h1]; simp only [h2]; exact h4, h5⟩

theorem getFirst_heap (g : Glob) : g.getFirst.1.heap = g.heap ∧ g.getFirst.1.inst = g.inst := by
  unfold Glob.getFirst
  split <;> exact ⟨rfl, rfl⟩

theorem oneMod_inv (hA : Counts app appM) {g : Glob} {M : Mem} {n : Node} {N : List Node} {g' : Glob} {n' : Node}
    (hI : MInv g.heap g.inst M (n :: N)) (h : oneModStep P app g n = some (g', n')) :
    ∃ M', oneModStepM P appM g M n = some (g', n', M') ∧ MInv g'.heap g'.inst M' (n' :: N) := by
  unfold oneModStep at h
  unfold oneModStepM
  split_ifs at h ⊢ with hc
  · split at h
    · rename_i hl
      rw [Option.some.injEq, Prod.mk.injEq] at h
      obtain ⟨rfl, rfl⟩ := h
      refine ⟨M, by rw [hl], ?_⟩
      obtain ⟨s1, s2, s3, s4⟩ := hI
      exact ⟨s1, s2, fun x hx => by
        rcases List.mem_cons.1 hx with rfl | hx
        · exact s3 n List.mem_cons_self
        · exact s3 x (List.mem_cons_of_mem _ hx), s4⟩
    · rename_i k hl
      obtain ⟨M1, M2, h1, h2, h3⟩ := app_release hA hI h
      exact ⟨M2, by rw [hl]; simp only [h1, h2, Option.map_some], h3⟩
    · rename_i hl1 hl2
      rw [Option.some.injEq, Prod.mk.injEq] at h
      obtain ⟨rfl, rfl⟩ := h
      refine ⟨M, ?_, hI⟩
      split
      · rename_i hl; exact absurd hl hl1
      · rename_i k hl; exact absurd hl (hl2 k)
      · rfl
  · rw [Option.some.injEq, Prod.mk.injEq] at h
    obtain ⟨rfl, rfl⟩ := h
    exact ⟨M, rfl, hI⟩

theorem post_inv (hA : Counts app appM) {f : Nat} {g : Glob} {M : Mem} {n : Node} {N : List Node} {g' : Glob} {n' : Node}
    (hI : MInv g.heap g.inst M (n :: N)) (h : post P cfg app f g n = some (g', n')) :
    ∃ M', postM P cfg appM f g M n = some (g', n', M') ∧ MInv g'.heap g'.inst M' (n' :: N) := by
  unfold post effPart at h
  rw [Option.bind_eq_bind, Option.bind_eq_some_iff] at h
  obtain ⟨⟨g1, n1⟩, h1, h2⟩ := h
  have key : ∃ M1, (if cfg.effLess then effLoopM appM f g.getFirst.1 M n g.getFirst.2 else some (g, n, M)) = some (g1, n1, M1) ∧
      MInv g1.heap g1.inst M1 (n1 :: N) := by
    split_ifs at h1 ⊢ with hc
    · exact effLoop_inv hA f _ M n _ N g1 n1 (by rw [(getFirst_heap g).1, (getFirst_heap g).2]; exact hI) h1
    · rw [Option.some.injEq, Prod.mk.injEq] at h1
      obtain ⟨rfl, rfl⟩ := h1
      exact ⟨M, rfl, hI⟩
  obtain ⟨M1, k1, k2⟩ := key
  unfold postM
  rw [k1]
  simp only at h2 ⊢
  split_ifs at h2 ⊢ with hc
  · exact oneMod_inv hA k2 h2
  · rw [Option.some.injEq, Prod.mk.injEq] at h2
    obtain ⟨rfl, rfl⟩ := h2
    exact ⟨M1, rfl, k2⟩

end

theorem apply_counts (hcfg : cfg.Ok) : ∀ f, Counts (apply P cfg f) (applyM P cfg f) := by
  intro f
  induction f with
  | zero => intro g M n i N g' n' _ _ h; simp [apply] at h
  | succ f ih =>
    intro g M n i N g' n' hn hI h
    rw [apply, Option.bind_eq_bind, Option.bind_eq_some_iff] at h
    obtain ⟨⟨g1, n1⟩, h1, h2⟩ := h
    obtain ⟨M1, k1, k2⟩ := applied_inv hcfg hI hn h1
    obtain ⟨M2, k3, k4⟩ := post_inv ih k2 h2
    exact ⟨M2, by rw [applyM, h1]; simp only [k1]; exact k3, k4⟩

theorem decompose_counts (hP : P.WF) (hcfg : cfg.Ok) {f : Nat} {g : Glob} {M : Mem} {n : Node} {j m : Nat} {N : List Node} {g' : Glob} {n' : Node}
    (hn : n ∈ N) (hm : m < P.numMethods) (hI : MInv g.heap g.inst M N) (h : decompose P cfg f g n j m = some (g', n')) :
    ∃ M', decomposeM P cfg f g M n j m = some (g', n', M') ∧ MInv g'.heap g'.inst M' (n' :: N) := by
  unfold decompose at h
  rw [Option.bind_eq_bind, Option.bind_eq_some_iff] at h
  obtain ⟨⟨g1, n1⟩, h1, h2⟩ := h
  obtain ⟨M1, k1, k2⟩ := decomposed_inv hP hI hn hm h1
  obtain ⟨M2, k3, k4⟩ := post_inv (apply_counts hcfg f) k2 h2
  exact ⟨M2, by unfold decomposeM; rw [h1]; simp only [k1]; exact k3, k4⟩

/-! ## Interleavings -/

/-- What happens to the live nodes: a node is expanded by an applicable action or by a method for one of its first tasks, or
deleted.  Nodes are named by their position in the list of live nodes, latest first. -/
inductive Ev
  | app (k i : Nat)
  | dec (k j m : Nat)
  | del (k : Nat)
deriving DecidableEq, Repr

variable (P cfg) in
/-- The events without the counts. -/
def evRun (fuel : Nat) : List Ev → Glob × List Node → Option (Glob × List Node)
  | [], s => some s
  | .app k i :: es, (g, N) =>
    match N[k]? with
    | none => none
    | some n =>
      match n.prims[i]? with
      | none => none
      | some u =>
        if isApplicable P n.state (taskOf g.heap u) then
          match apply P cfg fuel g n i with
          | none => none
          | some (g', n') => evRun fuel es (g', n' :: N)
        else none
  | .dec k j m :: es, (g, N) =>
    match N[k]? with
    | none => none
    | some n =>
      match n.abs[j]? with
      | none => none
      | some u =>
        if m ∈ methodsOf P (taskOf g.heap u) then
          match decompose P cfg fuel g n j m with
          | none => none
          | some (g', n') => evRun fuel es (g', n' :: N)
        else none
  | .del k :: es, (g, N) => if k < N.length then evRun fuel es (g, N.eraseIdx k) else none

variable (P cfg) in
/-- The events with the counts. -/
def evRunM (fuel : Nat) : List Ev → Glob × List Node × Mem → Option (Glob × List Node × Mem)
  | [], s => some s
  | .app k i :: es, (g, N, M) =>
    match N[k]? with
    | none => none
    | some n =>
      match applyM P cfg fuel g M n i with
      | none => none
      | some (g', n', M') => evRunM fuel es (g', n' :: N, M')
  | .dec k j m :: es, (g, N, M) =>
    match N[k]? with
    | none => none
    | some n =>
      match decomposeM P cfg fuel g M n j m with
      | none => none
      | some (g', n', M') => evRunM fuel es (g', n' :: N, M')
  | .del k :: es, (g, N, M) =>
    match N[k]? with
    | none => none
    | some n =>
      match M.release g n with
      | none => none
      | some M' => evRunM fuel es (g, N.eraseIdx k, M')

/-- The counts of the initial node (Model.cpp 2654-2659). -/
def initMem : Mem := ⟨fun u => if u = 0 then some 1 else none, fun _ => none, fun _ => []⟩

theorem initMem_inv : MInv (initNode P cfg).1.heap (initNode P cfg).1.inst initMem [(initNode P cfg).2] := by
  refine ⟨⟨{0}, ⟨fun u hu => ?_, fun u hu => ?_, fun u hu => ?_, fun u hu => ?_, fun v hv u hu => ?_⟩, fun u hu => ?_⟩,
    ⟨∅, ⟨fun _ _ => rfl, by simp, by simp, by simp [solRoot, initNode], by simp⟩, by simp⟩, fun n hn => ?_, fun u v hv => by simp [initMem] at hv⟩
  · simp only [Finset.mem_singleton] at hu
    simp [initMem, hu]
  · simp only [Finset.mem_singleton] at hu
    subst hu
    simp [initMem, initNode, Node.firsts, succsOf]
  · simp only [Finset.mem_singleton] at hu
    subst hu
    simp [initNode, Node.firsts]
  · simpa [initNode, Node.firsts] using hu
  · simp only [Finset.mem_singleton] at hv
    subst hv
    simp [initNode, succsOf] at hu
  · simp only [Finset.mem_singleton] at hu
    subst hu
    simp [initNode]
  · simp only [List.mem_singleton] at hn
    subst hn
    trivial

theorem evRun_counts (hP : P.WF) (hcfg : cfg.Ok) {fuel : Nat} : ∀ (es : List Ev) (g : Glob) (N : List Node) (M : Mem) (g' : Glob) (N' : List Node),
    HeapOK g.heap → (∀ n ∈ N, NInv P cfg g.heap n) → MInv g.heap g.inst M N → evRun P cfg fuel es (g, N) = some (g', N') →
    ∃ M', evRunM P cfg fuel es (g, N, M) = some (g', N', M') ∧ HeapOK g'.heap ∧ MInv g'.heap g'.inst M' N' := by
  intro es
  induction es with
  | nil =>
    intro g N M g' N' hh _ hI h
    rw [evRun, Option.some.injEq, Prod.mk.injEq] at h
    obtain ⟨rfl, rfl⟩ := h
    exact ⟨M, rfl, hh, hI⟩
  | cons e es ih =>
    intro g N M g' N' hh hN hI h
    cases e with
    | app k i =>
      rw [evRun] at h
      rw [evRunM]
      cases hk : N[k]? with
      | none => rw [hk] at h; simp at h
      | some n =>
        have hn : n ∈ N := List.mem_of_getElem? hk
        simp only [hk] at h
        cases hu : n.prims[i]? with
        | none => rw [hu] at h; simp at h
        | some u =>
          simp only [hu] at h
          split_ifs at h with happ
          cases ha : apply P cfg fuel g n i with
          | none => rw [ha] at h; simp at h
          | some r =>
            obtain ⟨g1, n1⟩ := r
            simp only [ha] at h
            obtain ⟨M1, k1, k2⟩ := apply_counts hcfg fuel g M n i N g1 n1 hn hI ha
            obtain ⟨e1, e2, -⟩ := apply_step hP hcfg (hN n hn) hu (isApplicable_iff.1 happ) ha
            obtain ⟨M2, k3, k4⟩ := ih g1 (n1 :: N) M1 g' N' (by rw [e1]; exact hh) (fun x hx => by
              rw [e1]
              rcases List.mem_cons.1 hx with rfl | hx
              · exact e2
              · exact hN x hx) k2 h
            exact ⟨M2, by simp only [k1]; exact k3, k4⟩
    | dec k j m =>
      rw [evRun] at h
      rw [evRunM]
      cases hk : N[k]? with
      | none => rw [hk] at h; simp at h
      | some n =>
        have hn : n ∈ N := List.mem_of_getElem? hk
        simp only [hk] at h
        cases hu : n.abs[j]? with
        | none => rw [hu] at h; simp at h
        | some u =>
          simp only [hu] at h
          split_ifs at h with hm
          cases ha : decompose P cfg fuel g n j m with
          | none => rw [ha] at h; simp at h
          | some r =>
            obtain ⟨g1, n1⟩ := r
            simp only [ha] at h
            have hmlt : m < P.numMethods := by
              unfold methodsOf at hm
              exact List.mem_range.1 (List.mem_of_mem_filter hm)
            obtain ⟨M1, k1, k2⟩ := decompose_counts hP hcfg hn hmlt hI ha
            obtain ⟨e1, e2, e3, -⟩ := decompose_step hP hcfg (hN n hn) hu hm ha
            obtain ⟨M2, k3, k4⟩ := ih g1 (n1 :: N) M1 g' N' e2 (fun x hx => by
              rcases List.mem_cons.1 hx with rfl | hx
              · exact e3
              · exact (hN x hx).ext e1 e2) k2 h
            exact ⟨M2, by simp only [k1]; exact k3, k4⟩
    | del k =>
      rw [evRun] at h
      rw [evRunM]
      split_ifs at h with hk
      have hg : N[k]? = some N[k] := List.getElem?_eq_getElem hk
      obtain ⟨M1, k1, k2⟩ := release_inv (hI.perm (eraseIdx_perm hg).symm)
      obtain ⟨M2, k3, k4⟩ := ih g (N.eraseIdx k) M1 g' N' hh (fun x hx => hN x (List.mem_of_mem_eraseIdx hx)) k2 h
      exact ⟨M2, by simp only [hg, k1]; exact k3, k4⟩

end Verif.Prog
