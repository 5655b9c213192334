import Verif.PdtDecode
import Verif.SatMutex
import Verif.TotalOrder

/-! # Model of the formula for one depth (src/sat/sat_planner.cpp 297-567), totally ordered problems without cost bound -/

namespace Verif.Pdt

open Verif.Htn Verif.Sog Verif.Sat Verif.Inv

/-- The primitive tasks of a vertex that have variables (`get_linear_state_atoms`, state_formula.cpp 242-256). -/
def leafVars (V : VM) (t : T) (p : Path) : List (Nat × Nat) :=
  match t.nd p with
  | none => []
  | some d => (List.range d.prims.length).filterMap fun i => (V (.prim p i)).map fun x => (x, d.prims.getD i 0)

/-- The actions of a leaf that are not pruned (disabling_graph.cpp 412-417). -/
def leafActs (S : Flags) (t : T) (p : Path) : List Nat :=
  match t.nd p with
  | none => []
  | some d => (alive S p d).map fun i => d.prims.getD i 0

/-- The clauses that survive the calls of `filter_leafs_Rintanen` (sat_planner.cpp 286-288), all calls together. -/
def rinReports (P : Problem) (t : T) : Nat → Flags → List (Int × Int)
  | 0, _ => []
  | f + 1, S =>
    rinClauses P t S ++
      if (filterLeaves (rinFilter P) t S t.leaves (initialCands P)).1 = [] then []
      else rinReports P t f (S.set (filterLeaves (rinFilter P) t S t.leaves (initialCands P)).1)

/-- `insert_invariant` (sat_planner.cpp 222-227); `B`: `binary_invariants`. -/
def leafInsert (B A : BinInv) (c : Int × Int) : BinInv :=
  if c.2 ∈ B c.1 then A else put (put A c.1 c.2) c.2 c.1

/-- `after_leaf_invariants` (sat_planner.cpp 331-362). -/
def leafInvs (P : Problem) (t : T) (mode : Mode) (B : BinInv) : BinInv :=
  match mode with
  | .h2 =>
    match pruneFirst P t with
    | none => fun _ => []
    | some S1 =>
      match filterRounds (ffFilter P) t (ffStart P) (unset P t S1 + 1) S1 with
      | none => fun _ => []
      | some S2 => (rinReports P t (unset P t S2 + 1) S2).foldl (leafInsert B) fun _ => []
  | _ => fun _ => []

/-- The options: the number of bits for at-most-one constraints, the pruning, whether leaves are put into blocks, and,
if the formula for mutexes is wanted, what the parser and the computation of invariants have delivered. -/
structure SatOpts where
  bits : Nat → Nat
  mode : Mode
  compress : Bool
  mutex : Option (Inv.Given × BinInv)

/-- The blocks of leaves (sat_planner.cpp 411-432; unit blocks: state_formula.cpp 8-18). -/
def blocksOf (P : Problem) (o : SatOpts) (t : T) (S : Flags) : List (List Nat) :=
  if o.compress then blockCompression P (t.leaves.map (leafActs S t)) else (List.range t.leaves.length).map fun l => [l]

/-- The constraints for mutexes at all times (state_formula.cpp 138-231). -/
def mutexAll (P : Problem) (o : SatOpts) (t : T) (bases : List Nat) : List Item :=
  match o.mutex with
  | none => []
  | some (G, B) => bases.flatMap (mutexItems P.numFacts G B (leafInvs P t o.mode B))

/-- How `createFormulaForDepth` ends: undefined behaviour, the initial task is pruned (`return false`), or a formula, with
the tables of variables and the number of variables. -/
inductive FRes where
  | undef
  | pruned
  | formula (V : VM) (n : Nat) (cs : List Clause)

/-- `createFormulaForDepth` (sat_planner.cpp 297-490) after the expansion of the tree, for totally ordered problems and
without a bound for the costs. -/
def depthFormula (P : Problem) (o : SatOpts) (t : T) (n : Nat) (V : VM) : FRes :=
  match prune P t o.mode with
  | none => .undef
  | some S =>
    if S (.abs [] 0) then .pruned
    else
      match treeItems P t (assignVars P t S n V).2 S with
      | none => .undef
      | some l =>
        match stateFormula P (emit o.bits (assignVars P t S n V).1 l).1
            (t.leaves.map (leafVars (assignVars P t S n V).2 t)) (blocksOf P o t S) with
        | none => .undef
        | some r =>
          .formula (assignVars P t S n V).2 (emit o.bits r.1 (mutexAll P o t r.2.1)).1
            ((emit o.bits (assignVars P t S n V).1 l).2 ++ (r.2.2 ++ (emit o.bits r.1 (mutexAll P o t r.2.1)).2))

/-- The actions printed for a model (`printSolution`, sat_planner.cpp 35-100): the primitive tasks of the leaves, from
left to right, whose variables are true. -/
def printed (t : T) (V : VM) (w : Assignment) : List Nat := t.leaves.flatMap fun p => selOf w (leafVars V t p)

section
variable {P : Problem} {tot : Nat → List Nat} {t : T} {S : Flags} {n : Nat} {V : VM} {v : Assignment}

/-! ## The constraints use existing variables -/

theorem litsOK_lv (hV : VarsOK n V) (h1 : 1 ≤ n) (a : Atom) : lv V a ≠ 0 ∧ (lv V a).natAbs ≤ n := by
  unfold lv
  cases h : V a with
  | none => simpa using h1
  | some x => have := hV.rng a x h; simp only; omega

theorem litsOK_varsOf (hV : VarsOK n V) (l : List Atom) : LitsOK n (varsOf V l) := by
  intro y hy
  obtain ⟨a, -, x, hx, rfl⟩ := mem_varsOf.1 hy
  have := hV.rng a x hx
  constructor <;> omega

theorem litsOK_cons {x : Int} {l : List Int} (h : x ≠ 0 ∧ x.natAbs ≤ n) (hl : LitsOK n l) : LitsOK n (x :: l) := by
  intro y hy
  rcases List.mem_cons.1 hy with rfl | hy
  · exact h
  · exact hl y hy

theorem litsOK_nil : LitsOK n [] := fun _ h => absurd h (by simp)

theorem litsOK_neg {x : Int} (h : x ≠ 0 ∧ x.natAbs ≤ n) : -x ≠ 0 ∧ (-x).natAbs ≤ n := by omega

theorem nodeItems_ok (hV : VarsOK n V) (h1 : 1 ≤ n) {p : Path} {d : ND} {e : EX} : ∀ it ∈ nodeItems P V S p d e, it.OK n := by
  have hlv := litsOK_lv hV h1
  have hx : ∀ (a : Atom) (x : Nat), V a = some x → (x : Int) ≠ 0 ∧ (x : Int).natAbs ≤ n := fun a x h => by
    have := hV.rng a x h; omega
  have himp : ∀ i j : Int, (i ≠ 0 ∧ i.natAbs ≤ n) → (j ≠ 0 ∧ j.natAbs ≤ n) → LitsOK n (implies i j) := fun i j hi hj =>
    litsOK_cons (litsOK_neg hi) (litsOK_cons hj litsOK_nil)
  intro it h
  unfold nodeItems at h
  rw [List.mem_append, List.mem_append, List.mem_singleton, List.mem_map] at h
  rcases h with (rfl | h) | ⟨c, h, rfl⟩
  · exact litsOK_varsOf hV _
  · split_ifs at h
    · simp at h
    · rw [List.mem_singleton] at h; subst h; exact litsOK_varsOf hV _
  · show LitsOK n c
    rw [List.mem_append, List.mem_append, List.mem_append, List.mem_append, List.mem_append] at h
    rcases h with ((((h | h) | h) | h) | h) | h
    · unfold primClauses at h
      obtain ⟨i, -, h⟩ := List.mem_flatMap.1 h
      cases hi : V (.prim p i) with
      | none => rw [hi] at h; simp at h
      | some x =>
        rw [hi] at h
        cases hp : e.posP[i]? with
        | none => rw [hp] at h; simp at h
        | some y =>
          rw [hp] at h
          simp only [List.mem_cons, List.mem_map] at h
          rcases h with rfl | ⟨c', -, rfl⟩
          · exact himp _ _ (hx _ x hi) (hlv _)
          · exact himp _ _ (hx _ x hi) (hlv _)
    · unfold absClauses at h
      obtain ⟨i, -, h⟩ := List.mem_flatMap.1 h
      cases hi : V (.abs p i) with
      | none => rw [hi] at h; simp at h
      | some x =>
        rw [hi] at h
        simp only [List.mem_append, List.mem_flatMap, List.mem_singleton] at h
        rcases h with ⟨m, -, h⟩ | rfl
        · cases hm : V (.meth p i m) with
          | none => rw [hm] at h; simp at h
          | some y =>
            rw [hm] at h
            simp only [methClauses, List.mem_cons, List.mem_map] at h
            rcases h with rfl | ⟨c', -, rfl⟩
            · exact himp _ _ (hx _ y hm) (hx _ x hi)
            · exact himp _ _ (hx _ y hm) (hlv _)
        · exact litsOK_cons (litsOK_neg (hx _ x hi)) (litsOK_varsOf hV _)
    · obtain ⟨k, -, h⟩ := List.mem_flatMap.1 h
      have hcause : ∀ (ch : ND) (b : Bool), c ∈ causeClauses V S p k ch b → LitsOK n c := by
        intro ch b h
        unfold causeClauses at h
        obtain ⟨i, -, h⟩ := List.mem_flatMap.1 h
        cases hi : V (taskAtom b (k :: p) i) with
        | none => rw [hi] at h; simp at h
        | some x =>
          rw [hi] at h
          rw [List.mem_singleton] at h
          subst h
          refine litsOK_cons (litsOK_neg (hx _ x hi)) fun y hy => ?_
          obtain ⟨z, -, rfl⟩ := List.mem_map.1 hy
          exact hlv _
      rcases List.mem_append.1 h with h | h
      · exact hcause _ _ h
      · exact hcause _ _ h
    · obtain ⟨j, hj, rfl⟩ := List.mem_map.1 h
      exact litsOK_cons (litsOK_neg (hlv _)) (litsOK_cons (litsOK_neg (litsOK_varsOf hV _ j hj)) litsOK_nil)
    · obtain ⟨j, hj, rfl⟩ := List.mem_map.1 h
      exact litsOK_cons (litsOK_neg (hlv _)) (litsOK_cons (litsOK_neg (litsOK_varsOf hV _ j hj)) litsOK_nil)
    · obtain ⟨j, -, rfl⟩ := List.mem_map.1 h
      exact himp _ _ (hlv _) (hlv _)

theorem treeItems_ok (hV : VarsOK n V) (h1 : 1 ≤ n) {l : List Item} (h : treeItems P t V S = some l) : ∀ it ∈ l, it.OK n := by
  unfold treeItems at h
  cases hd : decompItems P t V S with
  | none => rw [hd] at h; simp at h
  | some l' =>
    rw [hd] at h
    simp only [Option.some.injEq] at h
    subst h
    intro it hit
    rcases List.mem_append.1 hit with hit | hit
    · unfold decompItems at hd
      split at hd
      · simp at hd
      · simp only [Option.some.injEq] at hd
        subst hd
        obtain ⟨p, -, hit⟩ := List.mem_flatMap.1 hit
        split at hit
        · exact nodeItems_ok hV h1 it hit
        · simp at hit
    · rw [List.mem_map] at hit
      obtain ⟨c, hc, rfl⟩ := hit
      show LitsOK n c
      rcases List.mem_cons.1 hc with rfl | hc
      · exact litsOK_cons (litsOK_lv hV h1 _) litsOK_nil
      · unfold prunedClauses at hc
        obtain ⟨p, -, hc⟩ := List.mem_flatMap.1 hc
        cases hp : t.nd p with
        | none => rw [hp] at hc; simp at hc
        | some d =>
          rw [hp] at hc
          obtain ⟨j, hj, rfl⟩ := List.mem_map.1 hc
          exact litsOK_cons (litsOK_neg (litsOK_varsOf hV _ j hj)) litsOK_nil

/-! ## Leaves -/

theorem leafVars_rng (hV : VarsOK n V) {p : Path} : ∀ e ∈ leafVars V t p, 0 < e.1 ∧ e.1 ≤ n := by
  intro e he
  unfold leafVars at he
  cases hd : t.nd p with
  | none => rw [hd] at he; simp at he
  | some d =>
    rw [hd] at he
    obtain ⟨i, -, h⟩ := List.mem_filterMap.1 he
    obtain ⟨x, hx, rfl⟩ := Option.map_eq_some_iff.1 h
    exact hV.rng _ x hx

theorem selOf_filterMap (d : ND) (p : Path) (l : List Nat) :
    selOf v (l.filterMap fun i => (V (.prim p i)).map fun x => (x, d.prims.getD i 0)) =
      (l.filter fun i => tvb V v (.prim p i)).map fun i => d.prims.getD i 0 := by
  induction l with
  | nil => rfl
  | cons i l ih =>
    rw [List.filterMap_cons, List.filter_cons]
    cases h : V (.prim p i) with
    | none => simp only [Option.map_none, tvb, h, Bool.false_eq_true, if_false]; exact ih
    | some x =>
      have ht : tvb V v (.prim p i) = v x := by unfold tvb; rw [h]
      simp only [Option.map_some, ht]
      unfold selOf at ih ⊢
      rw [List.filter_cons]
      cases hv : v x with
      | false => simpa using ih
      | true => simpa using ih

theorem filter_eq_one {l : List Nat} (hl : l.Nodup) {f : Nat → Bool} {i : Nat} (hi : i ∈ l) (h : ∀ j ∈ l, f j = true ↔ j = i) :
    l.filter f = [i] := by
  have h1 : l.filter f = l.filter (· == i) := List.filter_congr fun j hj => by
    rw [Bool.eq_iff_iff, h j hj, beq_iff_eq]
  rw [h1, List.filter_beq, List.count_eq_one_of_mem hl hi]
  rfl

/-- The actions that a model selects at a leaf. -/
theorem selOf_leaf {sel : Path → Sel} {p : Path} {d : ND} (hd : t.nd p = some d)
    (h : ∀ i < d.prims.length, tv V v (.prim p i) ↔ sel p = .prim i) (hr : ∀ i, sel p = .prim i → i < d.prims.length) :
    selOf v (leafVars V t p) = actAt t sel p := by
  unfold leafVars actAt
  rw [hd]
  simp only
  rw [selOf_filterMap]
  cases hs : sel p with
  | prim i =>
    have hi := hr i hs
    simp only
    rw [filter_eq_one List.nodup_range (List.mem_range.2 hi) fun j hj => by
      rw [tvb_iff, h j (List.mem_range.1 hj), hs, Sel.prim.injEq]; exact eq_comm]
    rfl
  | none =>
    simp only
    rw [List.filter_eq_nil_iff.2]
    · rfl
    · intro j hj
      rw [tvb_iff, h j (List.mem_range.1 hj), hs]; simp
  | abs a m =>
    simp only
    rw [List.filter_eq_nil_iff.2]
    · rfl
    · intro j hj
      rw [tvb_iff, h j (List.mem_range.1 hj), hs]; simp

theorem actAt_length (t : T) (sel : Path → Sel) (p : Path) : (actAt t sel p).length ≤ 1 := by
  unfold actAt
  split <;> simp

/-- Selected actions do not interfere within a block. -/
theorem blocks_indep (o : SatOpts) {sel : Path → Sel} (hs : Consistent P t sel)
    (hu : ∀ p i, sel p = .prim i → S (.prim p i) = false)
    (hsel : ∀ p ∈ t.leaves, selOf v (leafVars V t p) = actAt t sel p) :
    ∀ b ∈ blocksOf P o t S, (selOf v (blockActs (t.leaves.map (leafVars V t)) b)).Pairwise (Indep P) := by
  have hok : ∀ b ∈ blocksOf P o t S, BlockOK P (t.leaves.map (leafActs S t)) b := by
    intro b hb
    unfold blocksOf at hb
    split_ifs at hb
    · exact (blockCompression_spec _).2.1 b hb
    · obtain ⟨l, -, rfl⟩ := List.mem_map.1 hb
      exact unit_blockOK _ l
  intro b hb
  refine block_indep_of (hok b hb) (fun l hl => ?_) fun l x hx a ha => ?_
  · obtain ⟨p, hp, rfl⟩ := List.mem_map.1 hl
    rw [hsel p hp]
    exact actAt_length t sel p
  · rw [List.getElem?_map] at hx ⊢
    obtain ⟨p, hp, rfl⟩ := Option.map_eq_some_iff.1 hx
    rw [hp]
    rw [hsel p (List.mem_of_getElem? hp)] at ha
    simp only [Option.map_some, Option.getD_some]
    unfold actAt at ha
    unfold leafActs alive
    cases hd : t.nd p with
    | none => rw [hd] at ha; simp at ha
    | some d =>
      rw [hd] at ha
      cases hsp : sel p with
      | none => rw [hsp] at ha; simp at ha
      | abs a m => rw [hsp] at ha; simp at ha
      | prim i =>
        rw [hsp] at ha
        simp only [List.mem_singleton] at ha
        subst ha
        obtain ⟨d', x, hd', hx'⟩ := hs.prim p i hsp
        rw [hd] at hd'
        obtain rfl := Option.some.inj hd'
        refine List.mem_map.2 ⟨i, List.mem_filter.2 ⟨List.mem_range.2 (List.getElem?_eq_some_iff.1 hx').1, ?_⟩, rfl⟩
        rw [hu p i hsp]; rfl

theorem blocks_flatten (o : SatOpts) : (blocksOf P o t S).flatten = List.range t.leaves.length := by
  unfold blocksOf
  split_ifs
  · rw [(blockCompression_spec _).1, List.length_map]
  · exact unit_flatten _

theorem leaves_ne (ht : t.OK P tot) : t.leaves ≠ [] := by
  have : ∀ (f : Nat) (q : Path), t.leavesFrom f q ≠ [] := by
    intro f
    induction f with
    | zero => intro q; simp [T.leavesFrom]
    | succ f ih =>
      intro q
      rw [T.leavesFrom]
      by_cases h0 : t.nc q = 0
      · rw [if_pos h0]; simp
      · rw [if_neg h0]
        intro h
        rw [List.flatMap_eq_nil_iff] at h
        exact ih _ (h 0 (List.mem_range.2 (by omega)))
  exact this _ _

theorem blocks_ne (ht : t.OK P tot) (o : SatOpts) : blocksOf P o t S ≠ [] := by
  unfold blocksOf
  split_ifs
  · exact (blockCompression_spec _).2.2
  · intro h
    have := congrArg List.length h
    simp at this
    exact leaves_ne ht this

theorem stateFormula_def (ht : t.OK P tot) (o : SatOpts) (n : Nat) :
    ∃ r, stateFormula P n (t.leaves.map (leafVars V t)) (blocksOf P o t S) = some r := by
  unfold stateFormula
  rw [if_neg (blocks_ne ht o), if_pos]
  · exact ⟨_, rfl⟩
  · rw [List.all_eq_true]
    intro b hb
    rw [List.all_eq_true]
    intro l hl
    have : l ∈ (blocksOf P o t S).flatten := List.mem_flatten.2 ⟨b, hb, hl⟩
    rw [blocks_flatten, List.mem_range] at this
    simpa using this

/-! ## The formula -/

/-- The parts of the formula. -/
structure Parts (P : Problem) (o : SatOpts) (t : T) (n : Nat) (V : VM) (S : Flags) (n1 : Nat) (V' : VM) (l : List Item)
    (r : Nat × List Nat × List Clause) : Prop where
  pr : prune P t o.mode = some S
  root : S (.abs [] 0) = false
  vars : assignVars P t S n V = (n1, V')
  tree : treeItems P t V' S = some l
  state : stateFormula P (emit o.bits n1 l).1 (t.leaves.map (leafVars V' t)) (blocksOf P o t S) = some r

theorem Parts.formula {o : SatOpts} {n1 : Nat} {V' : VM} {l : List Item} {r} (h : Parts P o t n V S n1 V' l r) :
    depthFormula P o t n V = .formula V' (emit o.bits r.1 (mutexAll P o t r.2.1)).1
      ((emit o.bits n1 l).2 ++ (r.2.2 ++ (emit o.bits r.1 (mutexAll P o t r.2.1)).2)) := by
  unfold depthFormula
  rw [h.pr]
  simp only [h.root, h.vars, Bool.false_eq_true, if_false, h.tree, h.state]

theorem Parts.of_formula {o : SatOpts} {V' : VM} {n' : Nat} {cs : List Clause} (h : depthFormula P o t n V = .formula V' n' cs) :
    ∃ S n1 l r, Parts P o t n V S n1 V' l r ∧ n' = (emit o.bits r.1 (mutexAll P o t r.2.1)).1 ∧
      cs = (emit o.bits n1 l).2 ++ (r.2.2 ++ (emit o.bits r.1 (mutexAll P o t r.2.1)).2) := by
  unfold depthFormula at h
  cases hp : prune P t o.mode with
  | none => rw [hp] at h; simp at h
  | some S =>
    rw [hp] at h
    simp only at h
    cases hr : S (.abs [] 0) with
    | true => rw [hr] at h; simp at h
    | false =>
      rw [hr] at h
      simp only [Bool.false_eq_true, if_false] at h
      cases hl : treeItems P t (assignVars P t S n V).2 S with
      | none => rw [hl] at h; simp at h
      | some l =>
        rw [hl] at h
        simp only at h
        cases hs : stateFormula P (emit o.bits (assignVars P t S n V).1 l).1
            (t.leaves.map (leafVars (assignVars P t S n V).2 t)) (blocksOf P o t S) with
        | none => rw [hs] at h; simp at h
        | some r =>
          rw [hs] at h
          simp only [FRes.formula.injEq] at h
          obtain ⟨rfl, rfl, rfl⟩ := h
          exact ⟨S, _, l, r, ⟨hp, hr, rfl, hl, hs⟩, rfl, rfl⟩

/-- Everything is defined: either the initial task is pruned or there is a formula. -/
theorem depthFormula_cases (ht : t.OK P tot) (htot : ∀ m < P.numMethods, (tot m).Perm (List.range (P.sub m).length))
    (hall : AllMeth P) (o : SatOpts) (hV : VMInv t n V) :
    ∃ S, prune P t o.mode = some S ∧ (∀ q, LocalOK P t S q) ∧
      (∀ sel, Consistent P t sel → Executable P t sel → (o.mode = .h2 → ∀ a ∈ planOf t sel, NoClash P a) → Unpruned t S sel) ∧
      ((S (.abs [] 0) = true ∧ depthFormula P o t n V = .pruned) ∨
        ∃ n1 V' l r, Parts P o t n V S n1 V' l r ∧ VMFull P t S n1 V' ∧ n ≤ n1) := by
  obtain ⟨S, h1, h2, h3⟩ := prune_spec ht htot hall o.mode
  refine ⟨S, h1, h2, h3, ?_⟩
  cases hr : S (.abs [] 0) with
  | true =>
    left
    refine ⟨rfl, ?_⟩
    unfold depthFormula
    rw [h1]
    simp only [hr, if_true]
  | false =>
    right
    obtain ⟨k1, k2, -⟩ := assignVars_spec (P := P) ht (fun q => (h2 q).weak) hV
    obtain ⟨l, hl, -⟩ := treeItems_holds ht htot hall (fun q => (h2 q).weak) k1 hr
    obtain ⟨r, hs⟩ := stateFormula_def (V := (assignVars P t S n V).2) (S := S) ht o (emit o.bits (assignVars P t S n V).1 l).1
    exact ⟨_, _, l, r, ⟨h1, hr, rfl, hl, hs⟩, k1, k2⟩

theorem VMInv.mono {n m : Nat} (h : VMInv t n V) (hm : n ≤ m) : VMInv t m V :=
  ⟨⟨h.vars.inj, fun a x hx => ⟨(h.vars.rng a x hx).1, (h.vars.rng a x hx).2.trans hm⟩⟩, h.prim, h.abs, h.cover⟩

theorem Parts.le {o : SatOpts} {n1 : Nat} {V' : VM} {l : List Item} {r} (h : Parts P o t n V S n1 V' l r) :
    n1 ≤ (emit o.bits n1 l).1 ∧ (emit o.bits n1 l).1 ≤ r.1 ∧ r.1 ≤ (emit o.bits r.1 (mutexAll P o t r.2.1)).1 := by
  refine ⟨emit_le _ _ _, ?_, emit_le _ _ _⟩
  rw [(stateFormula_some h.state).2.2.1]
  omega

theorem VMFull.one_le (ht : t.OK P tot) (hV : VMFull P t S n V) : 1 ≤ n := by
  obtain ⟨d, hd, -⟩ := ht.root
  have : V (.none []) ≠ none := hV.has [] _ (mem_nodeAtoms.2 ⟨d, hd, .inl rfl⟩)
  obtain ⟨x, hx⟩ := Option.ne_none_iff_exists'.1 this
  have := hV.vars.rng _ x hx
  omega

/-- The actions of a model are those of its selection. -/
theorem decode_leaf (ht : t.OK P tot) (hS : ∀ q, LocalOK P t S q) (hV : VMFull P t S n V) (hs : TreeSem P t V S v) :
    ∀ p ∈ t.leaves, selOf v (leafVars V t p) = actAt t (decode P t V v) p := by
  intro p hp
  obtain ⟨⟨d, hd⟩, -⟩ := (mem_leaves ht).1 hp
  have hat := atOK ht (fun q => (hS q).weak) hV hs (leavesOff hS hs) p d hd
  refine selOf_leaf hd (fun i hi => ⟨hat.prim i hi, fun h => hat.back true i h⟩) fun i h => ?_
  obtain ⟨d', hd', hi, -⟩ := decode_prim h
  rw [hd] at hd'
  obtain rfl := Option.some.inj hd'
  exact hi

theorem model_leaf (ht : t.OK P tot) (hV : VMFull P t S n V) {sel : Path → Sel} (hs : Consistent P t sel)
    (hu : Unpruned t S sel) (hv : ∀ i ≤ n, v i = modelOf V sel i) :
    ∀ p ∈ t.leaves, selOf v (leafVars V t p) = actAt t sel p := by
  intro p hp
  obtain ⟨⟨d, hd⟩, -⟩ := (mem_leaves ht).1 hp
  rw [selOf_congr hv fun e he => (leafVars_rng hV.vars e he).2]
  refine selOf_leaf hd (fun i hi => ?_) fun i h => ?_
  · rw [tv_modelOf hV.vars]
    exact ⟨fun h => h.2, fun h => ⟨(used_var hV hs hu).1 p i h, h⟩⟩
  · obtain ⟨d', x, hd', hx⟩ := hs.prim p i h
    rw [hd] at hd'
    obtain rfl := Option.some.inj hd'
    exact (List.getElem?_eq_some_iff.1 hx).1

theorem leafVars_pos (hV : VarsOK n V) : ∀ l ∈ t.leaves.map (leafVars V t), ∀ e ∈ l, 0 < e.1 ∧ e.1 ≤ n := by
  intro l hl
  obtain ⟨p, -, rfl⟩ := List.mem_map.1 hl
  exact leafVars_rng hV

theorem selected_printed : selected v (t.leaves.map (leafVars V t)) = printed t V v := by
  unfold selected printed
  rw [List.flatMap_map]

/-- Every model of the formula prints the plan of a selection, and the plan is executable and reaches the goal. -/
theorem formula_sound (hP : P.WF) (ht : t.OK P tot) (htot : ∀ m < P.numMethods, (tot m).Perm (List.range (P.sub m).length))
    (hall : AllMeth P) {o : SatOpts} (hb : ∀ k, k ≤ 2 ^ o.bits k) (hS : ∀ q, LocalOK P t S q) {n1 : Nat} {V' : VM}
    {l : List Item} {r} (hp : Parts P o t n V S n1 V' l r) (hV : VMFull P t S n1 V') {w : Assignment}
    (hw : satAll w ((emit o.bits n1 l).2 ++ (r.2.2 ++ (emit o.bits r.1 (mutexAll P o t r.2.1)).2))) :
    Consistent P t (decode P t V' w) ∧ printed t V' w = planOf t (decode P t V' w) ∧
    (∃ s', Exec P P.initState (printed t V' w) s' ∧ P.GoalState s') ∧ ∀ a ∈ printed t V' w, NoClash P a := by
  rw [satAll_append, satAll_append] at hw
  obtain ⟨hw1, hw2, -⟩ := hw
  obtain ⟨l', hl', hsem⟩ := treeItems_holds ht htot hall (fun q => (hS q).weak) hV hp.root
  rw [hp.tree] at hl'
  obtain rfl := Option.some.inj hl'
  have hit : ∀ it ∈ l, it.Holds w :=
    (emit_sat hb l n1 (treeItems_ok hV.vars (hV.one_le ht) hp.tree) w).1 ⟨w, fun _ _ => rfl, hw1⟩
  have hts := (hsem w).1 hit
  have hcons := decode_consistent ht htot hall (fun q => (hS q).weak) hV hts (leavesOff hS hts)
  have hleaf := decode_leaf ht hS hV hts
  have hpos := leafVars_pos (t := t) hV.vars
  refine ⟨hcons, ?_, ?_, fun a ha => ?_⟩
  · unfold printed planOf
    exact List.flatMap_congr hleaf
  · have := stateFormula_sound_of hP hp.state (fun l hl e he => (hpos l hl e he).1) (by
      rw [List.length_map]; exact blocks_flatten o) hw2 (blocks_indep o hcons (fun p i h => by
        obtain ⟨d, hd, hi, htv⟩ := decode_prim h
        exact tv_open hts hd (mem_taskAtoms.2 (.inl ⟨i, hi, rfl⟩)) htv) hleaf)
    rwa [selected_printed] at this
  · obtain ⟨-, -, htr⟩ := (stateFormula_sat hP hp.state (fun l hl e he => (hpos l hl e he).1) w).1 hw2
    rw [← selected_printed, ← selected_blocks (blocks := blocksOf P o t S) (by rw [List.length_map]; exact blocks_flatten o)] at ha
    obtain ⟨b, hb', ha⟩ := List.mem_flatMap.1 ha
    obtain ⟨τ, hτ, rfl⟩ := List.getElem_of_mem hb'
    have h := htr τ hτ
    rw [List.getElem?_eq_getElem hτ] at h
    exact fun f hf hd => h.del a ha f hd (h.add a ha f hf)

/-! ## Clauses that hold after all prefixes of the plan -/

theorem filterLeaves_append {σ : Type} (F : Filter σ) (S : Flags) : ∀ (ps qs : List Path) (s : σ),
    (filterLeaves F t S (ps ++ qs) s).2 = (filterLeaves F t S qs (filterLeaves F t S ps s).2).2 := by
  intro ps
  induction ps with
  | nil => intro qs s; rfl
  | cons p ps ih =>
    intro qs s
    rw [List.cons_append, filterLeaves, filterLeaves]
    cases t.nd p with
    | none => exact ih qs s
    | some d => exact ih qs _

theorem filterLeaves_keep {σ : Type} {F : Filter σ} {A : Nat → Prop} {R : σ → State → Prop} (hF : FilterOK P A F R) (S : Flags) :
    ∀ (ps : List Path) (s : σ) (st : State), R s st → R (filterLeaves F t S ps s).2 st := by
  intro ps
  induction ps with
  | nil => intro s st h; exact h
  | cons p ps ih =>
    intro s st h
    rw [filterLeaves]
    cases t.nd p with
    | none => exact ih s st h
    | some d => exact ih _ st (hF.keep _ _ _ h)

theorem rinStart (P : Problem) : (∀ cd ∈ initialCands P, cd.2 = false ∧ Distinct cd.1) ∧
    ClHold P.initState ((initialCands P).map (·.1)) := by
  refine ⟨fun cd hcd => ?_, fun c hc => ?_⟩
  · obtain ⟨h1, h2, -⟩ := initialCands_spec P cd hcd
    exact ⟨h1, h2⟩
  · obtain ⟨cd, hcd, rfl⟩ := List.mem_map.1 hc
    exact (initialCands_spec P cd hcd).2.2.1

theorem rinClauses_prefix (ht : t.OK P tot) {sel : Path → Sel} (hna : ∀ a ∈ planOf t sel, NoClash P a) (hs : Consistent P t sel)
    (hu : Unpruned t S sel) (k : Nat) {st : State} (hex : Exec P P.initState ((t.leaves.take k).flatMap (actAt t sel)) st) :
    ClHold st (rinClauses P t S) := by
  have h1 := (filterLeaves_sound ht rinFilter_ok hs hu (t.leaves.take k) (initialCands P) P.initState st
    (leaves_nodup.sublist (List.take_sublist k _)) (fun a ha => hna a (by
      obtain ⟨p, hp, ha⟩ := List.mem_flatMap.1 ha
      exact List.mem_flatMap.2 ⟨p, List.mem_of_mem_take hp, ha⟩)) (rinStart P) hex).2.1
  have h2 := filterLeaves_keep (t := t) (rinFilter_ok (P := P)) S (t.leaves.drop k) _ st h1
  rw [← filterLeaves_append, List.take_append_drop] at h2
  exact h2.2

theorem rinReports_prefix (ht : t.OK P tot) {sel : Path → Sel} (hna : ∀ a ∈ planOf t sel, NoClash P a) (hs : Consistent P t sel)
    (hx : Executable P t sel) : ∀ (f : Nat) (S : Flags), Unpruned t S sel → ∀ (k : Nat) (st : State),
    Exec P P.initState ((t.leaves.take k).flatMap (actAt t sel)) st → ClHold st (rinReports P t f S) := by
  intro f
  induction f with
  | zero => intro S _ k st _ c hc; simp [rinReports] at hc
  | succ f ih =>
    intro S hu k st hex c hc
    rw [rinReports] at hc
    rcases List.mem_append.1 hc with hc | hc
    · exact rinClauses_prefix ht hna hs hu k hex c hc
    · split_ifs at hc with h0
      · simp at hc
      · obtain ⟨st', hx'⟩ := hx
        exact ih _ (filter_unpruned ht rinFilter_ok (rinStart P) hs leaves_nodup hx' hna hu) k st hex c hc

theorem rinNext_sub {cs : List Cand} {as : List Nat} : ∀ cd ∈ (rinFilter P).next cs as, cd ∈ cs := fun _ h => (rinNext_mem h).1

theorem rinFinal_sub (S : Flags) : ∀ (ps : List Path) (cs : List Cand), ∀ cd ∈ (filterLeaves (rinFilter P) t S ps cs).2, cd ∈ cs := by
  intro ps
  induction ps with
  | nil => intro cs cd h; exact h
  | cons p ps ih =>
    intro cs cd h
    rw [filterLeaves] at h
    cases hd : t.nd p with
    | none => rw [hd] at h; exact ih cs cd h
    | some d =>
      rw [hd] at h
      exact rinNext_sub _ (ih _ cd h)

theorem rinReports_in : ∀ (f : Nat) (S : Flags), ∀ c ∈ rinReports P t f S, inRange P.numFacts c.1 = true ∧ inRange P.numFacts c.2 = true := by
  intro f
  induction f with
  | zero => intro S c hc; simp [rinReports] at hc
  | succ f ih =>
    intro S c hc
    rw [rinReports] at hc
    rcases List.mem_append.1 hc with hc | hc
    · obtain ⟨cd, hcd, rfl⟩ := List.mem_map.1 hc
      exact (initialCands_spec P cd (rinFinal_sub S _ _ cd hcd)).2.2.2
    · split_ifs at hc
      · simp at hc
      · exact ih _ c hc

theorem mem_setIns' {x y : Int} {l : List Int} (h : y ∈ setIns x l) : y = x ∨ y ∈ l := by
  unfold setIns at h
  split_ifs at h
  · exact .inr h
  · exact List.mem_cons.1 h

theorem mem_put' {B : BinInv} {a b c d : Int} (h : d ∈ put B a b c) : (c = a ∧ d = b) ∨ d ∈ B c := by
  unfold put at h
  split_ifs at h with h0
  · rcases mem_setIns' h with h | h
    · exact .inl ⟨h0, h⟩
    · exact .inr h
  · exact .inr h

/-- What is in the table comes from the clauses. -/
theorem leafInsert_mem {B : BinInv} : ∀ (cl : List (Int × Int)) (A : BinInv) (a b : Int), b ∈ cl.foldl (leafInsert B) A a →
    b ∈ A a ∨ ∃ c ∈ cl, (a = c.1 ∧ b = c.2) ∨ (a = c.2 ∧ b = c.1) := by
  intro cl
  induction cl with
  | nil => intro A a b h; exact .inl h
  | cons c cl ih =>
    intro A a b h
    rw [List.foldl_cons] at h
    rcases ih _ a b h with h | ⟨c', hc', h⟩
    · unfold leafInsert at h
      split_ifs at h
      · exact .inl h
      · rcases mem_put' h with h | h
        · exact .inr ⟨c, by simp, .inr h⟩
        · rcases mem_put' h with h | h
          · exact .inr ⟨c, by simp, .inl h⟩
          · exact .inl h
    · exact .inr ⟨c', List.mem_cons_of_mem _ hc', h⟩

/-- The clauses in `after_leaf_invariants`. -/
theorem leafInvs_mem {mode : Mode} {B : BinInv} {a b : Int} (h : b ∈ leafInvs P t mode B a) : mode = .h2 ∧
    ∃ S1 S2, pruneFirst P t = some S1 ∧ filterRounds (ffFilter P) t (ffStart P) (unset P t S1 + 1) S1 = some S2 ∧
      ∃ c ∈ rinReports P t (unset P t S2 + 1) S2, (a = c.1 ∧ b = c.2) ∨ (a = c.2 ∧ b = c.1) := by
  unfold leafInvs at h
  cases mode with
  | none => simp at h
  | ff => simp at h
  | h2 =>
    simp only at h
    cases h1 : pruneFirst P t with
    | none => rw [h1] at h; simp at h
    | some S1 =>
      rw [h1] at h
      simp only at h
      cases h2 : filterRounds (ffFilter P) t (ffStart P) (unset P t S1 + 1) S1 with
      | none => rw [h2] at h; simp at h
      | some S2 =>
        rw [h2] at h
        refine ⟨rfl, S1, S2, rfl, h2, ?_⟩
        rcases leafInsert_mem _ _ a b h with h | h
        · simp at h
        · exact h

theorem leafInvs_in (mode : Mode) (B : BinInv) : BinIn P.numFacts (leafInvs P t mode B) := by
  intro a b h
  obtain ⟨-, _, _, -, -, c, hc, h | h⟩ := leafInvs_mem h
  · rw [h.1, h.2]; exact rinReports_in _ _ c hc
  · rw [h.1, h.2]; exact (rinReports_in _ _ c hc).symm

theorem pruneFirst_unpruned (ht : t.OK P tot) (htot : ∀ m < P.numMethods, (tot m).Perm (List.range (P.sub m).length))
    (hall : AllMeth P) {S1 : Flags} (h : pruneFirst P t = some S1) {sel : Path → Sel} (hs : Consistent P t sel) :
    Unpruned t S1 sel := by
  obtain ⟨S', h1, -, h3, -⟩ := propAll_spec ht (fun p hp => ((mem_leaves ht).1 hp).1) (Flags.empty.set (leafAbs t))
  unfold pruneFirst at h
  rw [h1] at h
  obtain rfl := Option.some.inj h
  refine h3 sel hs fun f hf => ?_
  cases hc : Flags.empty.set (leafAbs t) f with
  | false => rfl
  | true =>
    rcases set_true.1 hc with h | h
    · exact absurd h (by simp [Flags.empty])
    · unfold leafAbs at h
      rw [List.mem_flatMap] at h
      obtain ⟨p, hp, h⟩ := h
      obtain ⟨⟨d, hd⟩, hnc⟩ := (mem_leaves ht).1 hp
      rw [hd] at h
      simp only [List.mem_map, List.mem_range] at h
      obtain ⟨a, -, rfl⟩ := h
      obtain ⟨m, hm⟩ := hf
      obtain ⟨d', e, x, hd', he, hx⟩ := hs.abs p a m hm
      exfalso
      have hne := children_ne ht htot hall he
      unfold T.nc at hnc
      rw [he] at hnc
      exact hne (List.length_eq_zero_iff.1 hnc)

theorem leafInvs_prefix (ht : t.OK P tot) (htot : ∀ m < P.numMethods, (tot m).Perm (List.range (P.sub m).length))
    (hall : AllMeth P) {mode : Mode} {sel : Path → Sel} (hna : mode = .h2 → ∀ a ∈ planOf t sel, NoClash P a)
    (hs : Consistent P t sel) (hx : Executable P t sel) (B : BinInv) (k : Nat) {st : State}
    (hex : Exec P P.initState ((t.leaves.take k).flatMap (actAt t sel)) st) : AllHold st (leafInvs P t mode B) := by
  intro a b h
  obtain ⟨hm, S1, S2, h1, h2, c, hc, h⟩ := leafInvs_mem h
  have hu1 := pruneFirst_unpruned ht htot hall h1 hs
  have hu2 : Unpruned t S2 sel := by
    obtain ⟨S', e, -, -, -, h5⟩ := filterRounds_spec ht (ffFilter P) (ffStart P) (unset P t S1 + 1) S1 (by omega)
    rw [h2] at e
    obtain rfl := Option.some.inj e
    obtain ⟨st', hx'⟩ := hx
    exact h5 (fun S => Unpruned t S sel) (fun S hS => filter_unpruned ht ffFilter_ok
      (fun f hf => by simpa [ffStart, Problem.initState] using hf) hs leaves_nodup hx' (fun _ _ => trivial) hS) hu1
  have := rinReports_prefix ht (hna hm) hs hx _ _ hu2 k st hex c hc
  rcases h with ⟨rfl, rfl⟩ | ⟨rfl, rfl⟩
  · exact this
  · exact this.symm

/-- What the formula for mutexes may rely on: the given groups and clauses only speak about existing facts and hold in
all states that are reached while the plan is executed. -/
def MutexOK (P : Problem) (o : SatOpts) (π : List Nat) : Prop :=
  ∀ G B, o.mutex = some (G, B) → GivenIn P.numFacts G ∧ BinIn P.numFacts B ∧
    ∀ π' s, π' <+: π → Exec P P.initState π' s → G.Ok s ∧ AllHold s B

theorem take_flatten_range {bl : List (List Nat)} {N : Nat} (h : bl.flatten = List.range N) (k : Nat) :
    ∃ m ≤ N, (bl.take k).flatten = List.range m := by
  have h1 : (bl.take k).flatten <+: List.range N := by
    rw [← h]
    conv_rhs => rw [← List.take_append_drop k bl, List.flatten_append]
    exact List.prefix_append _ _
  obtain ⟨m, hm⟩ : ∃ m, (bl.take k).flatten = (List.range N).take m := ⟨_, List.prefix_iff_eq_take.1 h1⟩
  refine ⟨min m N, Nat.min_le_right _ _, ?_⟩
  rw [hm, List.take_range]

/-- The actions of the first blocks are those of the first leaves. -/
theorem blocks_prefix {o : SatOpts} {sel : Path → Sel} (hsel : ∀ p ∈ t.leaves, selOf v (leafVars V t p) = actAt t sel p) (k : Nat) :
    ∃ m, ((blocksOf P o t S).take k).flatMap (fun b => selOf v (blockActs (t.leaves.map (leafVars V t)) b)) =
      (t.leaves.take m).flatMap (actAt t sel) := by
  obtain ⟨m, hm, hf⟩ := take_flatten_range (blocks_flatten (P := P) (t := t) (S := S) o) k
  refine ⟨m, ?_⟩
  have h1 : ∀ bl : List (List Nat), bl.flatMap (fun b => selOf v (blockActs (t.leaves.map (leafVars V t)) b)) =
      bl.flatten.flatMap fun l => selOf v ((t.leaves.map (leafVars V t))[l]?.getD []) := by
    intro bl
    induction bl with
    | nil => rfl
    | cons b bl ih =>
      rw [List.flatMap_cons, List.flatten_cons, List.flatMap_append, ih]
      congr 1
      unfold blockActs
      rw [selOf_flatMap]
  rw [h1, hf]
  have h2 : t.leaves.take m = (List.range m).map fun i => t.leaves[i]?.getD [] := by
    apply List.ext_getElem
    · simp [hm]
    · intro i hi1 hi2
      simp at hi1
      simp [List.getElem?_eq_getElem hi1.2]
  rw [h2, List.flatMap_map]
  refine List.flatMap_congr fun i hi => ?_
  have hi' : i < t.leaves.length := by rw [List.mem_range] at hi; omega
  rw [List.getElem?_map, List.getElem?_eq_getElem hi']
  simp only [Option.map_some, Option.getD_some]
  exact hsel _ (List.getElem_mem hi')

theorem mutexAll_ok {o : SatOpts} {π : List Nat} (hm : MutexOK P o π) {n : Nat} {bases : List Nat}
    (hb : ∀ b ∈ bases, 0 < b ∧ b + P.numFacts ≤ n + 1) : ∀ it ∈ mutexAll P o t bases, it.OK n := by
  intro it h
  unfold mutexAll at h
  cases ho : o.mutex with
  | none => rw [ho] at h; simp at h
  | some x =>
    obtain ⟨G, B⟩ := x
    rw [ho] at h
    obtain ⟨hG, hB, -⟩ := hm G B ho
    obtain ⟨b, hb', h⟩ := List.mem_flatMap.1 h
    exact mutexItems_ok hG hB (leafInvs_in _ _) (hb b hb').1 (hb b hb').2 it h

/-- The plan of every selection that uses nothing pruned is printed for some model. -/
theorem formula_complete (hP : P.WF) (ht : t.OK P tot) (htot : ∀ m < P.numMethods, (tot m).Perm (List.range (P.sub m).length))
    (hall : AllMeth P) {o : SatOpts} (hb : ∀ k, k ≤ 2 ^ o.bits k)
    (hS : ∀ q, LocalOK P t S q) {n1 : Nat} {V' : VM}
    {l : List Item} {r} (hp : Parts P o t n V S n1 V' l r) (hV : VMFull P t S n1 V') {sel : Path → Sel}
    (hs : Consistent P t sel) (hu : Unpruned t S sel) {s' : State} (hex : Exec P P.initState (planOf t sel) s')
    (hg : P.GoalState s') (hnc : ∀ a ∈ planOf t sel, NoClash P a) (hm : MutexOK P o (planOf t sel)) :
    ∃ w, satAll w ((emit o.bits n1 l).2 ++ (r.2.2 ++ (emit o.bits r.1 (mutexAll P o t r.2.1)).2)) ∧
      printed t V' w = planOf t sel := by
  obtain ⟨le1, le2, le3⟩ := hp.le
  obtain ⟨l', hl', hsem⟩ := treeItems_holds ht htot hall (fun q => (hS q).weak) hV hp.root
  rw [hp.tree] at hl'
  obtain rfl := Option.some.inj hl'
  have hok := treeItems_ok hV.vars (hV.one_le ht) hp.tree
  -- decomposition
  obtain ⟨w1, hw1, hsat1⟩ := (emit_sat hb l n1 hok (modelOf V' sel)).2 ((hsem _).2 (modelOf_sem ht (fun q => (hS q).weak) hV hs hu))
  have hleaf1 := model_leaf ht hV hs hu hw1
  have hpos := leafVars_pos (t := t) hV.vars
  have hprint : ∀ w : Assignment, (∀ i ≤ n1, w i = modelOf V' sel i) → printed t V' w = planOf t sel := by
    intro w hw
    unfold printed planOf
    exact List.flatMap_congr (model_leaf ht hV hs hu hw)
  -- states
  have hpu : ∀ p i, sel p = .prim i → S (.prim p i) = false := fun p i h => hu (.prim p i) h
  have hfl : (blocksOf P o t S).flatten = List.range (t.leaves.map (leafVars V' t)).length := by
    rw [List.length_map]; exact blocks_flatten o
  have hsel1 : selected w1 (t.leaves.map (leafVars V' t)) = planOf t sel := by rw [selected_printed]; exact hprint w1 hw1
  obtain ⟨w2, hw2, hsat2⟩ := stateFormula_complete_of hP hp.state (fun l hl e he => ⟨(hpos l hl e he).1, (hpos l hl e he).2.trans le1⟩)
    hfl w1 (by rw [hsel1]; exact hnc) (blocks_indep o hs hpu hleaf1) (by rw [hsel1]; exact hex) hg
  have hw2' : ∀ i ≤ n1, w2 i = modelOf V' sel i := fun i hi => (hw2 i (hi.trans le1)).trans (hw1 i hi)
  have hleaf2 := model_leaf ht hV hs hu hw2'
  -- mutexes
  obtain ⟨-, -, hr1, hr2⟩ := stateFormula_some hp.state
  have hbase : ∀ b ∈ r.2.1, 0 < b ∧ b + P.numFacts ≤ r.1 + 1 := by
    intro b hb'
    rw [hr2] at hb'
    obtain ⟨τ, hτ, rfl⟩ := List.mem_map.1 hb'
    rw [List.mem_range] at hτ
    refine ⟨stateBase_pos, ?_⟩
    rw [hr1]
    unfold stateBase
    have h1 : (τ + 1) * max 1 P.numFacts ≤ (blocksOf P o t S).length * max 1 P.numFacts := Nat.mul_le_mul_right _ hτ
    have h2 : P.numFacts ≤ max 1 P.numFacts := Nat.le_max_right _ _
    rw [Nat.add_mul] at h1 ⊢
    omega
  have hmok : ∀ it ∈ mutexAll P o t r.2.1, it.OK r.1 := mutexAll_ok hm hbase
  have hmh : ∀ it ∈ mutexAll P o t r.2.1, it.Holds w2 := by
    intro it h
    unfold mutexAll at h
    cases ho : o.mutex with
    | none => rw [ho] at h; simp at h
    | some x =>
      obtain ⟨G, B⟩ := x
      rw [ho] at h
      obtain ⟨hG, hB, hpre⟩ := hm G B ho
      obtain ⟨b, hb', h⟩ := List.mem_flatMap.1 h
      rw [hr2] at hb'
      obtain ⟨τ, hτ, rfl⟩ := List.mem_map.1 hb'
      rw [List.mem_range] at hτ
      have hst := stateFormula_states_of hP hp.state (fun l hl e he => (hpos l hl e he).1) hsat2
        (blocks_indep o hs hpu hleaf2) τ (Nat.le_of_lt hτ)
      obtain ⟨k, hk⟩ := blocks_prefix (P := P) (S := S) (o := o) hleaf2 τ
      rw [hk] at hst
      have hpf : (t.leaves.take k).flatMap (actAt t sel) <+: planOf t sel := by
        unfold planOf
        conv_rhs => rw [← List.take_append_drop k t.leaves, List.flatMap_append]
        exact List.prefix_append _ _
      obtain ⟨h1, h2⟩ := hpre _ _ hpf hst
      exact mutexItems_holds hG hB (leafInvs_in _ _) stateBase_pos h1 h2
        (leafInvs_prefix ht htot hall (fun _ => hnc) hs ⟨s', hex⟩ B k hst) it h
  obtain ⟨w3, hw3, hsat3⟩ := (emit_sat hb _ r.1 hmok w2).2 hmh
  refine ⟨w3, satAll_append.2 ⟨?_, satAll_append.2 ⟨?_, hsat3⟩⟩, hprint w3 fun i hi => ?_⟩
  · refine (satAll_agree (n := (emit o.bits n1 l).1) (v := w1) (fun i hi => ?_) (emit_ok hb l n1 hok)).2 hsat1
    rw [hw3 i (hi.trans le2), hw2 i hi]
  · refine (satAll_agree hw3 fun c hc => ?_).2 hsat2
    exact stateFormula_vars hP hp.state (fun l hl e he => ⟨(hpos l hl e he).1, (hpos l hl e he).2.trans le1⟩) c hc
  · rw [hw3 i ((hi.trans le1).trans le2), hw2' i hi]

end

end Verif.Pdt
