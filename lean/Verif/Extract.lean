import Verif.Record
import Mathlib.Data.List.Sort

/-! # Output of the solution

Model of `extractSolutionFromSearchNode` (src/ProgressionNetwork.cpp 160-210).  Lines are modelled as
tuples instead of text; names are replaced by the numbers of tasks and methods. -/

namespace Verif.Prog

open Verif.Htn Relation

/-- The printed solution: plan lines (number, action), the number after `root` (`none` is -1), and the
lines of the hierarchy (number, task, method, numbers of the children). -/
structure Printed where
  plan : List (Nat × Nat)
  root : Option Nat
  decs : List (Nat × Nat × Nat × List Nat)
deriving DecidableEq

/-- The local variables of the loop: `sol` (as lines), `decompositionStructure`, `children`, `root`. -/
structure Acc where
  plan : List (Nat × Nat)
  decs : List (Nat × Nat × Nat)
  children : Nat → List (Nat × Nat)
  root : Option Nat

/-- One iteration of the loop over the solution steps (src/ProgressionNetwork.cpp 172-192). -/
def accStep (P : Problem) (a : Acc) (x : SolStep) : Acc :=
  let a := match x.method with
    | some m => { a with decs := a.decs ++ [(x.inst, x.task, m)],
                         root := if x.task = P.init then some x.inst else a.root }
    | none => { a with plan := (x.inst, x.task) :: a.plan }
  if x.inst ≠ 0 then
    { a with children := Function.update a.children x.par (a.children x.par ++ [(x.pos, x.inst)]) }
  else a

/-- The order of `std::pair<int,int>`. -/
def stepLe (a b : Nat × Nat) : Prop := a.1 < b.1 ∨ (a.1 = b.1 ∧ a.2 ≤ b.2)

instance : DecidableRel stepLe := fun a b => by unfold stepLe; infer_instance

/-- `extractSolutionFromSearchNode` (src/ProgressionNetwork.cpp 160-210). -/
def extract (P : Problem) (sol : List SolStep) : Printed :=
  let a := if sol.length ≤ 1 then ⟨[], [], fun _ => [], none⟩
    else sol.foldl (accStep P) ⟨[], [], fun _ => [], none⟩
  { plan := a.plan
    root := a.root
    decs := a.decs.map fun d => (d.1, d.2.1, d.2.2, ((a.children d.1).insertionSort stepLe).map Prod.snd) }

variable {P : Problem} {cfg : Cfg}

/-! ## What the loop collects -/

theorem fold_acc (P : Problem) : ∀ (sol : List SolStep) (a : Acc),
    (sol.foldl (accStep P) a).plan =
      ((sol.filter fun x => x.method.isNone).map fun x => (x.inst, x.task)).reverse ++ a.plan ∧
    (sol.foldl (accStep P) a).decs = a.decs ++ sol.filterMap
      (fun x => x.method.map fun m => (x.inst, x.task, m)) ∧
    (∀ i, (sol.foldl (accStep P) a).children i = a.children i ++
      ((sol.filter fun x => decide (x.inst ≠ 0) && decide (x.par = i)).map fun x => (x.pos, x.inst))) := by
  intro sol
  induction sol with
  | nil => intro a; simp
  | cons x sol ih =>
    intro a
    obtain ⟨h1, h2, h3⟩ := ih (accStep P a x)
    rw [List.foldl_cons]
    refine ⟨?_, ?_, ?_⟩
    · rw [h1]
      cases hm : x.method <;> by_cases hi : x.inst = 0 <;> simp [accStep, hm, hi]
    · rw [h2]
      cases hm : x.method <;> by_cases hi : x.inst = 0 <;> simp [accStep, hm, hi]
    · intro i
      rw [h3 i]
      by_cases hp : i = x.par
      · subst hp
        cases hm : x.method <;> by_cases hi : x.inst = 0 <;> simp [accStep, hm, hi]
      · have hp' : ¬ x.par = i := fun e => hp e.symm
        cases hm : x.method <;> by_cases hi : x.inst = 0 <;>
          simp [accStep, hm, hi, hp', Function.update_of_ne hp]

theorem fold_root (P : Problem) (l : List SolStep) (r : SolStep) (a : Acc)
    (h1 : r.task = P.init) (h2 : r.method.isSome = true) :
    ((l ++ [r]).foldl (accStep P) a).root = some r.inst := by
  rw [List.foldl_append]
  obtain ⟨m, hm⟩ := Option.isSome_iff_exists.1 h2
  by_cases hi : r.inst = 0 <;> simp [accStep, hm, hi, h1]

theorem stepLe_trans {a b c : Nat × Nat} (h1 : stepLe a b) (h2 : stepLe b c) : stepLe a c := by
  unfold stepLe at *; omega

theorem stepLe_total (a b : Nat × Nat) : stepLe a b ∨ stepLe b a := by
  unfold stepLe; omega

theorem stepLe_antisymm {a b : Nat × Nat} (h1 : stepLe a b) (h2 : stepLe b a) : a = b := by
  unfold stepLe at *
  ext <;> omega

instance : IsTrans (Nat × Nat) stepLe := ⟨fun _ _ _ => stepLe_trans⟩
instance : Std.Total stepLe := ⟨stepLe_total⟩
instance : Std.Antisymm stepLe := ⟨fun _ _ => stepLe_antisymm⟩

/-- Two lists with the same elements, both without repetitions, are sorted to the same list. -/
theorem sort_eq {l l' : List (Nat × Nat)} (h1 : l.Nodup) (h2 : l'.Pairwise stepLe) (h3 : l'.Nodup)
    (h : ∀ x, x ∈ l ↔ x ∈ l') : l.insertionSort stepLe = l' := by
  have hp : (l.insertionSort stepLe).Perm l' :=
    (List.perm_insertionSort _ _).trans ((List.perm_ext_iff_of_nodup h1 h3).2 h)
  exact hp.eq_of_pairwise (le := stepLe) (fun a b _ _ => stepLe_antisymm)
    (List.pairwise_insertionSort _ _) h2

/-! ## Subtrees -/

/-- `SubAt P tr p t`: the subtree of `tr` at position `p` is `t`. -/
inductive SubAt (P : Problem) : Tree → List Nat → Tree → Prop
  | here {t : Tree} : SubAt P t [] t
  | child {m : Nat} {cs : Nat → Tree} {i : Nat} {p : List Nat} {t : Tree} :
      i < (P.sub m).length → SubAt P (cs i) p t → SubAt P (.node m cs) (i :: p) t

theorem SubAt.snoc {tr : Tree} {p : List Nat} {m : Nat} {cs : Nat → Tree} {i : Nat}
    (h : SubAt P tr p (.node m cs)) (hi : i < (P.sub m).length) : SubAt P tr (p ++ [i]) (cs i) := by
  generalize ht : Tree.node m cs = t at h
  induction h with
  | here => subst ht; exact .child hi .here
  | child hj _ ih => exact .child hj (ih ht)

theorem leafAt_iff {tr : Tree} {p : List Nat} {a : Nat} : LeafAt P tr p a ↔ SubAt P tr p (.leaf a) := by
  constructor
  · intro h
    induction h with
    | here => exact .here
    | child hi _ ih => exact .child hi ih
  · intro h
    generalize ht : Tree.leaf a = t at h
    induction h with
    | here => subst ht; exact .here
    | child hi _ ih => exact .child hi (ih ht)

theorem SubAt.fun {tr : Tree} {p : List Nat} {t t' : Tree} (h : SubAt P tr p t) (h' : SubAt P tr p t') :
    t = t' := by
  induction h with
  | here => cases h'; rfl
  | child _ _ ih => cases h' with | child _ h' => exact ih h'

/-- Forced orderings come from a common ancestor. -/
theorem before_sub {tr : Tree} {p q : List Nat} (h : Before P tr p q) {t : Tree} (ht : SubAt P tr p t) :
    ∃ c m cs i j p' q', SubAt P tr c (.node m cs) ∧ p = c ++ i :: p' ∧ q = c ++ j :: q' ∧
      TransGen (P.OrdRel m) i j := by
  induction h with
  | @same m cs i p q h ih =>
    cases ht with
    | child hi ht =>
      obtain ⟨c, m', cs', i', j', p', q', h1, h2, h3, h4⟩ := ih ht
      exact ⟨i :: c, m', cs', i', j', p', q', .child hi h1, by rw [h2]; rfl, by rw [h3]; rfl, h4⟩
  | @diff m cs i j p q h => exact ⟨[], m, cs, i, j, p, q, .here, rfl, rfl, h⟩

/-! ## The tree described by the records -/

variable {h : Heap} {inst : Nat} {I : Finset Nat} {l : List SolStep} {r : SolStep}

/-- The tree agrees with the records, where `p` is the position of its root. -/
def Labels (P : Problem) (l : List SolStep) (r : SolStep) : Tree → List Nat → Prop
  | .leaf a, p => ∃ x ∈ l ++ [r], PathTo l r x.inst p ∧ x.method = none ∧ x.task = a
  | .node m cs, p => (∃ x ∈ l ++ [r], PathTo l r x.inst p ∧ x.method = some m) ∧
      ∀ i < (P.sub m).length, Labels P l r (cs i) (p ++ [i])

theorem Rec.child (R : Rec P h inst ∅ l r) {x : SolStep} (hx : x ∈ l ++ [r]) {m} (hm : x.method = some m)
    {p} (hp : PathTo l r x.inst p) {k} (hk : k < (P.sub m).length) :
    ∃ z ∈ l, z.par = x.inst ∧ z.pos = k ∧ x.inst < z.inst ∧ PathTo l r z.inst (p ++ [k]) ∧
      (P.sub m)[k]? = some z.task := by
  rcases R.fill x hx m hm k hk with ⟨z, hz, h1, h2⟩ | ⟨u, hu, -⟩
  · obtain ⟨d, hd, m', hm', e1, e2, e3⟩ := R.own z hz
    obtain rfl := R.inst_inj hd hx (e1.trans h1)
    obtain rfl : m = m' := by rw [hm] at hm'; exact Option.some.inj hm'
    refine ⟨z, hz, h1, h2, e2, ?_, by rw [← h2]; exact e3⟩
    rw [← h2]; exact .child hz (by rw [h1]; exact hp)
  · simp at hu

theorem Rec.tree (R : Rec P h inst ∅ l r) : ∀ (k : Nat) (x : SolStep), x ∈ l ++ [r] → inst - x.inst ≤ k →
    ∀ p, PathTo l r x.inst p → ∃ tr, Valid P x.task tr ∧ Labels P l r tr p := by
  intro k
  induction k with
  | zero => intro x hx hk; have := R.lt x hx; omega
  | succ k ih =>
    intro x hx hk p hp
    cases hm : x.method with
    | none => exact ⟨.leaf x.task, .leaf (R.prim x hx hm), x, hx, hp, hm, rfl⟩
    | some m =>
      have hch : ∀ i, ∃ tr, i < (P.sub m).length →
          Labels P l r tr (p ++ [i]) ∧ ∀ t, (P.sub m)[i]? = some t → Valid P t tr := by
        intro i
        by_cases hi : i < (P.sub m).length
        · obtain ⟨z, hz, h1, h2, h3, h4, h5⟩ := R.child hx hm hp hi
          have := R.lt z (List.mem_append_left _ hz)
          obtain ⟨tr, hv, hl⟩ := ih z (List.mem_append_left _ hz) (by omega) _ h4
          refine ⟨tr, fun _ => ⟨hl, fun t ht => ?_⟩⟩
          rw [h5] at ht
          rw [← Option.some.inj ht]; exact hv
        · exact ⟨.leaf 0, fun h => absurd h hi⟩
      choose cs hcs using hch
      obtain ⟨hmn, hhead⟩ := R.meth x hx m hm
      refine ⟨.node m cs, ?_, ⟨x, hx, hp, hm⟩, fun i hi => (hcs i hi).1⟩
      rw [← hhead]
      refine .node hmn fun i t ht => ?_
      have hi : i < (P.sub m).length := (List.getElem?_eq_some_iff.1 ht).1
      exact (hcs i hi).2 t ht

theorem Labels.sub {tr : Tree} {p q : List Nat} {t : Tree} (hl : Labels P l r tr p) (h : SubAt P tr q t) :
    Labels P l r t (p ++ q) := by
  induction h generalizing p with
  | here => simpa using hl
  | @child m cs i q t hi _ ih =>
    have := ih (hl.2 i hi)
    simpa using this

/-- Every record occurs in the tree. -/
theorem Labels.path {J : Finset Nat} (R : Rec P h inst J l r) {tr : Tree} (hl : Labels P l r tr []) {i p}
    (hp : PathTo l r i p) : ∃ t, SubAt P tr p t := by
  induction hp with
  | root => exact ⟨tr, .here⟩
  | @child x p hx hp ih =>
    obtain ⟨t, ht⟩ := ih
    obtain ⟨d, hd, m, hm, e1, e2, e3⟩ := R.own x hx
    have hk : x.pos < (P.sub m).length := (List.getElem?_eq_some_iff.1 e3).1
    have hlt := hl.sub ht
    rw [List.nil_append] at hlt
    cases t with
    | leaf a =>
      obtain ⟨z, hz, hzp, hzn, -⟩ := hlt
      have : z = d := R.inst_inj hz hd (by rw [e1]; exact PathTo.inj R hzp hp)
      rw [this, hm] at hzn; simp at hzn
    | node m' cs =>
      obtain ⟨⟨z, hz, hzp, hzm⟩, -⟩ := hlt
      have : z = d := R.inst_inj hz hd (by rw [e1]; exact PathTo.inj R hzp hp)
      obtain rfl : m = m' := by rw [this, hm] at hzm; exact Option.some.inj hzm
      exact ⟨_, ht.snoc hk⟩

/-- What stands at the position of a record. -/
theorem Labels.at {J : Finset Nat} (R : Rec P h inst J l r) {tr : Tree} (hl : Labels P l r tr [])
    {x : SolStep} (hx : x ∈ l ++ [r]) {p} (hp : PathTo l r x.inst p) :
    (∀ m, x.method = some m → ∃ cs, SubAt P tr p (.node m cs)) ∧
      (x.method = none → SubAt P tr p (.leaf x.task)) := by
  obtain ⟨t, ht⟩ := hl.path R hp
  have hlt := hl.sub ht
  rw [List.nil_append] at hlt
  cases t with
  | leaf a =>
    obtain ⟨z, hz, hzp, hzn, e⟩ := hlt
    obtain rfl : z = x := R.inst_inj hz hx (PathTo.inj R hzp hp)
    exact ⟨fun m hm => by rw [hzn] at hm; simp at hm, fun _ => by rw [e]; exact ht⟩
  | node m cs =>
    obtain ⟨⟨z, hz, hzp, hzm⟩, -⟩ := hlt
    obtain rfl : z = x := R.inst_inj hz hx (PathTo.inj R hzp hp)
    refine ⟨fun m' hm => ?_, fun hn => by rw [hzm] at hn; simp at hn⟩
    obtain rfl : m = m' := by rw [hzm] at hm; exact Option.some.inj hm
    exact ⟨cs, ht⟩

theorem bef_of_before {J : Finset Nat} (R : Rec P h inst J l r) {tr : Tree} (hl : Labels P l r tr [])
    {p q : List Nat} {t : Tree} (ht : SubAt P tr p t) (hb : Before P tr p q) : Bef P l r p q := by
  obtain ⟨c, m, cs, i, j, p', q', h1, h2, h3, h4⟩ := before_sub hb ht
  have := hl.sub h1
  rw [List.nil_append] at this
  obtain ⟨⟨x, hx, hp, hm⟩, -⟩ := this
  exact ⟨c, x, m, i, j, p', q', hx, hm, hp, h2, h3, h4⟩

/-! ## The printed solution describes the tree -/

/-- `out` describes the decomposition tree `tr` whose leaves are executed in the order `occ`; `num`
gives the number printed for each position. -/
structure Describes (P : Problem) (out : Printed) (tr : Tree) (num : List Nat → Nat)
    (occ : List (List Nat)) : Prop where
  inj : ∀ p q t t', SubAt P tr p t → SubAt P tr q t' → num p = num q → p = q
  root : out.root = some (num [])
  plan : out.plan.map Prod.fst = occ.map num
  lin : Linearises P tr occ (out.plan.map Prod.snd)
  decs : ∃ nodes : List (List Nat × Nat), nodes.Nodup ∧
    (∀ p m, (p, m) ∈ nodes ↔ ∃ cs, SubAt P tr p (.node m cs)) ∧
    out.decs = nodes.map fun pm =>
      (num pm.1, P.head pm.2, pm.2, (List.range (P.sub pm.2).length).map fun i : Nat => num (pm.1 ++ [i]))

theorem extract_of_two {sol : List SolStep} (hs : 1 < sol.length) :
    extract P sol =
      let a := sol.foldl (accStep P) ⟨[], [], fun _ => [], none⟩
      { plan := a.plan, root := a.root, decs := a.decs.map fun d =>
          (d.1, d.2.1, d.2.2, ((a.children d.1).insertionSort stepLe).map Prod.snd) } := by
  unfold extract
  rw [if_neg (by omega)]

/-- The children printed for a record. -/
theorem Rec.children (R : Rec P h inst ∅ l r) (hr0 : r.par = 0) {x : SolStep} (hx : x ∈ l ++ [r]) {m}
    (hm : x.method = some m) {p} (hp : PathTo l r x.inst p) {num : List Nat → Nat}
    (hnum : ∀ i p, PathTo l r i p → num p = i) :
    (((l ++ [r]).filter fun z => decide (z.inst ≠ 0) && decide (z.par = x.inst)).map
      fun z => (z.pos, z.inst)).insertionSort stepLe =
    (List.range (P.sub m).length).map fun i : Nat => (i, num (p ++ [i])) := by
  have hroot : ∀ z ∈ l ++ [r], r.inst ≤ z.inst := by
    intro z hz
    rcases List.mem_append.1 hz with hz | hz
    · exact Nat.le_of_lt (R.root_lt hz)
    · rw [List.mem_singleton.1 hz]
  apply sort_eq
  · have hnd : (l ++ [r]).Nodup := R.desc.imp fun h e => by subst e; exact absurd h (Nat.lt_irrefl _)
    refine (List.nodup_map_iff_inj_on (hnd.filter _)).2 fun a ha b hb e => ?_
    simp only [Prod.mk.injEq] at e
    exact R.inst_inj (List.mem_of_mem_filter ha) (List.mem_of_mem_filter hb) e.2
  · rw [List.pairwise_map]
    refine List.pairwise_lt_range.imp fun h => ?_
    left; exact h
  · refine List.nodup_range.map fun a b e => ?_
    simp only [Prod.mk.injEq] at e
    exact e.1
  · intro y
    simp only [List.mem_map, List.mem_filter, Bool.and_eq_true, decide_eq_true_eq, List.mem_range]
    constructor
    · rintro ⟨z, ⟨hz, hz0, hzx⟩, rfl⟩
      have hzl : z ∈ l := by
        rcases List.mem_append.1 hz with hz | hz
        · exact hz
        · obtain rfl := List.mem_singleton.1 hz
          have := hroot x hx
          rw [← hzx, hr0] at this
          exact absurd (Nat.le_zero.1 this) hz0
      obtain ⟨d, hd, m', hm', e1, e2, e3⟩ := R.own z hzl
      obtain rfl := R.inst_inj hd hx (e1.trans hzx)
      obtain rfl : m = m' := by rw [hm] at hm'; exact Option.some.inj hm'
      refine ⟨z.pos, (List.getElem?_eq_some_iff.1 e3).1, ?_⟩
      rw [hnum z.inst _ (.child hzl (by rw [hzx]; exact hp))]
    · rintro ⟨i, hi, rfl⟩
      obtain ⟨z, hz, h1, h2, h3, h4, -⟩ := R.child hx hm hp hi
      exact ⟨z, ⟨List.mem_append_left _ hz, by omega, h1⟩, by rw [h2, hnum _ _ h4]⟩

theorem Rec.describes (hP : P.WF) (R : Rec P h inst ∅ l r) (hr0 : r.par = 0) :
    ∃ tr num occ, Valid P P.init tr ∧ Describes P (extract P (l ++ [r])) tr num occ ∧
      (extract P (l ++ [r])).plan.map Prod.snd = planOf (l ++ [r]) := by
  classical
  have hrm : r ∈ l ++ [r] := by simp
  obtain ⟨tr, hv, hl⟩ := R.tree (inst - r.inst) r hrm (Nat.le_refl _) [] .root
  rw [R.root.1] at hv
  -- numbers and positions
  obtain ⟨num, hnum⟩ : ∃ num : List Nat → Nat, ∀ i p, PathTo l r i p → num p = i := by
    refine ⟨fun p => if hp : ∃ i, PathTo l r i p then hp.choose else 0, fun i p hp => ?_⟩
    have : ∃ i, PathTo l r i p := ⟨i, hp⟩
    simp only [this, dif_pos]
    exact PathTo.inj R this.choose_spec hp
  obtain ⟨pos, hpos⟩ : ∃ pos : SolStep → List Nat, ∀ x ∈ l ++ [r], PathTo l r x.inst (pos x) := by
    choose! f hf using R.path
    exact ⟨f, hf⟩
  have hpinj : ∀ x ∈ l ++ [r], ∀ y ∈ l ++ [r], pos x = pos y → x = y := fun x hx y hy e =>
    R.inst_inj hx hy (PathTo.inj R (hpos x hx) (by rw [e]; exact hpos y hy))
  have hleaf : ∀ p a, SubAt P tr p (.leaf a) → ∃ x ∈ l ++ [r], x.method = none ∧ pos x = p ∧ x.task = a := by
    intro p a hs
    obtain ⟨x, hx, h1, h2, h3⟩ := hl.sub hs
    rw [List.nil_append] at h1
    exact ⟨x, hx, h2, PathTo.fun R (hpos x hx) h1, h3⟩
  have hnode : ∀ p m cs, SubAt P tr p (.node m cs) → ∃ x ∈ l ++ [r], x.method = some m ∧ pos x = p := by
    intro p m cs hs
    obtain ⟨⟨x, hx, h1, h2⟩, -⟩ := hl.sub hs
    rw [List.nil_append] at h1
    exact ⟨x, hx, h2, PathTo.fun R (hpos x hx) h1⟩
  have hall : ∀ p t, SubAt P tr p t → ∃ x ∈ l ++ [r], pos x = p := by
    intro p t hs
    cases t with
    | leaf a => obtain ⟨x, hx, -, e, -⟩ := hleaf p a hs; exact ⟨x, hx, e⟩
    | node m cs => obtain ⟨x, hx, -, e⟩ := hnode p m cs hs; exact ⟨x, hx, e⟩
  -- more than one record
  have hlen : 1 < (l ++ [r]).length := by
    obtain ⟨m, hm⟩ := Option.isSome_iff_exists.1 R.root.2
    obtain ⟨z, hz, -⟩ := R.child hrm hm .root
      (List.length_pos_of_ne_nil (hP.sub_ne m (R.meth r hrm m hm).1))
    have := List.length_pos_of_mem hz
    simp; omega
  have hnd : (l ++ [r]).Nodup := R.desc.imp fun h e => by subst e; exact absurd h (Nat.lt_irrefl _)
  obtain ⟨f1, f2, f3⟩ := fold_acc P (l ++ [r]) ⟨[], [], fun _ => [], none⟩
  have f4 := fold_root P l r ⟨[], [], fun _ => [], none⟩ R.root.1 R.root.2
  set acts := (l ++ [r]).filter fun x => x.method.isNone with hacts
  have hmacts : ∀ x, x ∈ acts ↔ x ∈ l ++ [r] ∧ x.method = none := by
    intro x; rw [hacts, List.mem_filter, Option.isNone_iff_eq_none]
  set nds := (l ++ [r]).filterMap fun x => x.method.map fun m => (pos x, m) with hnds
  have hplan : (extract P (l ++ [r])).plan = acts.reverse.map fun x => (x.inst, x.task) := by
    rw [extract_of_two hlen]
    simp only [f1, List.append_nil, ← List.map_reverse]
  have hactl : ∀ x ∈ acts, x ∈ l := by
    intro x hx
    obtain ⟨hx, hn⟩ := (hmacts x).1 hx
    rcases List.mem_append.1 hx with hx | hx
    · exact hx
    · obtain rfl := List.mem_singleton.1 hx
      have := R.root.2
      rw [hn] at this; simp at this
  refine ⟨tr, num, acts.reverse.map pos, hv, ?_, ?_⟩
  · refine ⟨?_, ?_, ?_, ⟨?_, ?_, ?_, ?_⟩, nds, ?_, ?_, ?_⟩
    · intro p q t t' hp hq e
      obtain ⟨x, hx, rfl⟩ := hall p t hp
      obtain ⟨y, hy, rfl⟩ := hall q t' hq
      rw [hnum _ _ (hpos x hx), hnum _ _ (hpos y hy)] at e
      rw [R.inst_inj hx hy e]
    · rw [extract_of_two hlen]
      simp only [f4, hnum _ _ (PathTo.root (l := l) (r := r))]
    · rw [hplan, List.map_map, List.map_map]
      refine List.map_congr_left fun x hx => ?_
      have hx := ((hmacts x).1 (List.mem_reverse.1 hx)).1
      simp only [Function.comp, hnum _ _ (hpos x hx)]
    · refine (List.nodup_map_iff_inj_on ?_).2 fun x hx y hy e => ?_
      · exact List.nodup_reverse.2 (hnd.filter _)
      · exact hpinj x ((hmacts x).1 (List.mem_reverse.1 hx)).1 y ((hmacts y).1 (List.mem_reverse.1 hy)).1 e
    · intro p
      simp only [List.mem_map, List.mem_reverse, leafAt_iff]
      constructor
      · rintro ⟨x, hx, rfl⟩
        obtain ⟨hx, hn⟩ := (hmacts x).1 hx
        exact ⟨_, (hl.at R hx (hpos x hx)).2 hn⟩
      · rintro ⟨a, ha⟩
        obtain ⟨x, hx, hn, e, -⟩ := hleaf p a ha
        exact ⟨x, (hmacts x).2 ⟨hx, hn⟩, e⟩
    · rw [List.pairwise_map, List.pairwise_reverse]
      have hd : acts.Pairwise (fun a b => b.inst < a.inst) := R.desc.sublist List.filter_sublist
      refine hd.imp_of_mem fun {x y} hx hy hlt hb => ?_
      have hx' := (hmacts x).1 hx
      have hy' := (hmacts y).1 hy
      exact R.ordS x (hactl x hx) y (hactl y hy) hx'.2 hy'.2 hlt _ _ (hpos x hx'.1) (hpos y hy'.1)
        (bef_of_before R hl ((hl.at R hx'.1 (hpos x hx'.1)).2 hx'.2) hb)
    · rw [hplan, List.map_map, List.forall₂_map_left_iff, List.forall₂_map_right_iff]
      refine List.forall₂_same.2 fun x hx => ?_
      obtain ⟨hx, hn⟩ := (hmacts x).1 (List.mem_reverse.1 hx)
      exact leafAt_iff.2 ((hl.at R hx (hpos x hx)).2 hn)
    · rw [hnds, List.Nodup, List.pairwise_filterMap]
      refine hnd.imp_of_mem fun {x y} hx hy hne a ha b hb e => hne ?_
      simp only [Option.map_eq_some_iff] at ha hb
      obtain ⟨_, -, rfl⟩ := ha
      obtain ⟨_, -, rfl⟩ := hb
      exact hpinj x hx y hy (congrArg Prod.fst e)
    · intro p m
      simp only [hnds, List.mem_filterMap, Option.map_eq_some_iff, Prod.mk.injEq]
      constructor
      · rintro ⟨x, hx, m', hm, rfl, rfl⟩
        exact (hl.at R hx (hpos x hx)).1 m' hm
      · rintro ⟨cs, hs⟩
        obtain ⟨x, hx, hm, e⟩ := hnode p m cs hs
        exact ⟨x, hx, m, hm, e, rfl⟩
    · rw [extract_of_two hlen]
      simp only [f2, f3, List.nil_append, hnds, List.map_filterMap]
      refine List.filterMap_congr fun x hx => ?_
      cases hm : x.method with
      | none => rfl
      | some m =>
        simp only [Option.map_some, Option.some.injEq, Prod.mk.injEq]
        refine ⟨(hnum _ _ (hpos x hx)).symm, (R.meth x hx m hm).2.symm, trivial, ?_⟩
        rw [R.children hr0 hx hm (hpos x hx) hnum, List.map_map]
        rfl
  · rw [hplan, List.map_map, planOf, hacts, ← List.filter_reverse]
    generalize (l ++ [r]).reverse = L
    induction L with
    | nil => rfl
    | cons x L ih => cases hm : x.method <;> simp [hm, ih]

/-- The output for a goal node. -/
theorem Reached.describes (hP : P.WF) (hcfg : cfg.Ok) {g n} (hr : Reached P cfg g n)
    (hg : isGoal P n = true) :
    ∃ tr num occ, Valid P P.init tr ∧ Describes P (extract P n.sol) tr num occ ∧
      (extract P n.sol).plan.map Prod.snd = planOf n.sol := by
  have hn := hr.ninv hP hcfg
  obtain ⟨hf, -⟩ := isGoal_iff.1 hg
  have hl : live g.heap n = ∅ := by
    ext v; rw [mem_live hn.good.heap hn.good.node.lt, hf]; simp [ReachFrom]
  rcases hr.recorded hP hcfg with ⟨-, u, hu, -⟩ | ⟨l, r, e, hr0, R⟩
  · rw [hl] at hu; exact absurd hu (Finset.singleton_ne_empty u).symm
  · rw [hl] at R
    rw [e]
    exact R.describes hP hr0

end Verif.Prog
