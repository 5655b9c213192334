import Verif.SatPrint
import Verif.PoLoop

/-! # Model of the output of the SAT planner (src/sat/sat_planner.cpp 35-128, src/sat/pdt.cpp 620-688), partially ordered problems

`assignOutputNumbers` numbers actions and abstract tasks, parents first; then the actions are printed in the order of the
positions they are matched with, with the numbers of the leaves; then `printDecomposition` prints one line per abstract
task. -/

namespace Verif.Pdt

open Verif.Htn Verif.Sog Verif.Sat Verif.Inv Relation

/-- `leafsWithTask` (sat_planner.cpp 98-117): the leaves in the order in which their actions are printed, and the actions. -/
def matchedPO (o : POut) (M : MData) (w : Assignment) : List (Nat × Nat) :=
  (List.range M.steps).flatMap fun p => (M.acts.filter fun a => w (M.pv p a)).flatMap fun a =>
    ((List.range M.vs.length).filter fun l => w (M.mv l p) && o.task (M.leaf l) == some a).map fun l => (l, a)

/-- The printed actions (sat_planner.cpp 111).  A leaf with a task has a number (pdt.cpp 629-630), so `outputID` is never -1
where it is printed. -/
def actsPO (o : POut) (M : MData) (w : Assignment) : List (Nat × Nat) :=
  (matchedPO o M w).map fun e => ((o.id (M.leaf e.1)).getD 0, e.2)

/-- The numbers for partially ordered problems (sat_planner.cpp 66, 95). -/
def outPO (P : Problem) (t : T) (V : VM) (w : Assignment) : POut := assignOut P t V w t.K [] .start

/-- `printSolution` (sat_planner.cpp 66-123) for partially ordered problems. -/
def satOutPO (P : Problem) (t : T) (V : VM) (M : MData) (w : Assignment) : SatOut :=
  ⟨actsPO (outPO P t V w) M w, (outPO P t V w).id [], decLines P t (outPO P t V w) t.K []⟩

/-! ## What is read back -/

/-- The printed lines describe a decomposition whose leaf at position `l` has the number `ν l`: the line of an action is a
leaf; the line of an abstract task has a method of the task and, in some order, the lines of the subtasks of the method. -/
inductive ReadsPO (P : Problem) (acts : List (Nat × Nat)) (decs : List DLine) : Nat → Tree → (List Nat → Nat) → Prop
  | leaf {k a : Nat} {ν : List Nat → Nat} : (k, a) ∈ acts → ν [] = k → ReadsPO P acts decs k (.leaf a) ν
  | node {k m : Nat} {cs : Nat → Tree} {κ : Nat → Nat} {subs : List Nat} {ν : List Nat → Nat} :
      ⟨k, P.head m, some m, subs⟩ ∈ decs → subs.Perm ((List.range (P.sub m).length).map κ) →
      (∀ i < (P.sub m).length, ReadsPO P acts decs (κ i) (cs i) fun l => ν (i :: l)) → ReadsPO P acts decs k (.node m cs) ν

section
variable {P : Problem} {tot : Nat → List Nat} {t : T} {V : VM} {w : Assignment} {sel : Path → Sel}

theorem ReadsPO.mono {acts : List (Nat × Nat)} {decs decs' : List DLine} (h : ∀ l ∈ decs, l ∈ decs') {k : Nat} {tr : Tree} {ν : List Nat → Nat}
    (hr : ReadsPO P acts decs k tr ν) : ReadsPO P acts decs' k tr ν := by
  induction hr with
  | leaf h e => exact .leaf h e
  | node h1 h2 _ ih => exact .node (h _ h1) h2 ih

/-! ## The numbers -/

/-- The vertices that get numbers. -/
def isN (t : T) (sel : Path → Sel) (p : Path) : Bool := isA sel p || (isP sel p && t.nc p == 0)

theorem isA_not_isP {p : Path} (h : isA sel p = true) : isP sel p = false := by
  unfold isA at h
  unfold isP
  cases hp : sel p <;> simp [hp] at h ⊢

/-- A leaf with an action gets the next number and the action. -/
theorem assignAt_prim (hs : Shows P t V w sel) {p : Path} (hP : isP sel p = true) (h0 : t.nc p = 0) (o : POut) :
    ∃ a, actAt t sel p = [a] ∧ assignAt P t V w p o = ⟨upd o.id p o.cur, upd o.task p a, o.meth, o.cur + 1⟩ := by
  cases hp : sel p with
  | none => simp [isP, hp] at hP
  | abs a m => simp [isP, hp] at hP
  | prim i =>
    obtain ⟨d, x, hd, hx⟩ := hs.cons.prim p i hp
    obtain ⟨hi, -⟩ := List.getElem?_eq_some_iff.1 hx
    refine ⟨d.prims.getD i 0, by unfold actAt; rw [hd, hp], ?_⟩
    unfold assignAt
    rw [hd]
    simp only
    have h1 : assignPrims t V w p d o = o.give p (d.prims.getD i 0) := by
      unfold assignPrims
      rw [if_pos h0]
      refine foldl_one _ List.nodup_range _ _ i (List.mem_range.2 hi) (fun j hj => ?_) o
      rw [hs.prim p d hd j (List.mem_range.1 hj), hp]
      simp [eq_comm]
    rw [h1]
    unfold assignAbs
    rw [foldl_none _ _ _ (fun a ha => ?_)]
    · rfl
    · rw [← Bool.not_eq_true, hs.abs p d hd a (List.mem_range.1 ha)]
      rintro ⟨m, h⟩
      rw [hp] at h
      simp at h

/-- A vertex that gets a number gets the next one. -/
theorem step_num (hs : Shows P t V w sel) {p : Path} (hN : isN t sel p = true) {o : POut} (h0 : o.id p = none) :
    ∃ x μ, step P t V w o p = ⟨upd o.id p o.cur, upd o.task p x, μ, o.cur + 1⟩ ∧ (∀ q, q ≠ p → μ q = o.meth q) ∧
      (∀ y m, LineAt P t sel p y m → x = y ∧ μ p = some m) ∧ (isP sel p = true → actAt t sel p = [x]) := by
  cases hA : isA sel p with
  | true =>
    obtain ⟨x, m, hl⟩ := lineAt_of hs.cons hA
    refine ⟨x, _, step_abs hs hl h0, fun q hq => upd_ne hq, fun y m' hl' => ?_, fun h => ?_⟩
    · obtain ⟨d, a, m, e1, e2, e3, e4⟩ := hl
      obtain ⟨d', a', mm, f1, f2, f3, f4⟩ := hl'
      rw [e1] at f1
      simp only [Sel.abs.injEq] at f1
      obtain ⟨rfl, rfl⟩ := f1
      rw [e2] at f2
      obtain rfl := Option.some.inj f2
      rw [e3] at f3
      obtain rfl := Option.some.inj f3
      rw [e4] at f4
      obtain rfl := Option.some.inj f4
      exact ⟨rfl, upd_self _ _ _⟩
    · rw [isA_not_isP hA] at h
      simp at h
  | false =>
    unfold isN at hN
    rw [hA, Bool.false_or, Bool.and_eq_true, beq_iff_eq] at hN
    obtain ⟨a, h1, h2⟩ := assignAt_prim hs hN.1 hN.2 o
    refine ⟨a, o.meth, ?_, fun q _ => rfl, fun y m hl => ?_, fun _ => h1⟩
    · unfold step
      rw [h0]
      exact h2
    · rw [hl.isA] at hA
      simp at hA

theorem step_skip (hs : Shows P t V w sel) {p : Path} (hN : isN t sel p = false) (o : POut) : step P t V w o p = o := by
  unfold isN at hN
  rw [Bool.or_eq_false_iff] at hN
  unfold step
  split
  · rfl
  · refine assignAt_other hs hN.1 (fun h h0 => ?_) o
    rw [h, h0] at hN
    simp at hN

theorem stepsPO_spec (hs : Shows P t V w sel) : ∀ (ps : List Path), ps.Nodup → ∀ (o : POut), (∀ q ∈ ps, o.id q = none) →
    (∀ q, (ps.foldl (step P t V w) o).id q =
      if q ∈ ps.filter (isN t sel) then some (o.cur + (ps.filter (isN t sel)).idxOf q) else o.id q) ∧
    (∀ q, q ∉ ps.filter (isN t sel) → (ps.foldl (step P t V w) o).task q = o.task q ∧ (ps.foldl (step P t V w) o).meth q = o.meth q) ∧
    ∀ q ∈ ps.filter (isN t sel), (∀ x m, LineAt P t sel q x m → (ps.foldl (step P t V w) o).task q = some x ∧
        (ps.foldl (step P t V w) o).meth q = some m) ∧
      (isP sel q = true → ∃ a, (ps.foldl (step P t V w) o).task q = some a ∧ actAt t sel q = [a]) := by
  intro ps
  induction ps with
  | nil => intro _ o _; simp
  | cons p ps ih =>
    intro hnd o h0
    rw [List.nodup_cons] at hnd
    cases hp : isN t sel p with
    | false =>
      have he : (p :: ps).filter (isN t sel) = ps.filter (isN t sel) := by rw [List.filter_cons, hp]; simp
      rw [List.foldl_cons, he, step_skip hs hp]
      exact ih hnd.2 o (fun q hq => h0 q (List.mem_cons_of_mem _ hq))
    | true =>
      obtain ⟨x, μ, hst, hμ, hl, ha⟩ := step_num hs hp (h0 p List.mem_cons_self)
      have he : (p :: ps).filter (isN t sel) = p :: ps.filter (isN t sel) := by rw [List.filter_cons, hp]; simp
      have hpn : p ∉ ps.filter (isN t sel) := fun h => hnd.1 (List.mem_filter.1 h).1
      rw [List.foldl_cons, he, hst]
      obtain ⟨h1, h2, h3⟩ := ih hnd.2 ⟨upd o.id p o.cur, upd o.task p x, μ, o.cur + 1⟩ (fun q hq => by
          show upd o.id p o.cur q = none
          rw [upd_ne (fun hqp : q = p => hnd.1 (hqp ▸ hq))]
          exact h0 q (List.mem_cons_of_mem _ hq))
      refine ⟨fun q => ?_, fun q hq => ?_, fun q hq => ?_⟩
      · rw [h1 q]
        by_cases hq : q = p
        · subst hq
          rw [if_neg hpn, if_pos List.mem_cons_self]
          simp [upd]
        · by_cases hm : q ∈ ps.filter (isN t sel)
          · rw [if_pos hm, if_pos (List.mem_cons_of_mem _ hm), List.idxOf_cons_ne _ (Ne.symm hq)]
            simp; omega
          · rw [if_neg hm, if_neg (by simp only [List.mem_cons, not_or]; exact ⟨hq, hm⟩)]
            simp [upd, hq]
      · rw [List.mem_cons, not_or] at hq
        obtain ⟨k1, k2⟩ := h2 q hq.2
        rw [k1, k2]
        exact ⟨upd_ne hq.1, hμ q hq.1⟩
      · rcases List.mem_cons.1 hq with rfl | hm
        · obtain ⟨k1, k2⟩ := h2 q hpn
          rw [k1, k2]
          refine ⟨fun y m hy => ?_, fun h => ⟨x, upd_self _ _ _, ha h⟩⟩
          obtain ⟨rfl, e⟩ := hl y m hy
          exact ⟨upd_self _ _ _, e⟩
        · exact h3 q hm

/-- The final state: numbers from 0 on for the vertices with an abstract task and the leaves with an action. -/
structure FinalPO (P : Problem) (t : T) (sel : Path → Sel) (o : POut) : Prop where
  no : ∀ p, isA sel p = false → (isP sel p = true → t.nc p ≠ 0) → o.id p = none
  leaf : ∀ p, p ∈ t.leaves → isP sel p = true → ∃ k a, o.id p = some k ∧ o.task p = some a ∧ actAt t sel p = [a]
  other : ∀ p, p ∈ t.leaves → isP sel p = false → isA sel p = false → o.task p = none
  abs : ∀ p x m, LineAt P t sel p x m → ∃ k, o.id p = some k ∧ o.task p = some x ∧ o.meth p = some m
  ids : (t.nodes.filter (isN t sel)).map (fun p => (o.id p).getD 0) = List.range (t.nodes.filter (isN t sel)).length

theorem finalPO (ht : t.OK P tot) (hs : Shows P t V w sel) : FinalPO P t sel (outPO P t V w) := by
  unfold outPO
  rw [assignOut_fold _ _ _ (fun q _ h => by simp [POut.start] at h)]
  obtain ⟨k1, k2, k3⟩ := stepsPO_spec hs (t.below t.K []) (below_nodup _ _) .start (fun _ _ => rfl)
  rw [show t.below t.K [] = t.nodes from rfl] at *
  generalize ho : t.nodes.foldl (step P t V w) .start = o at *
  simp only [POut.start, Nat.zero_add] at k1 k2
  have hin : ∀ q, isN t sel q = true → q ∈ t.nodes.filter (isN t sel) := by
    intro q h
    refine List.mem_filter.2 ⟨?_, h⟩
    unfold isN at h
    rw [Bool.or_eq_true, Bool.and_eq_true] at h
    rcases h with h | ⟨h, -⟩
    · obtain ⟨x, m, d, a, m, -, hd, -⟩ := lineAt_of hs.cons h
      exact mem_nodes ht q d hd
    · unfold isP at h
      cases hq : sel q with
      | prim i =>
        obtain ⟨d, -, hd, -⟩ := hs.cons.prim q i hq
        exact mem_nodes ht q d hd
      | none => rw [hq] at h; simp at h
      | abs a m => rw [hq] at h; simp at h
  refine ⟨fun p hA hP => ?_, fun p hp h => ?_, fun p hp h h' => ?_, fun p x m hl => ?_, ?_⟩
  · rw [k1 p, if_neg]
    intro hm
    have := (List.mem_filter.1 hm).2
    unfold isN at this
    rw [hA, Bool.false_or, Bool.and_eq_true, beq_iff_eq] at this
    exact hP this.1 this.2
  · have hq := hin p (by unfold isN; rw [h, ((mem_leaves ht).1 hp).2]; simp)
    obtain ⟨a, ha, hact⟩ := (k3 p hq).2 h
    exact ⟨_, a, by rw [k1 p, if_pos hq], ha, hact⟩
  · refine (k2 p fun hm => ?_).1
    have := (List.mem_filter.1 hm).2
    unfold isN at this
    rw [h, h'] at this
    simp at this
  · have hq := hin p (by unfold isN; rw [hl.isA]; rfl)
    exact ⟨_, by rw [k1 p, if_pos hq], (k3 p hq).1 x m hl⟩
  · rw [List.range_eq_range', ← map_idxOf (l := t.nodes.filter (isN t sel)) ((below_nodup t.K []).filter _) 0]
    refine List.map_congr_left fun q hq => ?_
    rw [k1 q, if_pos hq]
    simp

theorem FinalPO.final {o : POut} (hf : FinalPO P t sel o) {acts : List (Nat × Nat)} (hprim : ∀ p, ∀ a ∈ actAt t sel p, P.prim a = true)
    (h : ∀ p ∈ t.leaves, ∀ a ∈ actAt t sel p, ((o.id p).getD 0, a) ∈ acts) : Final P t sel acts o := by
  refine ⟨hf.no, fun p hp hP => ?_, hf.abs⟩
  obtain ⟨k, a, h1, h2, h3⟩ := hf.leaf p hp hP
  refine ⟨k, h1, fun y hy => ?_, fun b hb => ?_⟩
  · rw [h2] at hy
    obtain rfl := Option.some.inj hy
    exact hprim p a (by rw [h3]; simp)
  · have := h p hp b hb
    rwa [h1] at this

/-! ## The decomposition -/

/-- The leaf of the tree for a position, from those for the subtasks. -/
def nodeMap (φ : Nat → List Nat → Path) : List Nat → Path
  | [] => []
  | i :: l => φ i l

theorem repMap_node {f : Nat} {p : Path} {m : Nat} {cs : Nat → Tree} {mp : List Nat} {φ : Nat → List Nat → Path} (h0 : t.nc p ≠ 0)
    (hlt : ∀ i < (P.sub m).length, mp.getD i 0 < t.nc p)
    (hinj : ∀ i < (P.sub m).length, ∀ j < (P.sub m).length, mp.getD i 0 = mp.getD j 0 → i = j)
    (hφ : ∀ i < (P.sub m).length, RepMap P t sel f (mp.getD i 0 :: p) (cs i) (φ i))
    (hoff : ∀ c < t.nc p, (∀ i < (P.sub m).length, mp.getD i 0 ≠ c) → ∀ y ∈ t.leavesFrom f (c :: p), actAt t sel y = []) :
    RepMap P t sel (f + 1) p (.node m cs) (nodeMap φ) := by
  have hmem : ∀ i < (P.sub m).length, ∀ q a, LeafAt P (cs i) q a → φ i q ∈ t.leavesFrom f (mp.getD i 0 :: p) :=
    fun i hi q a h => ((hφ i hi).act q a h).1
  refine ⟨?_, ?_, ?_⟩
  · rintro q a (_ | @⟨_, _, i, q, _, hi, h⟩)
    exact ⟨(leavesFrom_succ h0).2 ⟨_, hlt i hi, hmem i hi q a h⟩, ((hφ i hi).act q a h).2⟩
  · rintro q q' a a' (_ | @⟨_, _, i, q, _, hi, h⟩) (_ | @⟨_, _, i', q', _, hi', h'⟩) heq
    have heq' : φ i q = φ i' q' := heq
    have h1 := hmem i hi q a h
    rw [heq'] at h1
    obtain rfl := hinj i hi i' hi' (leavesFrom_disj h1 (hmem i' hi' q' a' h'))
    rw [(hφ i hi).inj q q' a a' h h' heq']
  · intro x hx hne
    obtain ⟨c, hc, hx⟩ := (leavesFrom_succ h0).1 hx
    by_cases hci : ∃ i < (P.sub m).length, mp.getD i 0 = c
    · obtain ⟨i, hi, rfl⟩ := hci
      obtain ⟨q, a, h1, h2⟩ := (hφ i hi).surj x hx hne
      exact ⟨i :: q, a, .child hi h1, h2⟩
    · push Not at hci
      exact absurd (hoff c hc hci x hx) hne

/-- The order of the leaves of the tree contains that of the decomposition. -/
def KeepsOrd (P : Problem) (t : T) (A : Path → List (Nat × Nat)) (f : Nat) (p : Path) (tr : Tree) (φ : List Nat → Path) : Prop :=
  ∀ q q' a a', LeafAt P tr q a → LeafAt P tr q' a' → Before P tr q q' → LeafLt t A f p (φ q) (φ q')

/-- The order of the decomposition contains that of the leaves of the tree. -/
def ExactOrd (P : Problem) (t : T) (A : Path → List (Nat × Nat)) (f : Nat) (p : Path) (tr : Tree) (φ : List Nat → Path) : Prop :=
  ∀ q q' a a', LeafAt P tr q a → LeafAt P tr q' a' → LeafLt t A f p (φ q) (φ q') → Before P tr q q'

theorem keeps_node {A : Path → List (Nat × Nat)} {f : Nat} {p : Path} {m : Nat} {cs : Nat → Tree} {mp : List Nat} {φ : Nat → List Nat → Path}
    (hlt : ∀ i < (P.sub m).length, mp.getD i 0 < t.nc p)
    (hφ : ∀ i < (P.sub m).length, RepMap P t sel f (mp.getD i 0 :: p) (cs i) (φ i)) (hk : KeepR P A p m mp)
    (hc : ∀ i < (P.sub m).length, KeepsOrd P t A f (mp.getD i 0 :: p) (cs i) (φ i)) : KeepsOrd P t A (f + 1) p (.node m cs) (nodeMap φ) := by
  rintro q q' a a' (_ | @⟨_, _, i, q, _, hi, h⟩) (_ | @⟨_, _, i', q', _, hi', h'⟩) hb
  refine ⟨_, hlt i hi, _, hlt i' hi', ((hφ i hi).act q a h).1, ((hφ i' hi').act q' a' h').1, ?_⟩
  cases hb with
  | same hb => exact .inl ⟨rfl, hc i hi q q' a a' h h' hb⟩
  | diff hb => exact .inr (hk i hi i' hi' hb)

theorem exact_node {A : Path → List (Nat × Nat)} {f : Nat} {p : Path} {m : Nat} {cs : Nat → Tree} {mp : List Nat} {φ : Nat → List Nat → Path}
    (hinj : ∀ i < (P.sub m).length, ∀ j < (P.sub m).length, mp.getD i 0 = mp.getD j 0 → i = j)
    (hφ : ∀ i < (P.sub m).length, RepMap P t sel f (mp.getD i 0 :: p) (cs i) (φ i)) (hk : ExactR P A p m mp)
    (hc : ∀ i < (P.sub m).length, ExactOrd P t A f (mp.getD i 0 :: p) (cs i) (φ i)) : ExactOrd P t A (f + 1) p (.node m cs) (nodeMap φ) := by
  rintro q q' a a' (_ | @⟨_, _, i, q, _, hi, h⟩) (_ | @⟨_, _, i', q', _, hi', h'⟩) ⟨c, _, c', _, hx, hy, hl⟩
  obtain rfl := leavesFrom_disj hx ((hφ i hi).act q a h).1
  obtain rfl := leavesFrom_disj hy ((hφ i' hi').act q' a' h').1
  rcases hl with ⟨he, hl⟩ | hl
  · obtain rfl := hinj i hi i' hi' he
    exact .same (hc i hi q q' a a' h h' hl)
  · exact .diff (hk i hi i' hi' hl)

/-- What is found at the images of an injective map, in any order. -/
theorem filterMap_image {n : Nat} {I : List Nat} {mp : Nat → Nat} {g : Nat → Option Nat} (hI : I.Nodup)
    (hlt : ∀ i ∈ I, mp i < n) (hinj : ∀ i ∈ I, ∀ j ∈ I, mp i = mp j → i = j)
    (hno : ∀ c < n, (∀ i ∈ I, mp i ≠ c) → g c = none) : ((List.range n).filterMap g).Perm (I.filterMap fun i => g (mp i)) := by
  have h1 := List.filter_append_perm (fun c => decide (c ∈ I.map mp)) (List.range n)
  have h2 : ((List.range n).filter fun c => decide (c ∈ I.map mp)).Perm (I.map mp) := by
    rw [List.perm_ext_iff_of_nodup (List.nodup_range.filter _) (List.Nodup.map_on (fun x hx y hy => hinj x hx y hy) hI)]
    intro c
    rw [List.mem_filter, List.mem_range, decide_eq_true_eq]
    refine ⟨fun h => h.2, fun h => ⟨?_, h⟩⟩
    obtain ⟨i, hi, rfl⟩ := List.mem_map.1 h
    exact hlt i hi
  have h3 := h1.symm.filterMap g
  rw [List.filterMap_append] at h3
  have h4 : ((List.range n).filter fun c => !decide (c ∈ I.map mp)).filterMap g = [] := by
    rw [List.filterMap_eq_nil_iff]
    intro c hc
    obtain ⟨k1, k2⟩ := List.mem_filter.1 hc
    refine hno c (List.mem_range.1 k1) fun i hi e => ?_
    simp only [Bool.not_eq_true', decide_eq_false_iff_not] at k2
    exact k2 (List.mem_map.2 ⟨i, hi, e⟩)
  rw [h4, List.append_nil] at h3
  have h5 := h2.filterMap g
  rw [List.filterMap_map] at h5
  exact h3.trans h5

variable {acts : List (Nat × Nat)} {o : POut} {R : Path → Nat → List Nat → Prop}

/-- What is printed below any vertex. -/
structure PrintedBelow (P : Problem) (t : T) (sel : Path → Sel) (o : POut) (f : Nat) (p : Path) : Prop where
  ids : (decLines P t o f p).map DLine.id = aids t sel o f p
  once : ((nextOut t o f p).toList ++ (decLines P t o f p).flatMap DLine.subs).Perm (lids t sel o f p ++ aids t sel o f p)

theorem printed_none (hs : Consistent P t sel) (hf : Final P t sel acts o) {f : Nat} {p : Path} (h : sel p = .none) :
    PrintedBelow P t sel o f p := by
  obtain ⟨h1, h2, h3, h4⟩ := below_none hs hf f p h
  constructor <;> simp [h1, h2, h3, h4]

theorem printed_prim (ht : t.OK P tot) (hs : Consistent P t sel) (hf : Final P t sel acts o) {f : Nat} {p : Path} (hp : p.length + f = t.K)
    {i : Nat} {d : ND} {x : Nat} (h1 : sel p = .prim i) (h2 : t.nd p = some d) (h3 : d.prims[i]? = some x) :
    PrintedBelow P t sel o f p := by
  obtain ⟨k, k1, k2, k3, k4, -⟩ := below_prim ht hs hf f p hp i d x h1 h2 h3
  constructor <;> simp [k1, k2, k3, k4]

/-- What is printed below a vertex with an abstract task. -/
theorem below_absPO (ht : t.OK P tot) (hR : t.Has P tot R) (htot : ∀ m < P.numMethods, (tot m).Perm (List.range (P.sub m).length))
    (hwf : ∀ m < P.numMethods, P.prim (P.head m) = false) {A : Path → List (Nat × Nat)} (hA : Acyclic A t)
    (hs : Consistent P t sel) (hf : Final P t sel acts o) : ∀ f p, p.length + f = t.K → ∀ a m d x,
    sel p = .abs a m → t.nd p = some d → d.abss[a]? = some x →
    ∃ k tr φ, nextOut t o f p = some k ∧ o.id p = some k ∧ Valid P x tr ∧ HeightLE P tr f ∧ RepMap P t sel f p tr φ ∧
      ((∀ p m mp, R p m mp → KeepR P A p m mp) → KeepsOrd P t A f p tr φ) ∧
      ((∀ p m mp, R p m mp → ExactR P A p m mp) → ExactOrd P t A f p tr φ) ∧
      ReadsPO P acts (decLines P t o f p) k tr (fun l => (o.id (φ l)).getD 0) ∧ PrintedBelow P t sel o f p := by
  intro f
  induction f with
  | zero =>
    intro p hp a m d x h1 h2 h3
    obtain ⟨_, e, _, -, he, -⟩ := hs.abs p a m h1
    obtain ⟨_, -, hlt, -⟩ := ht.ex p e he
    omega
  | succ f ih =>
    intro p hp a m d x h1 h2 h3
    obtain ⟨d', e, meth, hd', he, hm⟩ := hs.abs p a m h1
    rw [h2] at hd'
    obtain rfl := Option.some.inj hd'
    obtain ⟨d', hd', -, -, hexp, hnil⟩ := ht.ex p e he
    rw [h2] at hd'
    obtain rfl := Option.some.inj hd'
    obtain ⟨hlt, x', hx', hhead⟩ := lt_of_isMeth hm
    rw [h3] at hx'
    obtain rfl := Option.some.inj hx'
    obtain ⟨mp, ⟨hw, hplace, himg⟩, hr⟩ := hR p d e h2 he a m meth hm
    have hline : LineAt P t sel p x meth := by
      obtain ⟨x', hx', hmm⟩ := hm
      rw [h3] at hx'
      obtain rfl := Option.some.inj hx'
      exact ⟨d, a, m, h1, h2, h3, hmm⟩
    obtain ⟨k, hk1, hk2, hk3⟩ := hf.abs p x meth hline
    have hne : t.nc p ≠ 0 := by
      rw [nc_eq he]
      intro h0
      exact hnil.1 (List.length_eq_zero_iff.1 h0) a m meth hm
    have hmem : ∀ i, i ∈ tot meth ↔ i < (P.sub meth).length := fun i => by
      rw [(htot meth hlt).mem_iff, List.mem_range]
    have hother : ∀ c < t.nc p, (∀ i < (P.sub meth).length, mp.getD i 0 ≠ c) → sel (c :: p) = .none := by
      intro c _ hc
      refine (hs.abs_child p a m e h1 he c).1 ?_
      cases hq : e.ptr a m c with
      | none => rfl
      | some q =>
        obtain ⟨i, hi, hic⟩ := himg c q hq
        exact absurd hic (hc i ((hmem i).1 hi))
    have hpos : ∀ i < (P.sub meth).length, ∃ k tr φ, nextOut t o f (mp.getD i 0 :: p) = some k ∧ Valid P ((P.sub meth).getD i 0) tr ∧
        HeightLE P tr f ∧ RepMap P t sel f (mp.getD i 0 :: p) tr φ ∧
        ((∀ p m mp, R p m mp → KeepR P A p m mp) → KeepsOrd P t A f (mp.getD i 0 :: p) tr φ) ∧
        ((∀ p m mp, R p m mp → ExactR P A p m mp) → ExactOrd P t A f (mp.getD i 0 :: p) tr φ) ∧
        ReadsPO P acts (decLines P t o f (mp.getD i 0 :: p)) k tr (fun l => (o.id (φ l)).getD 0) ∧
        PrintedBelow P t sel o f (mp.getD i 0 :: p) := by
      intro i hi
      obtain ⟨q, ch, hq, hch, hqp, htask⟩ := hplace i ((hmem i).2 hi)
      have hnd := (ht.child (mp.getD i 0) p ch).2 ⟨e, he, hch⟩
      have hsel := (hs.abs_child p a m e h1 he (mp.getD i 0)).2 q hq
      cases hb : q.isPrim with
      | true =>
        rw [hb, if_pos rfl] at hsel
        rw [hb] at htask hqp
        have hlen : (mp.getD i 0 :: p).length + f = t.K := by simp; omega
        obtain ⟨k, k1, k2, k3, k4, k5⟩ := below_prim ht hs hf f _ hlen _ ch _ hsel hnd htask
        obtain ⟨y, hy, ha, ho⟩ := flatMap_eq_one (leaves_prim ht hs f _ hlen _ ch _ hsel hnd htask)
        refine ⟨k, .leaf _, fun _ => y, k1, .leaf hqp.symm, .leaf, ⟨?_, ?_, ?_⟩, ?_, ?_, ?_, printed_prim ht hs hf hlen hsel hnd htask⟩
        · intro q b h; cases h; exact ⟨hy, ha⟩
        · intro q q' b b' h h' _; cases h; cases h'; rfl
        · intro z hz hne
          refine ⟨[], _, .here, ?_⟩
          by_contra hyz
          exact hne (ho z hz (fun h => hyz h.symm))
        · intro _ q q' b b' h h' hb; cases h; cases hb
        · intro _ q q' b b' _ _ hl; exact absurd hl (LeafLt.irrefl hA)
        · refine .leaf k5 ?_
          have hyP : isP sel y = true := by
            cases hv : isP sel y with
            | true => rfl
            | false => rw [actAt_not_isP hv] at ha; simp at ha
          have : (o.id y).getD 0 ∈ lids t sel o f (mp.getD i 0 :: p) :=
            List.mem_map.2 ⟨y, List.mem_filter.2 ⟨hy, hyP⟩, rfl⟩
          rw [k3] at this
          exact List.mem_singleton.1 this
      | false =>
        rw [hb, if_neg (by simp)] at hsel
        obtain ⟨m', hm'⟩ := hsel
        rw [hb] at htask
        obtain ⟨k, tr, φ, g1, -, g⟩ := ih _ (by simp; omega) _ m' ch _ hm' hnd htask
        exact ⟨k, tr, φ, g1, g⟩
    have : Nonempty Tree := ⟨.leaf 0⟩
    have : Nonempty (List Nat → Path) := ⟨fun _ => []⟩
    choose! κ cs φ hcs using hpos
    have hlt' : ∀ i < (P.sub meth).length, mp.getD i 0 < t.nc p := fun i hi => by
      rw [nc_eq he]; exact hw.lt i ((hmem i).2 hi)
    have hinj : ∀ i < (P.sub meth).length, ∀ j < (P.sub meth).length, mp.getD i 0 = mp.getD j 0 → i = j :=
      fun i hi j hj => placed_inj hw ((hmem i).2 hi) ((hmem j).2 hj)
    have hnx : P.prim x = false := hhead ▸ hwf meth hlt
    have hdec : decLines P t o (f + 1) p = ⟨k, P.head meth, some meth, (List.range (t.nc p)).filterMap fun c => nextOut t o f (c :: p)⟩ ::
        (List.range (t.nc p)).flatMap fun c => decLines P t o f (c :: p) := by
      rw [decLines, hk1, hk2]
      simp only [hnx, Bool.false_eq_true, if_false]
      rw [hk3, hhead]
    have hall : ∀ c < t.nc p, PrintedBelow P t sel o f (c :: p) := by
      intro c hc
      by_cases hci : ∃ i < (P.sub meth).length, mp.getD i 0 = c
      · obtain ⟨i, hi, rfl⟩ := hci
        exact (hcs i hi).2.2.2.2.2.2.2
      · push Not at hci
        exact printed_none hs hf (hother c hc hci)
    have hai : aids t sel o (f + 1) p = k :: (List.range (t.nc p)).flatMap fun c => aids t sel o f (c :: p) := by
      rw [aids_succ, hline.isA, if_pos rfl, hk1]
      rfl
    refine ⟨k, .node meth cs, nodeMap φ, by rw [nextOut, hk1], hk1, ?_, .node fun i hi => (hcs i hi).2.2.1,
      repMap_node hne hlt' hinj (fun i hi => (hcs i hi).2.2.2.1) ?_,
      fun h => keeps_node hlt' (fun i hi => (hcs i hi).2.2.2.1) (h _ _ _ hr) (fun i hi => (hcs i hi).2.2.2.2.1 h),
      fun h => exact_node hinj (fun i hi => (hcs i hi).2.2.2.1) (h _ _ _ hr) (fun i hi => (hcs i hi).2.2.2.2.2.1 h), ?_, ?_, ?_⟩
    · rw [← hhead]
      refine .node hlt fun i y hy => ?_
      obtain ⟨hi, rfl⟩ := List.getElem?_eq_some_iff.1 hy
      have := (hcs i hi).2.1
      rwa [List.getD_eq_getElem _ _ hi] at this
    · intro c hc hcc
      exact off_of_none hs (hother c hc hcc)
    · rw [hdec]
      refine .node (κ := κ) List.mem_cons_self ?_ fun i hi => (hcs i hi).2.2.2.2.2.2.1.mono fun l hl => ?_
      · refine (filterMap_image (I := List.range (P.sub meth).length) (mp := fun i => mp.getD i 0) List.nodup_range
          (fun i hi => hlt' i (List.mem_range.1 hi)) (fun i hi j hj => hinj i (List.mem_range.1 hi) j (List.mem_range.1 hj))
          fun c hc hcc => (below_none hs hf f _ (hother c hc fun i hi => hcc i (List.mem_range.2 hi))).1).trans ?_
        rw [← List.filterMap_eq_map]
        refine List.Perm.of_eq (List.filterMap_congr fun i hi => ?_)
        exact (hcs i (List.mem_range.1 hi)).1
      · exact List.mem_cons_of_mem _ (List.mem_flatMap.2 ⟨_, List.mem_range.2 (hlt' i hi), hl⟩)
    · rw [hdec, hai, List.map_cons, List.map_flatMap]
      congr 1
      exact List.flatMap_congr fun c hc => (hall c (List.mem_range.1 hc)).ids
    · rw [hdec, hai, lids_succ hne, List.flatMap_cons, nextOut, hk1]
      simp only [Option.toList_some, List.cons_append, List.nil_append]
      have key : ∀ l : List Nat, (∀ c ∈ l, c < t.nc p) →
          ((l.filterMap fun c => nextOut t o f (c :: p)) ++ (l.flatMap fun c => decLines P t o f (c :: p)).flatMap DLine.subs).Perm
          ((l.flatMap fun c => lids t sel o f (c :: p)) ++ l.flatMap fun c => aids t sel o f (c :: p)) := by
        intro l
        induction l with
        | nil => intro _; simp
        | cons c l ihl =>
          intro hl
          have hA := (hall c (hl c List.mem_cons_self)).once
          have hB := ihl fun j hj => hl j (List.mem_cons_of_mem _ hj)
          have hfm : ((c :: l).filterMap fun c => nextOut t o f (c :: p)) =
              (nextOut t o f (c :: p)).toList ++ l.filterMap fun c => nextOut t o f (c :: p) := by
            rw [List.filterMap_cons]
            cases nextOut t o f (c :: p) <;> rfl
          rw [hfm]
          simp only [List.flatMap_cons, List.flatMap_append]
          generalize (decLines P t o f (c :: p)).flatMap DLine.subs = X at *
          generalize (nextOut t o f (c :: p)).toList = N at *
          generalize lids t sel o f (c :: p) = L at *
          generalize aids t sel o f (c :: p) = A at *
          generalize (l.filterMap fun c => nextOut t o f (c :: p)) = M at *
          generalize ((l.flatMap fun c => decLines P t o f (c :: p)).flatMap DLine.subs) = Y at *
          generalize (l.flatMap fun c => lids t sel o f (c :: p)) = L' at *
          generalize (l.flatMap fun c => aids t sel o f (c :: p)) = A' at *
          classical
          rw [List.perm_iff_count] at hA hB ⊢
          intro z
          have h1 := hA z
          have h2 := hB z
          simp only [List.count_append] at h1 h2 ⊢
          omega
      have hk := (key (List.range (t.nc p)) fun c hc => List.mem_range.1 hc).cons k
      exact hk.trans List.perm_middle.symm

end

end Verif.Pdt
