import Verif.SatLoop

/-! # Model of the output of the SAT planner (src/sat/sat_planner.cpp 35-128, src/sat/pdt.cpp 620-688), totally ordered problems

`printSolution` first numbers and prints the actions, leaf by leaf; then `assignOutputNumbers` numbers the abstract tasks
and `printDecomposition` prints one line per abstract task.  The optional lines with the implied order
(sat_planner.cpp 124-134) are in `Props/SatOrder`.  Not modelled: the sums of the costs, which are those of the printed actions. -/

namespace Verif.Pdt

open Verif.Htn Verif.Sog Verif.Sat

/-- The fields `outputID`, `outputTask`, `outputMethod` of all vertices (pdt.h 98-100; `none` stands for -1) and the
counter `currentID`. -/
structure POut where
  id : Path → Option Nat
  task : Path → Option Nat
  meth : Path → Option Nat
  cur : Nat

/-- All vertices are new (pdt.cpp 20-22, 32-34). -/
def POut.start : POut := ⟨fun _ => none, fun _ => none, fun _ => none, 0⟩

/-- Assignment to a field of one vertex. -/
def upd (f : Path → Option Nat) (p : Path) (k : Nat) : Path → Option Nat := fun q => if q = p then some k else f q

/-- One printed action (sat_planner.cpp 81-83): number and action. -/
def leafPrint (p : Path) (x : POut × List (Nat × Nat)) (a : Nat) : POut × List (Nat × Nat) :=
  ({ x.1 with id := upd x.1.id p x.1.cur, cur := x.1.cur + 1 }, x.2 ++ [(x.1.cur, a)])

/-- The loop over the leaves (sat_planner.cpp 74-91). -/
def leavesPrint (t : T) (V : VM) (w : Assignment) (ps : List Path) (x : POut × List (Nat × Nat)) : POut × List (Nat × Nat) :=
  ps.foldl (fun x p => (selOf w (leafVars V t p)).foldl (leafPrint p) x) x

/-- A number and a task for a vertex (pdt.cpp 629-630, 642-643). -/
def POut.give (o : POut) (p : Path) (x : Nat) : POut :=
  { o with id := upd o.id p o.cur, task := upd o.task p x, cur := o.cur + 1 }

/-- pdt.cpp 623-635. -/
def assignPrims (t : T) (V : VM) (w : Assignment) (p : Path) (d : ND) (o : POut) : POut :=
  if t.nc p = 0 then
    (List.range d.prims.length).foldl (fun o i => if tvb V w (.prim p i) then o.give p (d.prims.getD i 0) else o) o
  else o

/-- The applied method (pdt.cpp 649-656). -/
def assignMeths (P : Problem) (V : VM) (w : Assignment) (p : Path) (a x : Nat) (o : POut) : POut :=
  (List.range (meths P x).length).foldl
    (fun o m => if tvb V w (.meth p a m) then { o with meth := upd o.meth p ((meths P x).getD m 0) } else o) o

/-- pdt.cpp 637-658. -/
def assignAbs (P : Problem) (V : VM) (w : Assignment) (p : Path) (d : ND) (o : POut) : POut :=
  (List.range d.abss.length).foldl
    (fun o a => if tvb V w (.abs p a) then assignMeths P V w p a (d.abss.getD a 0) (o.give p (d.abss.getD a 0)) else o) o

/-- `assignOutputNumbers` for one vertex, without the recursion (pdt.cpp 623-658). -/
def assignAt (P : Problem) (t : T) (V : VM) (w : Assignment) (p : Path) (o : POut) : POut :=
  match t.nd p with
  | none => o
  | some d => assignAbs P V w p d (assignPrims t V w p d o)

/-- `assignOutputNumbers` (pdt.cpp 620-661). -/
def assignOut (P : Problem) (t : T) (V : VM) (w : Assignment) : Nat → Path → POut → POut
  | 0, p, o => if (o.id p).isSome then o else assignAt P t V w p o
  | f + 1, p, o =>
    if (o.id p).isSome then o
    else (List.range (t.nc p)).foldl (fun o c => assignOut P t V w f (c :: p) o) (assignAt P t V w p o)

/-- `getNextOutputTask` (pdt.cpp 663-671). -/
def nextOut (t : T) (o : POut) : Nat → Path → Option Nat
  | 0, p => o.id p
  | f + 1, p =>
    match o.id p with
    | some k => some k
    | none => (List.range (t.nc p)).findSome? fun c => nextOut t o f (c :: p)

/-- A printed line: number, task, method, numbers of the subtasks. -/
structure DLine where
  id : Nat
  task : Nat
  meth : Option Nat
  subs : List Nat
deriving DecidableEq, Repr

/-- `printDecomposition` (pdt.cpp 673-688).  A vertex without task has -1 as its task, which is less than the number of
actions. -/
def decLines (P : Problem) (t : T) (o : POut) : Nat → Path → List DLine
  | 0, p =>
    match o.id p, o.task p with
    | some k, some x => if P.prim x then [] else [⟨k, x, o.meth p, []⟩]
    | _, _ => []
  | f + 1, p =>
    match o.id p, o.task p with
    | some k, some x =>
      if P.prim x then []
      else ⟨k, x, o.meth p, (List.range (t.nc p)).filterMap fun c => nextOut t o f (c :: p)⟩ ::
        (List.range (t.nc p)).flatMap fun c => decLines P t o f (c :: p)
    | _, _ => []

/-- What is printed between `==>` and `<==`. -/
structure SatOut where
  acts : List (Nat × Nat)
  root : Option Nat
  decs : List DLine
deriving DecidableEq, Repr

/-- `printSolution` (sat_planner.cpp 66-123). -/
def satOut (P : Problem) (t : T) (V : VM) (w : Assignment) : SatOut :=
  let x := leavesPrint t V w t.leaves (.start, [])
  let o := assignOut P t V w t.K [] x.1
  ⟨x.2, o.id [], decLines P t o t.K []⟩

/-! ## What is read back -/

/-- The printed lines describe a decomposition: the line of an action is a leaf; the line of an abstract task has a method
of the task and, in the order of the method, the lines of its subtasks. -/
inductive Reads (P : Problem) (tot : Nat → List Nat) (acts : List (Nat × Nat)) (decs : List DLine) : Nat → Tree → Prop
  | leaf {k a : Nat} : (k, a) ∈ acts → Reads P tot acts decs k (.leaf a)
  | node {k m : Nat} {cs : Nat → Tree} {κ : Nat → Nat} : ⟨k, P.head m, some m, (tot m).map κ⟩ ∈ decs →
      (∀ i ∈ tot m, Reads P tot acts decs (κ i) (cs i)) → Reads P tot acts decs k (.node m cs)

section
variable {P : Problem} {tot : Nat → List Nat} {t : T} {V : VM} {w : Assignment} {sel : Path → Sel}

/-- What is true under the assignment is what is selected. -/
structure Shows (P : Problem) (t : T) (V : VM) (w : Assignment) (sel : Path → Sel) : Prop where
  cons : Consistent P t sel
  prim : ∀ p d, t.nd p = some d → ∀ i < d.prims.length, (tvb V w (.prim p i) = true ↔ sel p = .prim i)
  abs : ∀ p d, t.nd p = some d → ∀ a < d.abss.length, (tvb V w (.abs p a) = true ↔ ∃ m, sel p = .abs a m)
  meth : ∀ p a m, tvb V w (.meth p a m) = true ↔ sel p = .abs a m
  leaf : ∀ p ∈ t.leaves, selOf w (leafVars V t p) = actAt t sel p

theorem decode_shows {S : Flags} {n : Nat} (ht : t.OK P tot)
    (htot : ∀ m < P.numMethods, (tot m).Perm (List.range (P.sub m).length)) (hall : AllMeth P)
    (hS : ∀ q, LocalOK P t S q) (hV : VMFull P t S n V) (hs : TreeSem P t V S w) : Shows P t V w (decode P t V w) := by
  refine ⟨decode_consistent ht htot hall (fun q => (hS q).weak) hV hs (leavesOff hS hs), fun p d hd i hi => ?_, fun p d hd a ha => ?_, fun p a m => ?_,
    decode_leaf ht hS hV hs⟩
  · rw [tvb_iff]
    have hat := atOK ht (fun q => (hS q).weak) hV hs (leavesOff hS hs) p d hd
    exact ⟨hat.prim i hi, fun h => hat.back true i h⟩
  · rw [tvb_iff]
    have hat := atOK ht (fun q => (hS q).weak) hV hs (leavesOff hS hs) p d hd
    exact ⟨hat.abs a ha, fun h => hat.back false a h⟩
  · rw [tvb_iff]
    constructor
    · intro h
      obtain ⟨d, e, y, hd, -⟩ := meth_range hV (tv_ne h)
      exact (atOK ht (fun q => (hS q).weak) hV hs (leavesOff hS hs) p d hd).meth a m h
    · intro h
      obtain ⟨-, -, -, -, -, h⟩ := decode_abs h
      exact h

/-- A vertex with a chosen action. -/
def isP (sel : Path → Sel) (p : Path) : Bool :=
  match sel p with
  | .prim _ => true
  | _ => false

/-- A vertex with a chosen abstract task. -/
def isA (sel : Path → Sel) (p : Path) : Bool :=
  match sel p with
  | .abs _ _ => true
  | _ => false

theorem upd_self (f : Path → Option Nat) (p : Path) (k : Nat) : upd f p k p = some k := by simp [upd]

theorem upd_ne {f : Path → Option Nat} {p q : Path} {k : Nat} (h : q ≠ p) : upd f p k q = f q := by simp [upd, h]

/-! ## The numbers of the actions -/

theorem leavesPrint_cons (p : Path) (ps : List Path) (x : POut × List (Nat × Nat)) :
    leavesPrint t V w (p :: ps) x = leavesPrint t V w ps ((selOf w (leafVars V t p)).foldl (leafPrint p) x) := rfl

theorem actAt_isP (hs : Consistent P t sel) {p : Path} (h : isP sel p = true) : ∃ a, actAt t sel p = [a] := by
  unfold isP at h
  cases hp : sel p with
  | none => rw [hp] at h; simp at h
  | abs a m => rw [hp] at h; simp at h
  | prim i =>
    obtain ⟨d, x, hd, -⟩ := hs.prim p i hp
    exact ⟨_, by unfold actAt; rw [hd, hp]⟩

theorem actAt_not_isP {p : Path} (h : isP sel p = false) : actAt t sel p = [] := by
  unfold isP at h
  unfold actAt
  cases hp : sel p with
  | prim i => rw [hp] at h; simp at h
  | none => cases t.nd p <;> rfl
  | abs a m => cases t.nd p <;> rfl

theorem leavesPrint_spec (hs : Consistent P t sel) : ∀ (ps : List Path), (∀ p ∈ ps, selOf w (leafVars V t p) = actAt t sel p) →
    ps.Nodup → ∀ (x : POut × List (Nat × Nat)),
    (leavesPrint t V w ps x).1.cur = x.1.cur + (ps.filter (isP sel)).length ∧
    (leavesPrint t V w ps x).1.task = x.1.task ∧ (leavesPrint t V w ps x).1.meth = x.1.meth ∧
    (∀ q, (leavesPrint t V w ps x).1.id q =
      if q ∈ ps.filter (isP sel) then some (x.1.cur + (ps.filter (isP sel)).idxOf q) else x.1.id q) ∧
    (leavesPrint t V w ps x).2.map Prod.fst = x.2.map Prod.fst ++ List.range' x.1.cur (ps.filter (isP sel)).length ∧
    (leavesPrint t V w ps x).2.map Prod.snd = x.2.map Prod.snd ++ ps.flatMap (actAt t sel) ∧
    (∀ e ∈ x.2, e ∈ (leavesPrint t V w ps x).2) ∧
    ∀ q ∈ ps.filter (isP sel), ∀ a ∈ actAt t sel q, (x.1.cur + (ps.filter (isP sel)).idxOf q, a) ∈ (leavesPrint t V w ps x).2 := by
  intro ps
  induction ps with
  | nil => intro _ _ x; simp [leavesPrint]
  | cons p ps ih =>
    intro hleaf hnd x
    rw [List.nodup_cons] at hnd
    rw [leavesPrint_cons, hleaf p List.mem_cons_self]
    cases hp : isP sel p with
    | false =>
      have h0 : (p :: ps).filter (isP sel) = ps.filter (isP sel) := by rw [List.filter_cons, hp]; simp
      rw [actAt_not_isP hp, h0, List.flatMap_cons, actAt_not_isP hp]
      exact ih (fun q hq => hleaf q (List.mem_cons_of_mem _ hq)) hnd.2 x
    | true =>
      obtain ⟨a, ha⟩ := actAt_isP hs hp
      have h0 : (p :: ps).filter (isP sel) = p :: ps.filter (isP sel) := by rw [List.filter_cons, hp]; simp
      have hpn : p ∉ ps.filter (isP sel) := fun h => hnd.1 (List.mem_filter.1 h).1
      rw [ha, h0, List.flatMap_cons, ha]
      obtain ⟨h1, h2, h3, h4, h5, h6, h7, h8⟩ := ih (fun q hq => hleaf q (List.mem_cons_of_mem _ hq)) hnd.2 (leafPrint p x a)
      refine ⟨?_, h2, h3, fun q => ?_, ?_, ?_, fun e he => h7 e (by simp [leafPrint, he]), fun q hq b hb => ?_⟩
      · show (leavesPrint t V w ps (leafPrint p x a)).1.cur = _
        rw [h1]
        simp [leafPrint]; omega
      · show (leavesPrint t V w ps (leafPrint p x a)).1.id q = _
        rw [h4 q]
        by_cases hq : q = p
        · subst hq
          rw [if_neg hpn, if_pos List.mem_cons_self]
          simp [leafPrint, upd]
        · by_cases hm : q ∈ ps.filter (isP sel)
          · rw [if_pos hm, if_pos (List.mem_cons_of_mem _ hm), List.idxOf_cons_ne _ (Ne.symm hq)]
            simp [leafPrint]; omega
          · rw [if_neg hm, if_neg (by simp only [List.mem_cons, not_or]; exact ⟨hq, hm⟩)]
            simp [leafPrint, upd, hq]
      · show (leavesPrint t V w ps (leafPrint p x a)).2.map Prod.fst = _
        rw [h5]
        simp [leafPrint, List.range'_succ]
      · show (leavesPrint t V w ps (leafPrint p x a)).2.map Prod.snd = _
        rw [h6]
        simp [leafPrint]
      · show _ ∈ (leavesPrint t V w ps (leafPrint p x a)).2
        rcases List.mem_cons.1 hq with rfl | hm
        · rw [ha] at hb
          obtain rfl := List.mem_singleton.1 hb
          refine h7 _ ?_
          simp [leafPrint]
        · have hne : q ≠ p := fun h => hpn (h ▸ hm)
          rw [List.idxOf_cons_ne _ (Ne.symm hne)]
          have := h8 q hm b hb
          simp only [leafPrint] at this
          rwa [show x.1.cur + (List.idxOf q (ps.filter (isP sel)) + 1) = x.1.cur + 1 + List.idxOf q (ps.filter (isP sel)) by omega]

/-! ## The numbers of the abstract tasks -/

/-- A loop that does something for one element. -/
theorem foldl_one {α : Type} (l : List Nat) (hl : l.Nodup) (g : α → Nat → α) (b : Nat → Bool) (i : Nat) (hi : i ∈ l)
    (hb : ∀ j ∈ l, b j = true ↔ j = i) (o : α) : l.foldl (fun o j => if b j then g o j else o) o = g o i := by
  have hskip : ∀ (l : List Nat), (∀ j ∈ l, b j = false) → ∀ o, l.foldl (fun o j => if b j then g o j else o) o = o := by
    intro l
    induction l with
    | nil => intro _ o; rfl
    | cons x l ih =>
      intro h o
      rw [List.foldl_cons, if_neg (by rw [h x List.mem_cons_self]; simp)]
      exact ih (fun j hj => h j (List.mem_cons_of_mem _ hj)) o
  induction l generalizing o with
  | nil => simp at hi
  | cons x l ih =>
    rw [List.nodup_cons] at hl
    rw [List.foldl_cons]
    by_cases hx : x = i
    · subst hx
      rw [if_pos ((hb x List.mem_cons_self).2 rfl)]
      refine hskip l (fun j hj => ?_) _
      by_contra h
      have := (hb j (List.mem_cons_of_mem _ hj)).1 (by simpa using h)
      subst this
      exact hl.1 hj
    · rw [if_neg (fun h => hx ((hb x List.mem_cons_self).1 h))]
      refine ih hl.2 ?_ (fun j hj => hb j (List.mem_cons_of_mem _ hj)) o
      rcases List.mem_cons.1 hi with h | h
      · exact absurd h.symm hx
      · exact h

theorem foldl_none {α : Type} (l : List Nat) (g : α → Nat → α) (b : Nat → Bool) (h : ∀ j ∈ l, b j = false) (o : α) :
    l.foldl (fun o j => if b j then g o j else o) o = o := by
  induction l generalizing o with
  | nil => rfl
  | cons x l ih =>
    rw [List.foldl_cons, if_neg (by rw [h x List.mem_cons_self]; simp)]
    exact ih (fun j hj => h j (List.mem_cons_of_mem _ hj)) o

/-- A vertex with an abstract task gets the next number, the task and the method. -/
theorem assignAt_abs (hs : Shows P t V w sel) {p : Path} {a m : Nat} (h : sel p = .abs a m) {d : ND} {x meth : Nat}
    (hd : t.nd p = some d) (hx : d.abss[a]? = some x) (hm : (meths P x)[m]? = some meth) (o : POut) :
    assignAt P t V w p o = ⟨upd o.id p o.cur, upd o.task p x, upd o.meth p meth, o.cur + 1⟩ := by
  unfold assignAt
  rw [hd]
  simp only
  have hprims : assignPrims t V w p d o = o := by
    unfold assignPrims
    by_cases h0 : t.nc p = 0
    · rw [if_pos h0]
      refine foldl_none _ _ _ (fun i hi => ?_) o
      rw [← Bool.not_eq_true, hs.prim p d hd i (List.mem_range.1 hi), h]
      simp
    · rw [if_neg h0]
  obtain ⟨ha, hxe⟩ := List.getElem?_eq_some_iff.1 hx
  have hxd : d.abss.getD a 0 = x := by rw [List.getD_eq_getElem?_getD, hx]; rfl
  rw [hprims]
  unfold assignAbs
  rw [foldl_one _ List.nodup_range _ _ a (List.mem_range.2 ha) (fun j hj => by
    rw [hs.abs p d hd j (List.mem_range.1 hj), h]
    constructor
    · rintro ⟨m', h'⟩; simp at h'; exact h'.1.symm
    · rintro rfl; exact ⟨m, rfl⟩), hxd]
  unfold assignMeths
  obtain ⟨hmlt, -⟩ := List.getElem?_eq_some_iff.1 hm
  rw [foldl_one _ List.nodup_range _ _ m (List.mem_range.2 hmlt) (fun j hj => by
    rw [hs.meth p a j, h]
    constructor
    · intro h'; simp at h'; exact h'.symm
    · rintro rfl; rfl)]
  have hmd : (meths P x).getD m 0 = meth := by rw [List.getD_eq_getElem?_getD, hm]; rfl
  rw [hmd]
  rfl

/-- Nothing happens at other vertices, except for leaves with actions, which have their numbers already. -/
theorem assignAt_other (hs : Shows P t V w sel) {p : Path} (hA : isA sel p = false) (hP : isP sel p = true → t.nc p ≠ 0) (o : POut) :
    assignAt P t V w p o = o := by
  unfold assignAt
  cases hd : t.nd p with
  | none => rfl
  | some d =>
    simp only
    have h1 : assignPrims t V w p d o = o := by
      unfold assignPrims
      by_cases h0 : t.nc p = 0
      · rw [if_pos h0]
        refine foldl_none _ _ _ (fun i hi => ?_) o
        rw [← Bool.not_eq_true, hs.prim p d hd i (List.mem_range.1 hi)]
        intro h
        exact hP (by unfold isP; rw [h]) h0
      · rw [if_neg h0]
    rw [h1]
    unfold assignAbs
    refine foldl_none _ _ _ (fun a ha => ?_) o
    rw [← Bool.not_eq_true, hs.abs p d hd a (List.mem_range.1 ha)]
    rintro ⟨m, h⟩
    unfold isA at hA
    rw [h] at hA
    simp at hA

/-- The visit of one vertex. -/
def step (P : Problem) (t : T) (V : VM) (w : Assignment) (o : POut) (p : Path) : POut :=
  if (o.id p).isSome then o else assignAt P t V w p o

theorem below_suffix : ∀ (f : Nat) (q p : Path), p ∈ t.below f q → ∃ r, p = r ++ q := by
  intro f
  induction f with
  | zero => intro q p h; simp only [T.below, List.mem_singleton] at h; exact ⟨[], by simp [h]⟩
  | succ f ih =>
    intro q p h
    rw [T.below, List.mem_cons, List.mem_flatMap] at h
    rcases h with rfl | ⟨c, -, h⟩
    · exact ⟨[], rfl⟩
    · obtain ⟨r, rfl⟩ := ih _ _ h
      exact ⟨r ++ [c], by simp⟩

theorem below_disj {f : Nat} {q p : Path} {c c' : Nat} (h : c ≠ c') (hp : p ∈ t.below f (c :: q)) : p ∉ t.below f (c' :: q) := by
  intro hp'
  obtain ⟨r, rfl⟩ := below_suffix _ _ _ hp
  obtain ⟨r', h'⟩ := below_suffix _ _ _ hp'
  have h1 : (r ++ [c]) ++ q = (r' ++ [c']) ++ q := by simpa using h'
  have h2 := List.append_cancel_right h1
  have h3 := congrArg List.getLast? h2
  simp at h3
  exact h h3

theorem below_not_self {f : Nat} {q : Path} {c : Nat} : q ∉ t.below f (c :: q) := by
  intro h
  obtain ⟨r, hr⟩ := below_suffix _ _ _ h
  have := congrArg List.length hr
  simp at this
  omega

theorem below_nodup : ∀ (f : Nat) (q : Path), (t.below f q).Nodup := by
  intro f
  induction f with
  | zero => intro q; simp [T.below]
  | succ f ih =>
    intro q
    rw [T.below, List.nodup_cons]
    refine ⟨fun h => ?_, ?_⟩
    · obtain ⟨c, -, h⟩ := List.mem_flatMap.1 h
      exact below_not_self h
    · rw [List.nodup_flatMap]
      refine ⟨fun c _ => ih _, ?_⟩
      refine List.nodup_range.pairwise_of_forall_ne ?_
      intro c _ c' _ hne p hp hp'
      exact below_disj hne hp hp'

theorem assignPrims_id (p : Path) (d : ND) (o : POut) {q : Path} (h : q ≠ p) : (assignPrims t V w p d o).id q = o.id q := by
  unfold assignPrims
  split
  · induction List.range d.prims.length generalizing o with
    | nil => rfl
    | cons i l ih =>
      rw [List.foldl_cons, ih]
      split
      · exact upd_ne h
      · rfl
  · rfl

theorem assignMeths_id (p : Path) (a x : Nat) (o : POut) {q : Path} : (assignMeths P V w p a x o).id q = o.id q := by
  unfold assignMeths
  induction List.range (meths P x).length generalizing o with
  | nil => rfl
  | cons i l ih =>
    rw [List.foldl_cons, ih]
    split <;> rfl

theorem assignAbs_id (p : Path) (d : ND) (o : POut) {q : Path} (h : q ≠ p) : (assignAbs P V w p d o).id q = o.id q := by
  unfold assignAbs
  induction List.range d.abss.length generalizing o with
  | nil => rfl
  | cons i l ih =>
    rw [List.foldl_cons, ih]
    split
    · rw [assignMeths_id]; exact upd_ne h
    · rfl

theorem step_id (o : POut) (p : Path) {q : Path} (h : q ≠ p) : (step P t V w o p).id q = o.id q := by
  unfold step
  split
  · rfl
  · unfold assignAt
    cases t.nd p with
    | none => rfl
    | some d =>
      simp only
      rw [assignAbs_id p d _ h, assignPrims_id p d o h]

theorem steps_id (ps : List Path) (o : POut) {q : Path} (h : q ∉ ps) : (ps.foldl (step P t V w) o).id q = o.id q := by
  induction ps generalizing o with
  | nil => rfl
  | cons p ps ih =>
    rw [List.mem_cons, not_or] at h
    rw [List.foldl_cons, ih _ h.2, step_id o p h.1]

/-- The recursion visits the vertices of the tree, parents first. -/
theorem assignOut_fold : ∀ (f : Nat) (p : Path) (o : POut), (∀ q ∈ t.below f p, (o.id q).isSome → t.nc q = 0) →
    assignOut P t V w f p o = (t.below f p).foldl (step P t V w) o := by
  intro f
  induction f with
  | zero =>
    intro p o _
    rfl
  | succ f ih =>
    intro p o h
    rw [assignOut, T.below, List.foldl_cons]
    by_cases hp : (o.id p).isSome
    · rw [if_pos hp, h p (by rw [T.below]; exact List.mem_cons_self) hp]
      simp [step, hp]
    · rw [if_neg hp, show step P t V w o p = assignAt P t V w p o by simp [step, hp]]
      have hid : ∀ c < t.nc p, ∀ q ∈ t.below f (c :: p), (((assignAt P t V w p o).id q).isSome → t.nc q = 0) := by
        intro c hc q hq
        have hne : q ≠ p := fun hqp => below_not_self (hqp ▸ hq)
        have := step_id (P := P) (t := t) (V := V) (w := w) o p hne
        rw [show step P t V w o p = assignAt P t V w p o by simp [step, hp]] at this
        rw [this]
        exact h q (by rw [T.below]; exact List.mem_cons_of_mem _ (List.mem_flatMap.2 ⟨c, List.mem_range.2 hc, hq⟩))
      rw [List.foldl_flatMap]
      have key : ∀ (cs : List Nat), cs.Nodup → ∀ o' : POut, (∀ c ∈ cs, ∀ q ∈ t.below f (c :: p), (o'.id q).isSome → t.nc q = 0) →
          cs.foldl (fun o c => assignOut P t V w f (c :: p) o) o' =
            cs.foldl (fun o c => (t.below f (c :: p)).foldl (step P t V w) o) o' := by
        intro cs
        induction cs with
        | nil => intro _ _ _; rfl
        | cons c cs ihc =>
          intro hn o' ho
          rw [List.nodup_cons] at hn
          rw [List.foldl_cons, List.foldl_cons, ih (c :: p) o' (ho c List.mem_cons_self)]
          refine ihc hn.2 _ fun c' hc' q hq => ?_
          rw [steps_id _ _ (below_disj (fun h : c' = c => hn.1 (h ▸ hc')) hq)]
          exact ho c' (List.mem_cons_of_mem _ hc') q hq
      exact key _ List.nodup_range _ fun c hc => hid c (List.mem_range.1 hc)

/-- Task and method of a vertex with an abstract task. -/
def LineAt (P : Problem) (t : T) (sel : Path → Sel) (p : Path) (x meth : Nat) : Prop :=
  ∃ d a m, sel p = .abs a m ∧ t.nd p = some d ∧ d.abss[a]? = some x ∧ (meths P x)[m]? = some meth

theorem lineAt_of (hs : Consistent P t sel) {p : Path} (h : isA sel p = true) : ∃ x meth, LineAt P t sel p x meth := by
  unfold isA at h
  cases hp : sel p with
  | none => rw [hp] at h; simp at h
  | prim i => rw [hp] at h; simp at h
  | abs a m =>
    obtain ⟨d, e, meth, hd, -, x, hx, hm⟩ := hs.abs p a m hp
    exact ⟨x, meth, d, a, m, hp, hd, hx, hm⟩

theorem LineAt.isA {p : Path} {x meth : Nat} (h : LineAt P t sel p x meth) : isA sel p = true := by
  obtain ⟨d, a, m, h, -⟩ := h
  unfold Pdt.isA
  rw [h]

theorem step_abs (hs : Shows P t V w sel) {p : Path} {x meth : Nat} (h : LineAt P t sel p x meth) {o : POut} (h0 : o.id p = none) :
    step P t V w o p = ⟨upd o.id p o.cur, upd o.task p x, upd o.meth p meth, o.cur + 1⟩ := by
  obtain ⟨d, a, m, h1, h2, h3, h4⟩ := h
  unfold step
  rw [h0]
  simp only [Option.isSome_none, Bool.false_eq_true, if_false]
  exact assignAt_abs hs h1 h2 h3 h4 o

theorem step_other (hs : Shows P t V w sel) {p : Path} (hA : isA sel p = false) {o : POut}
    (hP : isP sel p = true → t.nc p = 0 → (o.id p).isSome) : step P t V w o p = o := by
  unfold step
  by_cases h : (o.id p).isSome
  · rw [if_pos h]
  · rw [if_neg h]
    exact assignAt_other hs hA (fun h1 h2 => h (hP h1 h2)) o

theorem steps_spec (hs : Shows P t V w sel) : ∀ (ps : List Path), ps.Nodup → ∀ (o : POut), (∀ q ∈ ps, isA sel q = true → o.id q = none) →
    (∀ q ∈ ps, isP sel q = true → t.nc q = 0 → (o.id q).isSome) →
    (∀ q, (ps.foldl (step P t V w) o).id q =
      if q ∈ ps.filter (isA sel) then some (o.cur + (ps.filter (isA sel)).idxOf q) else o.id q) ∧
    (∀ q, q ∉ ps.filter (isA sel) → (ps.foldl (step P t V w) o).task q = o.task q ∧ (ps.foldl (step P t V w) o).meth q = o.meth q) ∧
    ∀ q ∈ ps.filter (isA sel), ∀ x m, LineAt P t sel q x m → (ps.foldl (step P t V w) o).task q = some x ∧
      (ps.foldl (step P t V w) o).meth q = some m := by
  intro ps
  induction ps with
  | nil => intro _ o _ _; simp
  | cons p ps ih =>
    intro hnd o hA hP
    rw [List.nodup_cons] at hnd
    cases hp : isA sel p with
    | false =>
      have h0 : (p :: ps).filter (isA sel) = ps.filter (isA sel) := by rw [List.filter_cons, hp]; simp
      rw [List.foldl_cons, h0, step_other hs hp (hP p List.mem_cons_self)]
      exact ih hnd.2 o (fun q hq => hA q (List.mem_cons_of_mem _ hq)) (fun q hq => hP q (List.mem_cons_of_mem _ hq))
    | true =>
      obtain ⟨x, meth, hl⟩ := lineAt_of hs.cons hp
      have h0 : (p :: ps).filter (isA sel) = p :: ps.filter (isA sel) := by rw [List.filter_cons, hp]; simp
      have hpn : p ∉ ps.filter (isA sel) := fun h => hnd.1 (List.mem_filter.1 h).1
      rw [List.foldl_cons, h0, step_abs hs hl (hA p List.mem_cons_self hp)]
      obtain ⟨h1, h2, h3⟩ := ih hnd.2 ⟨upd o.id p o.cur, upd o.task p x, upd o.meth p meth, o.cur + 1⟩ (fun q hq h => by
          show upd o.id p o.cur q = none
          rw [upd_ne (fun hqp : q = p => hnd.1 (hqp ▸ hq))]
          exact hA q (List.mem_cons_of_mem _ hq) h) (fun q hq h h' => by
          show (upd o.id p o.cur q).isSome
          rw [upd_ne (fun hqp : q = p => hnd.1 (hqp ▸ hq))]
          exact hP q (List.mem_cons_of_mem _ hq) h h')
      refine ⟨fun q => ?_, fun q hq => ?_, fun q hq x' m' hl' => ?_⟩
      · rw [h1 q]
        by_cases hq : q = p
        · subst hq
          rw [if_neg hpn, if_pos List.mem_cons_self]
          simp [upd]
        · by_cases hm : q ∈ ps.filter (isA sel)
          · rw [if_pos hm, if_pos (List.mem_cons_of_mem _ hm), List.idxOf_cons_ne _ (Ne.symm hq)]
            simp; omega
          · rw [if_neg hm, if_neg (by simp only [List.mem_cons, not_or]; exact ⟨hq, hm⟩)]
            simp [upd, hq]
      · rw [List.mem_cons, not_or] at hq
        obtain ⟨k1, k2⟩ := h2 q hq.2
        rw [k1, k2]
        exact ⟨upd_ne hq.1, upd_ne hq.1⟩
      · rcases List.mem_cons.1 hq with rfl | hm
        · obtain ⟨k1, k2⟩ := h2 q hpn
          rw [k1, k2]
          obtain ⟨d, a, m, e1, e2, e3, e4⟩ := hl
          obtain ⟨d', a', mm, f1, f2, f3, f4⟩ := hl'
          rw [e1] at f1
          simp only [Sel.abs.injEq] at f1
          obtain ⟨rfl, rfl⟩ := f1
          rw [e2] at f2
          obtain rfl := Option.some.inj f2
          rw [e3] at f3
          obtain rfl := Option.some.inj f3
          rw [e4] at f4
          obtain rfl := Option.some.inj f4
          exact ⟨upd_self _ _ _, upd_self _ _ _⟩
        · exact h3 q hm x' m' hl'

/-! ## The final numbers -/

/-- The final state of the fields. -/
structure Final (P : Problem) (t : T) (sel : Path → Sel) (acts : List (Nat × Nat)) (o : POut) : Prop where
  no : ∀ p, isA sel p = false → (isP sel p = true → t.nc p ≠ 0) → o.id p = none
  leaf : ∀ p, p ∈ t.leaves → isP sel p = true → ∃ k, o.id p = some k ∧ (∀ y, o.task p = some y → P.prim y = true) ∧
    ∀ a ∈ actAt t sel p, (k, a) ∈ acts
  abs : ∀ p x m, LineAt P t sel p x m → ∃ k, o.id p = some k ∧ o.task p = some x ∧ o.meth p = some m

theorem map_idxOf {l : List Path} (h : l.Nodup) (c : Nat) : l.map (fun p => c + l.idxOf p) = List.range' c l.length := by
  apply List.ext_getElem
  · simp
  · intro i h1 h2
    simp [h.idxOf_getElem]

theorem final (ht : t.OK P tot) (hs : Shows P t V w sel) :
    ∃ o, assignOut P t V w t.K [] (leavesPrint t V w t.leaves (.start, [])).1 = o ∧
      Final P t sel (leavesPrint t V w t.leaves (.start, [])).2 o ∧
      ((t.leaves.filter (isP sel)).map o.id = (List.range (t.leaves.filter (isP sel)).length).map some) ∧
      ((t.nodes.filter (isA sel)).map o.id =
        (List.range' (t.leaves.filter (isP sel)).length (t.nodes.filter (isA sel)).length).map some) := by
  obtain ⟨h1, h2, h3, h4, -, -, -, h8⟩ := leavesPrint_spec (w := w) (V := V) hs.cons t.leaves hs.leaf leaves_nodup (.start, [])
  generalize hx : leavesPrint t V w t.leaves (.start, []) = x at *
  simp only [POut.start, Nat.zero_add] at h1 h2 h3 h4 h8
  have hAP : ∀ p, isA sel p = true → isP sel p = false := by
    intro p
    unfold isA isP
    cases sel p <;> simp
  have hpre : ∀ q ∈ t.below t.K [], (x.1.id q).isSome → t.nc q = 0 := by
    intro q _ h
    rw [h4 q] at h
    split at h
    · rename_i hm
      exact ((mem_leaves ht).1 (List.mem_filter.1 hm).1).2
    · simp at h
  rw [assignOut_fold _ _ _ hpre]
  have hnode : ∀ q, isP sel q = true → ∃ d, t.nd q = some d := by
    intro q h
    unfold isP at h
    cases hq : sel q with
    | prim i =>
      obtain ⟨d, -, hd, -⟩ := hs.cons.prim q i hq
      exact ⟨d, hd⟩
    | none => rw [hq] at h; simp at h
    | abs a m => rw [hq] at h; simp at h
  have hleaf : ∀ q, isP sel q = true → t.nc q = 0 → q ∈ t.leaves.filter (isP sel) := by
    intro q h h0
    exact List.mem_filter.2 ⟨(mem_leaves ht).2 ⟨hnode q h, h0⟩, h⟩
  obtain ⟨k1, k2, k3⟩ := steps_spec hs (t.below t.K []) (below_nodup _ _) x.1 (fun q _ h => by
    rw [h4 q, if_neg fun hm => ?_]
    have := (List.mem_filter.1 hm).2
    rw [hAP q h] at this
    simp at this) (fun q _ h h0 => by
    rw [h4 q, if_pos (hleaf q h h0)]; simp)
  rw [show t.below t.K [] = t.nodes from rfl] at *
  generalize ho : t.nodes.foldl (step P t V w) x.1 = o at *
  rw [h1] at k1
  have hid : ∀ q ∈ t.leaves.filter (isP sel), o.id q = some ((t.leaves.filter (isP sel)).idxOf q) := by
    intro q hq
    rw [k1 q, if_neg, h4 q, if_pos hq]
    intro hm
    have := hAP q (List.mem_filter.1 hm).2
    rw [(List.mem_filter.1 hq).2] at this
    simp at this
  have hin : ∀ q, isA sel q = true → q ∈ t.nodes.filter (isA sel) := by
    intro q h
    obtain ⟨x, m, d, a, m, -, hd, -⟩ := lineAt_of hs.cons h
    exact List.mem_filter.2 ⟨mem_nodes ht q d hd, h⟩
  refine ⟨o, rfl, ⟨fun p hA hP => ?_, fun p hp h => ?_, fun p x m hl => ?_⟩, ?_, ?_⟩
  · rw [k1 p, if_neg (fun h => by rw [(List.mem_filter.1 h).2] at hA; simp at hA), h4 p, if_neg]
    intro h
    obtain ⟨a, b⟩ := List.mem_filter.1 h
    exact hP b ((mem_leaves ht).1 a).2
  · have hq : p ∈ t.leaves.filter (isP sel) := List.mem_filter.2 ⟨hp, h⟩
    refine ⟨_, hid p hq, ?_, fun a ha => h8 p hq a ha⟩
    suffices h : o.task p = none by rw [h]; simp
    rw [(k2 p (fun hm => by
      have := hAP p (List.mem_filter.1 hm).2
      rw [h] at this
      simp at this)).1, h2]
  · have hq := hin p hl.isA
    exact ⟨_, by rw [k1 p, if_pos hq], k3 p hq x m hl⟩
  · have := map_idxOf ((leaves_nodup (t := t)).filter (isP sel)) 0
    rw [List.range_eq_range', ← this, List.map_map]
    refine List.map_congr_left fun q hq => ?_
    rw [hid q hq]
    simp
  · rw [← map_idxOf (l := t.nodes.filter (isA sel)) ((below_nodup t.K []).filter (isA sel)), List.map_map]
    refine List.map_congr_left fun q hq => ?_
    rw [k1 q, if_pos hq]
    rfl

/-! ## The printed lines -/

/-- The numbers of the leaves with actions below a vertex. -/
def lids (t : T) (sel : Path → Sel) (o : POut) (f : Nat) (p : Path) : List Nat :=
  ((t.leavesFrom f p).filter (isP sel)).map fun q => (o.id q).getD 0

/-- The numbers of the abstract tasks below a vertex. -/
def aids (t : T) (sel : Path → Sel) (o : POut) (f : Nat) (p : Path) : List Nat :=
  ((t.below f p).filter (isA sel)).map fun q => (o.id q).getD 0

theorem lids_succ {o : POut} {f : Nat} {p : Path} (h : t.nc p ≠ 0) :
    lids t sel o (f + 1) p = (List.range (t.nc p)).flatMap fun c => lids t sel o f (c :: p) := by
  unfold lids
  rw [T.leavesFrom, if_neg h, List.filter_flatMap, List.map_flatMap]

theorem aids_succ {o : POut} {f : Nat} {p : Path} :
    aids t sel o (f + 1) p = (if isA sel p then [(o.id p).getD 0] else []) ++
      (List.range (t.nc p)).flatMap fun c => aids t sel o f (c :: p) := by
  unfold aids
  rw [T.below, List.filter_cons, List.filter_flatMap]
  split
  · rw [List.map_cons, List.map_flatMap]; rfl
  · rw [List.map_flatMap]; rfl

variable {acts : List (Nat × Nat)} {o : POut}

theorem below_none (hs : Consistent P t sel) (hf : Final P t sel acts o) : ∀ f p, sel p = .none →
    nextOut t o f p = none ∧ decLines P t o f p = [] ∧ lids t sel o f p = [] ∧ aids t sel o f p = [] := by
  intro f
  induction f with
  | zero =>
    intro p h
    have h0 := hf.no p (by simp [isA, h]) (by simp [isP, h])
    refine ⟨h0, by simp [decLines, h0], ?_, ?_⟩
    · simp [lids, T.leavesFrom, isP, h]
    · simp [aids, T.below, isA, h]
  | succ f ih =>
    intro p h
    have h0 := hf.no p (by simp [isA, h]) (by simp [isP, h])
    have hc : ∀ c, _ := fun c => ih (c :: p) (hs.none_child p c h)
    refine ⟨?_, by simp [decLines, h0], ?_, ?_⟩
    · rw [nextOut, h0]
      simp only [List.findSome?_eq_none_iff]
      exact fun c _ => (hc c).1
    · by_cases hn : t.nc p = 0
      · simp [lids, T.leavesFrom, isP, h, hn]
      · rw [lids_succ hn, List.flatMap_eq_nil_iff]
        exact fun c _ => (hc c).2.2.1
    · rw [aids_succ]
      simp only [isA, h, Bool.false_eq_true, if_false, List.nil_append, List.flatMap_eq_nil_iff]
      exact fun c _ => (hc c).2.2.2

theorem findSome_single {g : Nat → Option Nat} {n c : Nat} (hc : c < n) {k : Nat} (h : g c = some k)
    (ho : ∀ c' < n, c' ≠ c → g c' = none) : (List.range n).findSome? g = some k := by
  rw [List.findSome?_eq_some_iff]
  refine ⟨List.range c, c, List.range' (c + 1) (n - c - 1), ?_, h, fun x hx => ?_⟩
  · rw [List.range_eq_range', List.range_eq_range', ← List.range'_succ]
    have := List.range'_append_1 (s := 0) (m := c) (n := n - c)
    rw [Nat.zero_add] at this
    rw [show n - c - 1 + 1 = n - c by omega, this]
    congr 1
    omega
  · have := List.mem_range.1 hx
    exact ho x (by omega) (by omega)

theorem below_prim (ht : t.OK P tot) (hs : Consistent P t sel) (hf : Final P t sel acts o) : ∀ f p, p.length + f = t.K → ∀ i d x,
    sel p = .prim i → t.nd p = some d → d.prims[i]? = some x →
    ∃ k, nextOut t o f p = some k ∧ decLines P t o f p = [] ∧ lids t sel o f p = [k] ∧ aids t sel o f p = [] ∧ (k, x) ∈ acts := by
  intro f
  have hleaf : ∀ p i d x, sel p = .prim i → t.nd p = some d → d.prims[i]? = some x → t.nc p = 0 →
      ∃ k, o.id p = some k ∧ (∀ f, decLines P t o f p = []) ∧ (k, x) ∈ acts := by
    intro p i d x h1 h2 h3 h0
    obtain ⟨k, k1, k2, k3⟩ := hf.leaf p ((mem_leaves ht).2 ⟨⟨d, h2⟩, h0⟩) (by simp [isP, h1])
    refine ⟨k, k1, fun f => ?_, k3 x ?_⟩
    · cases hy : o.task p with
      | none => cases f <;> simp [decLines, k1, hy]
      | some y => cases f <;> simp [decLines, k1, hy, k2 y hy]
    simp only [actAt, h1, h2]
    rw [List.getD_eq_getElem?_getD, h3]
    simp
  induction f with
  | zero =>
    intro p hp i d x h1 h2 h3
    have h0 : t.nc p = 0 := by
      unfold T.nc
      cases he : t.ex p with
      | none => rfl
      | some e =>
        obtain ⟨_, -, hlt, -⟩ := ht.ex p e he
        omega
    obtain ⟨k, k1, k2, k3⟩ := hleaf p i d x h1 h2 h3 h0
    exact ⟨k, k1, k2 0, by simp [lids, T.leavesFrom, isP, h1, k1], by simp [aids, T.below, isA, h1], k3⟩
  | succ f ih =>
    intro p hp i d x h1 h2 h3
    by_cases h0 : t.nc p = 0
    · obtain ⟨k, k1, k2, k3⟩ := hleaf p i d x h1 h2 h3 h0
      refine ⟨k, by rw [nextOut, k1], k2 (f + 1), by simp [lids, T.leavesFrom, isP, h1, k1, h0], ?_, k3⟩
      rw [aids_succ, h0]
      simp [isA, h1]
    · cases he : t.ex p with
      | none => exact absurd (by unfold T.nc; rw [he]) h0
      | some e =>
        obtain ⟨d', hd', -, -, hexp, -⟩ := ht.ex p e he
        rw [h2] at hd'
        obtain rfl := Option.some.inj hd'
        obtain ⟨c, j, k, hpos, hc, hother⟩ := hs.prim_child p i e h1 he
        obtain ⟨ch, hch, hx, -⟩ := hexp.pos_inh i c j k hpos
        have hclt : c < t.nc p := by rw [nc_eq he]; exact (List.getElem?_eq_some_iff.1 hch).1
        obtain ⟨k', k1, k2, k3, k4, k5⟩ := ih (c :: p) (by simp; omega) j ch x hc ((ht.child c p ch).2 ⟨e, he, hch⟩) (by rw [hx, h3])
        have hidn : o.id p = none := hf.no p (by simp [isA, h1]) (fun _ => h0)
        have hno : ∀ c' < t.nc p, c' ≠ c → _ := fun c' _ hne => below_none hs hf f (c' :: p) (hother c' hne)
        refine ⟨k', ?_, by simp [decLines, hidn], ?_, ?_, k5⟩
        · rw [nextOut, hidn]
          exact findSome_single hclt k1 fun c' h h' => (hno c' h h').1
        · rw [lids_succ h0, flatMap_single hclt fun c' h h' => (hno c' h h').2.2.1, k3]
        · rw [aids_succ, flatMap_single hclt fun c' h h' => (hno c' h h').2.2.2, k4]
          simp [isA, h1]

theorem Reads.mono {decs decs' : List DLine} (h : ∀ l ∈ decs, l ∈ decs') {k : Nat} {tr : Tree}
    (hr : Reads P tot acts decs k tr) : Reads P tot acts decs' k tr := by
  induction hr with
  | leaf h => exact .leaf h
  | node h1 _ ih => exact .node (h _ h1) ih

/-- What is printed below a vertex with an abstract task. -/
theorem below_abs (ht : t.OK P tot) (hsq : t.Has P tot (SeqR tot t)) (htot : ∀ m < P.numMethods, (tot m).Perm (List.range (P.sub m).length))
    (hwf : ∀ m < P.numMethods, P.prim (P.head m) = false)
    (hs : Consistent P t sel) (hf : Final P t sel acts o) : ∀ f p, p.length + f = t.K → ∀ a m d x,
    sel p = .abs a m → t.nd p = some d → d.abss[a]? = some x →
    ∃ k tr, nextOut t o f p = some k ∧ o.id p = some k ∧ Valid P x tr ∧ HeightLE P tr f ∧
      (t.leavesFrom f p).flatMap (actAt t sel) = yield tot tr ∧ Reads P tot acts (decLines P t o f p) k tr ∧
      (decLines P t o f p).map DLine.id = aids t sel o f p ∧
      (k :: (decLines P t o f p).flatMap DLine.subs).Perm (lids t sel o f p ++ aids t sel o f p) := by
  intro f
  induction f with
  | zero =>
    intro p hp a m d x h1 h2 h3
    obtain ⟨_, e, _, -, he, -⟩ := hs.abs p a m h1
    obtain ⟨_, -, hlt, -⟩ := ht.ex p e he
    omega
  | succ f ih =>
    intro p hp a m d x h1 h2 h3
    obtain ⟨d', e, meth, hd', he, hm⟩ := hs.abs p a m h1
    rw [h2] at hd'
    obtain rfl := Option.some.inj hd'
    obtain ⟨d', hd', -, -, hexp, hnil⟩ := ht.ex p e he
    rw [h2] at hd'
    obtain rfl := Option.some.inj hd'
    obtain ⟨hlt, x', hx', hhead⟩ := lt_of_isMeth hm
    rw [h3] at hx'
    obtain rfl := Option.some.inj hx'
    obtain ⟨mp, ⟨-, hplace, himg⟩, hpl⟩ := hsq p d e h2 he a m meth hm
    unfold SeqR at hpl
    rw [nc_eq he] at hpl
    have hline : LineAt P t sel p x meth := by
      obtain ⟨x', hx', hmm⟩ := hm
      rw [h3] at hx'
      obtain rfl := Option.some.inj hx'
      exact ⟨d, a, m, h1, h2, h3, hmm⟩
    obtain ⟨k, hk1, hk2, hk3⟩ := hf.abs p x meth hline
    have hne : t.nc p ≠ 0 := by
      rw [nc_eq he]
      intro h0
      exact hnil.1 (List.length_eq_zero_iff.1 h0) a m meth hm
    have hother : ∀ c < t.nc p, (∀ i ∈ tot meth, mp.getD i 0 ≠ c) → sel (c :: p) = .none := by
      intro c _ hc
      refine (hs.abs_child p a m e h1 he c).1 ?_
      cases hq : e.ptr a m c with
      | none => rfl
      | some q =>
        obtain ⟨i, hi, hic⟩ := himg c q hq
        exact absurd hic (hc i hi)
    have hpos : ∀ i ∈ tot meth, ∃ k tr, nextOut t o f (mp.getD i 0 :: p) = some k ∧ Valid P ((P.sub meth).getD i 0) tr ∧
        HeightLE P tr f ∧ (t.leavesFrom f (mp.getD i 0 :: p)).flatMap (actAt t sel) = yield tot tr ∧
        Reads P tot acts (decLines P t o f (mp.getD i 0 :: p)) k tr ∧
        (decLines P t o f (mp.getD i 0 :: p)).map DLine.id = aids t sel o f (mp.getD i 0 :: p) ∧
        (k :: (decLines P t o f (mp.getD i 0 :: p)).flatMap DLine.subs).Perm
          (lids t sel o f (mp.getD i 0 :: p) ++ aids t sel o f (mp.getD i 0 :: p)) := by
      intro i hi
      obtain ⟨q, ch, hq, hch, hqp, htask⟩ := hplace i hi
      have hnd := (ht.child (mp.getD i 0) p ch).2 ⟨e, he, hch⟩
      have hsel := (hs.abs_child p a m e h1 he (mp.getD i 0)).2 q hq
      cases hb : q.isPrim with
      | true =>
        rw [hb, if_pos rfl] at hsel
        rw [hb] at htask hqp
        obtain ⟨k, k1, k2, k3, k4, k5⟩ := below_prim ht hs hf f _ (by simp; omega) _ ch _ hsel hnd htask
        refine ⟨k, .leaf _, k1, .leaf hqp.symm, .leaf, leaves_prim ht hs f _ (by simp; omega) _ ch _ hsel hnd htask, ?_, ?_, ?_⟩
        · exact .leaf k5
        · rw [k2, k4]; rfl
        · rw [k2, k3, k4]; simp
      | false =>
        rw [hb, if_neg (by simp)] at hsel
        obtain ⟨m', hm'⟩ := hsel
        rw [hb] at htask
        obtain ⟨k, tr, g1, -, g2, g3, g4, g5, g6, g7⟩ := ih _ (by simp; omega) _ m' ch _ hm' hnd htask
        exact ⟨k, tr, g1, g2, g3, g4, g5, g6, g7⟩
    have : Nonempty Tree := ⟨.leaf 0⟩
    choose! κ cs hcs using hpos
    have hmem : ∀ i, i ∈ tot meth ↔ i < (P.sub meth).length := fun i => by
      rw [(htot meth hlt).mem_iff, List.mem_range]
    have hnx : P.prim x = false := hhead ▸ hwf meth hlt
    have hsubs : ((List.range (t.nc p)).filterMap fun c => nextOut t o f (c :: p)) = (tot meth).map κ := by
      have e1 : ((List.range (t.nc p)).filterMap fun c => nextOut t o f (c :: p)) =
          (List.range (t.nc p)).flatMap fun c => (nextOut t o f (c :: p)).toList := by
        rw [List.filterMap_eq_flatMap_toList]
      rw [e1, nc_eq he, flatMap_placed hpl fun c hc hcc => by
        rw [(below_none hs hf f _ (hother c (by rw [nc_eq he]; exact hc) hcc)).1]; rfl]
      rw [List.map_eq_flatMap]
      refine List.flatMap_congr fun i hi => ?_
      rw [(hcs i hi).1]; rfl
    have hdec : decLines P t o (f + 1) p = ⟨k, P.head meth, some meth, (tot meth).map κ⟩ ::
        (tot meth).flatMap fun i => decLines P t o f (mp.getD i 0 :: p) := by
      rw [decLines, hk1, hk2]
      simp only [hnx, Bool.false_eq_true, if_false]
      rw [hsubs, hk3, hhead, nc_eq he, flatMap_placed hpl fun c hc hcc =>
        (below_none hs hf f _ (hother c (by rw [nc_eq he]; exact hc) hcc)).2.1]
    have hai : aids t sel o (f + 1) p = k :: (tot meth).flatMap fun i => aids t sel o f (mp.getD i 0 :: p) := by
      rw [aids_succ, hline.isA, if_pos rfl, hk1, nc_eq he, flatMap_placed hpl fun c hc hcc =>
        (below_none hs hf f _ (hother c (by rw [nc_eq he]; exact hc) hcc)).2.2.2]
      rfl
    have hli : lids t sel o (f + 1) p = (tot meth).flatMap fun i => lids t sel o f (mp.getD i 0 :: p) := by
      rw [lids_succ hne, nc_eq he, flatMap_placed hpl fun c hc hcc =>
        (below_none hs hf f _ (hother c (by rw [nc_eq he]; exact hc) hcc)).2.2.1]
    refine ⟨k, .node meth cs, by rw [nextOut, hk1], hk1, ?_, .node fun i hi => (hcs i ((hmem i).2 hi)).2.2.1, ?_, ?_, ?_, ?_⟩
    · rw [← hhead]
      refine .node hlt fun i y hy => ?_
      obtain ⟨hi, rfl⟩ := List.getElem?_eq_some_iff.1 hy
      have := (hcs i ((hmem i).2 hi)).2.1
      rwa [List.getD_eq_getElem _ _ hi] at this
    · rw [T.leavesFrom, if_neg hne, List.flatMap_assoc, nc_eq he, flatMap_placed hpl]
      · rw [yield]
        refine List.flatMap_congr fun i hi => (hcs i hi).2.2.2.1
      · intro c hc hcc
        exact leaves_none hs f _ (hother c (by rw [nc_eq he]; exact hc) hcc)
    · rw [hdec]
      refine .node List.mem_cons_self fun i hi => (hcs i hi).2.2.2.2.1.mono fun l hl => ?_
      exact List.mem_cons_of_mem _ (List.mem_flatMap.2 ⟨i, hi, hl⟩)
    · rw [hdec, hai, List.map_cons, List.map_flatMap]
      congr 1
      exact List.flatMap_congr fun i hi => (hcs i hi).2.2.2.2.2.1
    · rw [hdec, hai, hli, List.flatMap_cons, List.flatMap_assoc]
      have key : ∀ l : List Nat, (∀ i ∈ l, i ∈ tot meth) →
          (l.map κ ++ l.flatMap fun i => (decLines P t o f (mp.getD i 0 :: p)).flatMap DLine.subs).Perm
          ((l.flatMap fun i => lids t sel o f (mp.getD i 0 :: p)) ++ l.flatMap fun i => aids t sel o f (mp.getD i 0 :: p)) := by
        intro l
        induction l with
        | nil => intro _; simp
        | cons i l ihl =>
          intro hl
          have hA := (hcs i (hl i List.mem_cons_self)).2.2.2.2.2.2
          have hB := ihl fun j hj => hl j (List.mem_cons_of_mem _ hj)
          simp only [List.map_cons, List.flatMap_cons, List.cons_append]
          generalize (decLines P t o f (mp.getD i 0 :: p)).flatMap DLine.subs = X at *
          generalize lids t sel o f (mp.getD i 0 :: p) = L at *
          generalize aids t sel o f (mp.getD i 0 :: p) = A at *
          generalize l.map κ = M at *
          generalize (l.flatMap fun i => (decLines P t o f (mp.getD i 0 :: p)).flatMap DLine.subs) = Y at *
          generalize (l.flatMap fun i => lids t sel o f (mp.getD i 0 :: p)) = L' at *
          generalize (l.flatMap fun i => aids t sel o f (mp.getD i 0 :: p)) = A' at *
          classical
          rw [List.perm_iff_count] at hA hB ⊢
          intro z
          have h1 := hA z
          have h2 := hB z
          simp only [List.count_append, List.count_cons] at h1 h2 ⊢
          omega
      have hk := key (tot meth) fun _ h => h
      have := hk.cons k
      exact this.trans List.perm_middle.symm

/-- The whole output. -/
theorem satOut_spec (ht : t.OK P tot) (hsq : t.Has P tot (SeqR tot t)) (htot : ∀ m < P.numMethods, (tot m).Perm (List.range (P.sub m).length))
    (hwf : ∀ m < P.numMethods, P.prim (P.head m) = false) (hs : Shows P t V w sel) :
    ∃ tr k n j, (satOut P t V w).root = some k ∧ Valid P P.init tr ∧ HeightLE P tr t.K ∧
      (satOut P t V w).acts.map Prod.snd = yield tot tr ∧ planOf t sel = yield tot tr ∧
      Reads P tot (satOut P t V w).acts (satOut P t V w).decs k tr ∧
      (satOut P t V w).acts.map Prod.fst = List.range n ∧ (satOut P t V w).decs.map DLine.id = List.range' n j ∧
      (k :: (satOut P t V w).decs.flatMap DLine.subs).Perm (List.range (n + j)) := by
  obtain ⟨o, h1, h2, h3, h4⟩ := final ht hs
  obtain ⟨-, -, -, -, k5, k6, -, -⟩ := leavesPrint_spec (w := w) (V := V) hs.cons t.leaves hs.leaf leaves_nodup (.start, [])
  obtain ⟨d, hd, -, ha⟩ := ht.root
  obtain ⟨m, hm⟩ := hs.cons.root
  obtain ⟨k, tr, -, g1, g2, g3, g4, g5, g6, g7⟩ := below_abs ht hsq htot hwf hs.cons h2 t.K [] (by simp) 0 m d P.init hm hd (by rw [ha]; rfl)
  have hl : lids t sel o t.K [] = List.range (t.leaves.filter (isP sel)).length := by
    have := congrArg (List.map fun z : Option Nat => z.getD 0) h3
    rw [List.map_map, List.map_map] at this
    simpa [lids, T.leaves, Function.comp_def] using this
  have hA : aids t sel o t.K [] = List.range' (t.leaves.filter (isP sel)).length (t.nodes.filter (isA sel)).length := by
    have := congrArg (List.map fun z : Option Nat => z.getD 0) h4
    rw [List.map_map, List.map_map] at this
    simpa [aids, T.nodes, Function.comp_def] using this
  have e1 : (satOut P t V w).acts = (leavesPrint t V w t.leaves (.start, [])).2 := rfl
  have e2 : (satOut P t V w).root = o.id [] := by rw [← h1]; rfl
  have e3 : (satOut P t V w).decs = decLines P t o t.K [] := by rw [← h1]; rfl
  rw [e1, e2, e3]
  refine ⟨tr, k, (t.leaves.filter (isP sel)).length, (t.nodes.filter (isA sel)).length, g1, g2, g3, ?_, g4, g5, ?_, ?_, ?_⟩
  · rw [k6]
    exact g4
  · rw [k5, List.range_eq_range']
    rfl
  · rw [g6, hA]
  · refine g7.trans ?_
    rw [hl, hA, List.range_eq_range', List.range_eq_range']
    have := List.range'_append_1 (s := 0) (m := (t.leaves.filter (isP sel)).length) (n := (t.nodes.filter (isA sel)).length)
    rw [Nat.zero_add] at this
    rw [this]

end

/-! ## The output of the planner -/

/-- The loop over depths, with everything that is printed for the model (sat_planner.cpp 782-838). -/
def satRun (P : Problem) (cfg : Cfg) (o : SatOpts) (solve : List Clause → Option Assignment) : Nat → Nat → Nat → VM → Option (Nat × SatOut)
  | 0, _, _, _ => none
  | f + 1, K, n, V =>
    match depthFormula P o (tree P cfg K) n V with
    | .undef => none
    | .pruned => satRun P cfg o solve f (K + 1) n V
    | .formula V' n' cs =>
      match solve cs with
      | some w => some (K, satOut P (tree P cfg K) V' w)
      | none => satRun P cfg o solve f (K + 1) n' V'

/-- What the output for a depth has to be. -/
structure OutOK (P : Problem) (tot : Nat → List Nat) (K : Nat) (out : SatOut) (tr : Tree) (k n j : Nat) : Prop where
  root : out.root = some k
  valid : Valid P P.init tr
  height : HeightLE P tr K
  plan : out.acts.map Prod.snd = yield tot tr
  reads : Reads P tot out.acts out.decs k tr
  actIds : out.acts.map Prod.fst = List.range n
  decIds : out.decs.map DLine.id = List.range' n j
  once : (k :: out.decs.flatMap DLine.subs).Perm (List.range (n + j))

/-- Every model of the formula for a depth is printed correctly. -/
theorem depth_out {P : Problem} {cfg : Cfg} {o : SatOpts} (hin : SatInput P cfg o) {K : Nat} (hst : ¬ Stuck P cfg K) {n : Nat} {V : VM}
    (hV : VMInv (tree P cfg K) n V) {V' : VM} {n' : Nat} {cs : List Clause}
    (h : depthFormula P o (tree P cfg K) n V = .formula V' n' cs) (w : Assignment) (hw : satAll w cs) :
    (satOut P (tree P cfg K) V' w).acts.map Prod.snd = printed (tree P cfg K) V' w ∧
    ∃ tr k n j, OutOK P cfg.tot K (satOut P (tree P cfg K) V' w) tr k n j := by
  have ht := tree_ok hin.wf hin.conf hst
  obtain ⟨S, h1, h2, -, hc⟩ := depthFormula_cases ht hin.conf.tot hin.meth o hV
  rcases hc with ⟨-, hp⟩ | ⟨n1, V1, l, r, hp, hV1, -⟩
  · rw [hp] at h; simp at h
  · have hf := hp.formula
    rw [h, FRes.formula.injEq] at hf
    obtain ⟨rfl, rfl, rfl⟩ := hf
    obtain ⟨-, k2, -⟩ := formula_sound hin.wf ht hin.conf.tot hin.meth hin.bits h2 hp hV1 hw
    rw [satAll_append] at hw
    obtain ⟨l', hl', hsem⟩ := treeItems_holds ht hin.conf.tot hin.meth (fun q => (h2 q).weak) hV1 hp.root
    rw [hp.tree] at hl'
    obtain rfl := Option.some.inj hl'
    have hit : ∀ it ∈ l, it.Holds w :=
      (emit_sat hin.bits l n1 (treeItems_ok hV1.vars (hV1.one_le ht) hp.tree) w).1 ⟨w, fun _ _ => rfl, hw.1⟩
    have hs := decode_shows ht hin.conf.tot hin.meth h2 hV1 ((hsem w).1 hit)
    obtain ⟨tr, k, n, j, g1, g2, g3, g4, g5, g6, g7, g8, g9⟩ := satOut_spec ht (tree_seq hin.wf hin.conf hst hin.seq) hin.conf.tot hin.wf.head_abs hs
    exact ⟨by rw [k2, g4, g5], tr, k, n, j, g1, g2, g3, g4, g6, g7, g8, g9⟩

theorem satRun_spec {P : Problem} {cfg : Cfg} {o : SatOpts} (hin : SatInput P cfg o) (hst : ∀ K, ¬ Stuck P cfg K)
    {solve : List Clause → Option Assignment} (hso : ∀ cs w, solve cs = some w → satAll w cs) : ∀ (f K n : Nat) (V : VM), VMInv (tree P cfg K) n V →
    (∀ K' out, satRun P cfg o solve f K n V = some (K', out) → satLoop P cfg o solve f K n V = .plan K' (out.acts.map Prod.snd) ∧
      ∃ tr k n j, OutOK P cfg.tot K' out tr k n j) ∧
    (∀ K' π, satLoop P cfg o solve f K n V = .plan K' π → ∃ out, satRun P cfg o solve f K n V = some (K', out)) := by
  intro f
  induction f with
  | zero => intro K n V _; exact ⟨fun K' out h => by simp [satRun] at h, fun K' π h => by simp [satLoop] at h⟩
  | succ f ih =>
    intro K n V hV
    rw [satRun, satLoop]
    rcases depth_spec hin (hst K) hV with ⟨h, -⟩ | ⟨V', n', cs, h, hV', -, -⟩
    · rw [h]; exact ih (K + 1) n V hV.next
    · rw [h]
      simp only
      cases hc : solve cs with
      | none => exact ih (K + 1) n' V' hV'.next
      | some w =>
        obtain ⟨h1, h2⟩ := depth_out hin (hst K) hV h w (hso cs w hc)
        refine ⟨fun K' out he => ?_, fun K' π he => ?_⟩
        · simp only [Option.some.injEq, Prod.mk.injEq] at he
          obtain ⟨rfl, rfl⟩ := he
          exact ⟨by rw [h1], h2⟩
        · simp only [LRes.plan.injEq] at he
          obtain ⟨rfl, rfl⟩ := he
          exact ⟨_, rfl⟩

end Verif.Pdt
