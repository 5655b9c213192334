import Verif.Strips
import Verif.LandmarkHtn

/-! # Model of `planningGraph` (src/heuristics/planningGraph.cpp)

The sets (`noDelIntSet`, C29) are lists without duplicates, the last inserted element first.  The heap is any priority queue
(`PQ`, met by the heap: C30).  The additive values of the facts are compared with `UNREACHABLE = INT_MAX`; a sum that
reaches it (the next step would overflow) is a separate outcome. -/

namespace Verif.PG

open Verif.Htn Verif.Strips Verif.Rc Verif.Reach Verif.Prog Verif.TaskCounter Verif.AO Relation

/-- `numSatPrecs`, `hValOp`, `hValProp`, `reachableTasksSet`, `usefulFactSet`, `queue`. -/
structure PSt (pq : PQ) where
  num : Nat → Int
  hOp : Nat → Nat
  hP : Nat → Nat
  rt : List Nat
  useful : List Nat
  q : pq.Q

/-- `noDelIntSet::insert`. -/
def ins (l : List Nat) (x : Nat) : List Nat := if x ∈ l then l else x :: l

section Def

variable (P : Problem) (nA nT : Nat) (pq : PQ) (U : Nat) (s : Nat → Bool) (ri : Nat → Bool)

/-- An action without preconditions sets the values of its facts, whatever they were (planningGraph.cpp 69-79). -/
def startAct (a : Nat) (x : PSt pq) : PSt pq :=
  (P.add a).foldl (fun x f => { x with hP := Function.update x.hP f (P.cost a), q := pq.add x.q (P.cost a) f }) { x with rt := ins x.rt a }

/-- The state before the loop (planningGraph.cpp 47-79). -/
def pgStart : PSt pq :=
  ((List.range nA).filter fun a => P.prec a = [] ∧ ri a = true).foldl (fun x a => startAct P pq a x)
    { num := fun a => (P.prec a).length
      hOp := P.cost
      hP := fun f => if s f then 0 else U
      rt := []
      useful := (P.goal.filter fun f => !s f).foldl ins []
      q := ((List.range P.numFacts).filter fun f => s f).foldl (fun q f => pq.add q 0 f) pq.empty }

/-- The add effects of a reached action (planningGraph.cpp 97-103). -/
def pgAdds (v : Nat) : List Nat → PSt pq → PSt pq
  | [], x => x
  | f :: l, x => pgAdds v l (if v < x.hP f then { x with hP := Function.update x.hP f v, q := pq.add x.q v f } else x)

/-- One action that has the popped fact as precondition (planningGraph.cpp 88-104).  `none`: the value of the action reaches `U`. -/
def pgOp (k : Nat) (o : Nat) (x : PSt pq) : Option (PSt pq) :=
  let v := x.hOp o + k
  if U ≤ v then none
  else
    let x := { x with hOp := Function.update x.hOp o v, num := Function.update x.num o (x.num o - 1) }
    if x.num o = 0 ∧ ri o = true then
      some (pgAdds pq v (P.add o) { x with rt := ins x.rt o, useful := ((P.prec o).filter fun f => !s f).foldl ins x.useful })
    else some x

/-- The actions that have the popped fact as precondition (planningGraph.cpp 87-105). -/
def pgOps (k : Nat) : List Nat → PSt pq → Option (PSt pq)
  | [], x => some x
  | o :: l, x =>
    match pgOp P pq U s ri k o x with
    | none => none
    | some x => pgOps k l x

/-- `precToAction` (src/Model.cpp 1709-1729). -/
def precTo (p : Nat) : List Nat := (List.range nA).filter fun a => p ∈ P.prec a

/-- Outcomes: a value reaches `INT_MAX`; out of fuel; stack overflow; regular. -/
inductive Out (α : Type)
  | over
  | fuel
  | ub
  | done (x : α)

/-- The first loop (planningGraph.cpp 81-106). -/
def pgLoop : Nat → PSt pq → Out (PSt pq)
  | 0, _ => .fuel
  | f + 1, x =>
    match pq.pop x.q with
    | none => .done x
    | some ((k, p), q) =>
      if x.hP p < k then pgLoop f { x with q := q }
      else
        match pgOps P pq U s ri k (precTo P nA p) { x with q := q } with
        | none => .over
        | some x => pgLoop f x

/-- `subtasks`, `reachableTasksSet`, `reachableMethodsSet`, `stack`. -/
structure MSt where
  cnt : Nat → Int
  rt : List Nat
  rm : List Nat
  st : List Nat

/-- `stToMethod` (src/Model.cpp 1949-1977). -/
def stTo (t : Nat) : List Nat := (List.range P.numMethods).filter fun m => t ∈ P.sub m

/-- One method with the popped task as subtask (planningGraph.cpp 117-125); `none`: push on the full stack. -/
def mOp (m : Nat) (x : MSt) : Option MSt :=
  let x := { x with cnt := Function.update x.cnt m (x.cnt m - 1) }
  if x.cnt m = 0 ∧ ri (P.head m) = true then
    let x := { x with rm := ins x.rm m }
    if P.head m ∈ x.rt then some x
    else if x.st.length < nT then some { x with rt := P.head m :: x.rt, st := P.head m :: x.st } else none
  else some x

def mOps : List Nat → MSt → Option MSt
  | [], x => some x
  | m :: l, x =>
    match mOp P nT ri m x with
    | none => none
    | some x => mOps l x

/-- The second loop (planningGraph.cpp 114-127). -/
def mLoop : Nat → MSt → Out MSt
  | 0, _ => .fuel
  | f + 1, x =>
    match x.st with
    | [] => .done x
    | t :: st =>
      match mOps P nT ri (stTo P t) { x with st := st } with
      | none => .ub
      | some x => mLoop f x

/-- The start of the second loop (planningGraph.cpp 107-113): `numDistinctSTs`; all reached actions are pushed. -/
def mStart (rt : List Nat) : MSt := ⟨fun m => (keys (distinctSubs P m)).length, rt, [], rt⟩

/-- What `calcReachability` leaves behind. -/
structure PgRes where
  hP : Nat → Nat
  tasks : List Nat
  methods : List Nat
  useful : List Nat

/-- `calcReachability` (planningGraph.cpp 45-128).  A stack too small for the initial pushes is undefined behaviour, too. -/
def pgCalc (fuel : Nat) : Out PgRes :=
  match pgLoop P nA pq U s ri fuel (pgStart P nA pq U s ri) with
  | .over => .over
  | .fuel => .fuel
  | .ub => .ub
  | .done x =>
    if nT < x.rt.length then .ub
    else
      match mLoop P nT ri fuel (mStart P x.rt) with
      | .over => .over
      | .fuel => .fuel
      | .ub => .ub
      | .done y => .done ⟨x.hP, y.rt, y.rm, x.useful⟩

/-- Relaxed reachability of facts with the actions of `ri`. -/
inductive RelF : Nat → Prop
  | init {f : Nat} : f < P.numFacts → s f = true → RelF f
  | act {a f : Nat} : a < nA → ri a = true → (∀ p ∈ P.prec a, RelF p) → f ∈ P.add a → RelF f

/-- Relaxed reachable actions. -/
def RelA (a : Nat) : Prop := a < nA ∧ ri a = true ∧ ∀ p ∈ P.prec a, RelF P nA s ri p

/-- Tasks that can be composed from tasks of `base` by methods for tasks of `ri`. -/
inductive RelT (base : Nat → Prop) : Nat → Prop
  | base {t : Nat} : base t → RelT base t
  | meth {m : Nat} : m < P.numMethods → ri (P.head m) = true → (∀ t ∈ P.sub m, RelT base t) → RelT base (P.head m)

def RelM (base : Nat → Prop) (m : Nat) : Prop := m < P.numMethods ∧ ri (P.head m) = true ∧ ∀ t ∈ P.sub m, RelT P ri base t

end Def

/-! ## Counting -/

theorem mem_ins {l : List Nat} {x y : Nat} : y ∈ ins l x ↔ y ∈ l ∨ y = x := by
  unfold ins
  split_ifs with h
  · exact ⟨.inl, fun h' => h'.elim id fun e => e ▸ h⟩
  · rw [List.mem_cons, or_comm]

theorem ins_nodup {l : List Nat} (h : l.Nodup) (x : Nat) : (ins l x).Nodup := by
  unfold ins
  split_ifs with hx
  · exact h
  · exact List.nodup_cons.2 ⟨hx, h⟩

theorem mem_foldl_ins {l : List Nat} : ∀ {r : List Nat} {y : Nat}, y ∈ l.foldl ins r ↔ y ∈ r ∨ y ∈ l := by
  induction l with
  | nil => simp
  | cons x l ih => intro r y; rw [List.foldl_cons, ih, mem_ins, List.mem_cons, or_assoc]

theorem countP_ge {l D : List Nat} (hl : l.Nodup) (h : ∀ x ∈ l, x ∈ D) : l.length ≤ D.countP (fun x => decide (x ∈ l)) := by
  rw [List.countP_eq_length_filter]
  refine (hl.subperm fun x hx => ?_).length_le
  simp [h x hx, hx]

theorem subset_of_countP {l D : List Nat} (hl : l.Nodup) (hD : D.Nodup) (h : l.length ≤ D.countP (fun x => decide (x ∈ l))) : ∀ x ∈ l, x ∈ D := by
  rw [List.countP_eq_length_filter] at h
  have h1 : List.Subperm (D.filter (fun x => decide (x ∈ l))) l := (hD.filter _).subperm fun x hx => by simpa using (List.mem_filter.1 hx).2
  have h2 := h1.perm_of_length_le h
  intro x hx
  exact (List.mem_filter.1 (h2.mem_iff.2 hx)).1

variable {P : Problem} {nA nT : Nat} {pq : PQ} {U : Nat} {s : Nat → Bool} {ri : Nat → Bool}

/-! ## The second loop -/

section Meth

/-- The invariant: `D` lists the popped tasks, `rem` the methods that still have to be visited for the last of them. -/
structure MInv (P : Problem) (nT : Nat) (ri : Nat → Bool) (base : List Nat) (rem D : List Nat) (x : MSt) : Prop where
  cnt : ∀ m < P.numMethods, x.cnt m = ((keys (distinctSubs P m)).length : Int) - (D.countP fun t => decide (t ∈ keys (distinctSubs P m))) +
    if m ∈ rem then 1 else 0
  part : x.rt.Perm (D ++ x.st)
  nodup : x.rt.Nodup
  lt : ∀ t ∈ x.rt, t < nT
  start : ∀ t ∈ base, t ∈ x.rt
  rm : ∀ m ∈ x.rm, RelM P ri (· ∈ base) m ∧ P.head m ∈ x.rt
  fire : ∀ m < P.numMethods, ri (P.head m) = true → x.cnt m ≤ 0 → m ∈ x.rm
  sound : ∀ t ∈ x.rt, RelT P ri (· ∈ base) t

theorem mOp_inv (hR : RcOK P nA nT) {base rem D : List Nat} {m : Nat} {x : MSt} (hrem : (m :: rem).Nodup) (hm : m < P.numMethods)
    (h : MInv P nT ri base (m :: rem) D x) :
    ∃ y, mOp P nT ri m x = some y ∧ MInv P nT ri base rem D y ∧ x.rt.length ≤ y.rt.length ∧ x.st.length ≤ y.st.length ∧
      y.st.length - x.st.length = y.rt.length - x.rt.length := by
  have hlen : x.rt.length ≤ nT := by
    have := (h.nodup.subperm (l₂ := List.range nT) fun t ht => List.mem_range.2 (h.lt t ht)).length_le
    simpa using this
  have hD : D.Nodup := ((h.part.nodup_iff.1 h.nodup).sublist (List.sublist_append_left _ _))
  have hk : (keys (distinctSubs P m)).Nodup := (distinctSubs_spec (P := P) m).1.sorted.imp fun h => Nat.ne_of_lt h
  have hcm := h.cnt m hm
  rw [if_pos List.mem_cons_self] at hcm
  have hcnt : ∀ m' < P.numMethods, Function.update x.cnt m (x.cnt m - 1) m' = ((keys (distinctSubs P m')).length : Int) -
      (D.countP fun t => decide (t ∈ keys (distinctSubs P m'))) + if m' ∈ rem then 1 else 0 := by
    intro m' hm'
    by_cases e : m' = m
    · subst e
      rw [Function.update_self, if_neg (List.nodup_cons.1 hrem).1]
      omega
    · rw [Function.update_of_ne e, h.cnt m' hm']
      simp [e]
  have hfire' : ∀ m' < P.numMethods, m' ≠ m → ri (P.head m') = true → Function.update x.cnt m (x.cnt m - 1) m' ≤ 0 → m' ∈ x.rm := by
    intro m' hm' e h1 h2
    rw [Function.update_of_ne e] at h2
    exact h.fire m' hm' h1 h2
  unfold mOp
  simp only [Function.update_self]
  by_cases h0 : x.cnt m - 1 = 0 ∧ ri (P.head m) = true
  · rw [if_pos h0]
    have hall : ∀ t ∈ P.sub m, RelT P ri (· ∈ base) t := by
      intro t ht
      have := subset_of_countP hk hD (by omega) t (mem_distinct.2 ht)
      exact h.sound t (h.part.mem_iff.2 (List.mem_append_left _ this))
    have hM : RelM P ri (· ∈ base) m := ⟨hm, h0.2, hall⟩
    by_cases hh : P.head m ∈ x.rt
    · rw [if_pos hh]
      refine ⟨_, rfl, ⟨hcnt, h.part, h.nodup, h.lt, h.start, fun m' hm' => ?_, fun m' hm' h1 h2 => ?_, h.sound⟩, by simp, le_refl _, by simp⟩
      · rcases mem_ins.1 hm' with hm' | rfl
        · exact h.rm m' hm'
        · exact ⟨hM, hh⟩
      · by_cases e : m' = m
        · exact mem_ins.2 (.inr e)
        · exact mem_ins.2 (.inl (hfire' m' hm' e h1 h2))
    · rw [if_neg hh]
      have hnd : (P.head m :: x.rt).Nodup := List.nodup_cons.2 ⟨hh, h.nodup⟩
      have hlt' : ∀ t ∈ P.head m :: x.rt, t < nT := by
        intro t ht
        rcases List.mem_cons.1 ht with rfl | ht
        · exact hR.head_lt m hm
        · exact h.lt t ht
      have hlen' : x.rt.length + 1 ≤ nT := by
        have := (hnd.subperm (l₂ := List.range nT) fun t ht => List.mem_range.2 (hlt' t ht)).length_le
        simpa using this
      have hst : x.st.length < nT := by
        have := h.part.length_eq
        rw [List.length_append] at this
        omega
      rw [if_pos hst]
      refine ⟨_, rfl, ⟨hcnt, ?_, hnd, hlt', fun t ht => List.mem_cons_of_mem _ (h.start t ht), fun m' hm' => ?_, fun m' hm' h1 h2 => ?_,
        fun t ht => ?_⟩, by simp, by simp, by simp⟩
      · exact (h.part.cons _).trans List.perm_middle.symm
      · rcases mem_ins.1 hm' with hm' | rfl
        · exact ⟨(h.rm m' hm').1, List.mem_cons_of_mem _ (h.rm m' hm').2⟩
        · exact ⟨hM, List.mem_cons_self⟩
      · by_cases e : m' = m
        · exact mem_ins.2 (.inr e)
        · exact mem_ins.2 (.inl (hfire' m' hm' e h1 h2))
      · rcases List.mem_cons.1 ht with rfl | ht
        · exact .meth hm h0.2 hall
        · exact h.sound t ht
  · rw [if_neg h0]
    refine ⟨_, rfl, ⟨hcnt, h.part, h.nodup, h.lt, h.start, h.rm, fun m' hm' h1 h2 => ?_, h.sound⟩, by simp, le_refl _, by simp⟩
    by_cases e : m' = m
    · subst e
      refine h.fire m' hm' h1 ?_
      simp only [Function.update_self] at h2
      have : x.cnt m' - 1 ≠ 0 := fun e => h0 ⟨e, h1⟩
      omega
    · exact hfire' m' hm' e h1 h2

theorem mOps_inv (hR : RcOK P nA nT) {base D : List Nat} : ∀ (rem : List Nat) (x : MSt), rem.Nodup → (∀ m ∈ rem, m < P.numMethods) →
    MInv P nT ri base rem D x → ∃ y, mOps P nT ri rem x = some y ∧ MInv P nT ri base [] D y ∧ x.st.length ≤ y.st.length ∧ x.rt.length ≤ y.rt.length ∧
      y.st.length - x.st.length = y.rt.length - x.rt.length := by
  intro rem
  induction rem with
  | nil => intro x _ _ h; exact ⟨x, rfl, h, le_refl _, le_refl _, by simp⟩
  | cons m rem ih =>
    intro x hnd hlt h
    obtain ⟨y, h1, h2, h3, h4, h5⟩ := mOp_inv hR hnd (hlt m List.mem_cons_self) h
    obtain ⟨z, k1, k2, k3, k4, k5⟩ := ih y (List.nodup_cons.1 hnd).2 (fun m hm => hlt m (List.mem_cons_of_mem _ hm)) h2
    exact ⟨z, by rw [mOps, h1]; exact k1, k2, by omega, by omega, by omega⟩

theorem mLoop_inv (hR : RcOK P nA nT) {base : List Nat} : ∀ (k : Nat) (D : List Nat) (x : MSt), 2 * (nT - x.rt.length) + x.st.length ≤ k →
    MInv P nT ri base [] D x → ∃ y, (∀ f, k + 1 ≤ f → mLoop P nT ri f x = .done y) ∧ MInv P nT ri base [] y.rt y := by
  intro k
  induction k with
  | zero =>
    intro D x hk h
    have he : x.st = [] := List.length_eq_zero_iff.1 (by omega)
    refine ⟨x, fun f hf => ?_, ?_⟩
    · obtain ⟨f, rfl⟩ := Nat.exists_eq_add_of_le' (show 1 ≤ f by omega)
      rw [mLoop, he]
    · have hp := h.part
      rw [he, List.append_nil] at hp
      exact ⟨fun m hm => by rw [h.cnt m hm, hp.countP_eq], by rw [he, List.append_nil], h.nodup, h.lt, h.start, h.rm, h.fire, h.sound⟩
  | succ k ih =>
    intro D x hk h
    cases he : x.st with
    | nil =>
      refine ⟨x, fun f hf => ?_, ?_⟩
      · obtain ⟨f, rfl⟩ := Nat.exists_eq_add_of_le' (show 1 ≤ f by omega)
        rw [mLoop, he]
      · have hp := h.part
        rw [he, List.append_nil] at hp
        exact ⟨fun m hm => by rw [h.cnt m hm, hp.countP_eq], by rw [he, List.append_nil], h.nodup, h.lt, h.start, h.rm, h.fire, h.sound⟩
    | cons t st =>
      have hst : ∀ m, m ∈ stTo P t ↔ m < P.numMethods ∧ t ∈ P.sub m := by intro m; simp [stTo]
      have h' : MInv P nT ri base (stTo P t) (t :: D) { x with st := st } := by
        refine ⟨fun m hm => ?_, ?_, h.nodup, h.lt, h.start, h.rm, h.fire, h.sound⟩
        · have := h.cnt m hm
          simp only [List.not_mem_nil, if_false] at this
          show x.cnt m = _
          rw [this, List.countP_cons]
          by_cases hts : t ∈ P.sub m
          · rw [if_pos ((hst m).2 ⟨hm, hts⟩), if_pos (by simpa using mem_distinct.2 hts)]
            push_cast
            omega
          · rw [if_neg fun h => hts ((hst m).1 h).2, if_neg (by simpa using fun h => hts (mem_distinct.1 h))]
            simp
        · have := h.part
          rw [he] at this
          exact this.trans List.perm_middle
      obtain ⟨y, h1, h2, h3, h4, h5⟩ := mOps_inv hR (stTo P t) _ (List.nodup_range.filter _) (fun m hm => ((hst m).1 hm).1) h'
      simp only at h3 h4 h5
      have hlen : y.rt.length ≤ nT := by
        have := (h2.nodup.subperm (l₂ := List.range nT) fun t ht => List.mem_range.2 (h2.lt t ht)).length_le
        simpa using this
      obtain ⟨z, k1, k2⟩ := ih _ y (by rw [he, List.length_cons] at hk; omega) h2
      refine ⟨z, fun f hf => ?_, k2⟩
      obtain ⟨f, rfl⟩ := Nat.exists_eq_add_of_le' (show 1 ≤ f by omega)
      rw [mLoop, he]
      simp only
      rw [h1]
      exact k1 f (by omega)

theorem mLoop_spec (hP : P.WF) (hR : RcOK P nA nT) {rt : List Nat} (hnd : rt.Nodup) (hlt : ∀ t ∈ rt, t < nT) :
    ∃ F y, (∀ f, F ≤ f → mLoop P nT ri f (mStart P rt) = .done y) ∧ (∀ t, t ∈ y.rt ↔ RelT P ri (· ∈ rt) t) ∧
      (∀ m, m ∈ y.rm ↔ RelM P ri (· ∈ rt) m) ∧ y.rt.Nodup := by
  have h0 : MInv P nT ri rt [] [] (mStart P rt) := by
    refine ⟨fun m _ => by simp [mStart], by simp [mStart], hnd, hlt, fun _ h => h, by simp [mStart], fun m hm _ hc => ?_, fun t ht => .base ht⟩
    exfalso
    simp only [mStart] at hc
    obtain ⟨t, ht⟩ := List.exists_mem_of_ne_nil _ (hP.sub_ne m hm)
    have := List.length_pos_of_mem (mem_distinct.2 ht)
    omega
  obtain ⟨y, h1, h2⟩ := mLoop_inv hR _ [] _ (le_refl _) h0
  have hfire : ∀ m, m < P.numMethods → ri (P.head m) = true → (∀ t ∈ P.sub m, t ∈ y.rt) → m ∈ y.rm := by
    intro m hm h3 h4
    refine h2.fire m hm h3 ?_
    have hk : (keys (distinctSubs P m)).Nodup := (distinctSubs_spec (P := P) m).1.sorted.imp fun h => Nat.ne_of_lt h
    have := countP_ge hk fun t ht => h4 t (mem_distinct.1 ht)
    rw [h2.cnt m hm]
    simp only [List.not_mem_nil, if_false]
    omega
  have hT : ∀ t, RelT P ri (· ∈ rt) t → t ∈ y.rt := by
    intro t h
    induction h with
    | base h => exact h2.start _ h
    | meth hm h3 _ ih => exact (h2.rm _ (hfire _ hm h3 ih)).2
  exact ⟨_, y, h1, fun t => ⟨h2.sound t, hT t⟩, fun m => ⟨fun h => (h2.rm m h).1, fun ⟨hm, h3, h4⟩ => hfire m hm h3 fun t ht => hT t (h4 t ht)⟩, h2.nodup⟩

end Meth

/-! ## The start of the first loop -/

section Start

/-- Facts and values in sequence. -/
def setAll (pq : PQ) : List (Nat × Nat) → PSt pq → PSt pq
  | [], x => x
  | (c, f) :: l, x => setAll pq l { x with hP := Function.update x.hP f c, q := pq.add x.q c f }

theorem setAll_append (l l' : List (Nat × Nat)) : ∀ x : PSt pq, setAll pq (l ++ l') x = setAll pq l' (setAll pq l x) := by
  induction l with
  | nil => intro x; rfl
  | cons e l ih => intro x; exact ih _

def setRt (r : List Nat) (x : PSt pq) : PSt pq := { x with rt := r }

theorem setAll_rt (l : List (Nat × Nat)) (r : List Nat) : ∀ x : PSt pq, setAll pq l (setRt r x) = setRt r (setAll pq l x) := by
  induction l with
  | nil => intro x; rfl
  | cons e l ih => intro x; exact ih { x with hP := Function.update x.hP e.2 e.1, q := pq.add x.q e.1 e.2 }

theorem setAll_spec (l : List (Nat × Nat)) : ∀ x : PSt pq, ((pq.items (setAll pq l x).q).Perm (l ++ pq.items x.q)) ∧
    (setAll pq l x).num = x.num ∧ (setAll pq l x).hOp = x.hOp ∧ (setAll pq l x).rt = x.rt ∧ (setAll pq l x).useful = x.useful ∧
    (∀ f, f ∉ l.map Prod.snd → (setAll pq l x).hP f = x.hP f) ∧ ∀ f ∈ l.map Prod.snd, ((setAll pq l x).hP f, f) ∈ l := by
  induction l with
  | nil => intro x; simp [setAll]
  | cons e l ih =>
    intro x
    obtain ⟨c, f⟩ := e
    obtain ⟨h1, h2, h3, h4, h5, h6, h7⟩ := ih { x with hP := Function.update x.hP f c, q := pq.add x.q c f }
    simp only [setAll]
    refine ⟨?_, h2, h3, h4, h5, fun g hg => ?_, fun g hg => ?_⟩
    · refine h1.trans ?_
      exact ((pq.items_add x.q c f).append_left l).trans List.perm_middle
    · simp only [List.map_cons, List.mem_cons, not_or] at hg
      rw [h6 g hg.2]
      exact Function.update_of_ne hg.1 _ _
    · by_cases hgl : g ∈ l.map Prod.snd
      · exact List.mem_cons_of_mem _ (h7 g hgl)
      · simp only [List.map_cons, List.mem_cons] at hg
        obtain rfl := hg.resolve_right hgl
        rw [h6 g hgl]
        simp

/-- The entries made for actions without preconditions. -/
def startPairs (P : Problem) (l : List Nat) : List (Nat × Nat) := l.flatMap fun a => (P.add a).map fun f => (P.cost a, f)

theorem startAct_eq (a : Nat) (x : PSt pq) : startAct P pq a x = setRt (ins x.rt a) (setAll pq ((P.add a).map fun f => (P.cost a, f)) x) := by
  rw [← setAll_rt]
  unfold startAct
  show List.foldl _ (setRt (ins x.rt a) x) _ = _
  generalize setRt (ins x.rt a) x = y
  induction P.add a generalizing y with
  | nil => rfl
  | cons f l ih => rw [List.foldl_cons, ih]; rfl

theorem startFold (l : List Nat) : ∀ x : PSt pq, l.foldl (fun x a => startAct P pq a x) x = setRt (l.foldl ins x.rt) (setAll pq (startPairs P l) x) := by
  induction l with
  | nil => intro x; rfl
  | cons a l ih =>
    intro x
    rw [List.foldl_cons, ih, startAct_eq, setAll_rt]
    have : startPairs P (a :: l) = ((P.add a).map fun f => (P.cost a, f)) ++ startPairs P l := rfl
    rw [this, setAll_append]
    rfl

/-- No fact is entered twice into the queue at the start. -/
def Clean (P : Problem) (nA : Nat) (s ri : Nat → Bool) : Prop :=
  ((List.range P.numFacts).filter (fun f => s f) ++ ((List.range nA).filter fun a => P.prec a = [] ∧ ri a = true).flatMap P.add).Nodup

end Start

/-! ## The first loop -/

section Loop

/-- What holds if no fact is entered twice at the start: `L` is the last key, `proc` lists the processed facts. -/
structure Snd (P : Problem) (nA U : Nat) (s ri : Nat → Bool) (L : Nat) (proc : List Nat) (x : PSt pq) : Prop where
  pnd : proc.Nodup
  ple : ∀ f ∈ proc, x.hP f ≤ L
  ent : ∀ e ∈ pq.items x.q, L ≤ e.1 ∧ x.hP e.2 ≤ e.1 ∧ (e.2 ∈ proc → x.hP e.2 < e.1)
  ind : (pq.items x.q).Nodup
  relF : ∀ f, x.hP f < U → RelF P nA s ri f
  relA : ∀ a ∈ x.rt, RelA P nA s ri a

/-- The invariant: `proc` lists the processed facts (with repetitions), `rem` the actions still to be visited for the last one. -/
structure PInv (P : Problem) (nA U : Nat) (s ri : Nat → Bool) (C : Prop) (rem : List Nat) (L : Nat) (proc : List Nat) (x : PSt pq) : Prop where
  cnt : ∀ a < nA, x.num a = ((P.prec a).length : Int) - (proc.countP fun f => decide (f ∈ P.prec a)) + if a ∈ rem then 1 else 0
  fire : ∀ a < nA, ri a = true → x.num a ≤ 0 → a ∈ x.rt
  mem : ∀ a ∈ x.rt, a < nA ∧ ri a = true ∧ (∀ f ∈ P.add a, x.hP f < U) ∧ ∀ f ∈ P.prec a, s f = true ∨ f ∈ x.useful
  nodup : x.rt.Nodup
  fin : ∀ f, x.hP f < U → f ∈ proc ∨ ∃ k, (k, f) ∈ pq.items x.q ∧ k ≤ x.hP f
  le : ∀ f, x.hP f ≤ U
  st : ∀ f < P.numFacts, s f = true → x.hP f < U
  ent : ∀ e ∈ pq.items x.q, x.hP e.2 < U
  prc : ∀ f ∈ proc, x.hP f < U
  useful : ∀ f ∈ x.useful, s f = false ∧ (f ∈ P.goal ∨ ∃ a ∈ x.rt, f ∈ P.prec a)
  goal : ∀ f ∈ P.goal, s f = false → f ∈ x.useful
  snd : C → Snd P nA U s ri L proc x

theorem pgAdds_spec (v : Nat) (l : List Nat) : ∀ x : PSt pq, (pgAdds pq v l x).num = x.num ∧ (pgAdds pq v l x).hOp = x.hOp ∧
    (pgAdds pq v l x).rt = x.rt ∧ (pgAdds pq v l x).useful = x.useful ∧
    (∀ f, (pgAdds pq v l x).hP f = if f ∈ l ∧ v < x.hP f then v else x.hP f) ∧
    ∃ new, (pq.items (pgAdds pq v l x).q).Perm (new ++ pq.items x.q) ∧ new.Nodup ∧ new.length ≤ l.length ∧
      ∀ e, e ∈ new ↔ e.1 = v ∧ e.2 ∈ l ∧ v < x.hP e.2 := by
  induction l with
  | nil => intro x; exact ⟨rfl, rfl, rfl, rfl, by simp [pgAdds], [], by simp [pgAdds]⟩
  | cons f l ih =>
    intro x
    rw [pgAdds]
    by_cases h : v < x.hP f
    · rw [if_pos h]
      obtain ⟨h1, h2, h3, h4, h5, new, h6, h7, h8, h9⟩ := ih { x with hP := Function.update x.hP f v, q := pq.add x.q v f }
      refine ⟨h1, h2, h3, h4, fun g => ?_, (v, f) :: new, ?_, ?_, by simpa using h8, fun e => ?_⟩
      · rw [h5 g]
        by_cases e : g = f
        · subst e; simp [h]
        · simp [Function.update_of_ne e, e]
      · exact (h6.trans ((pq.items_add x.q v f).append_left new)).trans List.perm_middle
      · refine List.nodup_cons.2 ⟨fun hm => ?_, h7⟩
        have := ((h9 _).1 hm).2.2
        simp at this
      · rw [List.mem_cons, h9]
        by_cases e' : e.2 = f
        · simp only [e', Function.update_self, lt_irrefl, and_false, or_false, List.mem_cons, true_or, true_and, h, and_true]
          rw [Prod.ext_iff, e']
          simp
        · simp only [Function.update_of_ne e', List.mem_cons, e', false_or, or_iff_right_iff_imp]
          rintro rfl
          simp at e'
    · rw [if_neg h]
      obtain ⟨h1, h2, h3, h4, h5, new, h6, h7, h8, h9⟩ := ih x
      refine ⟨h1, h2, h3, h4, fun g => ?_, new, h6, h7, by simp; omega, fun e => ?_⟩
      · rw [h5 g]
        by_cases e : g = f
        · subst e; simp [h]
        · simp [e]
      · rw [h9]
        by_cases e' : e.2 = f
        · rw [e']; simp [h]
        · simp [e']

/-- Potential number of further entries. -/
def pot (P : Problem) (nA : Nat) (num : Nat → Int) : Nat := ∑ a ∈ Finset.range nA, if 0 < num a then (P.add a).length else 0

theorem pot_update {num : Nat → Int} {o : Nat} (ho : o < nA) (c : Int) :
    pot P nA (Function.update num o c) + (if 0 < num o then (P.add o).length else 0) = pot P nA num + if 0 < c then (P.add o).length else 0 := by
  unfold pot
  rw [← Finset.add_sum_erase _ _ (Finset.mem_range.2 ho), ← Finset.add_sum_erase _ (fun a => if 0 < num a then _ else _) (Finset.mem_range.2 ho)]
  have : ∑ a ∈ (Finset.range nA).erase o, (if 0 < Function.update num o c a then (P.add a).length else 0) =
      ∑ a ∈ (Finset.range nA).erase o, if 0 < num a then (P.add a).length else 0 := by
    refine Finset.sum_congr rfl fun a ha => ?_
    rw [Function.update_of_ne (Finset.ne_of_mem_erase ha)]
  rw [this, Function.update_self]
  omega

theorem pgOp_inv (hR : RcOK P nA nT) {C : Prop} {rem proc : List Nat} {o L : Nat} {x y : PSt pq} (hrem : (o :: rem).Nodup) (ho : o < nA)
    (h : PInv P nA U s ri C (o :: rem) L proc x) (hy : pgOp P pq U s ri L o x = some y) :
    PInv P nA U s ri C rem L proc y ∧ pot P nA y.num + (pq.items y.q).length ≤ pot P nA x.num + (pq.items x.q).length := by
  unfold pgOp at hy
  simp only [Function.update_self] at hy
  by_cases hv : U ≤ x.hOp o + L
  · rw [if_pos hv] at hy; simp at hy
  rw [if_neg hv] at hy
  set v := x.hOp o + L with hvdef
  have hcm := h.cnt o ho
  rw [if_pos List.mem_cons_self] at hcm
  have hcnt : ∀ a < nA, Function.update x.num o (x.num o - 1) a = ((P.prec a).length : Int) -
      (proc.countP fun f => decide (f ∈ P.prec a)) + if a ∈ rem then 1 else 0 := by
    intro a ha
    by_cases e : a = o
    · subst e
      rw [Function.update_self, if_neg (List.nodup_cons.1 hrem).1]
      omega
    · rw [Function.update_of_ne e, h.cnt a ha]
      simp [e]
  have hfire' : ∀ a < nA, a ≠ o → ri a = true → Function.update x.num o (x.num o - 1) a ≤ 0 → a ∈ x.rt := by
    intro a ha e h1 h2
    rw [Function.update_of_ne e] at h2
    exact h.fire a ha h1 h2
  have hpot := pot_update (P := P) (num := x.num) ho (x.num o - 1)
  by_cases h0 : x.num o - 1 = 0 ∧ ri o = true
  · rw [if_pos h0] at hy
    simp only [Option.some.injEq] at hy
    obtain ⟨a1, -, a3, a4, a5, new, a6, a7, a8, a9⟩ := pgAdds_spec (pq := pq) v (P.add o)
      { x with
        hOp := Function.update x.hOp o v
        num := Function.update x.num o (x.num o - 1)
        rt := ins x.rt o
        useful := ((P.prec o).filter fun f => !s f).foldl ins x.useful }
    rw [hy] at a1 a3 a4 a5 a6
    simp only at a1 a3 a4 a5 a6 a9
    have hle : ∀ f, y.hP f ≤ x.hP f := by
      intro f
      rw [a5]
      split_ifs with hf
      · exact hf.2.le
      · exact le_refl _
    have hadd : ∀ f ∈ P.add o, y.hP f < U := by
      intro f hf
      rw [a5]
      split_ifs with hf'
      · omega
      · have : x.hP f ≤ v := not_lt.1 fun h => hf' ⟨hf, h⟩
        omega
    have hus : ∀ f, f ∈ y.useful ↔ f ∈ x.useful ∨ f ∈ P.prec o ∧ s f = false := by
      intro f
      rw [a4, mem_foldl_ins]
      simp
    have hit : ∀ e, e ∈ pq.items y.q ↔ e ∈ new ∨ e ∈ pq.items x.q := fun e => by rw [a6.mem_iff, List.mem_append]
    refine ⟨⟨by rw [a1]; exact hcnt, fun a ha h1 h2 => ?_, fun a ha => ?_, by rw [a3]; exact ins_nodup h.nodup o, fun f hf => ?_,
      fun f => (hle f).trans (h.le f), fun f hf hs => (hle f).trans_lt (h.st f hf hs), fun e he => ?_, fun f hf => (hle f).trans_lt (h.prc f hf),
      fun f hf => ?_, fun f hf hs => (hus f).2 (.inl (h.goal f hf hs)), fun hC => ?_⟩, ?_⟩
    · rw [a3]
      rw [a1] at h2
      by_cases e : a = o
      · exact mem_ins.2 (.inr e)
      · exact mem_ins.2 (.inl (hfire' a ha e h1 h2))
    · rw [a3] at ha
      rcases mem_ins.1 ha with ha | rfl
      · obtain ⟨b1, b2, b3, b4⟩ := h.mem a ha
        exact ⟨b1, b2, fun f hf => (hle f).trans_lt (b3 f hf), fun f hf => (b4 f hf).imp id fun h => (hus f).2 (.inl h)⟩
      · refine ⟨ho, h0.2, hadd, fun f hf => ?_⟩
        cases hs : s f with
        | true => exact .inl rfl
        | false => exact .inr ((hus f).2 (.inr ⟨hf, hs⟩))
    · rw [a5] at hf
      by_cases hc : f ∈ P.add o ∧ v < x.hP f
      · refine .inr ⟨v, (hit _).2 (.inl ((a9 _).2 ⟨rfl, hc⟩)), ?_⟩
        rw [a5, if_pos hc]
      · rw [if_neg hc] at hf
        rcases h.fin f hf with h1 | ⟨k, h1, h2⟩
        · exact .inl h1
        · refine .inr ⟨k, (hit _).2 (.inr h1), ?_⟩
          rw [a5, if_neg hc]
          exact h2
    · rcases (hit e).1 he with he | he
      · exact hadd _ ((a9 e).1 he).2.1
      · exact (hle _).trans_lt (h.ent e he)
    · rcases (hus f).1 hf with hf | ⟨hf, hs⟩
      · obtain ⟨b1, b2⟩ := h.useful f hf
        refine ⟨b1, b2.imp id fun ⟨a, ha, hp⟩ => ⟨a, by rw [a3]; exact mem_ins.2 (.inl ha), hp⟩⟩
      · exact ⟨hs, .inr ⟨o, by rw [a3]; exact mem_ins.2 (.inr rfl), hf⟩⟩
    · have hS := h.snd hC
      have hA : RelA P nA s ri o := by
        refine ⟨ho, h0.2, fun p hp => hS.relF p (h.prc p ?_)⟩
        exact subset_of_countP (hR.prec_nodup o ho) hS.pnd (by omega) p hp
      refine ⟨hS.pnd, fun f hf => (hle f).trans (hS.ple f hf), fun e he => ?_, ?_, fun f hf => ?_, fun a ha => ?_⟩
      · rcases (hit e).1 he with he | he
        · obtain ⟨b1, b2, b3⟩ := (a9 e).1 he
          refine ⟨by omega, by rw [a5, if_pos ⟨b2, b3⟩, b1], fun hp => ?_⟩
          have := hS.ple _ hp
          omega
        · obtain ⟨b1, b2, b3⟩ := hS.ent e he
          exact ⟨b1, (hle _).trans b2, fun hp => (hle _).trans_lt (b3 hp)⟩
      · rw [a6.nodup_iff]
        refine List.nodup_append.2 ⟨a7, hS.ind, fun e he e' he' hee => ?_⟩
        subst hee
        obtain ⟨b1, b2, b3⟩ := (a9 e).1 he
        have := (hS.ent e he').2.1
        omega
      · rw [a5] at hf
        by_cases hc : f ∈ P.add o ∧ v < x.hP f
        · exact .act ho h0.2 hA.2.2 hc.1
        · rw [if_neg hc] at hf
          exact hS.relF f hf
      · rw [a3] at ha
        rcases mem_ins.1 ha with ha | rfl
        · exact hS.relA a ha
        · exact hA
    · rw [a1, a6.length_eq, List.length_append]
      rw [if_pos (by omega), if_neg (by omega)] at hpot
      omega
  · rw [if_neg h0] at hy
    simp only [Option.some.injEq] at hy
    subst hy
    refine ⟨⟨hcnt, fun a ha h1 h2 => ?_, h.mem, h.nodup, h.fin, h.le, h.st, h.ent, h.prc, h.useful, h.goal,
      fun hC => ⟨(h.snd hC).pnd, (h.snd hC).ple, (h.snd hC).ent, (h.snd hC).ind, (h.snd hC).relF, (h.snd hC).relA⟩⟩, ?_⟩
    · by_cases e : a = o
      · subst e
        refine h.fire a ha h1 ?_
        simp only [Function.update_self] at h2
        have : x.num a - 1 ≠ 0 := fun e => h0 ⟨e, h1⟩
        omega
      · exact hfire' a ha e h1 h2
    · simp only
      have : (if 0 < x.num o - 1 then (P.add o).length else 0) ≤ if 0 < x.num o then (P.add o).length else 0 := by
        split_ifs <;> omega
      omega

theorem pgOps_inv (hR : RcOK P nA nT) {C : Prop} {proc : List Nat} {L : Nat} : ∀ (rem : List Nat) (x y : PSt pq), rem.Nodup → (∀ a ∈ rem, a < nA) →
    PInv P nA U s ri C rem L proc x → pgOps P pq U s ri L rem x = some y →
    PInv P nA U s ri C [] L proc y ∧ pot P nA y.num + (pq.items y.q).length ≤ pot P nA x.num + (pq.items x.q).length := by
  intro rem
  induction rem with
  | nil => intro x y _ _ h hy; simp only [pgOps, Option.some.injEq] at hy; subst hy; exact ⟨h, le_refl _⟩
  | cons o rem ih =>
    intro x y hnd hlt h hy
    rw [pgOps] at hy
    cases e : pgOp P pq U s ri L o x with
    | none => rw [e] at hy; simp at hy
    | some z =>
      rw [e] at hy
      obtain ⟨h1, h2⟩ := pgOp_inv hR hnd (hlt o List.mem_cons_self) h e
      obtain ⟨h3, h4⟩ := ih z y (List.nodup_cons.1 hnd).2 (fun a ha => hlt a (List.mem_cons_of_mem _ ha)) h1 hy
      exact ⟨h3, h4.trans h2⟩

theorem pgLoop_inv (hR : RcOK P nA nT) {C : Prop} : ∀ (k : Nat) (L : Nat) (proc : List Nat) (x : PSt pq), pot P nA x.num + (pq.items x.q).length ≤ k →
    PInv P nA U s ri C [] L proc x →
    (∀ f, k + 1 ≤ f → pgLoop P nA pq U s ri f x = .over) ∨ ∃ y L' proc', (∀ f, k + 1 ≤ f → pgLoop P nA pq U s ri f x = .done y) ∧
      PInv P nA U s ri C [] L' proc' y ∧ pq.items y.q = [] := by
  intro k
  induction k with
  | zero =>
    intro L proc x hk h
    cases e : pq.pop x.q with
    | none =>
      refine .inr ⟨x, L, proc, fun f hf => ?_, h, pq.pop_none _ e⟩
      obtain ⟨f, rfl⟩ := Nat.exists_eq_add_of_le' (show 1 ≤ f by omega)
      rw [pgLoop, e]
    | some r =>
      obtain ⟨e1, q⟩ := r
      have := (pq.pop_some _ _ _ e).1.length_eq
      simp at this
      omega
  | succ k ih =>
    intro L proc x hk h
    cases e : pq.pop x.q with
    | none =>
      refine .inr ⟨x, L, proc, fun f hf => ?_, h, pq.pop_none _ e⟩
      obtain ⟨f, rfl⟩ := Nat.exists_eq_add_of_le' (show 1 ≤ f by omega)
      rw [pgLoop, e]
    | some r =>
      obtain ⟨⟨c, p⟩, q⟩ := r
      obtain ⟨hperm, hmin⟩ := pq.pop_some _ _ _ e
      have hlen := hperm.length_eq
      rw [List.length_cons] at hlen
      have hit : ∀ e, e ∈ pq.items x.q ↔ e = (c, p) ∨ e ∈ pq.items q := fun e => by rw [hperm.mem_iff, List.mem_cons]
      have hstep : ∀ f, pgLoop P nA pq U s ri (f + 1) x = if x.hP p < c then pgLoop P nA pq U s ri f { x with q := q }
          else match pgOps P pq U s ri c (precTo P nA p) { x with q := q } with
            | none => .over
            | some x => pgLoop P nA pq U s ri f x := by
        intro f
        rw [pgLoop, e]
      by_cases hskip : x.hP p < c
      · have h' : PInv P nA U s ri C [] L proc { x with q := q } := by
          refine ⟨h.cnt, h.fire, h.mem, h.nodup, fun f hf => ?_, h.le, h.st, fun e he => h.ent e ((hit e).2 (.inr he)), h.prc, h.useful, h.goal,
            fun hC => ?_⟩
          · rcases h.fin f hf with h1 | ⟨k, h1, h2⟩
            · exact .inl h1
            · refine .inr ⟨k, ?_, h2⟩
              rcases (hit _).1 h1 with h3 | h3
              · simp only [Prod.mk.injEq] at h3
                obtain ⟨rfl, rfl⟩ := h3
                omega
              · exact h3
          · have hS := h.snd hC
            exact ⟨hS.pnd, hS.ple, fun e he => hS.ent e ((hit e).2 (.inr he)), (List.nodup_cons.1 (hperm.nodup_iff.1 hS.ind)).2, hS.relF, hS.relA⟩
        rcases ih L proc _ (by simp only; omega) h' with h1 | ⟨y, L', proc', h1, h2⟩
        · refine .inl fun f hf => ?_
          obtain ⟨f, rfl⟩ := Nat.exists_eq_add_of_le' (show 1 ≤ f by omega)
          rw [hstep, if_pos hskip]
          exact h1 f (by omega)
        · refine .inr ⟨y, L', proc', fun f hf => ?_, h2⟩
          obtain ⟨f, rfl⟩ := Nat.exists_eq_add_of_le' (show 1 ≤ f by omega)
          rw [hstep, if_pos hskip]
          exact h1 f (by omega)
      · have hpt : ∀ a, a ∈ precTo P nA p ↔ a < nA ∧ p ∈ P.prec a := by intro a; simp [precTo]
        have h' : PInv P nA U s ri C (precTo P nA p) c (p :: proc) { x with q := q } := by
          refine ⟨fun a ha => ?_, h.fire, h.mem, h.nodup, fun f hf => ?_, h.le, h.st, fun e he => h.ent e ((hit e).2 (.inr he)), fun f hf => ?_,
            h.useful, h.goal, fun hC => ?_⟩
          · have := h.cnt a ha
            simp only [List.not_mem_nil, if_false] at this
            show x.num a = _
            rw [this, List.countP_cons]
            by_cases hts : p ∈ P.prec a
            · rw [if_pos ((hpt a).2 ⟨ha, hts⟩), if_pos (by simpa using hts)]
              push_cast
              omega
            · rw [if_neg fun h => hts ((hpt a).1 h).2, if_neg (by simpa using hts)]
              simp
          · rcases h.fin f hf with h1 | ⟨k, h1, h2⟩
            · exact .inl (List.mem_cons_of_mem _ h1)
            · rcases (hit _).1 h1 with h3 | h3
              · simp only [Prod.mk.injEq] at h3
                exact .inl (by rw [h3.2]; exact List.mem_cons_self)
              · exact .inr ⟨k, h3, h2⟩
          · rcases List.mem_cons.1 hf with rfl | hf
            · exact h.ent (c, f) ((hit _).2 (.inl rfl))
            · exact h.prc f hf
          · have hS := h.snd hC
            obtain ⟨b1, b2, b3⟩ := hS.ent (c, p) ((hit _).2 (.inl rfl))
            simp only at b1 b2 b3
            have hnd := List.nodup_cons.1 (hperm.nodup_iff.1 hS.ind)
            refine ⟨List.nodup_cons.2 ⟨fun hp => hskip (b3 hp), hS.pnd⟩, fun f hf => ?_, fun e he => ?_, hnd.2, hS.relF, hS.relA⟩
            · rcases List.mem_cons.1 hf with rfl | hf
              · exact b2
              · exact (hS.ple f hf).trans b1
            · obtain ⟨d1, d2, d3⟩ := hS.ent e ((hit e).2 (.inr he))
              have hce := hmin e ((hit e).2 (.inr he))
              simp only at hce
              refine ⟨hce, d2, fun hp => ?_⟩
              rcases List.mem_cons.1 hp with hp | hp
              · show x.hP e.2 < e.1
                have hne : e.1 ≠ c := fun hc => hnd.1 (by rw [← hc, ← hp]; exact he)
                rw [hp]
                omega
              · exact d3 hp
        cases ho : pgOps P pq U s ri c (precTo P nA p) { x with q := q } with
        | none =>
          refine .inl fun f hf => ?_
          obtain ⟨f, rfl⟩ := Nat.exists_eq_add_of_le' (show 1 ≤ f by omega)
          rw [hstep, if_neg hskip, ho]
        | some y =>
          obtain ⟨k1, k2⟩ := pgOps_inv hR _ _ y (List.nodup_range.filter _) (fun a ha => ((hpt a).1 ha).1) h' ho
          simp only at k2
          rcases ih c (p :: proc) y (by omega) k1 with h1 | ⟨z, L', proc', h1, h2⟩
          · refine .inl fun f hf => ?_
            obtain ⟨f, rfl⟩ := Nat.exists_eq_add_of_le' (show 1 ≤ f by omega)
            rw [hstep, if_neg hskip, ho]
            exact h1 f (by omega)
          · refine .inr ⟨z, L', proc', fun f hf => ?_, h2⟩
            obtain ⟨f, rfl⟩ := Nat.exists_eq_add_of_le' (show 1 ≤ f by omega)
            rw [hstep, if_neg hskip, ho]
            exact h1 f (by omega)

theorem addAll_items (l : List Nat) : ∀ q : pq.Q, (pq.items (l.foldl (fun q f => pq.add q 0 f) q)).Perm ((l.map fun f => (0, f)) ++ pq.items q) := by
  induction l with
  | nil => intro q; simp
  | cons f l ih =>
    intro q
    rw [List.foldl_cons]
    exact ((ih _).trans ((pq.items_add q 0 f).append_left _)).trans List.perm_middle

theorem foldl_ins_nodup (l : List Nat) : ∀ r : List Nat, r.Nodup → (l.foldl ins r).Nodup := by
  induction l with
  | nil => intro r h; exact h
  | cons x l ih => intro r h; exact ih _ (ins_nodup h x)

theorem eq_of_snd_nodup {l : List (Nat × Nat)} (h : (l.map Prod.snd).Nodup) {e e' : Nat × Nat} (he : e ∈ l) (he' : e' ∈ l) (h2 : e.2 = e'.2) : e = e' :=
  List.inj_on_of_nodup_map h he he' h2

theorem pgStart_inv (hU : 0 < U) (hc : ∀ a < nA, P.cost a < U) (hs : ∀ f, s f = true → f < P.numFacts) :
    PInv P nA U s ri (Clean P nA s ri) [] 0 [] (pgStart P nA pq U s ri) := by
  unfold pgStart Clean
  rw [startFold]
  set l := (List.range nA).filter fun a => P.prec a = [] ∧ ri a = true with hl
  have hmem : ∀ a, a ∈ l ↔ a < nA ∧ P.prec a = [] ∧ ri a = true := by intro a; simp [hl]
  set sl := (List.range P.numFacts).filter (fun f => s f) with hsl
  have hsm : ∀ f, f ∈ sl ↔ s f = true := by
    intro f
    simp only [hsl, List.mem_filter, List.mem_range, and_iff_right_iff_imp]
    exact hs f
  set x0 : PSt pq := ⟨fun a => (P.prec a).length, P.cost, fun f => if s f then 0 else U, [], (P.goal.filter fun f => !s f).foldl ins [],
    sl.foldl (fun q f => pq.add q 0 f) pq.empty⟩ with hx0
  obtain ⟨h1, h2, h3, h4, h5, h6, h7⟩ := setAll_spec (startPairs P l) x0
  have hps : (startPairs P l).map Prod.snd = l.flatMap P.add := by
    simp only [startPairs, List.map_flatMap, List.map_map]
    congr 1
    funext a
    have : (Prod.snd ∘ fun f : Nat => (P.cost a, f)) = id := rfl
    rw [this, List.map_id]
  have hpm : ∀ e, e ∈ startPairs P l ↔ ∃ a ∈ l, e.2 ∈ P.add a ∧ e.1 = P.cost a := by
    intro e
    simp only [startPairs, List.mem_flatMap, List.mem_map]
    constructor
    · rintro ⟨a, ha, f, hf, rfl⟩; exact ⟨a, ha, hf, rfl⟩
    · rintro ⟨a, ha, hf, he⟩; exact ⟨a, ha, e.2, hf, by rw [← he]⟩
  have hlt : ∀ f ∈ (startPairs P l).map Prod.snd, (setAll pq (startPairs P l) x0).hP f < U := by
    intro f hf
    obtain ⟨a, ha, -, he⟩ := (hpm _).1 (h7 f hf)
    simp only at he
    rw [he]
    exact hc a ((hmem a).1 ha).1
  have hitems : (pq.items (setAll pq (startPairs P l) x0).q).Perm (startPairs P l ++ sl.map fun f => (0, f)) := by
    refine h1.trans (List.Perm.append_left _ ?_)
    have := addAll_items (pq := pq) sl pq.empty
    rwa [pq.items_empty, List.append_nil] at this
  have hit : ∀ e, e ∈ pq.items (setAll pq (startPairs P l) x0).q ↔ e ∈ startPairs P l ∨ e.1 = 0 ∧ s e.2 = true := by
    intro e
    rw [hitems.mem_iff, List.mem_append, List.mem_map]
    refine or_congr Iff.rfl ⟨?_, fun ⟨h, h'⟩ => ⟨e.2, (hsm _).2 h', by rw [← h]⟩⟩
    rintro ⟨f, hf, rfl⟩
    exact ⟨rfl, (hsm f).1 hf⟩
  have hsU : ∀ f, s f = true → (setAll pq (startPairs P l) x0).hP f < U := by
    intro f hf
    by_cases hfl : f ∈ (startPairs P l).map Prod.snd
    · exact hlt f hfl
    · rw [h6 f hfl]
      simpa [hx0, hf] using hU
  have hrt : ∀ a, a ∈ l.foldl ins x0.rt ↔ a ∈ l := by intro a; rw [mem_foldl_ins]; simp [hx0]
  have hrel : ∀ f, (setAll pq (startPairs P l) x0).hP f < U → f ∈ (startPairs P l).map Prod.snd ∨ s f = true := by
    intro f hf
    by_cases hfl : f ∈ (startPairs P l).map Prod.snd
    · exact .inl hfl
    · rw [h6 f hfl] at hf
      right
      by_contra hn
      simp [hx0, hn] at hf
  refine ⟨fun a _ => ?_, fun a ha hr hn => ?_, fun a ha => ?_, foldl_ins_nodup _ _ (by simp [hx0]), fun f hf => ?_, fun f => ?_, fun f _ h => hsU f h,
    fun e he => ?_, by simp, fun f hf => ?_, fun f hf hsf => ?_, fun hC => ?_⟩
  · show (setAll pq (startPairs P l) x0).num a = _
    rw [h2]
    simp [hx0]
  · refine (hrt a).2 ((hmem a).2 ⟨ha, ?_, hr⟩)
    have hn : (setAll pq (startPairs P l) x0).num a ≤ 0 := hn
    rw [h2] at hn
    simp only [hx0] at hn
    exact List.length_eq_zero_iff.1 (by omega)
  · have ha' := (hmem a).1 ((hrt a).1 ha)
    refine ⟨ha'.1, ha'.2.2, fun f hf => hlt f ?_, by simp [ha'.2.1]⟩
    rw [hps]
    exact List.mem_flatMap.2 ⟨a, (hrt a).1 ha, hf⟩
  · have hf : (setAll pq (startPairs P l) x0).hP f < U := hf
    right
    by_cases hfl : f ∈ (startPairs P l).map Prod.snd
    · exact ⟨_, (hit _).2 (.inl (h7 f hfl)), le_refl _⟩
    · exact ⟨0, (hit _).2 (.inr ⟨rfl, (hrel f hf).resolve_left hfl⟩), Nat.zero_le _⟩
  · show (setAll pq (startPairs P l) x0).hP f ≤ U
    by_cases hfl : f ∈ (startPairs P l).map Prod.snd
    · exact (hlt f hfl).le
    · rw [h6 f hfl]
      simp only [hx0]
      split_ifs <;> omega
  · rcases (hit e).1 he with he | ⟨-, he⟩
    · exact hlt _ (List.mem_map_of_mem he)
    · exact hsU _ he
  · have hf : f ∈ (setAll pq (startPairs P l) x0).useful := hf
    rw [h5] at hf
    simp only [hx0, mem_foldl_ins, List.not_mem_nil, false_or, List.mem_filter, Bool.not_eq_true'] at hf
    exact ⟨hf.2, .inl hf.1⟩
  · show f ∈ (setAll pq (startPairs P l) x0).useful
    rw [h5]
    simp only [hx0, mem_foldl_ins, List.not_mem_nil, false_or, List.mem_filter, Bool.not_eq_true']
    exact ⟨hf, hsf⟩
  · rw [← hps] at hC
    have hC' := List.nodup_append.1 hC
    have hdis : ∀ f ∈ (startPairs P l).map Prod.snd, s f = false := by
      intro f hf
      by_contra hn
      exact hC'.2.2 f ((hsm f).2 (by simpa using hn)) f hf rfl
    refine ⟨List.nodup_nil, by simp, fun e he => ⟨Nat.zero_le _, ?_, by simp⟩, ?_, fun f hf => ?_, fun a ha => ?_⟩
    · show (setAll pq (startPairs P l) x0).hP e.2 ≤ e.1
      rcases (hit e).1 he with he | ⟨h0, he⟩
      · have h8 := h7 e.2 (List.mem_map_of_mem he)
        have := eq_of_snd_nodup hC'.2.1 h8 he rfl
        rw [← this]
      · rw [h6 e.2 fun h => by rw [hdis _ h] at he; simp at he]
        simp [hx0, he]
    · show (pq.items (setAll pq (startPairs P l) x0).q).Nodup
      rw [hitems.nodup_iff]
      refine List.Nodup.of_map Prod.snd ?_
      rw [List.map_append, List.map_map]
      have : (Prod.snd ∘ fun f : Nat => ((0, f) : Nat × Nat)) = id := rfl
      rw [this, List.map_id]
      exact List.nodup_append_comm.1 hC
    · have hf : (setAll pq (startPairs P l) x0).hP f < U := hf
      rcases hrel f hf with h | h
      · rw [hps] at h
        obtain ⟨a, ha, hfa⟩ := List.mem_flatMap.1 h
        obtain ⟨k1, k2, k3⟩ := (hmem a).1 ha
        exact .act k1 k3 (by simp [k2]) hfa
      · exact .init (hs f h) h
    · obtain ⟨k1, k2, k3⟩ := (hmem a).1 ((hrt a).1 ha)
      exact ⟨k1, k3, by simp [k2]⟩

/-- The first loop: completeness, and exactness if no fact is entered twice at the start. -/
theorem pgLoop_spec (hR : RcOK P nA nT) (hU : 0 < U) (hc : ∀ a < nA, P.cost a < U) (hs : ∀ f, s f = true → f < P.numFacts) :
    ∃ F, (∀ f, F ≤ f → pgLoop P nA pq U s ri f (pgStart P nA pq U s ri) = .over) ∨
      ∃ y, (∀ f, F ≤ f → pgLoop P nA pq U s ri f (pgStart P nA pq U s ri) = .done y) ∧ y.rt.Nodup ∧ (∀ f, RelF P nA s ri f → y.hP f < U) ∧
        (∀ a, RelA P nA s ri a → a ∈ y.rt) ∧ (∀ a ∈ y.rt, a < nA ∧ ri a = true ∧ ∀ f ∈ P.add a, y.hP f < U) ∧
        (∀ f, f ∈ y.useful ↔ s f = false ∧ (f ∈ P.goal ∨ ∃ a ∈ y.rt, f ∈ P.prec a)) ∧ (∀ f, y.hP f ≤ U) ∧
        (Clean P nA s ri → (∀ f, y.hP f < U → RelF P nA s ri f) ∧ ∀ a ∈ y.rt, RelA P nA s ri a) := by
  rcases pgLoop_inv hR _ 0 [] _ (le_refl _) (pgStart_inv (pq := pq) (ri := ri) hU hc hs) with h | ⟨y, L, proc, h, hI, hq⟩
  · exact ⟨_, .inl h⟩
  refine ⟨_, .inr ⟨y, h, hI.nodup, ?_, ?_, fun a ha => ?_, fun f => ⟨hI.useful f, ?_⟩, hI.le, fun hC => ⟨(hI.snd hC).relF, (hI.snd hC).relA⟩⟩⟩
  all_goals
    have hproc : ∀ f, y.hP f < U → f ∈ proc := by
      intro f hf
      rcases hI.fin f hf with h | ⟨k, h, -⟩
      · exact h
      · rw [hq] at h; simp at h
    have hfire : ∀ a < nA, ri a = true → (∀ p ∈ P.prec a, y.hP p < U) → a ∈ y.rt := by
      intro a ha hr hp
      refine hI.fire a ha hr ?_
      rw [hI.cnt a ha]
      have := countP_ge (hR.prec_nodup a ha) fun p hpp => hproc p (hp p hpp)
      simp only [List.not_mem_nil, if_false]
      omega
    have hF : ∀ f, RelF P nA s ri f → y.hP f < U := by
      intro f hf
      induction hf with
      | init hf hsf => exact hI.st _ hf hsf
      | act ha hr _ hfa ih => exact (hI.mem _ (hfire _ ha hr ih)).2.2.1 _ hfa
  · exact hF
  · exact fun a ⟨h1, h2, h3⟩ => hfire a h1 h2 fun p hp => hF p (h3 p hp)
  · exact ⟨(hI.mem a ha).1, (hI.mem a ha).2.1, (hI.mem a ha).2.2.1⟩
  · rintro ⟨h1, h2 | ⟨a, ha, hp⟩⟩
    · exact hI.goal f h2 h1
    · exact ((hI.mem a ha).2.2.2 f hp).resolve_left (by simp [h1])

end Loop

/-! ## `calcReachability` -/

theorem pgLoop_mono : ∀ {f : Nat} {x : PSt pq}, pgLoop P nA pq U s ri f x ≠ .fuel → ∀ f', f ≤ f' →
    pgLoop P nA pq U s ri f' x = pgLoop P nA pq U s ri f x := by
  intro f
  induction f with
  | zero => intro x h; exact absurd rfl h
  | succ f ih =>
    intro x h f' hf
    obtain ⟨f', rfl⟩ : ∃ k, f' = k + 1 := ⟨f' - 1, by omega⟩
    rw [pgLoop] at h ⊢
    conv_rhs => rw [pgLoop]
    split at h
    · rfl
    · split_ifs at h ⊢ with h2
      · exact ih h f' (by omega)
      · split at h
        · rfl
        · exact ih h f' (by omega)

theorem mLoop_mono : ∀ {f : Nat} {x : MSt}, mLoop P nT ri f x ≠ .fuel → ∀ f', f ≤ f' → mLoop P nT ri f' x = mLoop P nT ri f x := by
  intro f
  induction f with
  | zero => intro x h; exact absurd rfl h
  | succ f ih =>
    intro x h f' hf
    obtain ⟨f', rfl⟩ : ∃ k, f' = k + 1 := ⟨f' - 1, by omega⟩
    rw [mLoop] at h ⊢
    conv_rhs => rw [mLoop]
    split at h
    · rfl
    · split at h
      · rfl
      · exact ih h f' (by omega)

/-- The result does not depend on the fuel. -/
theorem pgCalc_mono {f : Nat} (h : pgCalc P nA nT pq U s ri f ≠ .fuel) (f' : Nat) (hf : f ≤ f') :
    pgCalc P nA nT pq U s ri f' = pgCalc P nA nT pq U s ri f := by
  have h1 : pgLoop P nA pq U s ri f (pgStart P nA pq U s ri) ≠ .fuel := by
    intro e
    rw [pgCalc, e] at h
    exact h rfl
  unfold pgCalc
  rw [pgLoop_mono h1 f' hf]
  cases e : pgLoop P nA pq U s ri f (pgStart P nA pq U s ri) with
  | over => rfl
  | fuel => exact absurd e h1
  | ub => rfl
  | done x =>
    simp only
    rw [pgCalc, e] at h
    simp only at h
    split_ifs at h ⊢ with h2
    · rfl
    · have h3 : mLoop P nT ri f (mStart P x.rt) ≠ .fuel := by
        intro e
        rw [e] at h
        exact h rfl
      rw [mLoop_mono h3 f' hf]

theorem RelT.mono {b b' : Nat → Prop} (h : ∀ t, b t → b' t) {t : Nat} (ht : RelT P ri b t) : RelT P ri b' t := by
  induction ht with
  | base hb => exact .base (h _ hb)
  | meth h1 h2 _ ih => exact .meth h1 h2 ih

theorem pgCalc_spec (hP : P.WF) (hR : RcOK P nA nT) (hU : 0 < U) (hc : ∀ a < nA, P.cost a < U) (hs : ∀ f, s f = true → f < P.numFacts) :
    ∃ F, (∀ f, F ≤ f → pgCalc P nA nT pq U s ri f = .over) ∨
      ∃ r, (∀ f, F ≤ f → pgCalc P nA nT pq U s ri f = .done r) ∧ (∀ f, RelF P nA s ri f → r.hP f ≠ U) ∧
        (∀ a, RelA P nA s ri a → a ∈ r.tasks) ∧ (∀ a < nA, a ∈ r.tasks → ri a = true) ∧
        (∀ t, t ∈ r.tasks ↔ RelT P ri (fun a => a < nA ∧ a ∈ r.tasks) t) ∧
        (∀ m, m ∈ r.methods ↔ m < P.numMethods ∧ ri (P.head m) = true ∧ ∀ t ∈ P.sub m, t ∈ r.tasks) ∧
        (∀ f, f ∈ r.useful ↔ s f = false ∧ (f ∈ P.goal ∨ ∃ a < nA, a ∈ r.tasks ∧ f ∈ P.prec a)) ∧
        (Clean P nA s ri → (∀ f, r.hP f ≠ U → RelF P nA s ri f) ∧ ∀ a < nA, a ∈ r.tasks → RelA P nA s ri a) := by
  have le := hR.le
  obtain ⟨F1, h | ⟨x, hx, hnd, h1, h2, h3, h4, h5, h6⟩⟩ := pgLoop_spec (pq := pq) (ri := ri) hR hU hc hs
  · exact ⟨F1, .inl fun f hf => by rw [pgCalc, h f hf]⟩
  have hlt : ∀ t ∈ x.rt, t < nT := fun t ht => by have := (h3 t ht).1; omega
  obtain ⟨F2, y, hy, k1, k2, k3⟩ := mLoop_spec (ri := ri) hP hR hnd hlt
  have hcap : ¬ nT < x.rt.length := by
    have := (hnd.subperm (l₂ := List.range nT) fun t ht => List.mem_range.2 (hlt t ht)).length_le
    rw [List.length_range] at this
    omega
  have hact : ∀ a, a ∈ x.rt ↔ a < nA ∧ a ∈ y.rt := by
    intro a
    constructor
    · intro ha
      exact ⟨(h3 a ha).1, (k1 a).2 (.base ha)⟩
    · rintro ⟨ha, hay⟩
      have := (k1 a).1 hay
      cases this with
      | base h => exact h
      | @meth m hm _ _ =>
        have h8 := hP.head_abs m hm
        rw [hR.prim _ (hR.head_lt m hm)] at h8
        simp at h8
        omega
  have hfun : (fun t => t ∈ x.rt) = fun a => a < nA ∧ a ∈ y.rt := funext fun a => propext (hact a)
  refine ⟨max F1 F2, .inr ⟨⟨x.hP, y.rt, y.rm, x.useful⟩, fun f hf => ?_, fun f hf => (h1 f hf).ne, fun a ha => ((hact a).1 (h2 a ha)).2,
    fun a ha hay => (h3 a ((hact a).2 ⟨ha, hay⟩)).2.1, fun t => by rw [k1, hfun], fun m => ?_, fun f => ?_, fun hC => ⟨fun f hf => ?_, fun a ha hay => ?_⟩⟩⟩
  · rw [pgCalc, hx f (by omega)]
    simp only
    rw [if_neg hcap, hy f (by omega)]
  · rw [k2, RelM]
    refine and_congr Iff.rfl (and_congr Iff.rfl ⟨fun h t ht => (k1 t).2 (h t ht), fun h t ht => (k1 t).1 (h t ht)⟩)
  · rw [h4]
    refine and_congr Iff.rfl (or_congr Iff.rfl ⟨fun ⟨a, ha, hp⟩ => ⟨a, ((hact a).1 ha).1, ((hact a).1 ha).2, hp⟩,
      fun ⟨a, ha, ha', hp⟩ => ⟨a, (hact a).2 ⟨ha, ha'⟩, hp⟩⟩)
  · exact (h6 hC).1 f (lt_of_le_of_ne (h5 f) hf)
  · exact (h6 hC).2 a ((hact a).2 ⟨ha, hay⟩)

/-! ## What occurs in a solution is kept -/

theorem exec_rel (hP : P.WF) : ∀ {S S' : State} {π : List Nat}, Exec P S π S' → (∀ a ∈ π, a < nA ∧ ri a = true) →
    (∀ f < P.numFacts, S f → RelF P nA s ri f) →
    (∀ f < P.numFacts, S' f → RelF P nA s ri f) ∧ ∀ a ∈ π, RelA P nA s ri a := by
  intro S S' π h
  induction h with
  | nil S => intro _ hs; exact ⟨hs, by simp⟩
  | @cons S S' a π hap hex ih =>
    intro hπ hs
    obtain ⟨ha, hr⟩ := hπ a (by simp)
    have hA : RelA P nA s ri a := ⟨ha, hr, fun p hp => hs p (hP.prec_lt a p hp) (hap p hp)⟩
    obtain ⟨h1, h2⟩ := ih (fun b hb => hπ b (List.mem_cons_of_mem _ hb)) fun f hf hres => by
      rcases hres with hadd | ⟨hsf, -⟩
      · exact .act ha hr hA.2.2 hadd
      · exact hs f hf hsf
    refine ⟨h1, fun b hb => ?_⟩
    rcases List.mem_cons.1 hb with rfl | hb
    · exact hA
    · exact h2 b hb

theorem tree_rel {base : Nat → Prop} {t : Nat} {tr : Htn.Tree} (hv : Valid P t tr) (hl : ∀ p a, LeafAt P tr p a → base a)
    (hT : ∀ t, TaskIn P tr t → ri t = true) :
    RelT P ri base t ∧ (∀ t', TaskIn P tr t' → RelT P ri base t') ∧ ∀ m, Uses P tr m → RelM P ri base m := by
  induction hv with
  | @leaf a _ =>
    refine ⟨.base (hl [] a .here), fun t' h => ?_, fun m h => by cases h⟩
    cases h
    exact .base (hl [] a .here)
  | @node m cs hm _ ih =>
    have hi : ∀ i (h : i < (P.sub m).length), RelT P ri base (P.sub m)[i] ∧ (∀ t', TaskIn P (cs i) t' → RelT P ri base t') ∧
        ∀ m, Uses P (cs i) m → RelM P ri base m := fun i h =>
      ih i _ (List.getElem?_eq_getElem h) (fun p a hp => hl (i :: p) a (.child h hp)) fun t ht => hT t (.child h ht)
    have hr := hT _ (.node (P := P) (m := m) (cs := cs))
    have hsub : ∀ t ∈ P.sub m, RelT P ri base t := by
      intro t ht
      obtain ⟨i, h, rfl⟩ := List.mem_iff_getElem.1 ht
      exact (hi i h).1
    refine ⟨.meth hm hr hsub, fun t' h => ?_, fun m' h => ?_⟩
    · cases h with
      | node => exact .meth hm hr hsub
      | child h1 h2 => exact (hi _ h1).2.1 _ h2
    · cases h with
      | here => exact ⟨hm, hr, hsub⟩
      | child h1 h2 => exact (hi _ h1).2.2 _ h2

theorem sol_rel (hP : P.WF) (hR : RcOK P nA nT) {S S' : State} {I : Finset Nat} {lab : Nat → Nat} {lt : Nat → Nat → Prop}
    {tr : Nat → Htn.Tree} {occ : List (Nat × List Nat)} {π : List Nat} (hlab : ∀ u ∈ I, lab u < nT)
    (hl : LinNet P I lab lt tr occ π) (hex : Exec P S π S') (hs : ∀ f < P.numFacts, S f → s f = true)
    (hri : ∀ u ∈ I, ∀ t, TaskIn P (tr u) t → ri t = true) :
    (∀ f < P.numFacts, S' f → RelF P nA s ri f) ∧ (∀ u ∈ I, ∀ t, TaskIn P (tr u) t → RelT P ri (RelA P nA s ri) t) ∧
      ∀ u ∈ I, ∀ m, Uses P (tr u) m → RelM P ri (RelA P nA s ri) m := by
  obtain ⟨hv, hnd, hall, -, hf2⟩ := hl
  have hπ : ∀ a ∈ π, a < nA ∧ ri a = true := by
    intro a ha
    obtain ⟨y, hy, hya⟩ := forall₂_mem_right hf2 a ha
    have hyI := ((hall y).1 hy).1
    have hin := LeafAt.taskIn hya
    refine ⟨?_, hri _ hyI _ hin⟩
    have := hR.prim a (TaskIn.lt hR (hv _ hyI) (hlab _ hyI) a hin)
    rw [(leaf_reach (hv _ hyI) hya).2] at this
    simpa using this.symm
  obtain ⟨h1, h2⟩ := exec_rel (s := s) hP hex hπ fun f hf hsf => .init hf (hs f hf hsf)
  have hleaf : ∀ u ∈ I, ∀ p a, LeafAt P (tr u) p a → RelA P nA s ri a := by
    intro u hu p a hpa
    obtain ⟨b, hb, hlb⟩ := forall₂_mem_left hf2 (u, p) ((hall (u, p)).2 ⟨hu, a, hpa⟩)
    rw [hpa.unique hlb]
    exact h2 b hb
  exact ⟨h1, fun u hu => (tree_rel (hv u hu) (hleaf u hu) (hri u hu)).2.1, fun u hu => (tree_rel (hv u hu) (hleaf u hu) (hri u hu)).2.2⟩

theorem RelT.mem {r : PgRes} (hA : ∀ a, RelA P nA s ri a → a ∈ r.tasks)
    (hM : ∀ m, m ∈ r.methods ↔ m < P.numMethods ∧ ri (P.head m) = true ∧ ∀ t ∈ P.sub m, t ∈ r.tasks)
    (hT : ∀ t, t ∈ r.tasks ↔ RelT P ri (fun a => a < nA ∧ a ∈ r.tasks) t) :
    (∀ t, RelT P ri (RelA P nA s ri) t → t ∈ r.tasks) ∧ ∀ m, RelM P ri (RelA P nA s ri) m → m ∈ r.methods := by
  have h1 : ∀ t, RelT P ri (RelA P nA s ri) t → t ∈ r.tasks := fun t ht =>
    (hT t).2 (ht.mono fun a ha => ⟨ha.1, hA a ha⟩)
  exact ⟨h1, fun m hm => (hM m).2 ⟨hm.1, hm.2.1, fun t ht => h1 t (hm.2.2 t ht)⟩⟩

/-- `LmCausal::reachable` (LmCausal.cpp 638-650) with a planning graph: facts are looked up among the useful ones. -/
def pgReach (P : Problem) (nT : Nat) (r : PgRes) (x : Nat) : Bool :=
  if x < P.numFacts then x ∈ r.useful else if x < P.numFacts + nT then x - P.numFacts ∈ r.tasks else x - P.numFacts - nT ∈ r.methods

theorem pgReach_fact {r : PgRes} {f : Nat} (h : f < P.numFacts) : pgReach P nT r f = true ↔ f ∈ r.useful := by simp [pgReach, h]

theorem pgReach_task {r : PgRes} {t : Nat} (h : t < nT) : pgReach P nT r (tN P t) = true ↔ t ∈ r.tasks := by
  unfold pgReach tN
  rw [if_neg (by omega), if_pos (by omega), show P.numFacts + t - P.numFacts = t by omega, decide_eq_true_eq]

theorem pgReach_meth {r : PgRes} {m : Nat} : pgReach P nT r (mN P nT m) = true ↔ m ∈ r.methods := by
  unfold pgReach mN
  rw [if_neg (by omega), if_neg (by omega), show P.numFacts + nT + m - P.numFacts - nT = m by omega, decide_eq_true_eq]

/-! ## `hhDOfree` -/

/-- The set of tasks that `hhDOfree::updatePG` (hhDOfree.cpp 411-423) collects from the unconstrained steps; `none`: a step
without set. -/
def riOf (c : Cache) (n : Node) : Option (List Nat) := (n.abs ++ n.prims).foldr (fun u o => o.bind fun l => (c u).map fun l' => l' ++ l) (some [])

/-- The verdicts of `hhDOfree::recreateModel` before it builds the linear program (hhDOfree.cpp 436-460). -/
inductive DofV
  | unreach
  | zero
  | ilp
  deriving DecidableEq

def dofVerdict (P : Problem) (U : Nat) (n : Node) (r : PgRes) : DofV :=
  if P.goal.any (fun f => r.hP f = U) then .unreach
  else if (keys n.contained).any (fun t => t ∉ r.tasks) then .unreach
  else if keys n.contained = [] then .zero
  else .ilp

/-- `updatePG` (hhDOfree.cpp 411-426) and the tests of `recreateModel` (436-460; without the optional call of the LM-cut heuristic
in lines 430-435). -/
def dofTest (P : Problem) (nA nT : Nat) (pq : PQ) (U : Nat) (c : Cache) (fuel : Nat) (n : Node) : Out DofV :=
  match riOf c n with
  | none => .ub
  | some l =>
    match pgCalc P nA nT pq U (fun f => n.state[f]?.getD false) (fun t => t ∈ l) fuel with
    | .over => .over
    | .fuel => .fuel
    | .ub => .ub
    | .done r => .done (dofVerdict P U n r)

theorem riOf_spec {c : Cache} {n : Node} (h : ∀ u ∈ n.firsts, c u ≠ none) :
    ∃ l, riOf c n = some l ∧ ∀ t, t ∈ l ↔ ∃ u ∈ n.firsts, ∃ lu, c u = some lu ∧ t ∈ lu := by
  have key : ∀ L : List Nat, (∀ u ∈ L, c u ≠ none) →
      ∃ l, L.foldr (fun u o => o.bind fun l => (c u).map fun l' => l' ++ l) (some []) = some l ∧
        ∀ t, t ∈ l ↔ ∃ u ∈ L, ∃ lu, c u = some lu ∧ t ∈ lu := by
    intro L
    induction L with
    | nil => intro _; exact ⟨[], rfl, by simp⟩
    | cons u L ih =>
      intro hL
      obtain ⟨l, h1, h2⟩ := ih fun v hv => hL v (List.mem_cons_of_mem _ hv)
      obtain ⟨lu, hlu⟩ := Option.ne_none_iff_exists'.1 (hL u List.mem_cons_self)
      refine ⟨lu ++ l, by rw [List.foldr_cons, h1, hlu]; rfl, fun t => ?_⟩
      rw [List.mem_append, h2]
      constructor
      · rintro (h | ⟨v, hv, h⟩)
        · exact ⟨u, List.mem_cons_self, lu, hlu, h⟩
        · exact ⟨v, List.mem_cons_of_mem _ hv, h⟩
      · rintro ⟨v, hv, lv, h, ht⟩
        rcases List.mem_cons.1 hv with rfl | hv
        · rw [hlu] at h; cases h; exact .inl ht
        · exact .inr ⟨v, hv, lv, h, ht⟩
  have hmem : ∀ u, u ∈ n.abs ++ n.prims ↔ u ∈ n.firsts := by
    intro u
    simp only [Node.firsts, List.mem_append]
    exact or_comm
  obtain ⟨l, h1, h2⟩ := key (n.abs ++ n.prims) fun u hu => h u ((hmem u).1 hu)
  refine ⟨l, h1, fun t => ?_⟩
  rw [h2]
  simp only [hmem]

theorem TaskIn.reach {t : Nat} {tr : Htn.Tree} (hv : Valid P t tr) : ∀ t', TaskIn P tr t' → TaskReach P t t' := by
  induction hv with
  | leaf _ => intro t' h; cases h; exact .refl
  | @node m cs hm _ ih =>
    intro t' h
    cases h with
    | node => exact .refl
    | @child _ _ _ i hi h => exact .head ⟨m, hm, rfl, List.getElem_mem hi⟩ (ih i _ (List.getElem?_eq_getElem hi) t' h)

/-- The collected set: the tasks below `last` that can be obtained from a step of the network. -/
theorem riOf_ready {last : Nat} {h : Heap} {n : Node} {c : Cache} (hy : Ready P nA nT last h n c) :
    ∃ l, riOf c n = some l ∧ ∀ t, t ∈ l ↔ t < last ∧ ∃ u ∈ live h n, TaskReach P (taskOf h u) t := by
  obtain ⟨l, h1, h2⟩ := riOf_spec hy.firsts
  refine ⟨l, h1, fun t => ?_⟩
  rw [h2]
  constructor
  · rintro ⟨u, hu, lu, h3, h4⟩
    obtain ⟨v, hv, h5, h6⟩ := ((hy.cache u lu h3).2.2 t).1 h4
    exact ⟨h5, v, (mem_live hy.heap fun w hw => hy.node.lt w hw).2 ⟨u, hu, hv⟩, h6⟩
  · rintro ⟨h5, v, hv, h6⟩
    obtain ⟨u, hu, hr⟩ := (mem_live hy.heap fun w hw => hy.node.lt w hw).1 hv
    obtain ⟨lu, hlu⟩ := Option.ne_none_iff_exists'.1 (hy.firsts u hu)
    exact ⟨u, hu, lu, hlu, ((hy.cache u lu hlu).2.2 t).2 ⟨v, hr, h5, h6⟩⟩

theorem contained_keys {h : Heap} {n : Node} (hcnt : CounterOK h n) (t : Nat) : t ∈ keys n.contained ↔ ∃ u ∈ live h n, taskOf h u = t := by
  rw [mem_keys_iff hcnt.1, hcnt.2, Finset.card_pos]
  exact ⟨fun ⟨u, hu⟩ => ⟨u, (Finset.mem_filter.1 hu).1, (Finset.mem_filter.1 hu).2⟩,
    fun ⟨u, h1, h2⟩ => ⟨u, Finset.mem_filter.2 ⟨h1, h2⟩⟩⟩

end Verif.PG
