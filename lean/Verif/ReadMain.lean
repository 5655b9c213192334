import Verif.ReadSpec

/-! # The reader reads what the file describes -/

namespace Verif.ReadFile

open Verif.Parse Verif.Ordering Verif.TaskCounter Verif.IntUtil

/-! ## Parts of lines -/

theorem line_not_blank {r l : List Char} {z : Int} {zs : List Int} (h : Line r l (z :: zs)) : l.all isWs = false := by
  cases h with
  | cons hw hn hl ht =>
    obtain ⟨e1, e2⟩ := dropWhile_ws hw hn (tail := ‹_›)
    by_contra hc
    rw [Bool.not_eq_false] at hc
    rw [List.dropWhile_eq_nil_iff.2 (List.all_eq_true.1 hc)] at e1
    exact e2 (List.append_eq_nil_iff.1 e1.symm).1

theorem getInt_line {r l : List Char} {z : Int} {zs : List Int} (h : Line r l (z :: zs)) :
    ∃ l', getInt ⟨l, false⟩ = .ok (⟨l', false⟩, z) ∧ Line r l' zs := by
  obtain ⟨l', h1, h2⟩ := readInt_line h 0
  refine ⟨l', ?_, h2⟩
  simp only [getInt, line_not_blank h, Bool.or_self, Bool.false_eq_true, if_false, h1]

theorem lineInt_ok {z : Int} {l : List Char} (h : NumL z l) : lineInt l = .ok z := by
  obtain ⟨more, h⟩ := h
  obtain ⟨l', h1, -⟩ := getInt_line h
  show (getInt ⟨l, false⟩).bind _ = _
  rw [h1]
  rfl

theorem lineSize_ok {n : Nat} {l : List Char} (h : NumL n l) : lineSize l = .ok n := by
  show (lineInt l).bind _ = _
  rw [lineInt_ok h]
  show (if (n : Int) < 0 then Out.ub else .ok (n : Int).toNat) = _
  rw [if_neg (by omega), Int.toNat_natCast]

theorem lineInts_ok {zs : List Int} {l : List Char} {fuel : Nat} (h : IntsL zs l) (hf : zs.length < fuel) : lineInts fuel l = .ok zs := by
  obtain ⟨more, h⟩ := h
  have hb : l.all isWs = false := by
    cases zs with
    | nil => exact line_not_blank h
    | cons z zs => exact line_not_blank h
  have := readLoop_line (x := 0) h hf
  simp only [lineInts, hb, Bool.false_eq_true, if_false, readIntList, this]

theorem asIdx_ok {n i : Nat} (h : i < n) : asIdx n (i : Int) = .ok i := by
  rw [asIdx, if_pos (by omega), Int.toNat_natCast]

theorem asIdxs_ok {n : Nat} : ∀ {l : List Nat}, (∀ i ∈ l, i < n) → asIdxs n (l.map fun (i : Nat) => (i : Int)) = .ok l
  | [], _ => rfl
  | i :: l, h => by
    show (asIdx n (i : Int)).bind (fun i => (asIdxs n (l.map fun (i : Nat) => (i : Int))).bind fun is => .ok (i :: is)) = _
    rw [asIdx_ok (h i (by simp)), asIdxs_ok fun i hi => h i (by simp [hi])]
    rfl

/-- Effects without conditions. -/
def plain (es : List (List Nat × Nat)) : List Nat := (es.filter fun e => e.1.isEmpty).map Prod.snd

/-- Effects with conditions. -/
def guarded (es : List (List Nat × Nat)) : List (List Int × Int) :=
  (es.filter fun e => !e.1.isEmpty).map fun e => (e.1.map fun (n : Nat) => (n : Int), (e.2 : Int))

theorem lineConds_ok {es : List (List Nat × Nat)} {l : List Char} {fuel : Nat} (h : EffsL es l) (hf : es.length < fuel) :
    lineConds fuel l = .ok ((plain es).map fun (n : Nat) => (n : Int), guarded es) := by
  obtain ⟨t, more, ht, h⟩ := h
  have hb : l.all isWs = false := by
    cases es with
    | nil => exact line_not_blank h
    | cons e es => exact line_not_blank h
  have := condLoop_line (y0 := 0) (x := 0) ht h (f := fuel) (by simpa using hf)
  simp only [lineConds, hb, Bool.false_eq_true, if_false, readConditionalIntList, this]
  refine congrArg Out.ok (Prod.ext ?_ ?_)
  · simp only [plain, List.filter_map, List.map_map]
    congr 1
    refine List.filter_congr fun e _ => ?_
    obtain ⟨c, f⟩ := e
    cases c <;> simp
  · simp only [guarded, List.filter_map]
    congr 1
    refine List.filter_congr fun e _ => ?_
    obtain ⟨c, f⟩ := e
    cases c <;> simp

theorem getWord_name {name r : List Char} (h : NameR name r) : getWord ⟨r, false⟩ = name := by
  obtain ⟨ws, tl, rfl, h1, h2, h3, h4⟩ := h
  obtain ⟨c, t, rfl⟩ := List.exists_cons_of_ne_nil h2
  have e1 : (ws ++ (c :: t) ++ tl).dropWhile isWs = (c :: t) ++ tl := by
    rw [List.append_assoc, List.dropWhile_append_of_pos h1]
    simp [h3 c (by simp)]
  have e2 : ((c :: t) ++ tl).takeWhile (fun c => !isWs c) = c :: t := by
    rw [List.takeWhile_append_of_pos fun x hx => by rw [h3 x hx]; rfl]
    rcases h4 with rfl | ⟨d, t', rfl, hd⟩
    · simp
    · simp [hd]
  simp only [getWord, Bool.false_eq_true, if_false, e1, e2]

theorem line_nil {r l : List Char} (h : Line r l []) : l = r := by cases h; rfl

/-! ## Sections -/

theorem readVar_ok {nF : Nat} {v : VarD} (h : v.first < nF ∧ v.last < nF) : RFor (readVar nF) (One (VarL v)) ⟨v.first, v.last, v.name⟩ := by
  unfold readVar
  refine RFor.line' fun l hl => ?_
  obtain ⟨r, hr, hl⟩ := hl
  obtain ⟨l1, e1, h1⟩ := getInt_line hl
  obtain ⟨l2, e2, h2⟩ := getInt_line h1
  refine RFor.out e1 (RFor.out e2 (RFor.out (asIdx_ok h.1) (RFor.out (asIdx_ok h.2) ?_)))
  rw [line_nil h2]
  have := getWord_name hr
  simp only [this]
  exact RFor.pure _

theorem readGroup_ok {fuel : Nat} {gs : List (List Int)} (h : ∀ g ∈ gs, g.length < fuel) : RFor (readGroup fuel) (GroupF gs) gs := by
  unfold readGroup GroupF
  refine RFor.line fun l hl => RFor.out (lineSize_ok hl) ?_
  have := RFor.many (r := (do let l ← nextLine; out (lineInts fuel l))) (f := fun g => One (IntsL g)) (g := id) (bs := gs) fun g hg => by
    refine RFor.line' fun l hl => ?_
    rw [lineInts_ok hl (h g hg)]
    exact RFor.pure _
  rw [List.map_id] at this
  exact RFor.seq this (RFor.last skip2_reads (RFor.pure _))

/-- The action that is read, before double preconditions are removed. -/
def ActD.toM (a : ActD) : ActM := ⟨a.cost, a.prec, plain a.add, guarded a.add, plain a.del, guarded a.del⟩

theorem plain_lt {n : Nat} {es : List (List Nat × Nat)} (h : ∀ e ∈ es, e.2 < n) : ∀ i ∈ plain es, i < n := by
  intro i hi
  obtain ⟨e, he, rfl⟩ := List.mem_map.1 hi
  exact h e (List.mem_filter.1 he).1

theorem readAct_ok {fuel nF : Nat} {a : ActD} (hp : ∀ f ∈ a.prec, f < nF) (ha : ∀ e ∈ a.add, e.2 < nF) (hd : ∀ e ∈ a.del, e.2 < nF)
    (h1 : a.prec.length < fuel) (h2 : a.add.length < fuel) (h3 : a.del.length < fuel) : RFor (readAct fuel nF) (ActF a) a.toM := by
  unfold readAct ActF
  refine RFor.line fun l hl => RFor.out (lineInt_ok hl) (RFor.line fun l hl => RFor.out (lineInts_ok hl (by simpa using h1)) (RFor.line fun l hl =>
    RFor.out (lineConds_ok hl h2) (RFor.line' fun l hl => RFor.out (lineConds_ok hl h3) ?_)))
  exact RFor.out (asIdxs_ok hp) (RFor.out (asIdxs_ok (plain_lt ha)) (RFor.out (asIdxs_ok (plain_lt hd)) (RFor.pure _)))

theorem readTask_ok (t : Bool × List Char) : RFor readTask (One (TaskL t)) (!t.1, t.2) := by
  unfold readTask
  refine RFor.line' fun l hl => ?_
  obtain ⟨r, hr, hl⟩ := hl
  have hb := line_not_blank hl
  rw [if_neg (by rintro rfl; simp at hb)]
  obtain ⟨l1, e1, h1⟩ := getInt_line hl
  have e2 : getBool ⟨l, false⟩ = .ok (⟨r, false⟩, t.1) := by
    show (getInt ⟨l, false⟩).bind _ = _
    rw [e1, line_nil h1]
    cases t.1 <;> rfl
  refine RFor.out e2 ?_
  have := getWord_name hr
  simp only [this]
  exact RFor.pure _

/-! ## The classical part -/

/-- Number of iterations that suffices. -/
structure Desc.Short (D : Desc) (fuel : Nat) : Prop where
  strict : ∀ g ∈ D.strict, g.length < fuel
  mutex : ∀ g ∈ D.mutex, g.length < fuel
  invs : ∀ g ∈ D.invs, g.length < fuel
  prec : ∀ a ∈ D.acts, a.prec.length < fuel
  add : ∀ a ∈ D.acts, a.add.length < fuel
  del : ∀ a ∈ D.acts, a.del.length < fuel
  s0 : D.s0.length < fuel
  goal : D.goal.length < fuel
  sub : ∀ h ∈ D.hier, ∀ m ∈ h.methods, m.sub.length < fuel
  ord : ∀ h ∈ D.hier, ∀ m ∈ h.methods, 2 * m.ord.length < fuel

/-- The classical part of the model. -/
def Desc.classical (D : Desc) : Classical where
  facts := D.facts
  vars := D.vars.map fun v => ⟨v.first, v.last, v.name⟩
  varOf := varOfBit 0 (D.vars.map fun v => ⟨v.first, v.last, v.name⟩) fun _ => none
  strict := D.strict
  mutex := D.mutex
  invs := D.invs
  acts := D.acts.map fun a => { a.toM with prec := dedupPrec D.facts.length a.prec }
  precLess := (List.range D.acts.length).filter fun i => ((D.acts[i]?.map fun a => a.prec).getD []).isEmpty
  precToAction := inverse D.facts.length (D.acts.map fun a => dedupPrec D.facts.length a.prec)
  addToAction := inverse D.facts.length (D.acts.map fun a => plain a.add)
  delToAction := inverse D.facts.length (D.acts.map fun a => plain a.del)
  s0 := D.s0
  goal := D.goal
  tasks := D.tasks.map fun t => (!t.1, t.2)

theorem readClassical_ok {D : Desc} (hD : D.OK) {fuel : Nat} (hf : D.Short fuel) : RFor (readClassical fuel) (ClassicalF D) D.classical := by
  unfold readClassical ClassicalF
  refine RFor.newLine (RFor.line fun l hl => RFor.out (lineSize_ok hl) ?_)
  have hfacts := RFor.many (r := nextLine) (f := fun f => One (· = f)) (g := id) (bs := D.facts) fun f _ => by
    rintro _ ⟨l, rfl, rfl⟩ hn
    exact nextLine_reads (hn _ (by simp))
  rw [List.map_id] at hfacts
  refine RFor.seq hfacts (RFor.seq skip2_reads (RFor.line fun l hl => RFor.out (lineSize_ok hl) ?_))
  refine RFor.seq (RFor.many fun v hv => readVar_ok (hD.var v hv)) (RFor.seq skip2_reads ?_)
  refine RFor.seq (readGroup_ok hf.strict) (RFor.seq (readGroup_ok hf.mutex) (RFor.seq (readGroup_ok hf.invs) ?_))
  refine RFor.line fun l hl => RFor.out (lineSize_ok hl) ?_
  refine RFor.seq (RFor.many fun a ha => readAct_ok (hD.prec a ha) (hD.add a ha) (hD.del a ha) (hf.prec a ha) (hf.add a ha) (hf.del a ha)) ?_
  refine RFor.seq skip2_reads (RFor.line fun l hl => RFor.out (lineInts_ok hl (by simpa using hf.s0)) (RFor.out (asIdxs_ok hD.s0) ?_))
  refine RFor.seq skip2_reads (RFor.line fun l hl => RFor.out (lineInts_ok hl (by simpa using hf.goal)) (RFor.out (asIdxs_ok hD.goal) ?_))
  refine RFor.seq skip2_reads (RFor.line fun l hl => RFor.out (lineSize_ok hl) (RFor.last (RFor.many fun t _ => readTask_ok t) ?_))
  have e : D.classical = {
      facts := D.facts, vars := D.vars.map fun v => ⟨v.first, v.last, v.name⟩, strict := D.strict, mutex := D.mutex, invs := D.invs, s0 := D.s0, goal := D.goal
      tasks := D.tasks.map fun t => (!t.1, t.2)
      varOf := varOfBit 0 (D.vars.map fun v => ⟨v.first, v.last, v.name⟩) fun _ => none
      acts := (D.acts.map ActD.toM).map fun a => { a with prec := dedupPrec D.facts.length a.prec }
      precLess := (List.range D.acts.length).filter fun i => (((D.acts.map ActD.toM)[i]?.map fun a => a.prec).getD []).isEmpty
      precToAction := inverse D.facts.length ((D.acts.map ActD.toM).map fun a => dedupPrec D.facts.length a.prec)
      addToAction := inverse D.facts.length ((D.acts.map ActD.toM).map (·.add))
      delToAction := inverse D.facts.length ((D.acts.map ActD.toM).map (·.del)) } := by
    simp only [Desc.classical, List.map_map, List.getElem?_map, Option.map_map]
    rfl
  rw [e]
  exact RFor.pure _

/-! ## The hierarchy -/

theorem change_defined {n : Nat} {o : List (Nat × Nat)} (h : ∀ p ∈ o, p.1 < n ∧ p.2 < n) (b : Bool) (F : Flags) :
    ∃ r, transitiveChange false n o b F = some r := by
  obtain ⟨M, hM⟩ := initMat_total (n := n) (fun _ _ => false) h
  exact ⟨_, by simp only [transitiveChange, hM]; rfl⟩

theorem asPairs_flat : ∀ l : List (Nat × Nat), asPairs (l.flatMap fun o => [o.1, o.2]) = .ok l
  | [] => rfl
  | (a, b) :: l => by
    show (asPairs (l.flatMap fun o => [o.1, o.2])).bind (fun ps => .ok ((a, b) :: ps)) = _
    rw [asPairs_flat l]
    rfl

theorem flat_lt {n : Nat} {l : List (Nat × Nat)} (h : ∀ p ∈ l, p.1 < n ∧ p.2 < n) : ∀ i ∈ l.flatMap (fun o => [o.1, o.2]), i < n := by
  intro i hi
  obtain ⟨o, ho, hi⟩ := List.mem_flatMap.1 hi
  rcases List.mem_cons.1 hi with rfl | hi
  · exact (h o ho).1
  · rw [List.mem_singleton] at hi
    exact hi ▸ (h o ho).2

theorem length_flat (l : List (Nat × Nat)) : (l.flatMap fun o => [o.1, o.2]).length = 2 * l.length := by
  induction l with
  | nil => rfl
  | cons o l ih => simp only [List.flatMap_cons, List.length_append, ih, List.length_cons, List.length_nil]; omega

/-- A method of the file that can be read. -/
structure MethD.OK (m : MethD) (nT fuel : Nat) : Prop where
  head : m.head < nT
  sub_ne : m.sub ≠ []
  sub : ∀ t ∈ m.sub, t < nT
  ord : ∀ o ∈ m.ord, o.1 < m.sub.length ∧ o.2 < m.sub.length
  short : m.sub.length < fuel
  shortO : 2 * m.ord.length < fuel

theorem readMethod_ok {fuel nT init : Nat} {F : Flags} {m : MethD} (h : m.OK nT fuel) {r : List (Nat × Nat) × Flags}
    (hr : transitiveChange false m.sub.length m.ord (m.head == init) F = some r) :
    RFor (readMethod fuel nT init F) (MethF m) (⟨m.name, m.head, m.sub, r.1⟩, r.2) := by
  unfold readMethod MethF
  refine RFor.line fun l hl => ?_
  subst hl
  refine RFor.atEof ?_
  rw [if_neg (by decide)]
  refine RFor.line fun l hl => RFor.out (lineInt_ok hl) (RFor.out (asIdx_ok h.head) ?_)
  refine RFor.line fun l hl => RFor.out (lineInts_ok hl (by simpa using h.short)) ?_
  rw [if_neg (by simpa using h.sub_ne)]
  refine RFor.out (asIdxs_ok h.sub) (RFor.line' fun l hl => RFor.out (lineInts_ok hl (by rw [List.length_map, length_flat]; exact h.shortO)) ?_)
  refine RFor.out (asIdxs_ok (flat_lt h.ord)) (RFor.out (asPairs_flat _) ?_)
  rw [hr]
  exact RFor.pure _

/-- The methods with the orderings `os`. -/
def withOrd (ms : List MethD) (os : List (List (Nat × Nat))) : List MethM := List.zipWith (fun m o => ⟨m.name, m.head, m.sub, o⟩) ms os

theorem readMethods_ok {fuel nT init : Nat} : ∀ {ms : List MethD} {F : Flags} {os : List (List (Nat × Nat))} {F' : Flags}, (∀ m ∈ ms, m.OK nT fuel) →
    readAll (ms.map fun m => (m.sub.length, m.ord, m.head == init)) F = some (os, F') →
    RFor (readMethods fuel nT init ms.length F) (Each MethF ms) (withOrd ms os, F')
  | [], F, os, F', _, h => by
    cases h
    exact RFor.pure _
  | m :: ms, F, os, F', hm, h => by
    simp only [List.map_cons, readAll] at h
    cases e1 : transitiveChange false m.sub.length m.ord (m.head == init) F with
    | none => rw [e1] at h; cases h
    | some r =>
      obtain ⟨o, F1⟩ := r
      rw [e1] at h
      simp only at h
      cases e2 : readAll (ms.map fun m => (m.sub.length, m.ord, m.head == init)) F1 with
      | none => rw [e2] at h; cases h
      | some r =>
        obtain ⟨os', F2⟩ := r
        rw [e2] at h
        cases h
        refine RFor.seq (readMethod_ok (hm m (by simp)) e1) ?_
        exact RFor.last (readMethods_ok (fun m hm' => hm m (by simp [hm'])) e2) (RFor.pure _)

theorem readAll_defined : ∀ {ms : List (Nat × List (Nat × Nat) × Bool)} {F : Flags}, (∀ m ∈ ms, ∀ p ∈ m.2.1, p.1 < m.1 ∧ p.2 < m.1) →
    ∃ os F', readAll ms F = some (os, F')
  | [], F, _ => ⟨[], F, rfl⟩
  | (n, o, b) :: ms, F, h => by
    obtain ⟨⟨o', F1⟩, e1⟩ := change_defined (h (n, o, b) (by simp)) b F
    obtain ⟨os, F2, e2⟩ := readAll_defined (ms := ms) (F := F1) fun m hm => h m (by simp [hm])
    exact ⟨o' :: os, F2, by simp [readAll, e1, e2]⟩

theorem readHierarchical_ok {fuel : Nat} {tasks : List (Bool × List Char)} {h : HierD} (hi : h.init < tasks.length) (hm : ∀ m ∈ h.methods, m.OK tasks.length fuel)
    {os : List (List (Nat × Nat))} {F : Flags} {H : Hier}
    (ho : readAll (h.methods.map fun m => (m.sub.length, m.ord, m.head == h.init)) ⟨true, true, true⟩ = some (os, F))
    (hH : mkHier tasks h.init (withOrd h.methods os) F = .ok H) : RFor (readHierarchical fuel tasks) (HierF h) (some H) := by
  unfold readHierarchical HierF
  refine RFor.newLine (RFor.line fun l hl => ?_)
  rw [if_neg (by rw [hl]; simp)]
  refine RFor.atEof ?_
  rw [if_neg (by decide)]
  refine RFor.any1 fun _ => RFor.atEof ?_
  rw [if_neg (by decide)]
  refine RFor.line fun l hl => RFor.atEof ?_
  rw [if_neg (by decide)]
  refine RFor.out (lineInt_ok hl) (RFor.out (asIdx_ok hi) (RFor.seq skip2_reads ?_))
  refine RFor.line fun l hl => RFor.out (lineSize_ok hl) (RFor.last (readMethods_ok hm ho) ?_)
  exact RFor.out hH (RFor.pure _)

end Verif.ReadFile
