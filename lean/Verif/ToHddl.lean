import Verif.ToTransMain
import Verif.SatPrint

/-! # Model of `HTNToSASTranslation::planToHddl`

src/translation/htnToSAS.cpp 2520-2736, for plans of the translation of totally ordered problems.  The lines of the plan are
given by the names of their operators (`Lab`); other lines (comments, the empty last line) are skipped by the code.  Parsing
the names is not modelled: `id[.]` and `head[.]` are the arguments of `Lab`, `subtasks[.]` lists `head, head + 1, ...` and
`firstPrim[.]` the leading actions (htnToSAS.cpp 1144-1163).  Not modelled: `subHeadsFixed`, which is only used with `move`
lines that do not occur here. -/

namespace Verif.Sas

open Verif.Htn

/-- A line of the plan with its number (`order`) and the numbers of its leading actions (`firstPrimIndezes`). -/
structure Ent where
  lab : Lab
  id : Nat
  lead : List Nat
deriving DecidableEq, Repr

/-- `primNumMax`, lines 2553-2568. -/
def primNum (first : Nat → Nat) : List Lab → Nat
  | [] => 0
  | .prim _ _ :: ls => 1 + primNum first ls
  | .meth m _ :: ls => first m + primNum first ls

/-- `methNumMax`, lines 2553-2568. -/
def methNum : List Lab → Nat
  | [] => 0
  | .prim _ _ :: ls => methNum ls
  | .meth _ _ :: ls => 1 + methNum ls

/-- The numbers given by the loop of lines 2583-2663: `p` is `primNum`, `q` is `methNum`, `N` is `primNumMax`. -/
def ents (first : Nat → Nat) (N : Nat) : List Lab → Nat → Nat → List Ent
  | [], _, _ => []
  | .prim a h :: ls, p, q => ⟨.prim a h, p, []⟩ :: ents first N ls (p + 1) q
  | .meth m h :: ls, p, q => ⟨.meth m h, N + q, List.range' p (first m)⟩ :: ents first N ls (p + first m) (q + 1)

/-- The actions printed by lines 2606 and 2634. -/
def entActs (pref : Nat → List Nat) : List Ent → List (Nat × Nat)
  | [] => []
  | e :: es => (match e.lab with
    | .prim a _ => [(e.id, a)]
    | .meth m _ => e.lead.zip (pref m)) ++ entActs pref es

/-- The search for the line of a subtask, lines 2699-2726 (`none`: -1 is printed). -/
def findSub (P : Problem) (t h : Nat) (es : List Ent) : Option Nat :=
  (es.find? fun e => match e.lab with
    | .prim a k => a == t && k == h
    | .meth m k => P.head m == t && k == h).map Ent.id

/-- A printed line of a method. -/
structure HLine where
  id : Nat
  task : Nat
  meth : Nat
  subs : List (Option Nat)
deriving DecidableEq, Repr

/-- The lines of the methods, lines 2679-2730. -/
def hddlDecs (P : Problem) (reo : Nat → Reo) : List Ent → List HLine
  | [] => []
  | e :: es => match e.lab with
    | .prim _ _ => hddlDecs P reo es
    | .meth m h => ⟨e.id, P.head m, m, e.lead.map some ++
        (List.range ((P.sub m).length - (reo m).first)).reverse.map fun j => findSub P ((reo m).order[j]?.getD 0) (h + j) es⟩ ::
        hddlDecs P reo es

/-- What is printed. -/
structure HOut where
  acts : List (Nat × Nat)
  root : Nat
  decs : List HLine
deriving DecidableEq, Repr

/-- `planToHddl`, htnToSAS.cpp 2520-2736. -/
def planToHddl (P : Problem) (reo : Nat → Reo) (ls : List Lab) : HOut :=
  let first := fun m => (reo m).first
  let N := primNum first ls
  let es := ents first N ls 0 0
  ⟨entActs (fun m => (reo m).prefixTasks) es, N, hddlDecs P reo es⟩

/-- `subTasksInOrder` and `firstNumTOPrimTasks` as filled by `reorderTasks`. -/
def reoOf (P : Problem) (m : Nat) : Reo := (reorder P.prim (P.sub m) (P.ord m)).getD ⟨[], 0⟩

/-! ## Sequences of operators that work off a stack -/

/-- The operators work off the stack (top first). -/
inductive Work (P : Problem) (tot : Nat → List Nat) (lead : Nat → Nat) : List Nat → List Lab → Prop
  | nil : Work P tot lead [] []
  | act {a : Nat} {r : List Nat} {ls : List Lab} : P.prim a = true → Work P tot lead r ls →
      Work P tot lead (a :: r) (.prim a r.length :: ls)
  | meth {m : Nat} {r : List Nat} {ls : List Lab} : m < P.numMethods → Work P tot lead ((tasksOf P tot m).drop (lead m) ++ r) ls →
      Work P tot lead (P.head m :: r) (.meth m r.length :: ls)

section

variable {P : Problem} {vars : List (Nat × Nat)} {nA nT pgb : Nat} {tot : Nat → List Nat} {T : STask Lab}

theorem run_work (hin : TransInput P vars nA nT tot) (hnc : NoConflict P vars nA tot) (hops : OpsOK P vars nA tot pgb T)
    {σ σ' : Val} {ρ : List (Lab × SOp)} (h : SRun T σ ρ σ') (hb : ∀ x ∈ ρ, x.2 ≠ blankOp) (hz : σ' vars.length = 0) :
    ∀ {s : State} {st : List Nat}, Enc vars pgb σ s st → Reach P s → Work P tot (leadOf P) st (ρ.map Prod.fst) := by
  induction h with
  | nil σ =>
    intro s st he _
    have := he.head
    rw [hz] at this
    obtain rfl := List.length_eq_zero_iff.1 this.symm
    exact .nil
  | @cons σ σ' x ρ hx happ hrun ih =>
    intro s st he hr
    have hbx := hb x (.head _)
    rcases (hops x).1 hx with ⟨a, j, ha, hj, rfl⟩ | ⟨m, j, hm, hj, hfit, rfl⟩
    · obtain ⟨hap, r, rfl, rfl⟩ := opA_top hin hnc ha hj he happ
      obtain ⟨-, -, h2⟩ := opA_step hin he hr hap
      exact .act (by rw [hin.prim]; simpa using ha) (ih (fun y hy => hb y (.tail _ hy)) hz h2 (hr.step hap))
    · obtain ⟨r, s₁, rfl, rfl, hex⟩ := opM_top hin hnc hm hj he hr hbx happ
      obtain ⟨-, -, henc⟩ := opM_step hin hm hfit he hr hex
      exact .meth hm (ih (fun y hy => hb y (.tail _ hy)) hz henc (hr.exec hex))

/-- The operators of a plan without blank operators work off the initial task. -/
theorem plan_work (hin : TransInput P vars nA nT tot) (hnc : NoConflict P vars nA tot) (hp : 1 ≤ pgb)
    (hT : translate P vars nA nT pgb = some T) {ρ : List (Lab × SOp)} (h : T.Plan ρ) (hb : ∀ x ∈ ρ, x.2 ≠ blankOp) :
    Work P tot (leadOf P) [P.init] (ρ.map Prod.fst) := by
  obtain ⟨T', hT', hops, hgoal, -, -, -, -, -, hc, hh, hi, hz⟩ := translate_eq hin hp
  rw [hT] at hT'
  cases hT'
  obtain ⟨σ, hrun, hg⟩ := h
  have hz' : σ vars.length = 0 := hg (vars.length, 0) (by rw [hgoal]; simp)
  exact run_work hin hnc hops hrun hb hz' (start_enc hin hp hc hh hi hz) ⟨[], .nil _⟩

/-! ## The printed lines -/

/-- The line with the numbers of the subtasks. -/
def toH (d : Pdt.DLine) : HLine := ⟨d.id, d.task, d.meth.getD 0, d.subs.map some⟩

/-- What is known about the numbers given from some line on, if the stack is `st`. -/
structure Printed (P : Problem) (tot : Nat → List Nat) (reo : Nat → Reo) (N : Nat) (st : List Nat) (ls : List Lab) (p q : Nat)
    (ts : List Tree) (ids : List Nat) (D : List Pdt.DLine) : Prop where
  valid : List.Forall₂ (fun t tr => Valid P t tr) st ts
  len : ids.length = st.length
  find : ∀ x t k : Nat, st[x]? = some t → ids[x]? = some k →
    findSub P t (st.length - 1 - x) (ents (fun m => (reo m).first) N ls p q) = some k
  decs : hddlDecs P reo (ents (fun m => (reo m).first) N ls p q) = D.map toH
  meths : ∀ d ∈ D, ∃ m, d.meth = some m
  reads : ∀ A D', (∀ x ∈ entActs (fun m => (reo m).prefixTasks) (ents (fun m => (reo m).first) N ls p q), x ∈ A) →
    (∀ d ∈ D, d ∈ D') → ∀ (x k : Nat) (tr : Tree), ids[x]? = some k → ts[x]? = some tr → Pdt.Reads P tot A D' k tr
  decIds : D.map Pdt.DLine.id = List.range' (N + q) (methNum ls)
  once : (ids ++ D.flatMap Pdt.DLine.subs).Perm
    (List.range' p (primNum (fun m => (reo m).first) ls) ++ List.range' (N + q) (methNum ls))
  acts : (entActs (fun m => (reo m).prefixTasks) (ents (fun m => (reo m).first) N ls p q)).map Prod.snd = ts.flatMap (yield tot)
  actIds : (entActs (fun m => (reo m).prefixTasks) (ents (fun m => (reo m).first) N ls p q)).map Prod.fst =
    List.range' p (primNum (fun m => (reo m).first) ls)

theorem findSub_skip {P : Problem} {t h : Nat} {e : Ent} {es : List Ent}
    (hne : ∀ a k, e.lab = .prim a k → k ≠ h) (hne' : ∀ m k, e.lab = .meth m k → k ≠ h) :
    findSub P t h (e :: es) = findSub P t h es := by
  rw [findSub, List.find?_cons_of_neg, findSub]
  cases hl : e.lab with
  | prim a k => simp [hne a k hl]
  | meth m k => simp [hne' m k hl]

theorem map_idxOf {l s : List Nat} (hn : l.Nodup) (hl : s.length = l.length) : l.map (fun i => (s[l.idxOf i]?).getD 0) = s := by
  apply List.ext_getElem?
  intro x
  rw [List.getElem?_map]
  rcases Nat.lt_or_ge x l.length with hx | hx
  · rw [List.getElem?_eq_getElem hx, Option.map_some, List.Nodup.idxOf_getElem hn, List.getElem?_eq_getElem (by omega),
      Option.getD_some]
  · rw [List.getElem?_eq_none hx, List.getElem?_eq_none (by omega), Option.map_none]

theorem printed_of_work {reo : Nat → Reo} (ht : TotOK P tot) {lead : Nat → Nat}
    (hlead : ∀ m < P.numMethods, lead m ≤ (P.sub m).length ∧ ∀ t ∈ (tasksOf P tot m).take (lead m), P.prim t = true)
    (hreo : ∀ m < P.numMethods, reo m = ⟨(tasksOf P tot m).reverse, lead m⟩) (N : Nat) {st : List Nat} {ls : List Lab}
    (h : Work P tot lead st ls) : ∀ p q, ∃ ts ids D, Printed P tot reo N st ls p q ts ids D := by
  induction h with
  | nil =>
    intro p q
    exact ⟨[], [], [], .nil, rfl, by simp, rfl, by simp, by simp, rfl, .refl _, rfl, rfl⟩
  | @act a r ls hp hw ih =>
    intro p q
    obtain ⟨ts, ids, D, h⟩ := ih (p + 1) q
    refine ⟨.leaf a :: ts, p :: ids, D, .cons (.leaf hp) h.valid, by simp [h.len], ?_, h.decs, h.meths, ?_, h.decIds, ?_, ?_, ?_⟩
    · intro x t k hx hk
      cases x with
      | zero =>
        simp only [List.getElem?_cons_zero, Option.some.injEq] at hx hk
        subst hx hk
        simp [findSub, ents]
      | succ x =>
        simp only [List.getElem?_cons_succ] at hx hk
        have hxl : x < r.length := (List.getElem?_eq_some_iff.1 hx).1
        have := h.find x t k hx hk
        rw [ents, findSub_skip (by rintro _ _ ⟨⟩; simp only [List.length_cons]; omega) (by rintro _ _ ⟨⟩)]
        simp only [List.length_cons]
        rwa [show r.length + 1 - 1 - (x + 1) = r.length - 1 - x by omega]
    · intro A D' hA hD x k tr hk htr
      cases x with
      | zero =>
        simp only [List.getElem?_cons_zero, Option.some.injEq] at hk htr
        subst hk htr
        exact .leaf (hA (p, a) (by simp [ents, entActs]))
      | succ x =>
        simp only [List.getElem?_cons_succ] at hk htr
        exact h.reads A D' (fun y hy => hA y (by rw [ents, entActs]; exact List.mem_append_right _ hy)) hD x k tr hk htr
    · rw [primNum, Nat.add_comm, List.range'_succ]
      exact List.Perm.cons _ h.once
    · rw [ents, entActs, List.map_append, h.acts]
      rfl
    · rw [ents, entActs, List.map_append, h.actIds, primNum, Nat.add_comm 1, List.range'_succ]
      rfl
  | @meth m r ls hm hw ih =>
    intro p q
    have hr := hreo m hm
    obtain ⟨hle, hpr⟩ := hlead m hm
    have hlen : (tasksOf P tot m).length = (P.sub m).length := tasksOf_length ht hm
    have hfirst : (reo m).first = lead m := by rw [hr]
    have hpref : (reo m).prefixTasks = (tasksOf P tot m).take (lead m) := by
      rw [prefixTasks_eq (l := tasksOf P tot m) (by rw [hr]) (by rw [hfirst]; omega), hfirst]
    obtain ⟨ts, ids, D, h⟩ := ih (p + lead m) (q + 1)
    have hk : ((tasksOf P tot m).drop (lead m)).length = (P.sub m).length - lead m := by rw [List.length_drop, hlen]
    generalize hkk : (P.sub m).length - lead m = k at hk
    have hidl := h.len
    rw [List.length_append, hk] at hidl
    obtain ⟨ids1, ids2, rfl, hi1, hi2⟩ : ∃ ids1 ids2, ids = ids1 ++ ids2 ∧ ids1.length = k ∧ ids2.length = r.length :=
      ⟨ids.take k, ids.drop k, (List.take_append_drop k ids).symm, by rw [List.length_take]; omega, by rw [List.length_drop]; omega⟩
    have hval := h.valid
    obtain ⟨us, ws, hu, hw', rfl⟩ : ∃ us ws, List.Forall₂ (fun t tr => Valid P t tr) ((tasksOf P tot m).drop (lead m)) us ∧
        List.Forall₂ (fun t tr => Valid P t tr) r ws ∧ ts = us ++ ws := by
      refine ⟨ts.take k, ts.drop k, ?_, ?_, (List.take_append_drop k ts).symm⟩
      · have := List.forall₂_take k hval
        rwa [List.take_append_of_le_length (by omega), List.take_of_length_le (by omega)] at this
      · have := List.forall₂_drop k hval
        rwa [List.drop_append_of_le_length (by omega), List.drop_of_length_le (by omega), List.nil_append] at this
    have hul : us.length = k := by rw [← hu.length_eq, hk]
    have hall : List.Forall₂ (fun t tr => Valid P t tr) (tasksOf P tot m)
        (((tasksOf P tot m).take (lead m)).map Tree.leaf ++ us) := by
      rw [← List.take_append_drop (lead m) (tasksOf P tot m)]
      refine List.rel_append ?_ (by simpa using hu)
      rw [List.take_append_drop, List.forall₂_map_right_iff, List.forall₂_same]
      exact fun t htm => .leaf (hpr t htm)
    obtain ⟨cs, c1, c2, c3⟩ := node_of_list ht hm hall
    have hnd : (tot m).Nodup := (ht m hm).1.nodup_iff.2 List.nodup_range
    have htl : (tot m).length = (P.sub m).length := by simpa using (ht m hm).1.length_eq
    have htk : ((tasksOf P tot m).take (lead m)).length = lead m := by rw [List.length_take]; omega
    have hsl : (List.range' p (lead m) ++ ids1).length = (tot m).length := by
      rw [List.length_append, List.length_range', hi1, htl]; omega
    have hents : ents (fun m => (reo m).first) N (.meth m r.length :: ls) p q =
        ⟨.meth m r.length, N + q, List.range' p (lead m)⟩ :: ents (fun m => (reo m).first) N ls (p + lead m) (q + 1) := by
      rw [ents, hfirst]
    refine ⟨.node m cs :: ws, (N + q) :: ids2, ⟨N + q, P.head m, some m, List.range' p (lead m) ++ ids1⟩ :: D, .cons c1 hw',
      by simp [hi2], ?_, ?_, ?_, ?_, ?_, ?_, ?_, ?_⟩
    · intro x t κ hx hκ
      rw [hents]
      cases x with
      | zero =>
        simp only [List.getElem?_cons_zero, Option.some.injEq] at hx hκ
        subst hx hκ
        simp [findSub]
      | succ x =>
        simp only [List.getElem?_cons_succ] at hx hκ
        have hxl : x < r.length := (List.getElem?_eq_some_iff.1 hx).1
        have := h.find (k + x) t κ (by rw [List.getElem?_append_right (by omega), hk, show k + x - k = x by omega]; exact hx)
          (by rw [List.getElem?_append_right (by omega), hi1, show k + x - k = x by omega]; exact hκ)
        rw [List.length_append, hk] at this
        rw [findSub_skip (by rintro _ _ ⟨⟩) (by rintro _ _ ⟨⟩; simp only [List.length_cons]; omega)]
        simp only [List.length_cons]
        rwa [show r.length + 1 - 1 - (x + 1) = k + r.length - 1 - (k + x) by omega]
    · rw [hents, hddlDecs, h.decs, List.map_cons]
      simp only [toH, List.map_append, Option.getD_some]
      congr 3
      apply List.ext_getElem?
      intro x
      rw [List.getElem?_map, List.getElem?_map, hfirst, hkk]
      rcases Nat.lt_or_ge x k with hx | hx
      · rw [List.getElem?_reverse (by rw [List.length_range]; exact hx), List.length_range, List.getElem?_range (by omega), Option.map_some]
        obtain ⟨κ, hκ⟩ : ∃ κ, ids1[x]? = some κ := ⟨_, List.getElem?_eq_getElem (by omega)⟩
        obtain ⟨t, htx⟩ : ∃ t, ((tasksOf P tot m).drop (lead m))[x]? = some t := ⟨_, List.getElem?_eq_getElem (by omega)⟩
        have := h.find x t κ (by rw [List.getElem?_append_left (by omega)]; exact htx)
          (by rw [List.getElem?_append_left (by omega)]; exact hκ)
        rw [List.length_append, hk] at this
        have ho : (reo m).order[k - 1 - x]? = some t := by
          rw [hr]
          simp only
          rw [List.getElem?_reverse (by omega), hlen, show (P.sub m).length - 1 - (k - 1 - x) = lead m + x by omega]
          rwa [List.getElem?_drop] at htx
        rw [ho, Option.getD_some, hκ, Option.map_some, ← this]
        congr 2
        omega
      · rw [List.getElem?_eq_none (by simp; omega), List.getElem?_eq_none (by omega)]
        rfl
    · intro d hd
      rcases List.mem_cons.1 hd with rfl | hd
      · exact ⟨m, rfl⟩
      · exact h.meths d hd
    · intro A D' hA hD
      have hA' : ∀ y ∈ entActs (fun m => (reo m).prefixTasks) (ents (fun m => (reo m).first) N ls (p + lead m) (q + 1)), y ∈ A := by
        intro y hy
        refine hA y ?_
        rw [hents, entActs]
        exact List.mem_append_right _ hy
      have hr' := h.reads A D' hA' fun d hd => hD d (.tail _ hd)
      intro x κ tr hκ htr
      cases x with
      | zero =>
        simp only [List.getElem?_cons_zero, Option.some.injEq] at hκ htr
        subst hκ htr
        refine .node (κ := fun i => ((List.range' p (lead m) ++ ids1)[(tot m).idxOf i]?).getD 0) (hD _ ?_) ?_
        · rw [map_idxOf hnd hsl]
          exact .head _
        · intro i hi
          obtain ⟨y, hy⟩ := List.mem_iff_getElem?.1 hi
          have hyl : y < (tot m).length := (List.getElem?_eq_some_iff.1 hy).1
          have hidx : (tot m).idxOf i = y := by
            have := (List.getElem?_eq_some_iff.1 hy).2
            rw [← this]
            exact List.Nodup.idxOf_getElem hnd y hyl
          have hcs := c3 y i hy
          simp only [hidx]
          rcases Nat.lt_or_ge y (lead m) with hlt | hge
          · rw [List.getElem?_append_left (by rw [List.length_map, htk]; exact hlt), List.getElem?_map,
              List.getElem?_eq_getElem (by rw [htk]; exact hlt), Option.map_some, Option.some.injEq] at hcs
            rw [← hcs, List.getElem?_append_left (by rw [List.length_range']; exact hlt),
              List.getElem?_range' (by exact hlt), Option.getD_some]
            refine .leaf (hA _ ?_)
            rw [hents, entActs]
            refine List.mem_append_left _ ?_
            simp only [hpref]
            rw [List.mem_iff_getElem?]
            refine ⟨y, ?_⟩
            rw [List.getElem?_zip_eq_some]
            exact ⟨by rw [List.getElem?_range' (by exact hlt)], List.getElem?_eq_getElem (by rw [htk]; exact hlt)⟩
          · rw [List.getElem?_append_right (by rw [List.length_map, htk]; exact hge), List.length_map, htk] at hcs
            have hκ2 : ids1[y - lead m]? = some ((ids1[y - lead m]?).getD 0) := by
              rw [List.getElem?_eq_getElem (by omega)]
              rfl
            rw [List.getElem?_append_right (by rw [List.length_range']; exact hge), List.length_range']
            exact hr' (y - lead m) _ _ (by rw [List.getElem?_append_left (by omega)]; exact hκ2)
              (by rw [List.getElem?_append_left (by omega)]; exact hcs)
      | succ x =>
        simp only [List.getElem?_cons_succ] at hκ htr
        refine hr' (k + x) κ tr ?_ ?_
        · rw [List.getElem?_append_right (by omega), hi1, show k + x - k = x by omega]; exact hκ
        · rw [List.getElem?_append_right (by omega), hul, show k + x - k = x by omega]; exact htr
    · rw [List.map_cons, h.decIds, methNum, Nat.add_comm 1, List.range'_succ]
      rfl
    · have h1 := h.once
      rw [primNum, methNum, hfirst, Nat.add_comm 1 (methNum ls), List.range'_succ, ← List.range'_append_1]
      rw [List.perm_iff_count] at h1 ⊢
      intro z
      have := h1 z
      simp only [List.count_append, List.count_cons, List.flatMap_cons, List.cons_append, Nat.add_assoc] at this ⊢
      omega
    · rw [hents, entActs, List.map_append, h.acts]
      simp only [hpref]
      rw [List.map_snd_zip (by rw [htk, List.length_range']), List.flatMap_cons, c2, List.flatMap_append, List.flatMap_append,
        flatMap_leaf, List.append_assoc]
    · rw [hents, entActs, List.map_append, h.actIds]
      simp only [hpref]
      rw [List.map_fst_zip (by rw [htk, List.length_range']), primNum, hfirst, List.range'_append_1]

end

end Verif.Sas
