import Verif.PoHddl
import Verif.StripsEq

/-! # What is printed for plans of the translations of partially ordered problems -/

namespace Verif.Sas

open Verif.Htn Relation

section

variable {P : Problem}

/-- The first line that is not skipped is the decomposition of the only task. -/
theorem CellRun.root {I : Finset Nat} {lab : Nat → Nat} {lt : Nat → Nat → Prop} {c : Nat → Nat} {ls : List OLine} (h : CellRun P I lab lt c ls)
    (N p q : Nat) : ∀ {u : Nat}, I = {u} → P.prim (lab u) = false → plFind P (lab u) (c u) (plEnts N ls p q) = some (N + q) := by
  induction h with
  | nil => intro u hI; exact absurd hI.symm (Finset.singleton_ne_empty u)
  | other _ _ ih => intro u hI hp; exact ih hI hp
  | prim hu hp _ _ _ _ =>
    intro v hI hp'
    subst hI
    obtain rfl := Finset.mem_singleton.1 hu
    rw [hp] at hp'
    cases hp'
  | meth hm hh hu _ _ _ _ _ _ =>
    intro v hI _
    subst hI
    obtain rfl := Finset.mem_singleton.1 hu
    simp [plEnts, plFind, hh]

/-- The printed lines describe the decomposition tree `tr` of the initial task: all numbers of subtasks are numbers of lines, the
actions are `π` in their order, numbered from 0, the lines of the methods have the following numbers, every line but that of the root
is a subtask of exactly one line, and the positions of the printed actions in the tree are `occ`. -/
structure HddlPO (P : Problem) (out : HOut) (tr : Tree) (occ : List (List Nat)) (π : List Nat) : Prop where
  valid : Valid P P.init tr
  lin : Linearises P tr occ π
  acts : out.acts.map Prod.snd = π
  actIds : out.acts.map Prod.fst = List.range π.length
  lines : ∃ D : List Pdt.DLine, out.decs = D.map toH ∧ (∀ d ∈ D, ∃ m, d.meth = some m) ∧
    Pdt.Reads P (fun m => List.range (P.sub m).length) out.acts D out.root tr ∧
    (out.root :: D.flatMap Pdt.DLine.subs).Perm (out.acts.map Prod.fst ++ D.map Pdt.DLine.id) ∧
    ∀ (n : Nat) (l : List Nat), occ[n]? = some l → Follow D out.root l n
  decIds : out.decs.map HLine.id = List.range' π.length out.decs.length

/-- What is printed for lines that work off the initial task. -/
theorem hddlPO_of_run {order : Nat → List Nat} (hord : ∀ m < P.numMethods, order m = (P.sub m).reverse) (hia : P.prim P.init = false)
    {u : Nat} {lab : Nat → Nat} {lt : Nat → Nat → Prop} {c : Nat → Nat} {ls : List OLine} (hl : lab u = P.init)
    (hmv : ∀ f t, OLine.move f t ∉ ls) (h : CellRun P {u} lab lt c ls) :
    ∃ tr occ, HddlPO P (planToHddlPO P order ls) tr occ (ls.filterMap fun x => match x with
      | .prim a _ => some a
      | _ => none) := by
  obtain ⟨tr, occ, id, D, hp⟩ := cprinted_of_run hord (plPrims ls) h 0 0
  have hroot : id u = plPrims ls := by
    have h1 := hp.find u (Finset.mem_singleton_self u)
    rw [h.root (plPrims ls) 0 0 rfl (hl ▸ hia)] at h1
    simpa using h1.symm
  have hπ : ∀ (ls : List OLine) N p q, (plActs (plEnts N ls p q)).map Prod.snd = ls.filterMap fun x => match x with
      | .prim a _ => some a
      | _ => none := by
    intro ls
    induction ls with
    | nil => intro N p q; rfl
    | cons x ls ih =>
      intro N p q
      cases x <;> simp [plEnts, plActs, ih]
  have hlen : ∀ ls : List OLine, (ls.filterMap fun x => match x with
      | .prim a _ => some a
      | _ => none).length = plPrims ls := by
    intro ls
    induction ls with
    | nil => rfl
    | cons x ls ih =>
      cases x <;> simp [plPrims, ih, Nat.add_comm]
  have hlin := hp.lin
  rw [hπ] at hlin
  have hocc : ∀ x ∈ occ, x.1 = u := fun x hx => Finset.mem_singleton.1 ((hlin.all x).1 hx).1
  have hdecs : (planToHddlPO P order ls).decs = D.map toH := by
    rw [planToHddlPO]
    simp only
    rw [plHeads_noMove ls [] hmv]
    exact hp.decs
  refine ⟨tr u, occ.map Prod.snd, hl ▸ hlin.valid u (Finset.mem_singleton_self u), ⟨?_, ?_, ?_, ?_⟩, hπ ls _ _ _, ?_,
    ⟨D, hdecs, hp.meths, ?_, ?_, ?_⟩, ?_⟩
  · refine List.Nodup.map_on (fun x hx y hy e => ?_) hlin.nodup
    exact Prod.ext ((hocc x hx).trans (hocc y hy).symm) e
  · intro l
    rw [List.mem_map]
    constructor
    · rintro ⟨x, hx, rfl⟩
      have := ((hlin.all x).1 hx).2
      rwa [hocc x hx] at this
    · intro h
      exact ⟨(u, l), (hlin.all _).2 ⟨Finset.mem_singleton_self u, h⟩, rfl⟩
  · rw [List.pairwise_map]
    refine hlin.order.imp_of_mem fun {x y} hx hy hnb hb => hnb (.inl ⟨(hocc y hy).trans (hocc x hx).symm, ?_⟩)
    rwa [hocc y hy]
  · rw [forall₂_map_left']
    refine forall₂_imp_mem hlin.labels fun x hx a ha => ?_
    rwa [hocc x hx] at ha
  · rw [hlen, List.range_eq_range']
    exact hp.actIds
  · have := hp.reads _ D (fun x hx => hx) (fun d hd => hd) u (Finset.mem_singleton_self u)
    rwa [hroot] at this
  · rw [List.perm_iff_count]
    intro z
    have := hp.once z
    rw [Finset.sum_singleton, hroot] at this
    rw [show (planToHddlPO P order ls).acts.map Prod.fst = List.range' 0 (plPrims ls) from hp.actIds, hp.decIds, List.count_append, ← this,
      List.count_cons, Nat.add_comm]
    simp only [beq_iff_eq]
    rfl
  · intro n l hn
    rw [List.getElem?_map] at hn
    obtain ⟨x, hx, rfl⟩ := Option.map_eq_some_iff.1 hn
    have hxu := hocc x (List.mem_of_getElem? hx)
    have := hp.follow n x.1 x.2 hx
    rw [hxu, hroot, Nat.zero_add] at this
    exact this
  · rw [hdecs, List.map_map, List.length_map, hlen]
    have := hp.decIds
    have hl := congrArg List.length this
    rw [List.length_map, List.length_range'] at hl
    rw [hl]
    exact this

end

/-! ## Plans of `htnToStrips` -/

/-- The line of an operator in the plan. -/
def slLine : SLab → OLine
  | .empty _ => .other
  | .prim a j => .prim a j
  | .meth m j cells => .meth m j cells

variable {P : Problem} {vars : List (Nat × Nat)} {nA nT B : Nat} {T : STask SLab}

theorem st_cellRun (hin : PushInput P vars nA nT) (hf : ∀ a < nA, PrecFun vars P a) (hlast : LastOk P) (hT : StTask P vars nA B T) {σ σ' : Val}
    {ρ : List (SLab × SOp)} (h : SRun T σ ρ σ') : ∀ {s : State} {I : Finset Nat} {lab c : Nat → Nat},
    SEnc vars B σ s I lab c → Reach P s → T.Goal σ' →
    CellRun P I lab (cellLt B (sView vars.length B σ) c) c (ρ.map fun x => slLine x.1) := by
  induction h with
  | nil σ =>
    intro s I lab c he _ hg
    obtain ⟨h1, h2⟩ := (hT.goal _).1 hg
    have hI : I = ∅ := by
      refine Finset.eq_empty_of_forall_notMem fun u hu => ?_
      have := he.net.task u hu
      have := h2 (c u) (he.net.lt u hu)
      omega
    subst hI
    exact .nil
  | @cons σ σ' x ρ hx happ _ ih =>
    intro s I lab c he hr hg
    rcases (hT.ops x).1 hx with ⟨j, hj, rfl⟩ | ⟨a, j, ha, hj, rfl⟩ | ⟨m, j, subs, hm, rfl⟩
    · obtain ⟨h1, -, h2⟩ := he.empty_step hj happ
      exact .other (fun u hu v hv => (h2 u hu v hv).2) (ih h1 hr hg)
    · have ho : SOpOk vars.length B (precV vars P a) (addV vars P a) (stPre B (a + 2) j, stClear B j) :=
        clear_ok hj (fun p hp => precV_lt hp) (hf a ha) (fun p hp => addV_lt hp)
      obtain ⟨g1, g2⟩ := (sOp_app ho).1 happ
      obtain ⟨g3, g4⟩ := (stPre_holds hj).1 g2
      obtain ⟨u, hu, rfl⟩ := he.cell hj (by omega)
      have hl := he.net.task u hu
      obtain rfl : lab u = a := by omega
      have hap := (he.corr.applicable hin.wf hin.sas.contig (lab u)).1 g1
      obtain ⟨k1, -, k2⟩ := he.act_step hin hu (hf _ ha) hr hap g4 (cost := P.cost (lab u))
      exact .prim hu (by rw [hin.prim]; simpa using ha) (fun v hv => he.net.inj v hv u hu) (fun v _ => he.net.noPred g4 v)
        (fun v hv w hw => (k2 v hv w hw).2) (ih k1 (hr.step hap) hg)
    · have hd := dec_step hin hlast hm happ
      have ho := stMethD_ok hin hm vars.length
      obtain ⟨g3, g4⟩ := (stPre_holds hm.cell).1 fun x hx => ((sOp_app ho).1 happ).2 x ((stMethD_pre hm).2 (.inl hx))
      obtain ⟨u, hu, rfl⟩ := he.cell hm.cell (by omega)
      have hl := he.net.task u hu
      obtain ⟨b, hb⟩ : ∃ b, ∀ v ∈ I, v < b := ⟨I.sup id + 1, fun v hv => Nat.lt_succ_of_le (Finset.le_sup (f := id) hv)⟩
      obtain ⟨I', lab', c', k1, k2, k3, k4⟩ := he.net.dec hd hu rfl hb
      refine .meth hm.lt (by omega) hu (fun v hv => he.net.inj v hv u hu) (he.net.noPred g4 u) k2 (fun v hv _ => k3 v hv) (fun i hi => ?_)
        (ih ⟨corr_congr he.corr fun i hi => by rw [sRes_base hi]; rfl, k1⟩ hr hg)
      rw [k4]
      exact cellG_get hin hm hi

theorem stActs_lines (ρ : List (SLab × SOp)) : ((ρ.map fun x => slLine x.1).filterMap fun x => match x with
    | .prim a _ => some a
    | _ => none) = stActs ρ := by
  rw [stActs, List.filterMap_map]
  refine List.filterMap_congr fun x _ => ?_
  obtain ⟨l, o⟩ := x
  cases l <;> rfl

theorem reoOf_order (hin : PushInput P vars nA nT) {m : Nat} (hm : m < P.numMethods) : (reoOf P m).order = (P.sub m).reverse := by
  obtain ⟨r, hr1, hr2, -⟩ := reorder_top (prim := P.prim) (hin.wf.sub_ne m hm) (fun o ho => hin.wf.ord_lt m hm o.1 o.2 ho) (hin.top m hm)
  rw [reoOf, hr1, Option.getD_some, hr2]

theorem st_hddl (hin : PushInput P vars nA nT) (hf : ∀ a < nA, PrecFun vars P a) (hlast : LastOk P) (hB : 0 < B)
    (hcnt : ∀ m < P.numMethods, ∃ c, stCount B (P.sub m).length (mNl P m) = some c)
    (hT : stTranslate P vars nA nT B = some T) {ρ : List (SLab × SOp)} (hρ : T.Plan ρ) :
    ∃ tr occ, HddlPO P (planToHddlPO P (fun m => (reoOf P m).order) (ρ.map fun x => slLine x.1)) tr occ (stActs ρ) := by
  obtain ⟨T', hT', ht, -, hc, hs⟩ := stTranslate_eq hin hB hcnt
  rw [hT] at hT'
  cases hT'
  have he := st_enc (P := P) hB hc hs
  obtain ⟨σ, h1, h2⟩ := hρ
  have hrun := st_cellRun hin hf hlast ht h1 he ⟨[], .nil _⟩ h2
  have := hddlPO_of_run (fun m hm => reoOf_order hin hm) hin.wf.init_abs rfl (fun f t h => ?_) hrun
  · rwa [stActs_lines] at this
  · obtain ⟨x, -, e⟩ := List.mem_map.1 h
    obtain ⟨l, o⟩ := x
    cases l <;> cases e

end Verif.Sas
