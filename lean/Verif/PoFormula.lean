import Verif.PoSched

/-! # Models of the formula for partially ordered problems are plans -/

namespace Verif.Pdt

open Verif.Htn Verif.Sog Verif.Sat Verif.Inv Relation

section
variable {P : Problem} {cfg : Cfg} {o : SatOpts} {iter : List Nat → List Nat}

/-- The assumptions about problem, configuration and options. -/
structure PoInput (P : Problem) (cfg : Cfg) (o : SatOpts) (iter : List Nat → List Nat) : Prop where
  wf : P.WF
  conf : CfgOK P cfg
  meth : AllMeth P
  bits : ∀ k, k ≤ 2 ^ o.bits k
  po : cfg.po = true
  iter : ∀ l, (iter l).Perm l

/-- Every action has an effect. -/
def AllEff (P : Problem) : Prop := ∀ a, P.prim a = true → hasEff P a = true

end

section
variable {P : Problem} {tot : Nat → List Nat} {t : T} {n : Nat} {V : VM} {v : Assignment}

theorem localW_empty (ht : t.OK P tot) (q : Path) : LocalW P t Flags.empty q := by
  have hcs : ∀ d, t.nd q = some d → q ≠ [] → ∀ b, ∀ cs ∈ d.causes b, cs ≠ [] := by
    intro d hd hne b cs hcs
    cases q with
    | nil => exact absurd rfl hne
    | cons c r =>
      obtain ⟨e', he', hch⟩ := (ht.child c r d).1 hd
      obtain ⟨_, -, -, -, hexp, -⟩ := ht.ex r e' he'
      exact hexp.caused c d hch b cs hcs
  refine ⟨fun _ _ _ _ _ _ _ h => absurd h (by simp [Flags.empty]),
    fun d i cs hd hp hi hc h => ?_, fun d i cs hd hp hi hc h => ?_, fun _ _ _ _ _ _ _ _ _ _ _ _ h => absurd h (by simp [Flags.empty]),
    fun _ _ _ _ _ _ _ _ _ _ _ _ h => absurd h (by simp [Flags.empty]),
    fun _ _ _ _ _ _ _ _ _ _ h => absurd h (by simp [Flags.empty]),
    fun _ _ _ _ _ _ _ _ _ _ _ _ h => absurd h (by simp [Flags.empty])⟩
  · have := hcs d hd hp true cs (List.mem_of_getElem? hc)
    exact absurd (h 0 (List.length_pos_of_ne_nil this)) (by simp [Flags.empty])
  · have := hcs d hd hp false cs (List.mem_of_getElem? hc)
    exact absurd (h 0 (List.length_pos_of_ne_nil this)) (by simp [Flags.empty])

theorem decode_leafW (ht : t.OK P tot) (hV : VMFull P t Flags.empty n V) (hs : TreeSem P t V Flags.empty v) (ho : LeavesOff t V v) :
    ∀ p ∈ t.leaves, selOf v (leafVars V t p) = actAt t (decode P t V v) p := by
  intro p hp
  obtain ⟨⟨d, hd⟩, -⟩ := (mem_leaves ht).1 hp
  have hat := atOK ht (localW_empty ht) hV hs ho p d hd
  refine selOf_leaf hd (fun i hi => ⟨hat.prim i hi, fun h => hat.back true i h⟩) fun i h => ?_
  obtain ⟨d', hd', hi, -⟩ := decode_prim h
  rw [hd] at hd'
  obtain rfl := Option.some.inj hd'
  exact hi

theorem unpruned_empty {sel : Path → Sel} : Unpruned t Flags.empty sel := fun _ _ => rfl

/-- At a leaf nothing is selected but an action. -/
theorem leaf_not_abs (ht : t.OK P tot) (htot : ∀ m < P.numMethods, (tot m).Perm (List.range (P.sub m).length)) (hall : AllMeth P)
    {sel : Path → Sel} (hs : Consistent P t sel) {q : Path} (hq : q ∈ t.leaves) {a m : Nat} : sel q ≠ .abs a m := by
  intro h
  obtain ⟨d, e, x, hd, he, -⟩ := hs.abs q a m h
  have h0 := ((mem_leaves ht).1 hq).2
  rw [nc_eq he] at h0
  exact children_ne ht htot hall he (List.length_eq_zero_iff.1 h0)

theorem leavesOff_of (ht : t.OK P tot) (hV : VarsOK n V) (h : satAll v (noAbs t V)) : LeavesOff t V v := by
  intro p d hd he a ha
  refine (noAbs_sat hV).1 h p ((mem_leaves ht).2 ⟨⟨d, hd⟩, ?_⟩) d hd a ha
  unfold T.nc
  rw [he]

end

section
variable {P : Problem} {cfg : Cfg} {o : SatOpts} {iter : List Nat → List Nat} {K : Nat} {n : Nat} {V : VM}

/-- The vertices of the graph of the leaves are the leaves. -/
theorem sog_leaves (hin : PoInput P cfg o iter) (hst : ¬ Stuck P cfg K) :
    (leafSog (tree P cfg K) (adjAt P cfg (tree P cfg K)) (tree P cfg K).K []).1 = (tree P cfg K).leaves :=
  leafSog_fst (fun _ _ he => children_ne (tree_ok hin.wf hin.conf hst) hin.conf.tot hin.meth he) _ _

theorem sog_edges (hin : PoInput P cfg o iter) (hst : ¬ Stuck P cfg K) :
    ∀ e ∈ (leafSog (tree P cfg K) (adjAt P cfg (tree P cfg K)) (tree P cfg K).K []).2,
      e.1 ∈ (tree P cfg K).leaves ∧ e.2 ∈ (tree P cfg K).leaves := by
  rintro ⟨x, y⟩ he
  exact (leafSog_lt (fun _ _ he => children_ne (tree_ok hin.wf hin.conf hst) hin.conf.tot hin.meth he)
    (adj_in hin.wf hin.conf hst) he).mem

theorem parts_mok (hin : PoInput P cfg o iter) (hst : ¬ Stuck P cfg K) (heff : AllEff P) {n1 : Nat} {V' : VM} {l s M}
    (hp : PartsPO P cfg o iter (tree P cfg K) n V n1 V' l s M) : MOK P (tree P cfg K) M := by
  have ht := tree_ok hin.wf hin.conf hst
  refine ⟨hp.vs.trans (sog_leaves hin hst), ?_, fun a => ?_, fun q _ a ha => ?_⟩
  · rw [hp.acts]
    unfold poActs
    exact (hin.iter _).nodup_iff.2 (List.nodup_dedup _)
  · rw [hp.acts]
    unfold poActs
    rw [(hin.iter _).mem_iff, List.mem_dedup, List.mem_flatMap]
  · unfold leafPrims at ha
    cases hd : (tree P cfg K).nd q with
    | none => rw [hd] at ha; simp at ha
    | some d => rw [hd] at ha; exact heff a ((ht.nd q d hd).isPrim a ha)

theorem parts_steps_pos {n1 : Nat} {V' : VM} {l s M} (hp : PartsPO P cfg o iter (tree P cfg K) n V n1 V' l s M) : 1 ≤ M.steps := by
  rw [hp.steps]; unfold poSteps; exact Nat.le_max_left _ _

/-- The numbers of variables. -/
theorem parts_le {n1 : Nat} {V' : VM} {l s M} (hp : PartsPO P cfg o iter (tree P cfg K) n V n1 V' l s M) :
    n1 ≤ M.np ∧ M.np + M.steps * M.acts.length ≤ M.nm ∧ M.nm ≤ M.n1 ∧
    M.n1 ≤ (emit o.bits M.n1 (matchItems P (tree P cfg K) V' M)).1 ∧
    (emit o.bits M.n1 (matchItems P (tree P cfg K) V' M)).1 ≤ (clausesPO P cfg o (tree P cfg K) n1 V' l s M).1 := by
  refine ⟨by rw [hp.np]; exact emit_le _ _ _, ?_, by unfold MData.n1; omega, emit_le _ _ _, ?_⟩
  · obtain ⟨-, -, h, -⟩ := stateFormula_some hp.state
    rw [hp.nm, h]
    omega
  · unfold clausesPO
    exact (Nat.le_add_right _ _).trans (emit_le _ _ _)

theorem vars_rng {M : MData} : ∀ l ∈ M.vars, ∀ e ∈ l, 0 < e.1 ∧ e.1 ≤ M.np + M.steps * M.acts.length := by
  intro l hl e he
  obtain ⟨p, hp, rfl⟩ := List.mem_map.1 hl
  obtain ⟨a, ha, rfl⟩ := List.mem_map.1 he
  exact ⟨pv_pos _ _, pv_le (List.mem_range.1 hp) ha⟩

theorem vars_length {M : MData} : M.vars.length = M.steps := by unfold MData.vars; simp

/-- Blocks of one position with at most one action. -/
theorem unit_indep {M : MData} {w : Assignment} (h : ∀ p < M.steps, (actsAt M w p).length ≤ 1) :
    ∀ b ∈ (List.range M.vars.length).map fun l => [l], (selOf w (blockActs M.vars b)).Pairwise (Indep P) := by
  intro b hb
  obtain ⟨p, hp, rfl⟩ := List.mem_map.1 hb
  rw [List.mem_range, vars_length] at hp
  have : selOf w (blockActs M.vars [p]) = actsAt M w p := by
    unfold blockActs
    have : M.vars[p]? = some (M.acts.map fun a => (M.pv p a, a)) := by
      unfold MData.vars
      rw [List.getElem?_map, List.getElem?_range hp]
      rfl
    simp only [List.flatMap_cons, List.flatMap_nil, List.append_nil]
    rw [this]
    unfold selOf actsAt
    simp only [Option.getD_some]
    rw [List.filter_map, List.map_map]
    conv_rhs => rw [← List.map_id (List.filter _ _)]
    rfl
  rw [this]
  have := h p hp
  match hq : actsAt M w p with
  | [] => exact .nil
  | [a] => exact List.pairwise_singleton _ _
  | a :: b :: l => rw [hq] at this; simp at this

/-- The matching and the decomposition that belong to a model. -/
theorem formulaPO_sem (hin : PoInput P cfg o iter) (hst : ¬ Stuck P cfg K) {n1 : Nat} {V' : VM} {l s M}
    (hp : PartsPO P cfg o iter (tree P cfg K) n V n1 V' l s M) (hV : VMFull P (tree P cfg K) Flags.empty n1 V') (hM : MOK P (tree P cfg K) M)
    {w : Assignment} (hw : satAll w (clausesPO P cfg o (tree P cfg K) n1 V' l s M).2) :
    Consistent P (tree P cfg K) (decode P (tree P cfg K) V' w) ∧
    (∀ q ∈ (tree P cfg K).leaves, selOf w (leafVars V' (tree P cfg K) q) = actAt (tree P cfg K) (decode P (tree P cfg K) V' w) q) ∧
    satAll w s.2.2 ∧ MatchSem P (tree P cfg K) V' M w ∧
    OrderSem M (leafSog (tree P cfg K) (adjAt P cfg (tree P cfg K)) (tree P cfg K).K []).2
      (emit o.bits M.n1 (matchItems P (tree P cfg K) V' M)).1 w := by
  have ht := tree_ok hin.wf hin.conf hst
  obtain ⟨le1, le2, -⟩ := parts_le hp
  unfold clausesPO at hw
  simp only at hw
  rw [satAll_append, satAll_append, satAll_append, satAll_append] at hw
  obtain ⟨hw1, hw2, hw3, hw4, -⟩ := hw
  obtain ⟨l', hl', hsem⟩ := treeItems_holds ht hin.conf.tot hin.meth (localW_empty ht) hV rfl
  rw [hp.tree] at hl'
  obtain rfl := Option.some.inj hl'
  have hok : ∀ it ∈ l ++ (noAbs (tree P cfg K) V').map .cl, it.OK n1 := by
    intro it h
    rcases List.mem_append.1 h with h | h
    · exact treeItems_ok hV.vars (hV.one_le ht) hp.tree it h
    · obtain ⟨c, hc, rfl⟩ := List.mem_map.1 h
      exact noAbs_ok hV.vars c hc
  have hit := (emit_sat hin.bits _ n1 hok w).1 ⟨w, fun _ _ => rfl, hw1⟩
  have hts := (hsem w).1 fun it h => hit it (List.mem_append_left _ h)
  have ho : LeavesOff (tree P cfg K) V' w := leavesOff_of ht hV.vars fun c hc =>
    hit (.cl c) (List.mem_append_right _ (List.mem_map.2 ⟨c, hc, rfl⟩))
  have hacts : ∀ l < M.vs.length, ∀ e ∈ leafVars V' (tree P cfg K) (M.leaf l), e.2 ∈ M.acts := fun l hl e he =>
    (hM.mem e.2).2 ⟨_, leaf_mem hl, mem_prims_of_var he⟩
  have hmit := (emit_sat hin.bits _ M.n1 (matchItems_ok (P := P) hV.vars le1 le2 hacts) w).1 ⟨w, fun _ _ => rfl, hw3⟩
  exact ⟨decode_consistent ht hin.conf.tot hin.meth (localW_empty ht) hV hts ho, decode_leafW ht hV hts ho, hw2,
    (matchItems_holds hV.vars fun q d hd => (ht.nd q d hd).nodupP).1 hmit, orderClauses_sat.1 hw4⟩

/-- The actions that are printed for a model solve the problem. -/
theorem formulaPO_sound (hin : PoInput P cfg o iter) (hst : ¬ Stuck P cfg K) (heff : AllEff P)
    (hac : ∀ p d, (tree P cfg K).nd p = some d → AcyclicAt P cfg d) {n1 : Nat} {V' : VM} {l s M}
    (hp : PartsPO P cfg o iter (tree P cfg K) n V n1 V' l s M) (hV : VMFull P (tree P cfg K) Flags.empty n1 V')
    {w : Assignment} (hw : satAll w (clausesPO P cfg o (tree P cfg K) n1 V' l s M).2) :
    SolutionOfHeight P K (printedPO (tree P cfg K) V' M w) ∧ ∀ a ∈ printedPO (tree P cfg K) V' M w, NoClash P a := by
  have ht := tree_ok hin.wf hin.conf hst
  have hM := parts_mok hin hst heff hp
  have hne : ∀ p e, (tree P cfg K).ex p = some e → e.children ≠ [] := fun _ _ he => children_ne ht hin.conf.tot hin.meth he
  obtain ⟨hcons, hleaf, hw2, hms, hos⟩ := formulaPO_sem hin hst hp hV hM hw
  have hleaf' : ∀ l < M.vs.length, selOf w (leafVars V' (tree P cfg K) (M.leaf l)) =
      actAt (tree P cfg K) (decode P (tree P cfg K) V' w) (M.leaf l) := fun l hl => hleaf _ (by rw [← hM.vs]; exact leaf_mem hl)
  obtain ⟨ha1, ha2⟩ := seqOf_acts hM hms hleaf'
  have hsch := seqOf_sched hM hms hos (by rw [hM.vs]; exact sog_edges hin hst)
    (fun x y h => leafSog_complete hne (adj_in hin.wf hin.conf hst) (acyclic_tree hac) h) hleaf'
  have hlen : ∀ p < M.steps, (actsAt M w p).length ≤ 1 := by
    intro p hp'
    rcases position hM hms hleaf' hp' with ⟨-, h⟩ | ⟨_, a, -, -, h⟩ <;> rw [h] <;> simp
  obtain ⟨tr, hv, hh, hrep⟩ := rep_of_selection ht (tree_has hin.wf hin.conf hst) hin.conf.tot hcons
  obtain ⟨φ, hφ, hk, -⟩ := rep_map (A := adjAt P cfg (tree P cfg K)) hrep
  obtain ⟨occ, hocc, -⟩ := hsch.linearises hφ (hk fun p m mp h => poR_keep hin.wf hin.conf hin.po h)
  rw [ha1, ← ha2] at hocc
  have hst' := stateFormula_sound_of hin.wf hp.state (fun l hl e he => (vars_rng l hl e he).1) (unit_flatten _) hw2 (unit_indep hlen)
  rw [← ha2] at hst'
  refine ⟨⟨tr, hv, hh, ⟨occ, hocc⟩, hst'⟩, fun a ha => ?_⟩
  obtain ⟨-, -, htr⟩ := (stateFormula_sat hin.wf hp.state (fun l hl e he => (vars_rng l hl e he).1) w).1 hw2
  rw [ha2, ← selected_blocks (blocks := (List.range M.vars.length).map fun l => [l]) (unit_flatten _)] at ha
  obtain ⟨b, hb', ha⟩ := List.mem_flatMap.1 ha
  obtain ⟨τ, hτ, rfl⟩ := List.getElem_of_mem hb'
  have h := htr τ hτ
  rw [List.getElem?_eq_getElem hτ] at h
  exact fun f hf hd => h.del a ha f hd (h.add a ha f hf)

end

end Verif.Pdt
