import Verif.PoOrder

/-! # What is printed for models of the formula for partially ordered problems -/

namespace Verif.Pdt

open Verif.Htn Verif.Sog Verif.Sat Verif.Inv Relation

section
variable {P : Problem} {tot : Nat → List Nat} {t : T} {V : VM} {w : Assignment} {sel : Path → Sel} {M : MData} {o : POut}

/-- The task of a leaf is its action. -/
theorem FinalPO.task (hf : FinalPO P t sel o) {x : Path} (hx : x ∈ t.leaves) (hna : isA sel x = false) :
    (actAt t sel x = [] ∧ o.task x = none) ∨ ∃ k a, actAt t sel x = [a] ∧ o.task x = some a ∧ o.id x = some k := by
  cases hP : isP sel x with
  | true =>
    obtain ⟨k, a, h1, h2, h3⟩ := hf.leaf x hx hP
    exact .inr ⟨k, a, h3, h2, h1⟩
  | false => exact .inl ⟨actAt_not_isP hP, hf.other x hx hP hna⟩

/-- The printed actions are those of the selected leaves in the order of their positions. -/
theorem matchedPO_eq (hf : FinalPO P t sel o) (hM : MOK P t M) (hms : MatchSem P t V M w) (hna : ∀ x ∈ t.leaves, isA sel x = false)
    (hleaf : ∀ l < M.vs.length, selOf w (leafVars V t (M.leaf l)) = actAt t sel (M.leaf l)) :
    matchedPO o M w = ((List.range M.steps).flatMap (leavesAt t sel M w)).flatMap fun l => (actAt t sel (M.leaf l)).map fun a => (l, a) := by
  unfold matchedPO
  rw [List.flatMap_assoc]
  refine List.flatMap_congr fun p hp => ?_
  change (actsAt M w p).flatMap _ = _
  rcases position hM hms hleaf (List.mem_range.1 hp) with ⟨h1, h2⟩ | ⟨l, a, h1, h2, h3⟩
  · rw [h1, h2]; rfl
  · rw [h3]
    simp only [List.flatMap_cons, List.flatMap_nil, List.append_nil]
    have : ((List.range M.vs.length).filter fun l => w (M.mv l p) && o.task (M.leaf l) == some a) = leavesAt t sel M w p := by
      unfold leavesAt
      refine List.filter_congr fun k hk => ?_
      rw [List.mem_range] at hk
      cases hw : w (M.mv k p) with
      | false => rfl
      | true =>
        have hkl : M.leaf k ∈ t.leaves := by rw [← hM.vs]; exact leaf_mem hk
        rcases hf.task hkl (hna _ hkl) with ⟨h, h'⟩ | ⟨_, b, h, h', -⟩
        · rw [h, h']; simp
        · have hmem : k ∈ leavesAt t sel M w p := mem_leavesAt.2 ⟨hk, hw, by rw [h]; simp⟩
          rw [h1] at hmem
          simp at hmem
          subst hmem
          rw [h2] at h
          simp at h
          rw [h', h2, h]
          simp
    rw [this, h1]
    simp [h2]

theorem actsPO_eq (hf : FinalPO P t sel o) (hM : MOK P t M) (hms : MatchSem P t V M w) (hna : ∀ x ∈ t.leaves, isA sel x = false)
    (hleaf : ∀ l < M.vs.length, selOf w (leafVars V t (M.leaf l)) = actAt t sel (M.leaf l)) :
    actsPO o M w = (seqOf t sel M w).flatMap fun x => (actAt t sel x).map fun a => ((o.id x).getD 0, a) := by
  unfold actsPO seqOf
  rw [matchedPO_eq hf hM hms hna hleaf, List.map_flatMap, List.flatMap_map]
  refine List.flatMap_congr fun l _ => ?_
  rw [List.map_map]
  rfl

/-- The leaves with printed actions. -/
theorem matchedPO_fst (hf : FinalPO P t sel o) (hM : MOK P t M) (hms : MatchSem P t V M w) (hna : ∀ x ∈ t.leaves, isA sel x = false)
    (hleaf : ∀ l < M.vs.length, selOf w (leafVars V t (M.leaf l)) = actAt t sel (M.leaf l)) :
    (matchedPO o M w).map (fun e => M.leaf e.1) = seqOf t sel M w ∧ ∀ e ∈ matchedPO o M w, e.1 < M.vs.length := by
  rw [matchedPO_eq hf hM hms hna hleaf]
  constructor
  · unfold seqOf
    rw [List.map_flatMap, List.map_eq_flatMap]
    refine List.flatMap_congr fun l hl => ?_
    obtain ⟨p, -, hl⟩ := List.mem_flatMap.1 hl
    obtain ⟨a, ha⟩ := actAt_one (mem_leavesAt.1 hl).2.2
    rw [ha]; rfl
  · intro e he
    obtain ⟨l, hl, he⟩ := List.mem_flatMap.1 he
    obtain ⟨p, -, hl⟩ := List.mem_flatMap.1 hl
    obtain ⟨a, -, rfl⟩ := List.mem_map.1 he
    exact (mem_leavesAt.1 hl).1

/-- The number of leaves and vertices with numbers. -/
theorem ids_perm (ht : t.OK P tot) (hs : Consistent P t sel) (hna : ∀ x ∈ t.leaves, isA sel x = false) (hf : FinalPO P t sel o) :
    (lids t sel o t.K [] ++ aids t sel o t.K []).Perm (List.range (t.nodes.filter (isN t sel)).length) := by
  rw [← hf.ids]
  unfold lids aids
  rw [← List.map_append]
  refine List.Perm.map _ ?_
  rw [show t.leavesFrom t.K [] = t.leaves from rfl, show t.below t.K [] = t.nodes from rfl]
  rw [List.perm_ext_iff_of_nodup]
  · intro x
    rw [List.mem_append, List.mem_filter, List.mem_filter, List.mem_filter, mem_leaves ht]
    unfold isN
    rw [Bool.or_eq_true, Bool.and_eq_true, beq_iff_eq]
    constructor
    · rintro (⟨⟨⟨d, hd⟩, h0⟩, h⟩ | ⟨h, h'⟩)
      · exact ⟨mem_nodes ht x d hd, .inr ⟨h, h0⟩⟩
      · exact ⟨h, .inl h'⟩
    · rintro ⟨h, h' | ⟨h', h0⟩⟩
      · exact .inr ⟨h, h'⟩
      · refine .inl ⟨⟨?_, h0⟩, h'⟩
        unfold isP at h'
        cases hq : sel x with
        | prim i =>
          obtain ⟨d, -, hd, -⟩ := hs.prim x i hq
          exact ⟨d, hd⟩
        | none => rw [hq] at h'; simp at h'
        | abs a m => rw [hq] at h'; simp at h'
  · refine List.Nodup.append (leaves_nodup.filter _) ((below_nodup t.K []).filter _) ?_
    intro x hx hx'
    have h1 := hna x (List.mem_filter.1 hx).1
    rw [(List.mem_filter.1 hx').2] at h1
    simp at h1
  · exact (below_nodup t.K []).filter _

end

/-- What the output for a partially ordered problem has to be: the lines describe a decomposition tree; the printed actions
are a linearisation of the tree, and the number of each is that of its position in the tree; all numbers from 0 on are
given, and each but the one of the root occurs in exactly one line as the number of a subtask. -/
structure OutPO (P : Problem) (K : Nat) (out : SatOut) (tr : Tree) (k n : Nat) (ν : List Nat → Nat) (occ : List (List Nat)) : Prop where
  root : out.root = some k
  valid : Valid P P.init tr
  height : HeightLE P tr K
  reads : ReadsPO P out.acts out.decs k tr ν
  lin : Linearises P tr occ (out.acts.map Prod.snd)
  nums : out.acts.map Prod.fst = occ.map ν
  ids : (out.acts.map Prod.fst ++ out.decs.map DLine.id).Perm (List.range n)
  once : (k :: out.decs.flatMap DLine.subs).Perm (List.range n)

section
variable {P : Problem} {cfg : Cfg} {o : SatOpts} {iter : List Nat → List Nat} {K : Nat} {n : Nat} {V : VM}

/-- What is true under a model is what is selected. -/
theorem formulaPO_shows (hin : PoInput P cfg o iter) (hst : ¬ Stuck P cfg K) {n1 : Nat} {V' : VM} {l s M}
    (hp : PartsPO P cfg o iter (tree P cfg K) n V n1 V' l s M) (hV : VMFull P (tree P cfg K) Flags.empty n1 V')
    {w : Assignment} (hw : satAll w (clausesPO P cfg o (tree P cfg K) n1 V' l s M).2) :
    Shows P (tree P cfg K) V' w (decode P (tree P cfg K) V' w) := by
  have ht := tree_ok hin.wf hin.conf hst
  unfold clausesPO at hw
  simp only at hw
  rw [satAll_append] at hw
  obtain ⟨hw1, -⟩ := hw
  obtain ⟨l', hl', hsem⟩ := treeItems_holds ht hin.conf.tot hin.meth (localW_empty ht) hV rfl
  rw [hp.tree] at hl'
  obtain rfl := Option.some.inj hl'
  have hok : ∀ it ∈ l ++ (noAbs (tree P cfg K) V').map .cl, it.OK n1 := by
    intro it h
    rcases List.mem_append.1 h with h | h
    · exact treeItems_ok hV.vars (hV.one_le ht) hp.tree it h
    · obtain ⟨c, hc, rfl⟩ := List.mem_map.1 h
      exact noAbs_ok hV.vars c hc
  have hit := (emit_sat hin.bits _ n1 hok w).1 ⟨w, fun _ _ => rfl, hw1⟩
  have hts := (hsem w).1 fun it h => hit it (List.mem_append_left _ h)
  have ho : LeavesOff (tree P cfg K) V' w := leavesOff_of ht hV.vars fun c hc =>
    hit (.cl c) (List.mem_append_right _ (List.mem_map.2 ⟨c, hc, rfl⟩))
  refine ⟨decode_consistent ht hin.conf.tot hin.meth (localW_empty ht) hV hts ho, fun p d hd i hi => ?_, fun p d hd a ha => ?_,
    fun p a m => ?_, decode_leafW ht hV hts ho⟩
  · rw [tvb_iff]
    have hat := atOK ht (localW_empty ht) hV hts ho p d hd
    exact ⟨hat.prim i hi, fun h => hat.back true i h⟩
  · rw [tvb_iff]
    have hat := atOK ht (localW_empty ht) hV hts ho p d hd
    exact ⟨hat.abs a ha, fun h => hat.back false a h⟩
  · rw [tvb_iff]
    constructor
    · intro h
      obtain ⟨d, e, y, hd, -⟩ := meth_range hV (tv_ne h)
      exact (atOK ht (localW_empty ht) hV hts ho p d hd).meth a m h
    · intro h
      obtain ⟨-, -, -, -, -, h⟩ := decode_abs h
      exact h

/-- The printed order for the tree of a depth. -/
def orderAt (P : Problem) (cfg : Cfg) (iter : List Nat → List Nat) (K : Nat) (V : VM) (M : MData) (w : Assignment) : List (Nat × List Nat) :=
  orderPO (outPO P (tree P cfg K) V w) M (leafSog (tree P cfg K) (adjAt P cfg (tree P cfg K)) (tree P cfg K).K []).2 iter w

/-- Every model is printed correctly. -/
theorem formulaPO_out (hin : PoInput P cfg o iter) (hst : ¬ Stuck P cfg K) (heff : AllEff P)
    (hac : ∀ p d, (tree P cfg K).nd p = some d → AcyclicAt P cfg d) {n1 : Nat} {V' : VM} {l s M}
    (hp : PartsPO P cfg o iter (tree P cfg K) n V n1 V' l s M) (hV : VMFull P (tree P cfg K) Flags.empty n1 V')
    {w : Assignment} (hw : satAll w (clausesPO P cfg o (tree P cfg K) n1 V' l s M).2) :
    (satOutPO P (tree P cfg K) V' M w).acts.map Prod.snd = printedPO (tree P cfg K) V' M w ∧
    ∃ tr k n φ occ, OutPO P K (satOutPO P (tree P cfg K) V' M w) tr k n (fun l => ((outPO P (tree P cfg K) V' w).id (φ l)).getD 0) occ ∧
      occ.map φ = seqOf (tree P cfg K) (decode P (tree P cfg K) V' w) M w ∧
      RepMap P (tree P cfg K) (decode P (tree P cfg K) V' w) K [] tr φ ∧
      (seqOf (tree P cfg K) (decode P (tree P cfg K) V' w) M w).Pairwise
        (fun x y => ¬ LeafLt (tree P cfg K) (adjAt P cfg (tree P cfg K)) K [] y x) ∧
      KeepsOrd P (tree P cfg K) (adjAt P cfg (tree P cfg K)) K [] tr φ ∧
      ((∀ p d, (tree P cfg K).nd p = some d → ExactAt P cfg d) → ExactOrd P (tree P cfg K) (adjAt P cfg (tree P cfg K)) K [] tr φ) ∧
      (orderAt P cfg iter K V' M w).map Prod.fst = (satOutPO P (tree P cfg K) V' M w).acts.map Prod.fst ∧
      (∀ q q' a a', LeafAt P tr q a → LeafAt P tr q' a' → LeafLt (tree P cfg K) (adjAt P cfg (tree P cfg K)) K [] (φ q) (φ q') →
        ∃ ys, (((outPO P (tree P cfg K) V' w).id (φ q)).getD 0, ys) ∈ orderAt P cfg iter K V' M w ∧
          ((outPO P (tree P cfg K) V' w).id (φ q')).getD 0 ∈ ys) ∧
      (∀ x ys, (x, ys) ∈ orderAt P cfg iter K V' M w → ∀ y ∈ ys, ∃ q q' a a', LeafAt P tr q a ∧ LeafAt P tr q' a' ∧
        ((outPO P (tree P cfg K) V' w).id (φ q)).getD 0 = x ∧ ((outPO P (tree P cfg K) V' w).id (φ q')).getD 0 = y ∧
        LeafLt (tree P cfg K) (adjAt P cfg (tree P cfg K)) K [] (φ q) (φ q')) := by
  have ht := tree_ok hin.wf hin.conf hst
  have hM := parts_mok hin hst heff hp
  have hne : ∀ p e, (tree P cfg K).ex p = some e → e.children ≠ [] := fun _ _ he => children_ne ht hin.conf.tot hin.meth he
  have hshow := formulaPO_shows hin hst hp hV hw
  obtain ⟨hcons, hleaf, hw2, hms, hos⟩ := formulaPO_sem hin hst hp hV hM hw
  have hleaf' : ∀ l < M.vs.length, selOf w (leafVars V' (tree P cfg K) (M.leaf l)) =
      actAt (tree P cfg K) (decode P (tree P cfg K) V' w) (M.leaf l) := fun l hl => hleaf _ (by rw [← hM.vs]; exact leaf_mem hl)
  obtain ⟨ha1, ha2⟩ := seqOf_acts hM hms hleaf'
  have hsch := seqOf_sched hM hms hos (by rw [hM.vs]; exact sog_edges hin hst)
    (fun x y h => leafSog_complete hne (adj_in hin.wf hin.conf hst) (acyclic_tree hac) h) hleaf'
  have hf := finalPO ht hshow
  have hna : ∀ x ∈ (tree P cfg K).leaves, isA (decode P (tree P cfg K) V' w) x = false := by
    intro x hx
    unfold isA
    cases h : decode P (tree P cfg K) V' w x with
    | abs a m => exact absurd h (leaf_not_abs ht hin.conf.tot hin.meth hcons hx)
    | _ => rfl
  generalize hsel : decode P (tree P cfg K) V' w = sel at *
  have hacts := actsPO_eq hf hM hms hna hleaf'
  have hmf := matchedPO_fst hf hM hms hna hleaf'
  have hes : ∀ e ∈ (leafSog (tree P cfg K) (adjAt P cfg (tree P cfg K)) (tree P cfg K).K []).2, e.1 ∈ M.vs ∧ e.2 ∈ M.vs := by
    rw [hM.vs]; exact sog_edges hin hst
  have hvn : M.vs.Nodup := by rw [hM.vs]; exact leaves_nodup
  have hadj : ∀ {a b : Nat}, (AdjR (M.succs (leafSog (tree P cfg K) (adjAt P cfg (tree P cfg K)) (tree P cfg K).K []).2) a b →
      (a, b) ∈ M.edges (leafSog (tree P cfg K) (adjAt P cfg (tree P cfg K)) (tree P cfg K).K []).2) ∧
      ((a, b) ∈ M.edges (leafSog (tree P cfg K) (adjAt P cfg (tree P cfg K)) (tree P cfg K).K []).2 →
        AdjR (M.succs (leafSog (tree P cfg K) (adjAt P cfg (tree P cfg K)) (tree P cfg K).K []).2) a b) := by
    intro a b
    unfold AdjR MData.succs
    rw [List.mem_map]
    constructor
    · rintro ⟨⟨c, d⟩, h, rfl⟩
      obtain ⟨h1, h2⟩ := List.mem_filter.1 h
      simp only [beq_iff_eq] at h2
      subst h2
      exact h1
    · intro h
      exact ⟨(a, b), List.mem_filter.2 ⟨h, by simp⟩, rfl⟩
  have hsucc := calcSucc_spec (adj := M.succs (leafSog (tree P cfg K) (adjAt P cfg (tree P cfg K)) (tree P cfg K).K []).2)
    (N := M.vs.length) (fun a b h => edges_in hes a b (hadj.1 h)) (fun a h => by
      have h1 := (edges_trans hes).2 (tg_mono (fun a b h => hadj.1 h) h)
      exact LeafLt.irrefl (acyclic_tree hac) (leafSog_trans_lt hne (adj_in hin.wf hin.conf hst) h1))
  unfold orderAt
  generalize hoo : outPO P (tree P cfg K) V' w = oo at *
  have hout : satOutPO P (tree P cfg K) V' M w = ⟨actsPO oo M w, oo.id [], decLines P (tree P cfg K) oo K []⟩ := by
    unfold satOutPO; rw [hoo]; rfl
  rw [hout]
  simp only
  have hprim : ∀ p, ∀ a ∈ actAt (tree P cfg K) sel p, P.prim a = true := by
    intro p a ha
    unfold actAt at ha
    cases hd : (tree P cfg K).nd p with
    | none => rw [hd] at ha; simp at ha
    | some d =>
      cases hq : sel p with
      | prim i =>
        rw [hd, hq] at ha
        obtain ⟨d', x, hd', hx⟩ := hcons.prim p i hq
        rw [hd] at hd'
        obtain rfl := Option.some.inj hd'
        rw [List.mem_singleton, List.getD_eq_getElem?_getD, hx] at ha
        subst ha
        exact (ht.nd p d hd).isPrim _ (List.mem_of_getElem? hx)
      | none => rw [hd, hq] at ha; simp at ha
      | abs a m => rw [hd, hq] at ha; simp at ha
  have hfin : Final P (tree P cfg K) sel (actsPO oo M w) oo := by
    refine hf.final hprim fun p hp a ha => ?_
    rw [hacts]
    refine List.mem_flatMap.2 ⟨p, (hsch.mem p).2 ⟨hp, ?_⟩, List.mem_map.2 ⟨a, ha, rfl⟩⟩
    intro h; rw [h] at ha; simp at ha
  obtain ⟨d, hd, -, hab⟩ := ht.root
  obtain ⟨m, hm⟩ := hcons.root
  obtain ⟨k, tr, φ, g0, g1, g2, g3, g4, g5, g6, g7, g8⟩ := below_absPO ht (tree_has hin.wf hin.conf hst) hin.conf.tot hin.wf.head_abs
    (A := adjAt P cfg (tree P cfg K)) (acyclic_tree hac) hcons hfin (tree P cfg K).K [] (by simp) 0 m d P.init hm hd (by rw [hab]; rfl)
  have hk := g5 fun p m mp h => poR_keep hin.wf hin.conf hin.po h
  obtain ⟨occ, hocc, hφ⟩ := hsch.linearises g4 hk
  have hone : ∀ x ∈ seqOf (tree P cfg K) sel M w, ∃ a, actAt (tree P cfg K) sel x = [a] := fun x hx => actAt_one ((hsch.mem x).1 hx).2
  have hsnd : (actsPO oo M w).map Prod.snd = (seqOf (tree P cfg K) sel M w).flatMap (actAt (tree P cfg K) sel) := by
    rw [hacts, List.map_flatMap]
    refine List.flatMap_congr fun x _ => ?_
    rw [List.map_map]
    exact List.map_id _
  have hfst : (actsPO oo M w).map Prod.fst = (seqOf (tree P cfg K) sel M w).map fun x => (oo.id x).getD 0 := by
    rw [hacts, List.map_flatMap, List.map_eq_flatMap]
    refine List.flatMap_congr fun x hx => ?_
    obtain ⟨a, ha⟩ := hone x hx
    rw [ha]; rfl
  have hids := ids_perm ht hcons hna hf
  have hl : (actsPO oo M w).map Prod.fst |>.Perm (lids (tree P cfg K) sel oo (tree P cfg K).K []) := by
    rw [hfst]
    unfold lids
    refine List.Perm.map _ ?_
    rw [show (tree P cfg K).leavesFrom (tree P cfg K).K [] = (tree P cfg K).leaves from rfl,
      List.perm_ext_iff_of_nodup hsch.nodup (leaves_nodup.filter _)]
    intro x
    rw [hsch.mem, List.mem_filter]
    refine and_congr_right fun _ => ⟨fun h => ?_, fun h => ?_⟩
    · by_contra h'
      exact h (actAt_not_isP (by simpa using h'))
    · obtain ⟨a, ha⟩ := actAt_isP hcons h
      rw [ha]; simp
  refine ⟨by rw [hsnd, ha1, ha2], tr, k, ((tree P cfg K).nodes.filter (isN (tree P cfg K) sel)).length, φ, occ, ⟨g1, g2, g3, g7, ?_, ?_, ?_, ?_⟩, hφ, g4, hsch.order, hk, fun hex => g6 fun p m mp h =>
    exact_tree hin.wf hin.conf hin.po hex h, ?_, ?_, ?_⟩
  · rw [hsnd]; exact hocc
  · rw [hfst, ← hφ, List.map_map]; rfl
  · refine List.Perm.trans ?_ hids
    exact hl.append (List.Perm.of_eq g8.ids)
  · have := g8.once
    rw [g0] at this
    exact this.trans hids
  · unfold orderPO actsPO
    rw [List.map_map, List.map_map]
    rfl
  · intro q q' a a' hq hq' hl
    obtain ⟨m1, m2⟩ := g4.act q a hq
    obtain ⟨m3, m4⟩ := g4.act q' a' hq'
    have hmem : φ q ∈ (matchedPO oo M w).map (fun e => M.leaf e.1) := by
      rw [hmf.1]
      exact (hsch.mem _).2 ⟨m1, by rw [m2]; simp⟩
    obtain ⟨e, he, hle⟩ := List.mem_map.1 hmem
    have helt := hmf.2 e he
    have hx' : φ q' ∈ M.vs := by rw [hM.vs]; exact m3
    obtain ⟨hil, hie⟩ := leaf_idx hx'
    have hP' : isP sel (φ q') = true := by
      cases hv : isP sel (φ q') with
      | true => rfl
      | false => rw [actAt_not_isP hv] at m4; simp at m4
    obtain ⟨k', _, hid', -⟩ := hf.leaf (φ q') m3 hP'
    refine ⟨_, List.mem_map.2 ⟨e, he, Prod.ext (by simp only [hle]) rfl⟩, ?_⟩
    rw [List.mem_filterMap]
    refine ⟨M.vs.idxOf (φ q'), (hin.iter _).mem_iff.2 ((hsucc e.1 helt _).2 ?_), ?_⟩
    · have h1 := (edges_trans (l := 0) (k := 0) hes).1 _ _ (leafSog_complete hne (adj_in hin.wf hin.conf hst) (acyclic_tree hac) hl)
      rw [← hle, idx_leaf hvn helt] at h1
      exact (tg_mono (fun a b h => hadj.2 h) h1).to_reflTransGen
    · rw [hie, hle, if_neg, hid']
      · rfl
      · intro h
        rw [h] at hl
        exact LeafLt.irrefl (acyclic_tree hac) hl
  · intro x ys hxy y hy
    obtain ⟨e, he, hex⟩ := List.mem_map.1 hxy
    simp only [Prod.mk.injEq] at hex
    obtain ⟨rfl, rfl⟩ := hex
    have helt := hmf.2 e he
    obtain ⟨s, hs, hsy⟩ := List.mem_filterMap.1 hy
    have hs' := (hsucc e.1 helt s).1 ((hin.iter _).mem_iff.1 hs)
    by_cases hse : M.leaf s = M.leaf e.1
    · rw [if_pos hse] at hsy; simp at hsy
    · rw [if_neg hse] at hsy
      have htg : TransGen (fun l k => (l, k) ∈ M.edges (leafSog (tree P cfg K) (adjAt P cfg (tree P cfg K)) (tree P cfg K).K []).2) e.1 s := by
        rcases reflTransGen_iff_eq_or_transGen.1 hs' with h | h
        · exact absurd (by rw [h]) hse
        · exact tg_mono (fun a b h => hadj.1 h) h
      have hlt := leafSog_trans_lt hne (adj_in hin.wf hin.conf hst) ((edges_trans hes).2 htg)
      have hsl : s < M.vs.length := by
        cases htg with
        | single h => exact (edges_in hes _ _ h).2
        | tail _ h => exact (edges_in hes _ _ h).2
      have hmem : ∀ l, l < M.vs.length → (oo.id (M.leaf l)).isSome → ∃ q a, LeafAt P tr q a ∧ φ q = M.leaf l := by
        intro l hl hsome
        have hlv : M.leaf l ∈ (tree P cfg K).leaves := by rw [← hM.vs]; exact leaf_mem hl
        refine g4.surj _ hlv fun h => ?_
        have : isP sel (M.leaf l) = false := by
          cases hv : isP sel (M.leaf l) with
          | false => rfl
          | true => obtain ⟨a, ha⟩ := actAt_isP hcons hv; rw [ha] at h; simp at h
        rw [hf.no _ (hna _ hlv) (by rw [this]; simp)] at hsome
        simp at hsome
      have hmatch : M.leaf e.1 ∈ seqOf (tree P cfg K) sel M w := by
        rw [← hmf.1]
        exact List.mem_map.2 ⟨e, he, rfl⟩
      obtain ⟨h1, h2⟩ := (hsch.mem _).1 hmatch
      obtain ⟨q, a, hq, hqe⟩ := g4.surj _ h1 h2
      obtain ⟨q', a', hq', hqe'⟩ := hmem s hsl (by rw [hsy]; rfl)
      refine ⟨q, q', a, a', hq, hq', by rw [hqe], by rw [hqe', hsy]; rfl, ?_⟩
      rw [hqe, hqe']
      exact hlt

end

end Verif.Pdt
