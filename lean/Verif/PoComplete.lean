import Verif.PoFormula

/-! # Plans of partially ordered problems give models of the formula -/

namespace Verif.Pdt

open Verif.Htn Verif.Sog Verif.Sat Verif.Inv Relation

/-- An assignment that continues another one after the first `n` variables. -/
def extendA (n : Nat) (w : Assignment) (F : Nat → Bool) : Assignment := fun i => if i ≤ n then w i else F (i - n - 1)

theorem extendA_le {n : Nat} {w : Assignment} {F : Nat → Bool} {i : Nat} (h : i ≤ n) : extendA n w F i = w i := if_pos h

theorem extendA_gt {n : Nat} {w : Assignment} {F : Nat → Bool} (j : Nat) : extendA n w F (n + j + 1) = F j := by
  unfold extendA
  rw [if_neg (by omega), show n + j + 1 - n - 1 = j by omega]

theorem flatMap_get {α : Type} (l : List α) (T : Nat) : (List.range T).flatMap (fun p => l[p]?.toList) = l.take T := by
  induction T with
  | zero => rfl
  | succ T ih => rw [List.range_succ, List.flatMap_append, ih, List.take_add_one]; simp

theorem filter_get {l : List Nat} (hn : l.Nodup) {x : Option Nat} (hx : ∀ a, x = some a → a ∈ l) {q : Nat → Bool}
    (hq : ∀ a ∈ l, q a = true ↔ x = some a) : l.filter q = x.toList := by
  cases x with
  | none =>
    rw [List.filter_eq_nil_iff.2 fun a ha h => by simpa using (hq a ha).1 h]
    rfl
  | some b => exact filter_eq_one hn (hx b rfl) fun a ha => by rw [hq a ha, Option.some.injEq, eq_comm]

section
variable {P : Problem} {t : T} {sel : Path → Sel} {V : VM} {M : MData} {w : Assignment} {xs : List Path} {A : Path → List (Nat × Nat)}

theorem div_idx {l p T : Nat} (hp : p < T) : (l * T + p) / T = l ∧ (l * T + p) % T = p := by
  rw [Nat.mul_comm, Nat.mul_add_mod, Nat.mul_add_div (by omega), Nat.div_eq_of_lt hp, Nat.mod_eq_of_lt hp]
  exact ⟨rfl, rfl⟩

/-- The actions of a schedule. -/
theorem sched_get (hx : Sched t sel A xs) {p a : Nat} :
    (xs.flatMap (actAt t sel))[p]? = some a ↔ ∃ x, xs[p]? = some x ∧ actAt t sel x = [a] := by
  have h1 : ∀ x ∈ xs, actAt t sel x = [(actAt t sel x).headD 0] := by
    intro x h
    obtain ⟨a, ha⟩ := actAt_one ((hx.mem x).1 h).2
    rw [ha]; rfl
  have h2 : xs.flatMap (actAt t sel) = xs.map fun x => (actAt t sel x).headD 0 := by
    rw [List.flatMap_congr h1]
    exact List.map_eq_flatMap.symm
  rw [h2, List.getElem?_map, Option.map_eq_some_iff]
  refine exists_congr fun x => and_congr_right fun h => ?_
  rw [h1 x (List.mem_of_getElem? h)]
  simp

theorem sched_length (hx : Sched t sel A xs) : (xs.flatMap (actAt t sel)).length = xs.length := by
  have h1 : ∀ x ∈ xs, actAt t sel x = [(actAt t sel x).headD 0] := by
    intro x h
    obtain ⟨a, ha⟩ := actAt_one ((hx.mem x).1 h).2
    rw [ha]; rfl
  rw [List.flatMap_congr h1, ← List.map_eq_flatMap, List.length_map]

/-- The values of the variables for a schedule. -/
structure Vals (t : T) (sel : Path → Sel) (V : VM) (M : MData) (xs : List Path) (w : Assignment) : Prop where
  mv : ∀ l < M.vs.length, ∀ p < M.steps, w (M.mv l p) = true ↔ xs[p]? = some (M.leaf l)
  la : ∀ l < M.vs.length, w (M.la l) = true ↔ M.leaf l ∈ xs
  pa : ∀ p < M.steps, w (M.pa p) = true ↔ p < xs.length
  pv : ∀ p < M.steps, ∀ a ∈ M.acts, w (M.pv p a) = true ↔ (xs.flatMap (actAt t sel))[p]? = some a
  leaf : ∀ l < M.vs.length, selOf w (leafVars V t (M.leaf l)) = actAt t sel (M.leaf l)

theorem prims_of_act (hM : MOK P t M) (hv : Vals t sel V M xs w) {l : Nat} (hl : l < M.vs.length) {a : Nat}
    (ha : actAt t sel (M.leaf l) = [a]) : a ∈ leafPrims t (M.leaf l) ∧ a ∈ M.acts := by
  have : a ∈ selOf w (leafVars V t (M.leaf l)) := by rw [hv.leaf l hl, ha]; simp
  obtain ⟨x, hx, -⟩ := mem_selOf.1 this
  have := mem_prims_of_var hx
  exact ⟨this, (hM.mem a).2 ⟨_, leaf_mem hl, this⟩⟩

theorem Vals.sem (hM : MOK P t M) (hx : Sched t sel A xs) (hlen : xs.length ≤ M.steps) (hv : Vals t sel V M xs w) : MatchSem P t V M w := by
  have hn : M.vs.Nodup := by rw [hM.vs]; exact leaves_nodup
  have hin : ∀ x ∈ xs, ∃ l < M.vs.length, M.leaf l = x := by
    intro x h
    have := leaf_idx (M := M) (x := x) (by rw [hM.vs]; exact ((hx.mem x).1 h).1)
    exact ⟨_, this.1, this.2⟩
  have hact : ∀ l < M.vs.length, (M.leaf l ∈ xs ↔ actAt t sel (M.leaf l) ≠ []) := fun l hl => by
    rw [hx.mem]; exact and_iff_right (by rw [← hM.vs]; exact leaf_mem hl)
  refine ⟨fun l hl p hp p' hp' h h' => ?_, fun p hp l hl l' hl' _ _ h h' => ?_, fun l hl => ?_, fun l hl h => ?_, fun p hp => ?_,
    fun p hp h => ?_, fun p hp l hl e he h hw => ?_, fun l hl he p hp a ha hea h hw => ?_⟩
  · rw [hv.mv l hl p hp] at h
    rw [hv.mv l hl p' hp'] at h'
    obtain ⟨h1, e1⟩ := List.getElem?_eq_some_iff.1 h
    obtain ⟨h2, e2⟩ := List.getElem?_eq_some_iff.1 h'
    exact (List.Nodup.getElem_inj_iff hx.nodup).1 (e1.trans e2.symm)
  · rw [hv.mv l hl p hp] at h
    rw [hv.mv l' hl' p hp] at h'
    rw [h] at h'
    exact leaf_inj hn hl hl' (Option.some.inj h')
  · rw [hv.la l hl, hact l hl, ← hv.leaf l hl]
    constructor
    · intro h
      obtain ⟨a, ha⟩ := List.exists_mem_of_ne_nil _ h
      obtain ⟨x, hx, hw⟩ := mem_selOf.1 ha
      exact ⟨(x, a), hx, hw⟩
    · rintro ⟨⟨x, a⟩, h, hw⟩ h0
      have : a ∈ selOf w (leafVars V t (M.leaf l)) := mem_selOf.2 ⟨x, h, hw⟩
      rw [h0] at this
      simp at this
  · rw [hv.la l hl] at h
    obtain ⟨p, hp, e⟩ := List.getElem_of_mem h
    exact ⟨p, by omega, (hv.mv l hl p (by omega)).2 (by rw [List.getElem?_eq_getElem hp, e])⟩
  · rw [hv.pa p hp]
    constructor
    · intro h
      obtain ⟨l, hl, e⟩ := hin _ (List.getElem_mem h)
      obtain ⟨a, ha⟩ := actAt_one ((hx.mem _).1 (List.getElem_mem h)).2
      rw [← e] at ha
      obtain ⟨h1, h2⟩ := prims_of_act hM hv hl ha
      refine ⟨a, h2, hM.eff _ (leaf_mem hl) a h1, (hv.pv p hp a h2).2 ((sched_get hx).2 ⟨_, List.getElem?_eq_getElem h, ?_⟩)⟩
      rw [← e]; exact ha
    · rintro ⟨a, ha, -, hw⟩
      obtain ⟨x, h, -⟩ := (sched_get hx).1 ((hv.pv p hp a ha).1 hw)
      exact (List.getElem?_eq_some_iff.1 h).1
  · rw [hv.pa p hp] at h
    obtain ⟨l, hl, e⟩ := hin _ (List.getElem_mem h)
    obtain ⟨a, ha⟩ := actAt_one ((hx.mem _).1 (List.getElem_mem h)).2
    rw [← e] at ha
    exact ⟨l, hl, hM.effLeaf_of (leaf_mem hl) (prims_of_act hM hv hl ha).1, (hv.mv l hl p hp).2 (by rw [List.getElem?_eq_getElem h, e])⟩
  · obtain ⟨x, a⟩ := e
    rw [hv.mv l hl p hp] at h
    have hmem : a ∈ actAt t sel (M.leaf l) := by rw [← hv.leaf l hl]; exact mem_selOf.2 ⟨x, he, hw⟩
    obtain ⟨b, hb⟩ := actAt_one (List.ne_nil_of_mem hmem)
    rw [hb, List.mem_singleton] at hmem
    subst hmem
    exact (hv.pv p hp a (prims_of_act hM hv hl hb).2).2 ((sched_get hx).2 ⟨_, h, hb⟩)
  · rw [hv.mv l hl p hp] at h
    obtain ⟨x, h', hb⟩ := (sched_get hx).1 ((hv.pv p hp a ha).1 hw)
    rw [h] at h'
    obtain rfl := Option.some.inj h'
    rw [← mem_selOf, hv.leaf l hl, hb]
    simp

/-- Is a leaf forbidden at a position? -/
def Forb (M : MData) (es : List (Path × Path)) (xs : List Path) (l p : Nat) : Prop :=
  ∃ p' l', p < p' ∧ xs[p']? = some (M.leaf l') ∧ l' < M.vs.length ∧ TransGen (fun l k => (l, k) ∈ M.edges es) l' l

theorem forb_sem {es : List (Path × Path)} {g : Nat} (hes : ∀ e ∈ es, e.1 ∈ M.vs ∧ e.2 ∈ M.vs)
    (hx : Sched t sel A xs) (hlt : ∀ x y, TransGen (fun a b => (a, b) ∈ es) x y → LeafLt t A t.K [] x y)
    (hmv : ∀ l < M.vs.length, ∀ p < M.steps, w (M.mv l p) = true ↔ xs[p]? = some (M.leaf l))
    (hfv : ∀ l < M.vs.length, ∀ p < M.steps, w (M.fv g l p) = true ↔ Forb M es xs l p) : OrderSem M es g w := by
  refine ⟨fun l hl k hk p hp h0 h => ?_, fun l hl k hk p hp h => ?_, fun l hl p hp h0 h => ?_, fun l hl p hp h => ?_⟩
  · rw [hmv l hl p hp] at h
    rw [hfv k (edges_in hes l k hk).2 (p - 1) (by omega)]
    exact ⟨p, l, by omega, h, hl, .single hk⟩
  · rw [hfv l hl p hp] at h
    rw [hfv k (edges_in hes l k hk).2 p hp]
    obtain ⟨p', l', h1, h2, h3, h4⟩ := h
    exact ⟨p', l', h1, h2, h3, h4.tail hk⟩
  · rw [hfv l hl p hp] at h
    rw [hfv l hl (p - 1) (by omega)]
    obtain ⟨p', l', h1, h2⟩ := h
    exact ⟨p', l', by omega, h2⟩
  · rw [hfv l hl p hp] at h
    rw [← Bool.not_eq_true, hmv l hl p hp]
    intro h'
    obtain ⟨p', l', h1, h2, h3, h4⟩ := h
    obtain ⟨k1, e1⟩ := List.getElem?_eq_some_iff.1 h2
    obtain ⟨k2, e2⟩ := List.getElem?_eq_some_iff.1 h'
    have := List.pairwise_iff_getElem.1 hx.order p p' k2 k1 h1
    rw [e1, e2] at this
    exact this (hlt _ _ ((edges_trans hes).2 h4))

/-- The actions at a position. -/
theorem actsAt_vals (hM : MOK P t M) (hx : Sched t sel A xs) (hlf : ∀ l < M.vs.length, ∀ a, actAt t sel (M.leaf l) = [a] → a ∈ M.acts)
    {p : Nat} (hpv : ∀ a ∈ M.acts, w (M.pv p a) = true ↔ (xs.flatMap (actAt t sel))[p]? = some a) :
    actsAt M w p = (xs.flatMap (actAt t sel))[p]?.toList := by
  unfold actsAt
  refine filter_get hM.acts (fun a ha => ?_) hpv
  obtain ⟨x, h1, h2⟩ := (sched_get hx).1 ha
  have hm : x ∈ M.vs := by rw [hM.vs]; exact ((hx.mem x).1 (List.mem_of_getElem? h1)).1
  obtain ⟨hl, e⟩ := leaf_idx hm
  exact hlf _ hl a (by rw [e]; exact h2)

theorem option_toList_le {α : Type} (x : Option α) : x.toList.length ≤ 1 := by cases x <;> simp

end

section
variable {P : Problem} {cfg : Cfg} {o : SatOpts} {iter : List Nat → List Nat} {K : Nat} {n : Nat} {V : VM}

theorem selOf_unit {M : MData} {w : Assignment} {p : Nat} (hp : p < M.steps) : selOf w (blockActs M.vars [p]) = actsAt M w p := by
  unfold blockActs
  have : M.vars[p]? = some (M.acts.map fun a => (M.pv p a, a)) := by
    unfold MData.vars
    rw [List.getElem?_map, List.getElem?_range hp]
    rfl
  simp only [List.flatMap_cons, List.flatMap_nil, List.append_nil]
  rw [this]
  unfold selOf actsAt
  simp only [Option.getD_some]
  rw [List.filter_map, List.map_map]
  conv_rhs => rw [← List.map_id (List.filter _ _)]
  rfl

open Classical in
/-- Every schedule that solves the problem is printed for some model. -/
theorem formulaPO_complete (hin : PoInput P cfg o iter) (hst : ¬ Stuck P cfg K) (heff : AllEff P) {n1 : Nat} {V' : VM} {l s M}
    (hp : PartsPO P cfg o iter (tree P cfg K) n V n1 V' l s M) (hV : VMFull P (tree P cfg K) Flags.empty n1 V')
    {sel : Path → Sel} (hs : Consistent P (tree P cfg K) sel) {xs : List Path}
    (hx : Sched (tree P cfg K) sel (adjAt P cfg (tree P cfg K)) xs) {s' : State}
    (hex : Exec P P.initState (xs.flatMap (actAt (tree P cfg K) sel)) s') (hg : P.GoalState s')
    (hnc : ∀ a ∈ xs.flatMap (actAt (tree P cfg K) sel), NoClash P a) (hm : MutexOK P o (xs.flatMap (actAt (tree P cfg K) sel))) :
    ∃ w, satAll w (clausesPO P cfg o (tree P cfg K) n1 V' l s M).2 ∧
      printedPO (tree P cfg K) V' M w = xs.flatMap (actAt (tree P cfg K) sel) := by
  have ht := tree_ok hin.wf hin.conf hst
  have hM := parts_mok hin hst heff hp
  obtain ⟨le1, le2, le3, le4, -⟩ := parts_le hp
  have hn : M.vs.Nodup := by rw [hM.vs]; exact leaves_nodup
  have hne : ∀ p e, (tree P cfg K).ex p = some e → e.children ≠ [] := fun _ _ he => children_ne ht hin.conf.tot hin.meth he
  generalize ht' : tree P cfg K = t at *
  have hes : ∀ e ∈ (leafSog t (adjAt P cfg t) t.K []).2, e.1 ∈ M.vs ∧ e.2 ∈ M.vs := by
    rw [hM.vs]; subst ht'; exact sog_edges hin hst
  have hlt : ∀ x y, TransGen (fun a b => (a, b) ∈ (leafSog t (adjAt P cfg t) t.K []).2) x y → LeafLt t (adjAt P cfg t) t.K [] x y := by
    intro x y h
    refine leafSog_trans_lt hne ?_ h
    subst ht'; exact adj_in hin.wf hin.conf hst
  -- every selected leaf has an action with effects
  have hprim : ∀ q a, actAt t sel q = [a] → a ∈ leafPrims t q := by
    intro q a h
    unfold actAt at h
    unfold leafPrims
    cases hd : t.nd q with
    | none => rw [hd] at h; simp at h
    | some d =>
      rw [hd] at h
      cases hsq : sel q with
      | none => rw [hsq] at h; simp at h
      | abs a m => rw [hsq] at h; simp at h
      | prim i =>
        rw [hsq] at h
        simp only [List.cons.injEq, and_true] at h
        subst h
        obtain ⟨d', x, hd', hx⟩ := hs.prim q i hsq
        rw [hd] at hd'
        obtain rfl := Option.some.inj hd'
        rw [getD_of hx]
        exact List.mem_of_getElem? hx
  have hlf : ∀ l < M.vs.length, ∀ a, actAt t sel (M.leaf l) = [a] → a ∈ M.acts := fun l hl a ha =>
    (hM.mem a).2 ⟨_, leaf_mem hl, hprim _ a ha⟩
  have hlen : xs.length ≤ M.steps := by
    have : xs.length ≤ M.vs.countP (effLeaf P t) := by
      rw [List.countP_eq_length_filter]
      refine (hx.nodup.subperm fun x h => ?_).length_le
      obtain ⟨h1, h2⟩ := (hx.mem x).1 h
      obtain ⟨a, ha⟩ := actAt_one h2
      rw [← hM.vs] at h1
      exact List.mem_filter.2 ⟨h1, hM.effLeaf_of h1 (hprim x a ha)⟩
    rw [hp.steps]
    unfold poSteps
    exact this.trans (Nat.le_max_right _ _)
  have hlen' : (xs.flatMap (actAt t sel)).length ≤ M.steps := by rw [sched_length hx]; exact hlen
  -- decomposition
  obtain ⟨l', hl', hsem⟩ := treeItems_holds ht hin.conf.tot hin.meth (localW_empty ht) hV rfl
  rw [hp.tree] at hl'
  obtain rfl := Option.some.inj hl'
  have hok : ∀ it ∈ l ++ (noAbs t V').map .cl, it.OK n1 := by
    intro it h
    rcases List.mem_append.1 h with h | h
    · exact treeItems_ok hV.vars (hV.one_le ht) hp.tree it h
    · obtain ⟨c, hc, rfl⟩ := List.mem_map.1 h
      exact noAbs_ok hV.vars c hc
  have hhold : ∀ it ∈ l ++ (noAbs t V').map .cl, it.Holds (modelOf V' sel) := by
    intro it h
    rcases List.mem_append.1 h with h | h
    · exact (hsem _).2 (modelOf_sem ht (localW_empty ht) hV hs unpruned_empty) it h
    · obtain ⟨c, hc, rfl⟩ := List.mem_map.1 h
      refine (noAbs_sat hV.vars).2 (fun q hq d hd a _ htv => ?_) c hc
      obtain ⟨m, hm⟩ := ((tv_modelOf hV.vars).1 htv).2
      exact leaf_not_abs ht hin.conf.tot hin.meth hs hq hm
  obtain ⟨w1, hw1, hsat1⟩ := (emit_sat hin.bits _ n1 hok (modelOf V' sel)).2 hhold
  -- actions at positions
  obtain ⟨v1, hv1⟩ : ∃ v1, v1 = extendA M.np w1 fun j => decide (∃ a, (xs.flatMap (actAt t sel))[j / M.acts.length]? = some a ∧
    M.acts[j % M.acts.length]? = some a) := ⟨_, rfl⟩
  have hpv1 : ∀ p < M.steps, ∀ a ∈ M.acts, v1 (M.pv p a) = true ↔ (xs.flatMap (actAt t sel))[p]? = some a := by
    intro p hp a ha
    have hi := List.idxOf_lt_length_of_mem ha
    obtain ⟨d1, d2⟩ := div_idx (l := p) hi
    have hva : M.acts[M.acts.idxOf a]? = some a := by rw [List.getElem?_eq_getElem hi, List.getElem_idxOf]
    rw [hv1, show M.pv p a = M.np + (p * M.acts.length + M.acts.idxOf a) + 1 by unfold MData.pv; omega, extendA_gt, d1, d2, hva]
    simp only [decide_eq_true_eq, Option.some.injEq]
    constructor
    · rintro ⟨b, h, rfl⟩; exact h
    · intro h; exact ⟨a, h, rfl⟩
  have hact1 : ∀ p < M.steps, ∀ w : Assignment, (∀ i ≤ M.np + M.steps * M.acts.length, w i = v1 i) →
      actsAt M w p = (xs.flatMap (actAt t sel))[p]?.toList := by
    intro p hp w hw
    refine actsAt_vals hM hx hlf fun a ha => ?_
    rw [hw _ (pv_le hp ha)]
    exact hpv1 p hp a ha
  have hselected : ∀ w : Assignment, (∀ i ≤ M.np + M.steps * M.acts.length, w i = v1 i) → selected w M.vars = xs.flatMap (actAt t sel) := by
    intro w hw
    rw [selected_vars, List.flatMap_congr (g := fun p => (xs.flatMap (actAt t sel))[p]?.toList) fun p hp => hact1 p (List.mem_range.1 hp) w hw,
      flatMap_get, List.take_of_length_le hlen']
  -- states
  have hsel1 := hselected v1 fun _ _ => rfl
  obtain ⟨w2, hw2, hsat2⟩ := stateFormula_complete_of hin.wf hp.state vars_rng (unit_flatten _) v1
    (by rw [hsel1]; exact hnc) (unit_indep fun p hp => by rw [hact1 p hp v1 fun _ _ => rfl]; exact option_toList_le _)
    (by rw [hsel1]; exact hex) hg
  -- matching
  obtain ⟨v2, hv2⟩ : ∃ v2, v2 = extendA M.nm w2 fun j =>
    if j < M.vs.length * M.steps then decide (xs[j % M.steps]? = some (M.leaf (j / M.steps)))
    else if j < M.vs.length * M.steps + M.vs.length then decide (M.leaf (j - M.vs.length * M.steps) ∈ xs)
    else decide (j - M.vs.length * M.steps - M.vs.length < xs.length) := ⟨_, rfl⟩
  have hv2w : ∀ i ≤ M.nm, v2 i = w2 i := fun i hi => by rw [hv2]; exact extendA_le hi
  have hvals : ∀ w : Assignment, (∀ i ≤ M.n1, w i = v2 i) → Vals t sel V' M xs w := by
    intro w hw
    refine ⟨fun l hl p hp => ?_, fun l hl => ?_, fun p hp => ?_, fun p hp a ha => ?_, fun l hl => ?_⟩
    · obtain ⟨d1, d2⟩ := div_idx (l := l) hp
      rw [hw _ ((mv_le hl hp).trans (by unfold MData.n1; omega)), hv2,
        show M.mv l p = M.nm + (l * M.steps + p) + 1 by unfold MData.mv; omega, extendA_gt, if_pos (idx_lt hl hp), d1, d2, decide_eq_true_eq]
    · rw [hw _ (by unfold MData.n1 MData.la; omega), hv2, show M.la l = M.nm + (M.vs.length * M.steps + l) + 1 by unfold MData.la; omega,
        extendA_gt, if_neg (by omega), if_pos (by omega), Nat.add_sub_cancel_left, decide_eq_true_eq]
    · rw [hw _ (by unfold MData.n1 MData.pa; omega), hv2,
        show M.pa p = M.nm + (M.vs.length * M.steps + M.vs.length + p) + 1 by unfold MData.pa; omega,
        extendA_gt, if_neg (by omega), if_neg (by omega),
        show M.vs.length * M.steps + M.vs.length + p - M.vs.length * M.steps - M.vs.length = p by omega, decide_eq_true_eq]
    · have := pv_le hp ha
      rw [hw _ (by omega), hv2w _ (by omega), hw2 _ this]
      exact hpv1 p hp a ha
    · refine model_leaf ht hV hs unpruned_empty (fun i hi => ?_) _ (by rw [← hM.vs]; exact leaf_mem hl)
      rw [hw i (by omega), hv2w i (by omega), hw2 i (by omega), hv1, extendA_le (by omega), hw1 i hi]
  have hacts : ∀ l < M.vs.length, ∀ e ∈ leafVars V' t (M.leaf l), e.2 ∈ M.acts := fun l hl e he =>
    (hM.mem e.2).2 ⟨_, leaf_mem hl, mem_prims_of_var he⟩
  have hmok := matchItems_ok (P := P) hV.vars le1 le2 hacts
  obtain ⟨w3, hw3, hsat3⟩ := (emit_sat hin.bits _ M.n1 hmok v2).2
    ((matchItems_holds hV.vars fun q d hd => (ht.nd q d hd).nodupP).2 ((hvals v2 fun _ _ => rfl).sem hM hx hlen))
  -- order
  generalize hge : (emit o.bits M.n1 (matchItems P t V' M)).1 = g at *
  obtain ⟨v3, hv3⟩ : ∃ v3, v3 = extendA g w3 fun j =>
    decide (Forb M (leafSog t (adjAt P cfg t) t.K []).2 xs (j / M.steps) (j % M.steps)) := ⟨_, rfl⟩
  have hv3w : ∀ i ≤ g, v3 i = w3 i := fun i hi => by rw [hv3]; exact extendA_le hi
  have hfv : ∀ l < M.vs.length, ∀ p < M.steps, v3 (M.fv g l p) = true ↔ Forb M (leafSog t (adjAt P cfg t) t.K []).2 xs l p := by
    intro l hl p hp
    obtain ⟨d1, d2⟩ := div_idx (l := l) hp
    rw [hv3, show M.fv g l p = g + (l * M.steps + p) + 1 by unfold MData.fv; omega, extendA_gt, d1, d2, decide_eq_true_eq]
  -- mutexes
  obtain ⟨-, -, hr1, hr2⟩ := stateFormula_some hp.state
  have hnb : ((List.range M.vars.length).map fun l => [l]).length = M.steps := by rw [List.length_map, List.length_range, vars_length]
  rw [hnb] at hr1 hr2
  have hbase : ∀ b ∈ s.2.1, 0 < b ∧ b + P.numFacts ≤ M.nm + 1 := by
    intro b hb'
    rw [hr2] at hb'
    obtain ⟨τ, hτ, rfl⟩ := List.mem_map.1 hb'
    rw [List.mem_range] at hτ
    refine ⟨stateBase_pos, ?_⟩
    rw [hp.nm, hr1]
    unfold stateBase
    have h1 : (τ + 1) * max 1 P.numFacts ≤ M.steps * max 1 P.numFacts := Nat.mul_le_mul_right _ hτ
    have h2 : P.numFacts ≤ max 1 P.numFacts := Nat.le_max_right _ _
    rw [Nat.add_mul] at h1 ⊢
    omega
  have hsok : ClausesOK M.nm s.2.2 := by
    rw [hp.nm]
    exact stateFormula_vars hin.wf hp.state vars_rng
  have h3 : ∀ i ≤ M.nm, v3 i = w2 i := fun i hi => by rw [hv3w i (by omega), hw3 i (by omega), hv2w i hi]
  have hsat2' : satAll v3 s.2.2 := (satAll_agree h3 hsok).2 hsat2
  have hxok : (∀ it ∈ mutexPO P o s.2.1, it.OK (g + M.vs.length * M.steps)) ∧ ∀ it ∈ mutexPO P o s.2.1, it.Holds v3 := by
    unfold mutexPO
    cases ho : o.mutex with
    | none => constructor <;> (intro it h; simp at h)
    | some y =>
      obtain ⟨G, B⟩ := y
      obtain ⟨hG, hB, hpre⟩ := hm G B ho
      constructor
      · intro it h
        obtain ⟨b, hb', h⟩ := List.mem_flatMap.1 h
        have := hbase b hb'
        exact mutexItems_ok hG hB (fun _ => by simp) this.1 (by omega) it h
      · intro it h
        obtain ⟨b, hb', h⟩ := List.mem_flatMap.1 h
        rw [hr2] at hb'
        obtain ⟨τ, hτ, rfl⟩ := List.mem_map.1 hb'
        rw [List.mem_range] at hτ
        have hact3 : ∀ p < M.steps, actsAt M v3 p = (xs.flatMap (actAt t sel))[p]?.toList := fun p hp =>
          hact1 p hp v3 fun i hi => by rw [h3 i (by omega), hw2 i hi]
        have hst := stateFormula_states_of hin.wf hp.state (fun l hl e he => (vars_rng l hl e he).1) hsat2'
          (unit_indep fun p hp => by rw [hact3 p hp]; exact option_toList_le _) τ (by rw [hnb]; omega)
        have hpf : ((((List.range M.vars.length).map fun l => [l]).take τ).flatMap fun b => selOf v3 (blockActs M.vars b)) =
            (xs.flatMap (actAt t sel)).take τ := by
          rw [← List.map_take, List.take_range, vars_length, Nat.min_eq_left (by omega), List.flatMap_map, ← flatMap_get]
          refine List.flatMap_congr fun p hp => ?_
          rw [List.mem_range] at hp
          rw [selOf_unit (by omega), hact3 p (by omega)]
        rw [hpf] at hst
        obtain ⟨h1, h2⟩ := hpre _ _ (List.take_prefix _ _) hst
        exact mutexItems_holds hG hB (fun _ => by simp) stateBase_pos h1 h2 (fun _ => by simp) it h
  obtain ⟨w4, hw4, hsat4⟩ := (emit_sat hin.bits _ (g + M.vs.length * M.steps) hxok.1 v3).2 hxok.2
  have h4 : ∀ i ≤ g, w4 i = w3 i := fun i hi => by rw [hw4 i (by omega), hv3w i hi]
  have hvals4 := hvals w4 fun i hi => by rw [h4 i (by omega), hw3 i hi]
  have hms4 := hvals4.sem hM hx hlen
  refine ⟨w4, ?_, ?_⟩
  · unfold clausesPO
    simp only
    rw [hge]
    refine satAll_append.2 ⟨?_, satAll_append.2 ⟨?_, satAll_append.2 ⟨?_, satAll_append.2 ⟨?_, hsat4⟩⟩⟩⟩
    · have := emit_ok hin.bits _ n1 hok
      rw [← hp.np] at this
      refine (satAll_agree (fun i hi => ?_) this).2 hsat1
      rw [h4 i (by omega), hw3 i (by omega), hv2w i (by omega), hw2 i (by omega), hv1, extendA_le hi]
    · exact (satAll_agree (fun i hi => by rw [h4 i (by omega), hw3 i (by omega), hv2w i hi]) hsok).2 hsat2
    · have := emit_ok hin.bits _ M.n1 hmok
      rw [hge] at this
      exact (satAll_agree h4 this).2 hsat3
    · refine orderClauses_sat.2 (forb_sem hes hx hlt hvals4.mv fun l hl p hp => ?_)
      rw [hw4 _ (fv_le hl hp)]
      exact hfv l hl p hp
  · rw [(seqOf_acts hM hms4 hvals4.leaf).2]
    exact hselected w4 fun i hi => by rw [h4 i (by omega), hw3 i (by omega), hv2w i (by omega), hw2 i hi]

end

end Verif.Pdt
