import Verif.PoSem

/-! # Models of the formula for partially ordered problems are plans -/

namespace Verif.Pdt

open Verif.Htn Verif.Sog Verif.Sat Verif.Inv Relation

section
variable {P : Problem} {cfg : Cfg} {K : Nat}

/-! ## The graphs at the vertices of the tree -/

/-- The methods of a vertex in the order in which they are placed. -/
def msAt (P : Problem) (cfg : Cfg) (d : ND) : List Nat := (cfg.sortM (applicable P d)).map (·.1)

/-- What is known about the placement of a method at a vertex. -/
def PoR (P : Problem) (cfg : Cfg) (t : T) (p : Path) (m : Nat) (mp : List Nat) : Prop :=
  m < P.numMethods ∧ m ∈ (t.nd p).elim [] (msAt P cfg) ∧ PlacedW (cfg.tot m) (t.nc p) mp ∧
    ∃ d, t.nd p = some d ∧ Extra P cfg (msAt P cfg d) (t.nc p) m mp

theorem mem_msAt (hc : CfgOK P cfg) {d : ND} {m : Nat} : m ∈ msAt P cfg d ↔ ∃ ti mi, IsMeth P d ti mi m := by
  unfold msAt
  simp only [List.mem_map, (hc.sort (applicable P d)).1.mem_iff, Prod.exists, exists_and_right, exists_eq_right]
  exact exists₂_congr fun ti mi => by rw [← mem_applicable]

theorem tree_has (hP : P.WF) (hc : CfgOK P cfg) (hs : ¬ Stuck P cfg K) :
    (tree P cfg K).Has P cfg.tot (PoR P cfg (tree P cfg K)) := by
  intro p d e hd he ti mi m hm
  obtain ⟨mp, h1, h2⟩ := tree_extra hP hc hs p d e hd he ti mi m hm
  have hn : (tree P cfg K).nc p = e.children.length := by unfold T.nc; rw [he]
  refine ⟨mp, h1, (lt_of_isMeth hm).1, ?_, ?_, d, hd, ?_⟩
  · rw [hd]; exact (mem_msAt hc).2 ⟨ti, mi, hm⟩
  · rw [hn]; exact h1.1
  · rw [hn]; exact h2

/-- The edges lead from children to children. -/
theorem adj_in (hP : P.WF) (hc : CfgOK P cfg) (hs : ¬ Stuck P cfg K) :
    ∀ p, (tree P cfg K).nc p ≠ 0 → EdgesIn (adjAt P cfg (tree P cfg K) p) ((tree P cfg K).nc p) := by
  intro p h0
  have ht := tree_ok hP hc hs
  obtain ⟨e, he⟩ : ∃ e, (tree P cfg K).ex p = some e := by
    unfold T.nc at h0
    cases he : (tree P cfg K).ex p with
    | none => rw [he] at h0; exact absurd rfl h0
    | some e => exact ⟨e, rfl⟩
  obtain ⟨d, hd, -, -, -, hnil⟩ := ht.ex p e he
  have hn : (tree P cfg K).nc p = e.children.length := by unfold T.nc; rw [he]
  have hex : ¬ ∀ ti mi m, ¬ IsMeth P d ti mi m := by
    rw [← hnil]
    intro h
    rw [hn, h] at h0
    exact h0 rfl
  push Not at hex
  obtain ⟨ti, mi, m, hm⟩ := hex
  obtain ⟨mp, -, h2⟩ := tree_extra hP hc hs p d e hd he ti mi m hm
  unfold adjAt
  rw [hd]
  simp only
  unfold sogAdj
  simp only
  by_cases hu : usesPO cfg ((cfg.sortM (applicable P d)).map (·.1)) = true
  · rw [if_pos hu, hn]; exact (h2.2 hu).1
  · rw [if_neg hu]
    intro x hx
    obtain ⟨j, hj, hx⟩ := List.mem_flatMap.1 hx
    obtain ⟨i, hi, rfl⟩ := List.mem_map.1 hx
    rw [List.mem_range] at hi hj
    exact ⟨by omega, hj⟩

theorem mem_sogAdj {d : ND} {nv i j : Nat} (hu : usesPO cfg (msAt P cfg d) = false) : (i, j) ∈ sogAdj P cfg d nv ↔ i < j ∧ j < nv := by
  unfold sogAdj
  unfold msAt at hu
  simp only [hu, Bool.false_eq_true, if_false, List.mem_flatMap, List.mem_map, List.mem_range, Prod.mk.injEq]
  constructor
  · rintro ⟨_, hj, _, hi, rfl, rfl⟩; exact ⟨hi, hj⟩
  · rintro ⟨hi, hj⟩; exact ⟨j, hj, i, hi, rfl, rfl⟩

/-- If the graph for partially ordered methods is not used, all methods of the vertex are totally ordered. -/
theorem all_to (hpo : cfg.po = true) {d : ND} (hu : usesPO cfg (msAt P cfg d) = false) : ∀ m ∈ msAt P cfg d, cfg.isTO m = true := by
  unfold usesPO at hu
  rw [hpo] at hu
  simpa using hu

theorem pairwise_index {l : List Nat} {r : Nat → Nat → Prop} (hl : l.Pairwise r) {i j : Nat} (hi : i ∈ l) (hj : j ∈ l) (hne : i ≠ j) :
    r i j ∨ r j i := by
  induction l with
  | nil => simp at hi
  | cons a l ih =>
    rw [List.pairwise_cons] at hl
    rcases List.mem_cons.1 hi with rfl | hi'
    · rcases List.mem_cons.1 hj with rfl | hj'
      · exact absurd rfl hne
      · exact .inl (hl.1 j hj')
    · rcases List.mem_cons.1 hj with rfl | hj'
      · exact .inr (hl.1 i hi')
      · exact ih hl.2 hi' hj'

/-- The graphs contain the orders of the methods. -/
theorem poR_keep (hP : P.WF) (hc : CfgOK P cfg) (hpo : cfg.po = true) {t : T} {p : Path} {m : Nat} {mp : List Nat}
    (h : PoR P cfg t p m mp) : KeepR P (adjAt P cfg t) p m mp := by
  obtain ⟨hm, hmem, hw, d, hd, hx⟩ := h
  have hclo := hc.clo hpo
  intro i hi j hj hij
  have hij := (hclo.closed m hm i j).2 hij
  refine .single ?_
  unfold adjAt
  rw [hd] at hmem ⊢
  simp only at hmem ⊢
  cases hu : usesPO cfg (msAt P cfg d) with
  | true =>
    have := (hx.2 hu).2.1 i j hij
    unfold sogAdj
    unfold msAt at hu
    simp only [hu, if_true]
    exact this
  | false =>
    rw [mem_sogAdj hu]
    have hpl := hx.1 hu
    have hperm := hc.tot m hm
    have hj' := hperm.mem_iff.2 (List.mem_range.2 hj)
    have hi' := hperm.mem_iff.2 (List.mem_range.2 hi)
    refine ⟨?_, hpl.lt j hj'⟩
    have hto := hclo.total m hm (all_to hpo hu m hmem)
    have hne : i ≠ j := by
      rintro rfl
      exact (clo_asym hP hclo hm).1 i i hij hij
    have hboth := pairwise_index (hto.and hpl.mono) hi' hj' hne
    rcases hboth with h | h
    · exact h.2
    · exact absurd h.1 ((clo_asym hP hclo hm).1 i j hij)

/-- The graph of a vertex has no cycle. -/
def AcyclicAt (P : Problem) (cfg : Cfg) (d : ND) : Prop :=
  usesPO cfg (msAt P cfg d) = true → ∃ rank : Nat → Nat,
    ∀ i j, (i, j) ∈ (poAll P cfg.tot cfg.clo cfg.compact (msAt P cfg d)).1.adj → rank i < rank j

/-- The graph of a vertex imposes no order on the subtasks of a method beyond the order of the method. -/
def ExactAt (P : Problem) (cfg : Cfg) (d : ND) : Prop :=
  usesPO cfg (msAt P cfg d) = true → ∀ m mp, (m, mp) ∈ (msAt P cfg d).zip (poAll P cfg.tot cfg.clo cfg.compact (msAt P cfg d)).2 →
    ∀ i < (P.sub m).length, ∀ j < (P.sub m).length,
      TransGen (fun c c' => (c, c') ∈ (poAll P cfg.tot cfg.clo cfg.compact (msAt P cfg d)).1.adj) (mp.getD i 0) (mp.getD j 0) →
      TransGen (P.OrdRel m) i j

theorem acyclic_tree {t : T} (h : ∀ p d, t.nd p = some d → AcyclicAt P cfg d) : Acyclic (adjAt P cfg t) t := by
  intro p _
  unfold adjAt
  cases hd : t.nd p with
  | none => exact ⟨id, by simp⟩
  | some d =>
    simp only
    cases hu : usesPO cfg (msAt P cfg d) with
    | true =>
      obtain ⟨r, hr⟩ := h p d hd hu
      refine ⟨r, fun i j hij => hr i j ?_⟩
      unfold sogAdj at hij
      unfold msAt at hu
      simp only [hu, if_true] at hij
      exact hij
    | false => exact ⟨id, fun i j hij => ((mem_sogAdj hu).1 hij).1⟩

theorem exact_tree (hP : P.WF) (hc : CfgOK P cfg) (hpo : cfg.po = true) {t : T} (h : ∀ p d, t.nd p = some d → ExactAt P cfg d)
    {p : Path} {m : Nat} {mp : List Nat} (hr : PoR P cfg t p m mp) : ExactR P (adjAt P cfg t) p m mp := by
  obtain ⟨hm, hmem, hw, d, hd, hx⟩ := hr
  have hclo := hc.clo hpo
  intro i hi j hj hij
  unfold adjAt at hij
  rw [hd] at hmem hij
  simp only at hmem hij
  cases hu : usesPO cfg (msAt P cfg d) with
  | true =>
    refine h p d hd hu m mp (hx.2 hu).2.2 i hi j hj ?_
    unfold sogAdj at hij
    unfold msAt at hu
    simp only [hu, if_true] at hij
    exact hij
  | false =>
    have hlt : mp.getD i 0 < mp.getD j 0 :=
      transGen_rank (rank := id) (fun a b hab => ((mem_sogAdj hu).1 hab).1) hij
    have hperm := hc.tot m hm
    have hto := hclo.total m hm (all_to hpo hu m hmem)
    have hboth := pairwise_index (hto.and (hx.1 hu).mono) (hperm.mem_iff.2 (List.mem_range.2 hi)) (hperm.mem_iff.2 (List.mem_range.2 hj))
      (by rintro rfl; omega)
    rcases hboth with h | h
    · exact (hclo.closed m hm i j).1 h.1
    · have := h.2; omega

end

section
variable {P : Problem} {cfg : Cfg} {o : SatOpts} {iter : List Nat → List Nat} {t : T} {n : Nat} {V : VM}

/-! ## The parts of the formula -/

/-- The parts of the formula. -/
structure PartsPO (P : Problem) (cfg : Cfg) (o : SatOpts) (iter : List Nat → List Nat) (t : T) (n : Nat) (V : VM) (n1 : Nat) (V' : VM)
    (l : List Item) (s : Nat × List Nat × List Clause) (M : MData) : Prop where
  vars : assignVars P t Flags.empty n V = (n1, V')
  size : (leafSog t (adjAt P cfg t) t.K []).1.length ≤ 65536
  mixed : (cfg.compact && (leafSog t (adjAt P cfg t) t.K []).1.any (mixedLeaf P t)) = false
  tree : treeItems P t V' Flags.empty = some l
  vs : M.vs = (leafSog t (adjAt P cfg t) t.K []).1
  acts : M.acts = poActs iter t M.vs
  steps : M.steps = poSteps P t M.vs
  np : M.np = (emit o.bits n1 (l ++ (noAbs t V').map .cl)).1
  nm : M.nm = s.1
  state : stateFormulaUnit P (M.np + M.steps * M.acts.length) M.vars = some s

/-- The formula from its parts. -/
def clausesPO (P : Problem) (cfg : Cfg) (o : SatOpts) (t : T) (n1 : Nat) (V' : VM) (l : List Item)
    (s : Nat × List Nat × List Clause) (M : MData) : Nat × List Clause :=
  let e := emit o.bits M.n1 (matchItems P t V' M)
  let x := emit o.bits (e.1 + M.vs.length * M.steps) (mutexPO P o s.2.1)
  (x.1, (emit o.bits n1 (l ++ (noAbs t V').map .cl)).2 ++ (s.2.2 ++ (e.2 ++
    (orderClauses M (leafSog t (adjAt P cfg t) t.K []).2 e.1 ++ x.2))))

theorem PartsPO.formula {n1 : Nat} {V' : VM} {l s M} (h : PartsPO P cfg o iter t n V n1 V' l s M) :
    depthFormulaPO P cfg o iter t n V = .formula V' (clausesPO P cfg o t n1 V' l s M).1 (clausesPO P cfg o t n1 V' l s M).2 M := by
  obtain ⟨vs, acts, steps, np, nm⟩ := M
  obtain ⟨h1, h2, h3, h4, h5, h6, h7, h8, h9, h10⟩ := h
  simp only at h5 h6 h7 h8 h9 h10
  subst h5 h6 h7 h8 h9
  unfold depthFormulaPO
  simp only [h1, h4]
  rw [if_neg (by omega), if_neg (by rw [h3]; simp)]
  have : stateFormulaUnit P ((emit o.bits n1 (l ++ (noAbs t V').map .cl)).1 +
      poSteps P t (leafSog t (adjAt P cfg t) t.K []).1 * (poActs iter t (leafSog t (adjAt P cfg t) t.K []).1).length)
      (MData.vars ⟨(leafSog t (adjAt P cfg t) t.K []).1, poActs iter t (leafSog t (adjAt P cfg t) t.K []).1,
        poSteps P t (leafSog t (adjAt P cfg t) t.K []).1, (emit o.bits n1 (l ++ (noAbs t V').map .cl)).1, 0⟩) = some s := h10
  rw [this]
  rfl

theorem PartsPO.of_formula {V' : VM} {n' : Nat} {cs : List Clause} {M : MData}
    (h : depthFormulaPO P cfg o iter t n V = .formula V' n' cs M) : ∃ n1 l s, PartsPO P cfg o iter t n V n1 V' l s M ∧
      (n', cs) = clausesPO P cfg o t n1 V' l s M := by
  unfold depthFormulaPO at h
  simp only at h
  split_ifs at h with h1 h2
  cases hl : treeItems P t (assignVars P t Flags.empty n V).2 Flags.empty with
  | none => rw [hl] at h; simp at h
  | some l =>
    rw [hl] at h
    simp only at h
    generalize hs : stateFormulaUnit P _ _ = ss at h
    cases ss with
    | none => simp at h
    | some s =>
      simp only [FResPO.formula.injEq] at h
      obtain ⟨rfl, rfl, rfl, rfl⟩ := h
      exact ⟨_, l, s, ⟨rfl, by omega, Bool.eq_false_iff.2 h2, hl, rfl, rfl, rfl, rfl, rfl, hs⟩, rfl⟩

end

end Verif.Pdt
