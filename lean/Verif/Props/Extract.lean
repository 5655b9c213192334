import Verif.SearchReached
import Verif.Props.EndToEnd

/-! # C08: the printed decomposition hierarchy -/

namespace Verif.Props

open Verif.Htn Verif.Prog Relation

variable {P : Problem} {cfg : Cfg} {V F H : Type}
variable {E : Env V F H} {items : F → List SNode} {v0 : V} {f0 : F} {hs0 : H} {eval : SNode → Option Int}

/-- **C08.**  The output for the solution found is a description of one valid decomposition tree of the
initial task: there is an injective numbering of the positions of the tree such that the number after
`root` is that of the root, the lines of the hierarchy are exactly the inner nodes, each once, with
task, method, and the numbers of all its children in subtask order, and the plan lines are exactly
the leaves, in an order that respects all ordering constraints, and whose actions are executable in the
initial state and reach the goal. -/
theorem C08_printed_hierarchy (hP : P.WF) (hcfg : cfg.Ok) (hF : FringeOK E f0 items eval)
    {fuel n s'} (h : search P cfg E fuel v0 f0 hs0 = some (.solved n, s')) :
    ∃ tr num occ, Valid P P.init tr ∧ Describes P (extract P n.node.sol) tr num occ ∧
      ∃ st, Exec P P.initState ((extract P n.node.sol).plan.map Prod.snd) st ∧ P.GoalState st := by
  obtain ⟨hr, hg⟩ := search_reached hP hcfg hF h
  obtain ⟨tr, num, occ, h1, h2, h3⟩ := hr.describes hP hcfg hg
  obtain ⟨-, -, -, -, hx⟩ := (search_sound hP hcfg hF h).isSolution
  exact ⟨tr, num, occ, h1, h2, by rw [h3]; exact hx⟩

/-- **C08** for every goal node that the progression can produce, however the search proceeds. -/
theorem C08_goal_nodes (hP : P.WF) (hcfg : cfg.Ok) {g n} (hr : Reached P cfg g n)
    (hg : isGoal P n = true) :
    ∃ tr num occ, Valid P P.init tr ∧ Describes P (extract P n.sol) tr num occ := by
  obtain ⟨tr, num, occ, h1, h2, -⟩ := hr.describes hP hcfg hg
  exact ⟨tr, num, occ, h1, h2⟩

theorem SubAt.pre {tr : Tree} {p t} (h : SubAt P tr p t) {c i} (e : p = c ++ [i]) :
    ∃ m cs, SubAt P tr c (.node m cs) ∧ i < (P.sub m).length := by
  induction h generalizing c with
  | here => simp at e
  | @child m cs j p t hj _ ih =>
    cases c with
    | nil =>
      simp only [List.nil_append, List.cons.injEq] at e
      exact ⟨m, cs, .here, e.1 ▸ hj⟩
    | cons a c =>
      simp only [List.cons_append, List.cons.injEq] at e
      obtain ⟨rfl, e⟩ := e
      obtain ⟨m', cs', h1, h2⟩ := ih e
      exact ⟨m', cs', .child hj h1, h2⟩

/-- **C08** (consequences for a reader of the output).  No number is printed at the beginning of two
lines; the root has a line; every number listed as a child has a line; and every line but the one of the
root is listed as a child by exactly one line, once. -/
theorem C08_lines (hP : P.WF) (hcfg : cfg.Ok) {g n} (hr : Reached P cfg g n) (hg : isGoal P n = true) :
    let out := extract P n.sol
    let lines := out.plan.map Prod.fst ++ out.decs.map Prod.fst
    lines.Nodup ∧ (∃ k, out.root = some k ∧ k ∈ out.decs.map Prod.fst) ∧
      ((out.decs.flatMap fun d => d.2.2.2).Perm (lines.filter fun k => decide (out.root ≠ some k))) := by
  classical
  intro out lines
  obtain ⟨tr, num, occ, hv, D⟩ := C08_goal_nodes hP hcfg hr hg
  obtain ⟨nodes, d1, d2, d3⟩ := D.decs
  have hd : out.decs.map Prod.fst = nodes.map fun pm => num pm.1 := by
    show (extract P n.sol).decs.map Prod.fst = _
    rw [d3, List.map_map]; rfl
  have hlin : lines = (occ ++ nodes.map Prod.fst).map num := by
    show out.plan.map Prod.fst ++ out.decs.map Prod.fst = _
    rw [hd, List.map_append, ← D.plan, List.map_map]; rfl
  have hpos : ∀ p, p ∈ occ ++ nodes.map Prod.fst ↔ ∃ t, SubAt P tr p t := by
    intro p
    rw [List.mem_append, D.lin.all, List.mem_map]
    constructor
    · rintro (⟨a, ha⟩ | ⟨⟨q, m⟩, hq, rfl⟩)
      · exact ⟨_, leafAt_iff.1 ha⟩
      · obtain ⟨cs, hs⟩ := (d2 q m).1 hq; exact ⟨_, hs⟩
    · rintro ⟨t, ht⟩
      cases t with
      | leaf a => exact .inl ⟨a, leafAt_iff.2 ht⟩
      | node m cs => exact .inr ⟨(p, m), (d2 p m).2 ⟨cs, ht⟩, rfl⟩
  have hpn : (occ ++ nodes.map Prod.fst).Nodup := by
    refine List.nodup_append.2 ⟨D.lin.nodup, ?_, ?_⟩
    · refine (List.nodup_map_iff_inj_on d1).2 ?_
      rintro ⟨p, m⟩ hp ⟨q, m'⟩ hq e
      obtain ⟨cs, h1⟩ := (d2 p m).1 hp
      obtain ⟨cs', h2⟩ := (d2 q m').1 hq
      obtain rfl : p = q := e
      have := h1.fun h2
      simp only [Tree.node.injEq] at this
      rw [this.1]
    · rintro p hp q hq rfl
      obtain ⟨a, ha⟩ := (D.lin.all p).1 hp
      obtain ⟨⟨q, m⟩, hqm, rfl⟩ := List.mem_map.1 hq
      obtain ⟨cs, hs⟩ := (d2 q m).1 hqm
      have := (leafAt_iff.1 ha).fun hs
      simp at this
  have hln : lines.Nodup := by
    rw [hlin]
    refine (List.nodup_map_iff_inj_on hpn).2 fun p hp q hq e => ?_
    obtain ⟨t, ht⟩ := (hpos p).1 hp
    obtain ⟨t', ht'⟩ := (hpos q).1 hq
    exact D.inj p q t t' ht ht' e
  have hroot : ∃ m cs, tr = .node m cs := by
    cases tr with
    | leaf a =>
      generalize ht : P.init = t at hv
      cases hv with
      | leaf ha => rw [← ht, hP.init_abs] at ha; simp at ha
    | node m cs => exact ⟨m, cs, rfl⟩
  refine ⟨hln, ⟨num [], D.root, ?_⟩, ?_⟩
  · obtain ⟨m, cs, rfl⟩ := hroot
    rw [hd]
    exact List.mem_map.2 ⟨([], m), (d2 [] m).2 ⟨cs, .here⟩, rfl⟩
  · have hch : out.decs.flatMap (fun d => d.2.2.2) =
        (nodes.flatMap fun pm => (List.range (P.sub pm.2).length).map fun i : Nat => pm.1 ++ [i]).map num := by
      show (extract P n.sol).decs.flatMap (fun d => d.2.2.2) = _
      rw [d3, List.flatMap_map, List.map_flatMap]
      simp only [List.map_map, Function.comp_def]
    have hmem : ∀ p, p ∈ (nodes.flatMap fun pm =>
        (List.range (P.sub pm.2).length).map fun i : Nat => pm.1 ++ [i]) ↔ p ≠ [] ∧ ∃ t, SubAt P tr p t := by
      intro p
      simp only [List.mem_flatMap, List.mem_map, List.mem_range]
      constructor
      · rintro ⟨⟨q, m⟩, hq, i, hi, rfl⟩
        obtain ⟨cs, hs⟩ := (d2 q m).1 hq
        exact ⟨by simp, _, hs.snoc hi⟩
      · rintro ⟨hne, t, ht⟩
        rcases List.eq_nil_or_concat p with rfl | ⟨q, i, rfl⟩
        · exact absurd rfl hne
        · rw [List.concat_eq_append] at ht ⊢
          obtain ⟨m, cs, h1, h2⟩ := SubAt.pre ht rfl
          exact ⟨(q, m), (d2 q m).2 ⟨cs, h1⟩, i, h2, rfl⟩
    have hcn : (nodes.flatMap fun pm =>
        (List.range (P.sub pm.2).length).map fun i : Nat => pm.1 ++ [i]).Nodup := by
      refine List.nodup_flatMap.2 ⟨fun pm _ => ?_, ?_⟩
      · exact List.nodup_range.map fun a b e => by simpa using e
      · refine d1.imp_of_mem ?_
        rintro ⟨p, m⟩ ⟨q, m'⟩ hp hq hne
        intro x hx hy
        obtain ⟨i, -, rfl⟩ := List.mem_map.1 hx
        obtain ⟨j, -, e⟩ := List.mem_map.1 hy
        obtain ⟨e1, -⟩ := append_singleton_inj e
        have e1 : q = p := e1
        subst e1
        obtain ⟨cs, h1⟩ := (d2 q m).1 hp
        obtain ⟨cs', h2⟩ := (d2 q m').1 hq
        have := h1.fun h2
        simp only [Tree.node.injEq] at this
        exact hne (by rw [this.1])
    rw [hch]
    refine (List.perm_ext_iff_of_nodup ?_ (hln.filter _)).2 fun k => ?_
    · refine (List.nodup_map_iff_inj_on hcn).2 fun p hp q hq e => ?_
      obtain ⟨-, t, ht⟩ := (hmem p).1 hp
      obtain ⟨-, t', ht'⟩ := (hmem q).1 hq
      exact D.inj p q t t' ht ht' e
    · rw [List.mem_filter, hlin]
      simp only [List.mem_map, decide_eq_true_eq]
      have hro : out.root = some (num []) := D.root
      rw [hro]
      constructor
      · rintro ⟨p, hp, rfl⟩
        obtain ⟨hne, t, ht⟩ := (hmem p).1 hp
        refine ⟨⟨p, (hpos p).2 ⟨t, ht⟩, rfl⟩, fun e => hne ?_⟩
        exact (D.inj [] p _ _ .here ht (Option.some.inj e)).symm
      · rintro ⟨⟨p, hp, rfl⟩, hne⟩
        refine ⟨p, (hmem p).2 ⟨fun e => hne (by rw [e]), (hpos p).1 hp⟩, rfl⟩

/-- The hypotheses are met: the search finds a solution of the example problem; the output for it. -/
example : ((search exP exCfg ((exOpts false).env insNone) 30 () emptyFringe ()).map fun r =>
      match r.1 with
      | .solved n => extract exP n.node.sol
      | _ => ⟨[], none, []⟩) =
    some ⟨[(2, 3), (3, 1), (6, 2)], some 0, [(4, 4, 1, [6]), (0, 0, 0, [3, 4, 2])]⟩ := by
  decide +kernel

end Verif.Props
