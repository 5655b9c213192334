import Verif.Props.SatPrint

/-! # C89: the order printed by the SAT planner for totally ordered problems -/

namespace Verif.Pdt

/-- The lines with the implied order (sat_planner.cpp 126-134): number of the action, how many numbers follow, the numbers.
`leafsWithTask` has the printed leaves in the order of the plan. -/
def orderTO (acts : List (Nat × Nat)) : List (Nat × Nat × List Nat) :=
  (List.range acts.length).map fun l =>
    ((acts.getD l (0, 0)).1, acts.length - l - 1, (List.range' (l + 1) (acts.length - (l + 1))).map fun k => (acts.getD k (0, 0)).1)

end Verif.Pdt

namespace Verif.Props

open Verif.Htn Verif.Pdt Verif.Sog Verif.Sat Verif.Inv

theorem orderTO_range {acts : List (Nat × Nat)} {n : Nat} (h : acts.map Prod.fst = List.range n) :
    orderTO acts = (List.range n).map fun l => (l, n - l - 1, List.range' (l + 1) (n - (l + 1))) := by
  have hn : acts.length = n := by have := congrArg List.length h; simpa using this
  have hg : ∀ k < n, (acts.getD k (0, 0)).1 = k := by
    intro k hk
    have h1 : (acts.map Prod.fst)[k]? = some k := by rw [h, List.getElem?_range hk]
    rw [List.getElem?_map] at h1
    rw [List.getD_eq_getElem?_getD]
    cases ha : acts[k]? with
    | none => rw [ha] at h1; simp at h1
    | some e => rw [ha] at h1; simpa using h1
  unfold orderTO
  rw [hn]
  refine List.map_congr_left fun l hl => ?_
  rw [List.mem_range] at hl
  rw [hg l hl]
  congr 2
  conv_rhs => rw [← List.map_id (List.range' (l + 1) (n - (l + 1)))]
  refine List.map_congr_left fun k hk => ?_
  rw [List.mem_range'_1] at hk
  exact hg k (by omega)

theorem leaf_before_irrefl {P : Problem} (hP : P.WF) {t : Nat} {tr : Tree} (hv : Valid P t tr) :
    ∀ q a, LeafAt P tr q a → ¬ Before P tr q q := by
  induction hv with
  | leaf h => intro q a _ h; cases h
  | @node m cs hm hc ih =>
    intro q a hl h
    rw [leafAt_node] at hl
    obtain ⟨i, q, rfl, hi, hl⟩ := hl
    rcases before_node_iff.1 h with h | h
    · exact ih i _ (List.getElem?_eq_getElem hi) q a hl h.2
    · obtain ⟨rank, hr⟩ := hP.ord_acyclic m hm
      exact absurd (transGen_rank hr h) (by omega)

/-- C89: with the option for printing the order there is one line per printed action, in the order of the plan, with the
number of the action, the number of the actions that follow and their numbers.  For a decomposition that the printed lines
describe and its linearisation, which is the plan: the line of an action has exactly the actions that have to be executed
after it in the decomposition. -/
theorem C89_printed_order (P : Problem) (cfg : Cfg) (o : SatOpts) (hin : SatInput P cfg o) (hcf : cfg.compact = false)
    (solve : List Clause → Option Assignment) (hsat : ∀ cs w, solve cs = some w → satAll w cs) (fuel K : Nat) (out : SatOut)
    (h : satRun P cfg o solve fuel 1 0 (fun _ => none) = some (K, out)) :
    (orderTO out.acts).map Prod.fst = out.acts.map Prod.fst ∧
    (∀ x ∈ orderTO out.acts, x.2.1 = x.2.2.length ∧ x.2.2.Nodup ∧ ∀ y ∈ x.2.2, y ∈ out.acts.map Prod.fst) ∧
    ∃ tr k occ, Valid P P.init tr ∧ out.root = some k ∧ Reads P cfg.tot out.acts out.decs k tr ∧
      Linearises P tr occ (out.acts.map Prod.snd) ∧
      ∀ (i j : Nat) (hi : i < occ.length) (hj : j < occ.length) (x y : Nat), (out.acts.map Prod.fst)[i]? = some x →
        (out.acts.map Prod.fst)[j]? = some y →
        ((∃ c ys, (x, c, ys) ∈ orderTO out.acts ∧ y ∈ ys) ↔ Before P tr occ[i] occ[j]) := by
  obtain ⟨h1, -⟩ := satRun_spec hin (fun K => C52_defined P hin.wf cfg hin.conf hcf K) hsat fuel 1 0 (fun _ => none) (vmInv_empty _ _)
  obtain ⟨-, tr, k, n, j, ho⟩ := h1 K out h
  have hor := orderTO_range ho.actIds
  have hp := canon_pairwise hin.wf hin.tot ho.valid
  have hlen : (canon cfg.tot tr).length = n := by
    have h1 := congrArg List.length ho.plan
    have h2 := congrArg List.length ho.actIds
    rw [← canon_snd] at h1
    simp only [List.length_map, List.length_range] at h1 h2
    omega
  refine ⟨?_, ?_, tr, k, _, ho.valid, ho.root, ho.reads, by rw [ho.plan]; exact linearises_canon hin.wf hin.tot ho.valid, ?_⟩
  · rw [hor, ho.actIds, List.map_map]
    conv_rhs => rw [← List.map_id (List.range n)]
    rfl
  · intro x hx
    rw [hor] at hx
    obtain ⟨l, hl, rfl⟩ := List.mem_map.1 hx
    rw [List.mem_range] at hl
    refine ⟨by simp only [List.length_range']; omega, List.nodup_range', fun y hy => ?_⟩
    rw [List.mem_range'_1] at hy
    rw [ho.actIds, List.mem_range]
    omega
  · intro i j' hi hj x y hx hy
    rw [List.length_map, hlen] at hi hj
    rw [ho.actIds, List.getElem?_range hi] at hx
    rw [ho.actIds, List.getElem?_range hj] at hy
    obtain rfl := Option.some.inj hx
    obtain rfl := Option.some.inj hy
    have key : (∃ c ys, (i, c, ys) ∈ orderTO out.acts ∧ j' ∈ ys) ↔ i < j' := by
      rw [hor]
      constructor
      · rintro ⟨c, ys, h, hy⟩
        obtain ⟨l, -, h⟩ := List.mem_map.1 h
        simp only [Prod.mk.injEq] at h
        obtain ⟨rfl, -, rfl⟩ := h
        rw [List.mem_range'_1] at hy
        omega
      · intro h
        exact ⟨_, _, List.mem_map.2 ⟨i, List.mem_range.2 hi, rfl⟩, by rw [List.mem_range'_1]; omega⟩
    rw [key, List.getElem_map, List.getElem_map]
    rw [List.pairwise_iff_getElem] at hp
    constructor
    · intro h
      exact (hp i j' (by omega) (by omega) h).1
    · intro h
      rcases Nat.lt_trichotomy i j' with h' | h' | h'
      · exact h'
      · subst h'
        exact absurd h (leaf_before_irrefl hin.wf ho.valid _ _
          ((mem_canon hin.wf hin.tot ho.valid _ (canon cfg.tot tr)[i].2).1 (List.getElem_mem _)))
      · exact absurd h (hp j' i (by omega) (by omega) h').2.1

/-- The lines for the decomposition of C56 with four actions. -/
example : orderTO [(0, 0), (1, 1), (2, 0), (3, 1)] = [(0, 3, [1, 2, 3]), (1, 2, [2, 3]), (2, 1, [3]), (3, 0, [])] := by decide

/-- Something is printed for the problem of C52, with its order. -/
example : ∃ fuel K out, satRun pdtP pdtCfg ⟨fun k => k, .h2, true, none⟩ idealSolver fuel 1 0 (fun _ => none) = some (K, out) ∧
    (orderTO out.acts).map Prod.fst = out.acts.map Prod.fst := by
  obtain ⟨fuel, K, π, h⟩ := ((C55_stops_at_least_depth _ _ _ (pdt_input .h2 true none) rfl (fun G B h => by simp at h) _
    idealSolver_ok).2.1).2 ⟨[0, 1], pdtP_solution.isSolution, fun a _ => pdtP_noClash a⟩
  obtain ⟨out, ho⟩ := (C56_printed_decomposition _ _ _ (pdt_input .h2 true none) rfl _ idealSolver_ok.sat fuel).2 K π h
  exact ⟨fuel, K, out, ho, (C89_printed_order _ _ _ (pdt_input .h2 true none) rfl _ idealSolver_ok.sat fuel K out ho).1⟩

end Verif.Props
