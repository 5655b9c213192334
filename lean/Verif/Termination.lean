import Verif.Auto
import Mathlib.Algebra.Order.BigOperators.Group.Finset

/-! # Termination of `apply` and `decompose`

The model uses fuel for the loops; here we show that enough fuel always exists and that then
neither undefined behaviour nor an endless loop occurs. -/

namespace Verif.Prog

open Verif.Htn Verif.TaskCounter Relation

variable {P : Problem} {cfg : Cfg}

theorem sum_flatMap_succs {h : Heap} {w : Nat → Nat} (hw : ∀ x, ((succsOf h x).map w).sum < w x)
    (l : List Nat) : ((l.flatMap (succsOf h)).map w).sum ≤ (l.map w).sum := by
  induction l with
  | nil => simp
  | cons a l ih =>
    simp only [List.flatMap_cons, List.map_append, List.sum_append, List.map_cons, List.sum_cons]
    have := hw a; omega

theorem sum_nodup_le {w : Nat → Nat} {N : Nat} {l : List Nat} (hn : l.Nodup) (hl : ∀ x ∈ l, x < N) :
    (l.map w).sum ≤ ∑ x ∈ Finset.range N, w x := by
  classical
  rw [← List.sum_toFinset w hn]
  exact Finset.sum_le_sum_of_subset (fun x hx => Finset.mem_range.2 (hl x (by simpa using hx)))

/-- Enough fuel for the candidate loop of every node over this heap. -/
theorem initPreds_weight {h : Heap} {w : Nat → Nat} (hw : ∀ x, ((succsOf h x).map w).sum < w x)
    {n : Node} (hn : NodeOK P h n) {i u ps} (hu : n.prims[i]? = some u) (hps : h[u]? = some ps) :
    (((initPreds h n i ps.succs).reverse).map w).sum ≤ ∑ x ∈ Finset.range h.length, w x := by
  have hsucc : succsOf h u = ps.succs := by simp [succsOf, hps]
  have h1 := sum_flatMap_succs hw ps.succs
  have h2 := sum_flatMap_succs hw n.abs
  have h3 := sum_flatMap_succs hw (n.prims.eraseIdx i)
  have h4 := hw u
  rw [hsucc] at h4
  have h5 := sum_nodup_le (w := w) hn.nodup hn.lt
  have h6 : (n.firsts.map w).sum = w u + ((n.prims.eraseIdx i).map w).sum + (n.abs.map w).sum := by
    unfold Node.firsts
    rw [List.map_append, List.sum_append, ((eraseIdx_perm hu).map w).sum_eq]
    simp
  unfold initPreds
  rw [List.map_reverse, List.sum_reverse]
  simp only [List.map_append, List.sum_append]
  omega

theorem applyBase_total {w : Nat → Nat} {g : Glob} {n : Node} {i u f}
    (hw : ∀ x, ((succsOf g.heap x).map w).sum < w x)
    (hg : Good P cfg g.heap n) (hsol : n.sol ≠ [])
    (hu : n.prims[i]? = some u) (hf : ∑ x ∈ Finset.range g.heap.length, w x < f) :
    ∃ g' n', applyBase P cfg f g n i = some (g', n') := by
  classical
  have huf : u ∈ n.firsts := List.mem_append_left _ (List.mem_of_getElem? hu)
  have hlt := hg.node.lt u huf
  have hps : g.heap[u]? = some g.heap[u] := List.getElem?_eq_getElem hlt
  set ps := g.heap[u]
  obtain ⟨pf, hpf⟩ := candLoop_terminates hw f ps.succs.dedup (initPreds g.heap n i ps.succs).reverse []
    (Nat.lt_of_le_of_lt (initPreds_weight hw hg.node hu hps) hf)
  have hc : ∃ c, counterA cfg n.contained ps.task = some c := by
    unfold counterA
    split
    · rename_i ht
      have hco := hg.counter ht
      have : 0 < cnt n.contained ps.task := by
        rw [hco.2]
        refine Finset.card_pos.2 ⟨u, Finset.mem_filter.2 ⟨(hg.node.first_min hg.heap huf).1, ?_⟩⟩
        simp [taskOf, hps]
      obtain ⟨r, hr, -⟩ := updA_spec hco.1 this
      exact ⟨r, hr⟩
    · exact ⟨[], rfl⟩
  obtain ⟨c, hc⟩ := hc
  have hsol' : n.sol.isEmpty = false := by cases h : n.sol <;> simp_all
  unfold applyBase
  simp [hu, hps, hpf, hc, hsol']

theorem Chain.sol_ne {h i n us j n'} (c : Chain P cfg h i n us j n') (hs : n.sol ≠ []) : n'.sol ≠ [] := by
  have := c.acc.2.2.2.2.2
  intro h0
  rw [h0] at this
  have : 0 < n.sol.length := List.length_pos_of_ne_nil hs
  simp at *; omega

theorem Chain.live_le (hP : P.WF) (hcfg : cfg.Ok) {h i n us j n'} (hg : Good P cfg h n)
    (c : Chain P cfg h i n us j n') : (live h n').card ≤ (live h n).card := by
  induction c with
  | nil => exact Nat.le_refl _
  | step a f _ ih =>
    obtain ⟨hu, hg1, hl, -⟩ := a.inv hP hcfg hg
    have := ih hg1
    rw [hl] at this
    exact Nat.le_trans this (Finset.card_erase_le)
  | flag d _ ih => exact ih hg.flag

/-- Automatic progression is total if the recursive calls are. -/
theorem post_total (hP : P.WF) (hcfg : cfg.Ok) {f fuel : Nat} {g : Glob} {n : Node} {start : Nat}
    (hg : Good P cfg g.heap n) (hsol : n.sol ≠ []) (hfuel : 2 ≤ fuel)
    (heff : cfg.effLess = true → g.eff = effIdx P g.heap n.state n.prims start)
    (happ : ∀ g2 n2 i u, g2.heap = g.heap → Good P cfg g.heap n2 → n2.sol ≠ [] →
      (live g.heap n2).card ≤ (live g.heap n).card → n2.prims[i]? = some u →
      P.Applicable (holds n2.state) (taskOf g.heap u) → ∃ g' n', apply P cfg f g2 n2 i = some (g', n')) :
    ∃ g' n', post P cfg (apply P cfg f) fuel g n = some (g', n') := by
  obtain ⟨fuel, rfl⟩ : ∃ k, fuel = k + 2 := ⟨fuel - 2, by omega⟩
  have key : ∃ g1 n1, effPart cfg (apply P cfg f) (fuel + 2) g n = some (g1, n1) ∧ g1.heap = g.heap ∧
      Good P cfg g.heap n1 ∧ n1.sol ≠ [] ∧ (live g.heap n1).card ≤ (live g.heap n).card := by
    unfold effPart
    split
    · rename_i he
      have heff := heff he
      cases hl : g.eff with
      | nil =>
        have hgf : g.getFirst = (g, none) := by simp [Glob.getFirst, hl]
        rw [hgf]
        exact ⟨g, n, rfl, rfl, hg, hsol, Nat.le_refl _⟩
      | cons j l =>
        have hgf : g.getFirst = ({ g with it := 0 }, some j) := by simp [Glob.getFirst, hl]
        rw [hgf]
        have hj : j ∈ effIdx P g.heap n.state n.prims start := by rw [← heff, hl]; simp
        obtain ⟨hjl, -, hfree, happl⟩ := mem_effIdx.1 hj
        have hju : n.prims[j]? = some n.prims[j] := List.getElem?_eq_getElem hjl
        rw [hju] at hfree happl
        obtain ⟨g2, n2, ha⟩ := happ { g with it := 0 } n j _ rfl hg hsol (Nat.le_refl _) hju happl
        obtain ⟨e1, e2, n3, us, e3, e4⟩ := apply_chain f { g with it := 0 } _ _ _ _ _ hju happl ha
        have e2 := e2 he
        have hgn : g2.getNext.2 = none := by simp [Glob.getNext, e2]
        have hc : Chain P cfg g.heap g.inst n (n.prims[j] :: us) g2.inst n2 := .step e3 (.inl hfree) e4
        refine ⟨g2.getNext.1, n2, ?_, e1, (hc.inv hP hcfg hg).1, hc.sol_ne hsol, hc.live_le hP hcfg hg⟩
        simp only [effLoop, ha, hgn]
    · exact ⟨g, n, rfl, rfl, hg, hsol, Nat.le_refl _⟩
  obtain ⟨g1, n1, h1, h2, h3, h4, h5⟩ := key
  simp only [post, h1, Option.bind_eq_bind, Option.bind_some]
  split
  · unfold oneModStep
    split
    · split
      · exact ⟨_, _, rfl⟩
      · rename_i j hj
        have hmem : j ∈ (List.range n1.prims.length).filter
            (fun j => isApplicable P n1.state (taskOf g1.heap (n1.prims[j]?.getD 0))) := by rw [hj]; simp
        simp only [List.mem_filter, List.mem_range, isApplicable_iff, h2] at hmem
        have hju : n1.prims[j]? = some n1.prims[j] := List.getElem?_eq_getElem hmem.1
        exact happ g1 n1 j _ h2 h3 h4 h5 hju (by simpa [hju] using hmem.2)
      · exact ⟨_, _, rfl⟩
    · exact ⟨_, _, rfl⟩
  · exact ⟨_, _, rfl⟩

/-- With fuel above the given bound `apply` is defined. -/
theorem apply_total_aux (hP : P.WF) (hcfg : cfg.Ok) {h : Heap} {w : Nat → Nat}
    (hw : ∀ x, ((succsOf h x).map w).sum < w x) : ∀ (k : Nat) (g : Glob) (n : Node) (i u f : Nat), g.heap = h →
      Good P cfg h n → n.sol ≠ [] → (live h n).card ≤ k → n.prims[i]? = some u →
      P.Applicable (holds n.state) (taskOf h u) →
      (∑ x ∈ Finset.range h.length, w x) + 3 + k ≤ f → ∃ g' n', apply P cfg f g n i = some (g', n') := by
  intro k
  induction k with
  | zero =>
    intro g n i u f _ hg hsol hk hu _ _
    have hul := (hg.node.first_min hg.heap (List.mem_append_left _ (List.mem_of_getElem? hu))).1
    have := Finset.card_pos.2 ⟨u, hul⟩
    omega
  | succ k ih =>
    intro g n i u f hheap hg hsol hk hu happ hf
    subst hheap
    obtain ⟨f, rfl⟩ : ∃ f', f = f' + 1 := ⟨f - 1, by omega⟩
    obtain ⟨g1, n1, hb⟩ := applyBase_total (cfg := cfg) (f := f) hw hg hsol hu (by omega)
    obtain ⟨u', ps, pf, c, -, -, -, -, -, hheap, hinst, -, -, -, -, -, -, -, -, -, heff⟩ := applyBase_some hb
    have ha : AStep P cfg g.heap g.inst n u n1 := ⟨i, f, g, g1, rfl, rfl, hu, happ, hb⟩
    obtain ⟨hup, hg1, hl, -⟩ := ha.inv hP hcfg hg
    have hul := (hg.node.first_min hg.heap (List.mem_append_left _ hup)).1
    have hcard : (live g.heap n1).card ≤ k := by
      rw [hl, Finset.card_erase_of_mem hul]; omega
    simp only [apply, hb, Option.bind_eq_bind, Option.bind_some]
    obtain ⟨ps, hps, hs1, -⟩ := ha.sol
    refine post_total hP hcfg (start := 0) (by rwa [hheap]) (by rw [hs1]; simp) (by omega)
      (fun he => by rw [heff, if_pos he, hheap]) ?_
    intro g2 n2 j v h1 h2 h3 h4 h5 h6
    rw [hheap] at *
    exact ih g2 n2 j v f h1 h2 h3 (by omega) h5 h6 (by omega)

/-- A fuel bound for a heap. -/
theorem fuel_exists (hP : P.WF) (hcfg : cfg.Ok) {h : Heap} (hh : HeapOK h) :
    ∃ F, ∀ f, F ≤ f → ∀ (g : Glob) (n : Node) (i u : Nat), g.heap = h →
      Good P cfg h n → n.sol ≠ [] → n.prims[i]? = some u →
      P.Applicable (holds n.state) (taskOf h u) → ∃ g' n', apply P cfg f g n i = some (g', n') := by
  obtain ⟨w, hw⟩ := hh.weight
  refine ⟨(∑ x ∈ Finset.range h.length, w x) + 3 + h.length, fun f hf g n i u hg h1 h2 h3 h4 => ?_⟩
  refine apply_total_aux hP hcfg hw h.length g n i u f hg h1 h2 ?_ h3 h4 hf
  have : live h n ⊆ Finset.range h.length := fun v hv => by
    simp only [live, Finset.mem_filter] at hv; exact hv.1
  simpa using Finset.card_le_card this

theorem decomposeBase_total {g : Glob} {n : Node} {j u m}
    (hg : Good P cfg g.heap n) (hu : n.abs[j]? = some u) (hhead : P.head m = taskOf g.heap u) :
    ∃ g' n', decomposeBase P cfg g n j m = some (g', n') := by
  classical
  have huf : u ∈ n.firsts := List.mem_append_right _ (List.mem_of_getElem? hu)
  have hlt := hg.node.lt u huf
  have hps : g.heap[u]? = some g.heap[u] := List.getElem?_eq_getElem hlt
  have hc : ∃ c, counterM P cfg n.contained m = some c := by
    unfold counterM
    split
    · rename_i ht
      have hco := hg.counter ht
      have : 0 < cnt n.contained (P.head m) := by
        rw [hco.2]
        exact Finset.card_pos.2 ⟨u, Finset.mem_filter.2 ⟨(hg.node.first_min hg.heap huf).1, hhead.symm⟩⟩
      obtain ⟨r, hr, -⟩ := updM_spec hco.1 (distinctSubs_spec (P := P) m).1 this
      exact ⟨r, hr⟩
    · exact ⟨[], rfl⟩
  obtain ⟨c, hc⟩ := hc
  unfold decomposeBase
  simp [hu, hps, hc]

theorem decomposeBase_good (hP : P.WF) {g g' : Glob} {n n' : Node} {j u m}
    (hg : Good P cfg g.heap n) (hm : m < P.numMethods) (hu : n.abs[j]? = some u)
    (hhead : P.head m = taskOf g.heap u) (hd : decomposeBase P cfg g n j m = some (g', n')) :
    Good P cfg g'.heap n' := by
  obtain ⟨h1, h2, -, -⟩ := decomposeBase_inv hP hg.heap hg.node hm hd hu
  exact ⟨h1, h2, fun ht => decomposeBase_counter hP hg.heap hg.node hm hd hu hhead ht (hg.counter ht)⟩

theorem decompose_total (hP : P.WF) (hcfg : cfg.Ok) {g : Glob} {n : Node} {j u m}
    (hg : Good P cfg g.heap n) (hm : m < P.numMethods) (hu : n.abs[j]? = some u)
    (hhead : P.head m = taskOf g.heap u) :
    ∃ F, ∀ f, F ≤ f → ∃ g' n', decompose P cfg f g n j m = some (g', n') := by
  obtain ⟨g1, n1, hd⟩ := decomposeBase_total hg hu hhead
  have hg1 := decomposeBase_good hP hg hm hu hhead hd
  obtain ⟨F, hF⟩ := fuel_exists hP hcfg hg1.heap
  refine ⟨F + 2, fun f hf => ?_⟩
  obtain ⟨u', ps, c, -, -, -, -, -, -, -, -, -, hsol, -, -, -, -, heff⟩ := decomposeBase_some hd
  simp only [decompose, hd, Option.bind_eq_bind, Option.bind_some]
  refine post_total hP hcfg (start := n.prims.length) hg1 (by rw [hsol]; simp) (by omega)
    (fun he => by rw [heff, if_pos he]) ?_
  intro g2 n2 i v h1 h2 h3 _ h5 h6
  exact hF f (by omega) g2 n2 i v h1 h2 h3 h5 h6

end Verif.Prog
