import Verif.Termination

/-! # Nodes are not affected by steps created later -/

namespace Verif.Prog

open Verif.Htn Verif.TaskCounter Relation

variable {P : Problem} {cfg : Cfg} {h h' : Heap}

theorem prefix_get (hp : h <+: h') {u} (hu : u < h.length) : h'[u]? = h[u]? := by
  obtain ⟨t, rfl⟩ := hp
  exact List.getElem?_append_left hu

theorem prefix_edge (hp : h <+: h') {u v} (hu : u < h.length) : Edge h' u v ↔ Edge h u v := by
  unfold Edge; rw [prefix_get hp hu]

theorem prefix_reach (hp : h <+: h') (hh : HeapOK h) {u v} (hu : u < h.length) :
    ReflTransGen (Edge h') u v ↔ ReflTransGen (Edge h) u v := by
  constructor
  · intro hr
    induction hr with
    | refl => exact .refl
    | tail _ he ih => exact ih.tail ((prefix_edge hp (reach_lt hh hu ih)).1 he)
  · intro hr
    induction hr with
    | refl => exact .refl
    | tail _ he ih => exact ih.tail ((prefix_edge hp (edge_lt he)).2 he)

theorem prefix_trans (hp : h <+: h') (hh : HeapOK h) {u v} (hu : u < h.length) :
    TransGen (Edge h') u v ↔ TransGen (Edge h) u v := by
  rw [TransGen.head'_iff, TransGen.head'_iff]
  refine exists_congr fun w => ?_
  rw [prefix_edge hp hu]
  exact and_congr_right fun he => prefix_reach hp hh (hh.succ_lt _ _ he)

theorem prefix_taskOf (hp : h <+: h') {u} (hu : u < h.length) : taskOf h' u = taskOf h u := by
  unfold taskOf; rw [prefix_get hp hu]

theorem prefix_live (hp : h <+: h') (hh : HeapOK h) (hh' : HeapOK h') {n : Node}
    (hn : ∀ u ∈ n.firsts, u < h.length) : live h' n = live h n := by
  ext v
  have hle := hp.length_le
  rw [mem_live hh' (fun u hu => Nat.lt_of_lt_of_le (hn u hu) hle), mem_live hh hn]
  unfold ReachFrom
  constructor
  · rintro ⟨x, hx, hr⟩; exact ⟨x, hx, (prefix_reach hp hh (hn x hx)).1 hr⟩
  · rintro ⟨x, hx, hr⟩; exact ⟨x, hx, (prefix_reach hp hh (hn x hx)).2 hr⟩

theorem live_lt {n : Node} {v} (hv : v ∈ live h n) : v < h.length := by
  simp only [live, Finset.mem_filter, Finset.mem_range] at hv; exact hv.1

theorem prefix_nodeSol (hp : h <+: h') (hh : HeapOK h) (hh' : HeapOK h') {n : Node}
    (hn : ∀ u ∈ n.firsts, u < h.length) {π k} : NodeSol P h' n π k ↔ NodeSol P h n π k := by
  unfold NodeSol
  rw [prefix_live hp hh hh' hn]
  constructor
  · intro hs
    exact hs.congr (fun u hu => (prefix_taskOf hp (live_lt hu)).symm)
      (fun u hu v _ huv => (prefix_trans hp hh (live_lt hu)).2 huv)
  · intro hs
    exact hs.congr (fun u hu => prefix_taskOf hp (live_lt hu))
      (fun u hu v _ huv => (prefix_trans hp hh (live_lt hu)).1 huv)

theorem Good.ext (hp : h <+: h') (hh' : HeapOK h') {n : Node} (hg : Good P cfg h n) :
    Good P cfg h' n := by
  have hn := hg.node
  refine ⟨hh', ⟨hn.state_len, hn.nodup, fun u hu => Nat.lt_of_lt_of_le (hn.lt u hu) hp.length_le,
    fun u hu => ?_, fun u hu => ?_, fun u hu v hv huv => ?_⟩, fun ht => ?_⟩
  · rw [prefix_taskOf hp (hn.lt u (List.mem_append_left _ hu))]; exact hn.prim u hu
  · rw [prefix_taskOf hp (hn.lt u (List.mem_append_right _ hu))]; exact hn.abs u hu
  · exact hn.min u hu v hv ((prefix_trans hp hg.heap (hn.lt u hu)).1 huv)
  · obtain ⟨h1, h2⟩ := hg.counter ht
    refine ⟨h1, fun t => ?_⟩
    rw [h2, prefix_live hp hg.heap hh' hn.lt]
    congr 1
    exact Finset.filter_congr fun u hu => by rw [prefix_taskOf hp (live_lt hu)]

end Verif.Prog
