import Verif.HtnSpec
import Mathlib.Data.List.Nodup
import Mathlib.Data.List.GetD
import Mathlib.Data.List.Perm.Subperm

/-! # Model of the placement of subtasks for totally ordered methods (src/sat/sog.cpp)

All methods that may be applied at a vertex of the decomposition tree put their subtasks on a common sequence of
positions ("vertices"): every subtask of a method gets a vertex of its own, and the order of the method has to be kept.
Only the mapping from subtasks to vertices is used for totally ordered problems.

The optimiser for partially ordered methods (lines 8-174) is in `PoSog`.  The variant for recursive tasks (lines 235-259, 333-535,
not called) is not modelled. -/

namespace Verif.Sog

open Verif.Htn

/-- `sog->labels`: the tasks at a vertex. -/
abbrev Labels := Nat → List Nat

/-- `1000*1000`: the value for "impossible" (lines 191, 199). -/
def impossible : Nat := 1000 * 1000

/-- `minAdditionalLabels[x][y]` (lines 190-214). -/
def dpVal (lab : Labels) (seq : List Nat) : Nat → Nat → Nat
  | 0, _ => 0
  | _ + 1, 0 => impossible
  | x + 1, y + 1 =>
    if x + 1 > y + 1 then impossible
    else
      if dpVal lab seq (x + 1) y < (if (lab y).contains (seq.getD x 0) then 0 else 1) + dpVal lab seq x y then
        dpVal lab seq (x + 1) y
      else (if (lab y).contains (seq.getD x 0) then 0 else 1) + dpVal lab seq x y

/-- `optimalPutHere[x][y]` (lines 203-211). -/
def dpPut (lab : Labels) (seq : List Nat) : Nat → Nat → Bool
  | x + 1, y + 1 =>
    if x + 1 > y + 1 then false
    else if dpVal lab seq (x + 1) y < (if (lab y).contains (seq.getD x 0) then 0 else 1) + dpVal lab seq x y then false
    else true
  | _, _ => false

/-- The positions found by following the table back (lines 217-230): pairs of the number in the sequence and the
vertex, last one first. -/
def back (put : Nat → Nat → Bool) : Nat → Nat → List (Nat × Nat)
  | 0, _ => []
  | _ + 1, 0 => []
  | y + 1, x + 1 => if put (x + 1) (y + 1) then (x, y) :: back put y x else back put y (x + 1)

/-- `addSequenceToSOG` (lines 176-232) with `begin = 0` and `end = nv`: new labels and new mapping of the method, whose
entries are 16 bit numbers.  `seq` are the tasks, `idx` their numbers in the method.  If the sequence is longer than the
number of vertices, line 193 writes out of bounds. -/
def addSequence (lab : Labels) (nv : Nat) (seq idx map : List Nat) : Option (Labels × List Nat) :=
  if nv < seq.length then none
  else
    some ((back (dpPut lab seq) nv seq.length).foldl
        (fun lab p => Function.update lab p.2 (seq.getD p.1 0 :: lab p.2)) lab,
      (back (dpPut lab seq) nv seq.length).foldl (fun m p => m.set (idx.getD p.1 0) (p.2 % 65536)) map)

/-- State of the compact placement: number of vertices, effectless vertices, mapping of the method. -/
structure CSt where
  nv : Nat
  effl : List Nat
  map : List Nat

/-- Is the task an action without effects (line 266)? -/
def effectless (P : Problem) (t : Nat) : Bool := P.prim t && (P.add t).isEmpty && (P.del t).isEmpty

/-- `addCompactSequenceToSOG` (lines 261-287): `lo` is `lastMacthing + 1`; the list contains the tasks with their
numbers in the method. -/
def addCompact (P : Problem) : List (Nat × Nat) → Nat → CSt → CSt
  | [], _, s => s
  | (t, i) :: rest, lo, s =>
    match (List.range' lo (s.nv - lo)).find? (fun v => effectless P t == s.effl.contains v) with
    | some v => addCompact P rest (v + 1) { s with map := s.map.set i (v % 65536) }
    | none => addCompact P rest (s.nv + 1)
        ⟨s.nv + 1, if effectless P t then s.nv :: s.effl else s.effl, s.map.set i (s.nv % 65536)⟩

/-- The loop over the methods without the compact mode (lines 301-314). -/
def placeAll (P : Problem) (tot : Nat → List Nat) (nv : Nat) : List Nat → Labels → Option (List (List Nat))
  | [], _ => some []
  | m :: ms, lab =>
    match addSequence lab nv ((tot m).map fun i => (P.sub m).getD i 0) (tot m) (List.replicate (P.sub m).length 0) with
    | none => none
    | some r =>
      match placeAll P tot nv ms r.1 with
      | none => none
      | some maps => some (r.2 :: maps)

/-- The loop over the methods in compact mode (lines 301-312, 316); the mapping of the previous method is dropped. -/
def placeCompact (P : Problem) (tot : Nat → List Nat) : List Nat → CSt → Nat × List (List Nat)
  | [], s => (s.nv, [])
  | m :: ms, s =>
    let s' := addCompact P ((tot m).map fun i => ((P.sub m).getD i 0, i)) 0
      { s with map := List.replicate (P.sub m).length 0 }
    let r := placeCompact P tot ms s'
    (r.1, s'.map :: r.2)

/-- `optimiseSOG` (lines 539-572) and `runTOSOGOptimiser` (lines 291-329) for methods that are all totally ordered:
`ms` is the list of methods after sorting.  The result is the number of vertices and the mapping of each method. -/
def placeTO (P : Problem) (tot : Nat → List Nat) (compact : Bool) (ms : List Nat) : Option (Nat × List (List Nat)) :=
  match ms with
  | [] => some (0, [])
  | m :: _ =>
    if compact then some (placeCompact P tot ms ⟨(P.sub m).length, [], []⟩)
    else (placeAll P tot (P.sub m).length ms fun _ => []).map fun maps => ((P.sub m).length, maps)

/-! ## Correctness -/

theorem dpVal_le {lab : Labels} {seq : List Nat} : ∀ x y, x ≤ y → dpVal lab seq x y ≤ x := by
  intro x y
  induction y generalizing x with
  | zero => intro h; obtain rfl : x = 0 := by omega
            simp [dpVal]
  | succ y ih =>
    intro h
    cases x with
    | zero => simp [dpVal]
    | succ x =>
      have h1 := ih x (by omega)
      rw [dpVal, if_neg (by omega)]
      split_ifs <;> omega

theorem dpVal_diag {lab : Labels} {seq : List Nat} (x : Nat) : dpVal lab seq (x + 1) x = impossible := by
  cases x with
  | zero => rfl
  | succ x => rw [dpVal, if_pos (by omega)]

/-- With as many vertices left as subtasks, the subtask is put on the vertex. -/
theorem dpPut_diag {lab : Labels} {seq : List Nat} {x : Nat} (hx : x < impossible) :
    dpPut lab seq (x + 1) (x + 1) = true := by
  have h1 := dpVal_le (lab := lab) (seq := seq) x x (Nat.le_refl _)
  rw [dpPut, if_neg (by omega), dpVal_diag, if_neg]
  split_ifs <;> omega

/-- The positions: the `i`-th subtask is put on vertex `g i`. -/
theorem back_spec {put : Nat → Nat → Bool} : ∀ (y x : Nat), (∀ i < x, put (i + 1) (i + 1) = true) → x ≤ y →
    ∃ g : Nat → Nat, back put y x = ((List.range x).map fun i => (i, g i)).reverse ∧ (∀ i < x, g i < y) ∧
      ∀ i j, i < j → j < x → g i < g j := by
  intro y
  induction y with
  | zero => intro x _ hx; obtain rfl : x = 0 := by omega
            exact ⟨fun _ => 0, by simp [back], by omega, by omega⟩
  | succ y ih =>
    intro x hp hx
    cases x with
    | zero => exact ⟨fun _ => 0, by simp [back], by omega, by omega⟩
    | succ x =>
      by_cases hput : put (x + 1) (y + 1) = true
      · obtain ⟨g, e, h1, h2⟩ := ih x (fun i hi => hp i (by omega)) (by omega)
        refine ⟨fun i => if i = x then y else g i, ?_, ?_, ?_⟩
        · rw [back, if_pos hput, e, List.range_succ, List.map_append, List.reverse_append]
          simp only [List.map_cons, List.map_nil, List.reverse_singleton, if_true, List.singleton_append]
          congr 2
          refine List.map_congr_left fun i hi => ?_
          rw [if_neg (by have := List.mem_range.1 hi; omega)]
        · intro i hi
          dsimp only
          split_ifs with h
          · omega
          · have := h1 i (by omega); omega
        · intro i j hij hj
          dsimp only
          rw [if_neg (by omega)]
          split_ifs with h
          · exact h1 i (by omega)
          · exact h2 i j hij (by omega)
      · have hxy : x + 1 ≤ y := by
          by_contra hc
          obtain rfl : x = y := by omega
          exact hput (hp x (by omega))
        obtain ⟨g, e, h1, h2⟩ := ih (x + 1) hp hxy
        exact ⟨g, by rw [back, if_neg hput, e], fun i hi => by have := h1 i hi; omega, h2⟩

theorem foldl_set_length {l : List (Nat × Nat)} {f : Nat × Nat → Nat} {g : Nat × Nat → Nat} :
    ∀ m : List Nat, (l.foldl (fun m p => m.set (f p) (g p)) m).length = m.length := by
  induction l with
  | nil => intro m; rfl
  | cons p l ih => intro m; rw [List.foldl_cons, ih, List.length_set]

theorem foldl_set_other {l : List (Nat × Nat)} {f : Nat × Nat → Nat} {g : Nat × Nat → Nat} {k : Nat} :
    ∀ m : List Nat, (∀ p ∈ l, f p ≠ k) → (l.foldl (fun m p => m.set (f p) (g p)) m)[k]? = m[k]? := by
  induction l with
  | nil => intro m _; rfl
  | cons p l ih =>
    intro m h
    rw [List.foldl_cons, ih _ fun q hq => h q (by simp [hq]), List.getElem?_set_ne (h p (by simp))]

theorem foldl_set_get {l : List (Nat × Nat)} {f : Nat × Nat → Nat} {g : Nat × Nat → Nat} :
    ∀ m : List Nat, (l.map f).Nodup → ∀ p ∈ l, f p < m.length →
      (l.foldl (fun m p => m.set (f p) (g p)) m)[f p]? = some (g p) := by
  induction l with
  | nil => intro m _ p hp; simp at hp
  | cons q l ih =>
    intro m hn p hp hlt
    rw [List.map_cons, List.nodup_cons] at hn
    rw [List.foldl_cons]
    rcases List.mem_cons.1 hp with rfl | hp
    · rw [foldl_set_other _ fun q hq h => hn.1 (by rw [← h]; exact List.mem_map_of_mem hq), List.getElem?_set_self hlt]
    · exact ih _ hn.2 p hp (by rw [List.length_set]; exact hlt)

/-- What is needed of the placement of a method: `mp` maps the subtasks, listed in the order `ord` of the method, to
increasing vertices below `nv`. -/
structure Placed (ord : List Nat) (nv : Nat) (mp : List Nat) : Prop where
  length : mp.length = ord.length
  lt : ∀ i ∈ ord, mp.getD i 0 < nv
  mono : ord.Pairwise fun i j => mp.getD i 0 < mp.getD j 0

theorem addSequence_spec {lab : Labels} {nv : Nat} {seq idx : List Nat} (hn : idx.Perm (List.range idx.length))
    (hl : seq.length = idx.length) (hle : idx.length ≤ nv) (hnv : nv ≤ 65536) :
    ∃ r, addSequence lab nv seq idx (List.replicate idx.length 0) = some r ∧ Placed idx nv r.2 := by
  have hput : ∀ i < seq.length, dpPut lab seq (i + 1) (i + 1) = true := fun i hi =>
    dpPut_diag (by unfold impossible; omega)
  obtain ⟨g, e, h1, h2⟩ := back_spec nv seq.length hput (by omega)
  refine ⟨_, by unfold addSequence; rw [if_neg (by omega)], ?_⟩
  have hnd : idx.Nodup := hn.nodup_iff.2 List.nodup_range
  have hget : ∀ i (hi : i < idx.length), ((back (dpPut lab seq) nv seq.length).foldl
      (fun m p => m.set (idx.getD p.1 0) (p.2 % 65536)) (List.replicate idx.length 0))[idx[i]]? = some (g i) := by
    intro i hi
    have hmap : ((back (dpPut lab seq) nv seq.length).map fun p => idx.getD p.1 0) = idx.reverse := by
      rw [e, List.map_reverse, List.map_map, hl]
      congr 1
      refine List.ext_getElem (by simp) fun j h1 h2 => ?_
      simp only [List.getElem_map, List.getElem_range, Function.comp]
      rw [List.getD_eq_getElem _ _ h2]
    have := foldl_set_get (f := fun p => idx.getD p.1 0) (g := fun p => p.2 % 65536)
      (l := back (dpPut lab seq) nv seq.length) (List.replicate idx.length 0)
      (by rw [hmap]; exact List.nodup_reverse.2 hnd) (i, g i)
      (by rw [e, List.mem_reverse, List.mem_map]; exact ⟨i, List.mem_range.2 (by omega), rfl⟩)
      (by
        rw [List.length_replicate]
        simp only [List.getD_eq_getElem _ _ hi]
        exact List.mem_range.1 (hn.subset (List.getElem_mem hi)))
    simp only [List.getD_eq_getElem _ _ hi] at this
    rw [this, Nat.mod_eq_of_lt (by have := h1 i (by omega); omega)]
  refine ⟨?_, ?_, ?_⟩
  · simp only
    rw [foldl_set_length (f := fun p => idx.getD p.1 0) (g := fun p => p.2 % 65536), List.length_replicate]
  · intro i hi
    obtain ⟨k, hk, rfl⟩ := List.getElem_of_mem hi
    rw [List.getD_eq_getElem?_getD, hget k hk, Option.getD_some]
    exact h1 k (by omega)
  · rw [List.pairwise_iff_getElem]
    intro i j hi hj hij
    rw [List.getD_eq_getElem?_getD, List.getD_eq_getElem?_getD, hget i hi, hget j hj, Option.getD_some, Option.getD_some]
    exact h2 i j hij (by omega)

theorem placeAll_spec {P : Problem} {tot : Nat → List Nat} {nv : Nat} (hnv : nv ≤ 65536) : ∀ (ms : List Nat) (lab : Labels),
    (∀ m ∈ ms, (tot m).Perm (List.range (P.sub m).length)) → (∀ m ∈ ms, (P.sub m).length ≤ nv) →
    ∃ maps, placeAll P tot nv ms lab = some maps ∧ List.Forall₂ (fun m mp => Placed (tot m) nv mp) ms maps := by
  intro ms
  induction ms with
  | nil => intro lab _ _; exact ⟨[], rfl, .nil⟩
  | cons m ms ih =>
    intro lab ht hl
    have hp := ht m (by simp)
    have hlen : (tot m).length = (P.sub m).length := by rw [hp.length_eq, List.length_range]
    obtain ⟨r, hr, hr2⟩ := addSequence_spec (lab := lab) (nv := nv) (seq := (tot m).map fun i => (P.sub m).getD i 0)
      (idx := tot m) (by rw [hlen]; exact hp) (by rw [List.length_map]) (by rw [hlen]; exact hl m (by simp)) hnv
    obtain ⟨maps, e, hm⟩ := ih r.1 (fun m' h => ht m' (by simp [h])) (fun m' h => hl m' (by simp [h]))
    refine ⟨r.2 :: maps, ?_, .cons hr2 hm⟩
    rw [placeAll, ← hlen, hr]
    simp only [e]

theorem Placed.mono_nv {ord nv nv' mp} (h : Placed ord nv mp) (hn : nv ≤ nv') : Placed ord nv' mp :=
  ⟨h.length, fun i hi => (h.lt i hi).trans_le hn, h.mono⟩

/-- The compact placement of a rest of a method. -/
theorem addCompact_spec {P : Problem} : ∀ (l : List (Nat × Nat)) (lo : Nat) (s : CSt), lo ≤ s.nv →
    (l.map (·.2)).Nodup → (∀ p ∈ l, p.2 < s.map.length) → (addCompact P l lo s).nv ≤ 65536 →
    ∃ s', s' = addCompact P l lo s ∧ s.nv ≤ s'.nv ∧ s'.map.length = s.map.length ∧
      (∀ i, i ∉ l.map (·.2) → s'.map.getD i 0 = s.map.getD i 0) ∧
      (∀ p ∈ l, lo ≤ s'.map.getD p.2 0 ∧ s'.map.getD p.2 0 < s'.nv) ∧
      l.Pairwise fun p q => s'.map.getD p.2 0 < s'.map.getD q.2 0 := by
  intro l
  induction l with
  | nil => intro lo s _ _ _ _; exact ⟨_, rfl, by simp [addCompact]⟩
  | cons p l ih =>
    intro lo s hlo hn hlt hb
    obtain ⟨t, i⟩ := p
    rw [List.map_cons, List.nodup_cons] at hn
    have key : ∀ v (s1 : CSt), lo ≤ v → v < s1.nv → s.nv ≤ s1.nv → s1.map = s.map.set i (v % 65536) →
        addCompact P ((t, i) :: l) lo s = addCompact P l (v + 1) s1 →
        ∃ s', s' = addCompact P ((t, i) :: l) lo s ∧ s.nv ≤ s'.nv ∧ s'.map.length = s.map.length ∧
          (∀ j, j ∉ ((t, i) :: l).map (·.2) → s'.map.getD j 0 = s.map.getD j 0) ∧
          (∀ p ∈ (t, i) :: l, lo ≤ s'.map.getD p.2 0 ∧ s'.map.getD p.2 0 < s'.nv) ∧
          ((t, i) :: l).Pairwise fun p q => s'.map.getD p.2 0 < s'.map.getD q.2 0 := by
      intro v s1 hv1 hv2 h1 hm he
      obtain ⟨s', e, a1, a3, a4, a5, a6⟩ := ih (v + 1) s1 (by omega) hn.2
        (fun p hp => by rw [hm, List.length_set]; exact hlt p (by simp [hp])) (by rw [← he]; exact hb)
      rw [he, ← e] at hb
      have hi : s'.map.getD i 0 = v := by
        rw [a4 i hn.1, hm, List.getD_eq_getElem?_getD, List.getElem?_set_self (hlt (t, i) (by simp)), Option.getD_some]
        exact Nat.mod_eq_of_lt (by omega)
      refine ⟨s', by rw [e, he], by omega, by rw [a3, hm, List.length_set], ?_, ?_, ?_⟩
      · intro j hj
        simp only [List.map_cons, List.mem_cons, not_or] at hj
        rw [a4 j hj.2, hm, List.getD_eq_getElem?_getD, List.getElem?_set_ne (fun h => hj.1 h.symm),
          ← List.getD_eq_getElem?_getD]
      · intro p hp
        rcases List.mem_cons.1 hp with rfl | hp
        · simp only [hi]; omega
        · have := a5 p hp; omega
      · refine List.pairwise_cons.2 ⟨fun q hq => ?_, a6⟩
        have := a5 q hq
        simp only [hi]; omega
    cases hf : (List.range' lo (s.nv - lo)).find? (fun v => effectless P t == s.effl.contains v) with
    | some v =>
      have hmem := List.mem_of_find?_eq_some hf
      rw [List.mem_range'_1] at hmem
      exact key v { s with map := s.map.set i (v % 65536) } hmem.1 (by show v < s.nv; omega) (Nat.le_refl _) rfl
        (by rw [addCompact, hf])
    | none =>
      exact key s.nv ⟨s.nv + 1, if effectless P t then s.nv :: s.effl else s.effl, s.map.set i (s.nv % 65536)⟩
        hlo (by simp) (by simp) rfl (by rw [addCompact, hf])

theorem addCompact_nv {P : Problem} : ∀ (l : List (Nat × Nat)) (lo : Nat) (s : CSt), s.nv ≤ (addCompact P l lo s).nv := by
  intro l
  induction l with
  | nil => intro lo s; exact Nat.le_refl _
  | cons p l ih =>
    intro lo s
    rw [addCompact]
    split
    · refine le_trans ?_ (ih _ _); exact Nat.le_refl _
    · refine le_trans ?_ (ih _ _); exact Nat.le_succ _

theorem placeCompact_nv {P : Problem} {tot : Nat → List Nat} : ∀ (ms : List Nat) (s : CSt),
    s.nv ≤ (placeCompact P tot ms s).1 := by
  intro ms
  induction ms with
  | nil => intro s; exact Nat.le_refl _
  | cons m ms ih =>
    intro s
    rw [placeCompact]
    refine le_trans ?_ (ih _)
    refine le_trans ?_ (addCompact_nv _ _ _)
    exact Nat.le_refl _

theorem placeCompact_spec {P : Problem} {tot : Nat → List Nat} : ∀ (ms : List Nat) (s : CSt),
    (∀ m ∈ ms, (tot m).Perm (List.range (P.sub m).length)) →
    (placeCompact P tot ms s).1 ≤ 65536 →
    s.nv ≤ (placeCompact P tot ms s).1 ∧
    List.Forall₂ (fun m mp => Placed (tot m) (placeCompact P tot ms s).1 mp) ms (placeCompact P tot ms s).2 := by
  intro ms
  induction ms with
  | nil => intro s _ _; exact ⟨Nat.le_refl _, .nil⟩
  | cons m ms ih =>
    intro s ht hb
    have hp := ht m (by simp)
    have hlen : (tot m).length = (P.sub m).length := by rw [hp.length_eq, List.length_range]
    have hmm : ((tot m).map fun i => ((P.sub m).getD i 0, i)).map (·.2) = tot m := by
      rw [List.map_map]; exact List.map_id _
    rw [placeCompact] at hb
    simp only at hb
    obtain ⟨s', e, h1, h3, -, h5, h6⟩ := addCompact_spec (P := P) ((tot m).map fun i => ((P.sub m).getD i 0, i)) 0
      { s with map := List.replicate (P.sub m).length 0 } (Nat.zero_le _)
      (by rw [hmm]; exact hp.nodup_iff.2 List.nodup_range)
      (by
        intro p hp'
        rw [List.length_replicate]
        have : p.2 ∈ tot m := by rw [← hmm]; exact List.mem_map_of_mem hp'
        exact List.mem_range.1 (hp.subset this))
      ((placeCompact_nv ms _).trans hb)
    simp only [List.length_replicate] at h1 h3
    rw [← e] at hb
    obtain ⟨i1, i2⟩ := ih s' (fun m' h => ht m' (by simp [h])) hb
    rw [placeCompact]
    simp only [← e]
    refine ⟨by omega, .cons (Placed.mono_nv ⟨by rw [h3, hlen], fun i hi => ?_, ?_⟩ i1) i2⟩
    · exact (h5 ((P.sub m).getD i 0, i) (List.mem_map.2 ⟨i, hi, rfl⟩)).2
    · rw [List.pairwise_map] at h6
      exact h6

/-- The number of vertices that `placeTO` uses. -/
def numVertices (P : Problem) (tot : Nat → List Nat) (compact : Bool) : List Nat → Nat
  | [] => 0
  | m :: ms => if compact then (placeCompact P tot (m :: ms) ⟨(P.sub m).length, [], []⟩).1 else (P.sub m).length

/-- The placement is defined and keeps the order of each method, if the first method is a longest one, which is what
sorting achieves, and the vertices can be numbered with 16 bits. -/
theorem placeTO_spec {P : Problem} {tot : Nat → List Nat} {compact : Bool} {ms : List Nat}
    (ht : ∀ m ∈ ms, (tot m).Perm (List.range (P.sub m).length))
    (hs : ∀ m ∈ ms, ∀ m' ∈ ms.head?, (P.sub m).length ≤ (P.sub m').length)
    (hb : numVertices P tot compact ms ≤ 65536) :
    ∃ nv maps, placeTO P tot compact ms = some (nv, maps) ∧ (∀ m ∈ ms.head?, (P.sub m).length ≤ nv) ∧
      (ms = [] → nv = 0) ∧ List.Forall₂ (fun m mp => Placed (tot m) nv mp) ms maps := by
  cases ms with
  | nil => exact ⟨0, [], rfl, by simp, by simp, .nil⟩
  | cons m ms =>
    cases compact with
    | true =>
      obtain ⟨h1, h2⟩ := placeCompact_spec (P := P) (tot := tot) (m :: ms) ⟨(P.sub m).length, [], []⟩ ht
        (by simpa [numVertices] using hb)
      exact ⟨_, _, by simp [placeTO], by simpa using h1, by simp, h2⟩
    | false =>
      obtain ⟨maps, e, hm⟩ := placeAll_spec (P := P) (tot := tot) (nv := (P.sub m).length)
        (by simpa [numVertices] using hb) (m :: ms) (fun _ => []) ht (fun m' h => hs m' h m (by simp))
      exact ⟨(P.sub m).length, maps, by simp [placeTO, e], by simp, by simp, hm⟩

end Verif.Sog
