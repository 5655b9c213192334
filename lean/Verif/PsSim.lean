import Verif.PsOps
import Verif.PsStack
import Verif.ToTransInput

/-! # The translation of parallel sequences, for well-behaved input -/

namespace Verif.Sas

open Verif.Htn

/-- `reorderTasks` can handle the orderings between the subtasks of a method of the initial task: there are none, or they go upwards
and the last two subtasks are ordered. -/
def TopOrd (n : Nat) (ord : List (Nat × Nat)) : Prop := ord = [] ∨ ((∀ o ∈ ord, o.1 < o.2) ∧ ∃ o ∈ ord, o.1 + 2 = n ∧ o.2 + 1 = n)

/-- The input of the translation, besides the bounds: the variables partition the facts; actions are numbered before the abstract
tasks; the methods are totally ordered, in the order of their numbers, except those of the initial task; these have `n` subtasks. -/
structure PsInput (P : Problem) (vars : List (Nat × Nat)) (nA nT n : Nat) : Prop where
  wf : P.WF
  sas : SasInput P vars
  fits : S0Fits P vars
  prim : ∀ t, P.prim t = decide (t < nA)
  nA_le : nA ≤ nT
  head_lt : ∀ m < P.numMethods, P.head m < nT
  sub_lt : ∀ m < P.numMethods, ∀ t ∈ P.sub m, t < nT
  par : ParSeq P
  top_len : ∀ m < P.numMethods, P.head m = P.init → (P.sub m).length = n
  top_ord : ∀ m < P.numMethods, P.head m = P.init → TopOrd n (P.ord m)

/-! ## The order of the subtasks -/

theorem scanSubs_le {k x : Nat} : ∀ {l : List Nat}, l.Pairwise (· < ·) → k ∈ l → k ≤ x → (scanSubs k x l).1 = true := by
  intro l
  induction l with
  | nil => intro _ h; cases h
  | cons y r ih =>
    intro hp hk hx
    rw [scanSubs]
    obtain ⟨h1, h2⟩ := List.pairwise_cons.1 hp
    by_cases e : k = y
    · rw [if_pos e]
    · have hkr : k ∈ r := by simpa [e] using hk
      have := h1 k hkr
      rw [if_neg e, if_neg (by omega)]
      exact ih h2 hkr hx

theorem topOrd_find {n : Nat} {ord : List (Nat × Nat)} (hu : ∀ o ∈ ord, o.1 < o.2) (hl : ∃ o ∈ ord, o.1 + 2 = n ∧ o.2 + 1 = n)
    {j : Nat} (hj : j < n) : ((List.range n).find? fun k => !notAlone ord (List.range j) k) = some j := by
  rw [List.find?_range_eq_some]
  refine ⟨?_, by simpa using hj, fun k hk => ?_⟩
  · rw [Bool.not_eq_true', notAlone, List.any_eq_false]
    intro o ho
    rw [scanSubs_not_mem (by simp)]
    have := hu o ho
    simp only [List.mem_range, Bool.false_or, Bool.and_eq_true, Bool.not_eq_true', decide_eq_false_iff_not, beq_iff_eq, not_and, not_lt]
    omega
  · rw [Bool.not_not, notAlone, List.any_eq_true]
    obtain ⟨o, ho, h1, h2⟩ := hl
    refine ⟨o, ho, ?_⟩
    have := scanSubs_le (x := o.1) (List.pairwise_lt_range (n := j)) (List.mem_range.2 hk) (by omega)
    simp [this]

theorem topOrd_choose {n : Nat} {ord : List (Nat × Nat)} (hu : ∀ o ∈ ord, o.1 < o.2) (hl : ∃ o ∈ ord, o.1 + 2 = n ∧ o.2 + 1 = n) :
    ∀ d j, j + d = n → chooseSubs n ord d (List.range j) = some (List.range n) := by
  intro d
  induction d with
  | zero =>
    intro j hj
    rw [chooseSubs, show j = n from by omega]
  | succ d ih =>
    intro j hj
    rw [chooseSubs, topOrd_find hu hl (by omega)]
    simp only
    rw [← List.range_succ]
    exact ih (j + 1) (by omega)

theorem map_rev_sub (l : List Nat) : ((List.range l.length).map fun x => l[l.length - 1 - x]?.getD 0) = l.reverse := by
  apply List.ext_getElem?
  intro i
  rw [List.getElem?_map]
  rcases Nat.lt_or_ge i l.length with hi | hi
  · rw [List.getElem?_range hi, List.getElem?_reverse hi, Option.map_some, List.getElem?_eq_getElem (by omega), Option.getD_some]
  · rw [List.getElem?_eq_none (by simpa using hi), List.getElem?_eq_none (by simpa using hi), Option.map_none]

/-- `reorderTasks` on a method of the initial task: sequence `k` is the subtask at position `n - 1 - k`. -/
theorem reorder_top {prim : Nat → Bool} {sub : List Nat} {ord : List (Nat × Nat)} (hne : sub ≠ [])
    (hlt : ∀ o ∈ ord, o.1 < sub.length ∧ o.2 < sub.length) (ho : TopOrd sub.length ord) :
    ∃ r, reorder prim sub ord = some r ∧ r.order = sub.reverse ∧ remapOrd sub ord = some (revOrd sub.length ord) := by
  rcases ho with rfl | ⟨hu, hl⟩
  · by_cases h1 : sub.length ≤ 1
    · refine ⟨⟨sub, leadPrims prim sub⟩, by rw [reorder, if_pos h1], ?_, by simp [remapOrd, revOrd]⟩
      have := List.length_pos_iff.2 hne
      obtain ⟨t, rfl⟩ := List.length_eq_one_iff.1 (show sub.length = 1 by omega)
      rfl
    · exact ⟨⟨sub.reverse, 0⟩, by rw [reorder, if_neg h1, if_pos rfl], rfl, by simp [remapOrd, revOrd]⟩
  · have h2 : ¬ sub.length ≤ 1 := by
      obtain ⟨o, -, h3, -⟩ := hl
      omega
    have h3 : ord ≠ [] := by
      rintro rfl
      obtain ⟨o, ho, -⟩ := hl
      cases ho
    have hc := topOrd_choose hu hl sub.length 0 (by omega)
    rw [List.range_zero] at hc
    refine ⟨⟨sub.reverse, leadPrims prim sub⟩, ?_, rfl, ?_⟩
    · rw [reorder, if_neg h2, if_neg h3, hc]
      simp only [map_rev_sub]
    · rw [remapOrd, if_neg (by simp [h3]; omega), hc]
      simp only
      refine mapM_some ?_
      rw [revOrd, List.map_map]
      refine List.map_congr_left fun o ho => ?_
      obtain ⟨g1, g2⟩ := hlt o ho
      simp [List.getElem?_range g1, List.getElem?_range g2]

section

variable {P : Problem} {vars : List (Nat × Nat)} {nA nT n : Nat}

/-- `reorderTasks` on the other methods. -/
theorem reorder_seq (hP : P.WF) (hq : ParSeq P) {m : Nat} (hm : m < P.numMethods) (e : P.head m ≠ P.init) :
    ∃ r ord', reorder P.prim (P.sub m) (P.ord m) = some r ∧ r.order = (P.sub m).reverse ∧ remapOrd (P.sub m) (P.ord m) = some ord' := by
  have e1 : P.serial.ord m = P.ord m := by simp only [Problem.serial, if_neg e]
  obtain ⟨-, ⟨r, h1, h2⟩, -⟩ := reorder_range (P := P.serial) (serial_wf hP) (serial_tot hq) hm rfl
  rw [e1] at h1
  have hc := chainOrd_of (P := P.serial) (serial_wf hP) (serial_tot hq) hm
  rw [e1] at hc
  have h3 := hc.chooseSubs (P.sub m).length 0 (by rw [Nat.zero_add]; rfl)
  rw [List.take_zero] at h3
  have h3 : chooseSubs (P.sub m).length (P.ord m) (P.sub m).length [] = some (rtot P m) := h3
  have : ∃ ord', remapOrd (P.sub m) (P.ord m) = some ord' := by
    rw [remapOrd]
    split
    · exact ⟨_, rfl⟩
    · rw [h3]
      simp only
      refine ⟨(P.ord m).map fun o => ((P.sub m).length - 1 - o.1, (P.sub m).length - 1 - o.2), mapM_some ?_⟩
      rw [List.map_map]
      refine List.map_congr_left fun o ho => ?_
      obtain ⟨g1, g2⟩ := hP.ord_lt m hm o.1 o.2 ho
      simp [rtot, List.getElem?_range g1, List.getElem?_range g2]
  obtain ⟨ord', h4⟩ := this
  exact ⟨r, ord', h1, h2, h4⟩

theorem PsInput.ord_lt (hin : PsInput P vars nA nT n) {m : Nat} (hm : m < P.numMethods) (e : P.head m = P.init) :
    ∀ o ∈ P.ord m, o.1 < n ∧ o.2 < n ∧ o.1 ≠ o.2 := by
  intro o ho
  obtain ⟨g1, g2⟩ := hin.wf.ord_lt m hm o.1 o.2 ho
  obtain ⟨rank, hr⟩ := hin.wf.ord_acyclic m hm
  have := hr o.1 o.2 ho
  rw [hin.top_len m hm e] at g1 g2
  exact ⟨g1, g2, fun e => by rw [e] at this; omega⟩

/-- The translation of the input. -/
theorem psTranslate_eq {h : List Nat} (hin : PsInput P vars nA nT h.length) (h1 : ∀ p ∈ h, 1 ≤ p) :
    ∃ T : STask Lab, psTranslate P vars nA nT h = some T ∧
      (∀ x, x ∈ T.ops ↔ (∃ a j k, a < nA ∧ k < h.length ∧ j < hAt h k ∧ x = psA P vars h a j k) ∨
        (∃ m j k, m < P.numMethods ∧ P.head m ≠ P.init ∧ k < h.length ∧ (P.sub m).length + j ≤ hAt h k ∧ x = psM P vars h m j k) ∨
        ∃ m < P.numMethods, P.head m = P.init ∧ x = psT P vars h m) ∧
      T.goal = P.goal.filterMap (conv vars) ++ (vars.length, 0) :: (List.range h.length).map (fun k => (psHead vars.length k, 0)) ∧
      T.doms.length = vars.length + (psSizes nT h).length ∧
      (∀ i f l : Nat, vars[i]? = some (f, l) → T.doms[i]? = some (l - f + 1 + if f = l then 1 else 0)) ∧
      (∀ i s : Nat, (psSizes nT h)[i]? = some s → T.doms[vars.length + i]? = some (s + 1)) ∧
      T.init.length = vars.length + (psSizes nT h).length ∧ Corr vars P.initState T.start ∧ T.start vars.length = 1 ∧
      ∀ y, T.start (vars.length + 1 + y) = 0 := by
  obtain ⟨S, hSP, hlen0, vals, hv1, hv2, hv3⟩ := sasPlus_init hin.wf hin.sas hin.fits
  have hS := sasPlus_ok hin.wf hin.sas.contig hSP
  have hne : S.vars ≠ [] := by
    intro h
    have := hS.len
    rw [h] at this
    exact hin.sas.ne (List.length_eq_zero_iff.1 this.symm)
  obtain ⟨N, hN⟩ := hS.contig
  have hlenS := hS.len
  have hAt1 : ∀ k < h.length, 1 ≤ hAt h k := by
    intro k hk
    rw [hAt, List.getElem?_eq_getElem hk]
    exact h1 _ (List.getElem_mem hk)
  have hacts : ((List.range nA).mapM fun a => ((psPoints h).filter fun x => !decide (x.1 ≥ hAt h x.2)).mapM fun x =>
        psActOp P S (psVars S nT h) h a x.1 x.2) =
      some ((List.range nA).map fun a => ((psPoints h).filter fun x => !decide (x.1 ≥ hAt h x.2)).map fun x => psA P vars h a x.1 x.2) := by
    refine mapM_range_some fun a ha => mapM_some ?_
    rw [List.map_map]
    refine List.map_congr_left fun x hx => ?_
    obtain ⟨hx1, hx2⟩ := List.mem_filter.1 hx
    have hx2 : x.1 < hAt h x.2 := by simpa using hx2
    exact psActOp_eq hS hne (mem_psPoints.1 hx1).2 hx2 (lt_of_lt_of_le ha hin.nA_le)
  have hmeths : ((List.range P.numMethods).mapM fun m => do
      let r ← reorder P.prim (P.sub m) (P.ord m)
      let ord ← remapOrd (P.sub m) (P.ord m)
      ((psPoints h).filter (psMethAt P h m)).mapM fun x => psMethOp P S (psVars S nT h) h r ord m x.1 x.2) =
      some ((List.range P.numMethods).map fun m => ((psPoints h).filter (psMethAt P h m)).map fun x =>
        if P.head m = P.init then psT P vars h m else psM P vars h m x.1 x.2) := by
    refine mapM_range_some fun m hm => ?_
    by_cases e : P.head m = P.init
    · have htl := hin.top_len m hm e
      obtain ⟨r, hr1, hr2, hr3⟩ := reorder_top (prim := P.prim) (hin.wf.sub_ne m hm)
        (fun o ho => hin.wf.ord_lt m hm o.1 o.2 ho) (by rw [htl]; exact hin.top_ord m hm e)
      rw [hr1, hr3]
      simp only [Option.bind_eq_bind, Option.bind_some]
      apply mapM_some
      rw [List.map_map]
      refine List.map_congr_left fun x hx => ?_
      have hx2 := (List.mem_filter.1 hx).2
      rw [psMethAt, if_pos e] at hx2
      simp only [Bool.and_eq_true, beq_iff_eq] at hx2
      rw [hx2.1, hx2.2, psTopOp_eq hS hne e htl hAt1 (hin.sub_lt m hm) hr2 (hin.ord_lt hm e), Function.comp, if_pos e]
    · obtain ⟨r, ord', hr1, hr2, hr3⟩ := reorder_seq hin.wf hin.par hm e
      rw [hr1, hr3]
      simp only [Option.bind_eq_bind, Option.bind_some]
      apply mapM_some
      rw [List.map_map]
      refine List.map_congr_left fun x hx => ?_
      obtain ⟨hx1, hx2⟩ := List.mem_filter.1 hx
      rw [psMethAt, if_neg e] at hx2
      have hx2 : (P.sub m).length + x.1 ≤ hAt h x.2 := by simpa using hx2
      rw [psMethOp_eq hS hne e (mem_psPoints.1 hx1).2 (hin.wf.sub_ne m hm) hx2 (hin.head_lt m hm) (hin.sub_lt m hm) hr2,
        Function.comp, if_neg e]
  have hops : psOps P S nA (psVars S nT h) h = some
      (((List.range nA).map fun a => ((psPoints h).filter fun x => !decide (x.1 ≥ hAt h x.2)).map fun x => psA P vars h a x.1 x.2).flatten ++
      ((List.range P.numMethods).map fun m => ((psPoints h).filter (psMethAt P h m)).map fun x =>
        if P.head m = P.init then psT P vars h m else psM P vars h m x.1 x.2).flatten) := by
    simp only [psOps]
    rw [hacts, hmeths]
    rfl
  have hs0 : S.s0.mapM (conv (psVars S nT h)) = some vals := mapM_some (map_PW hne hN hv1)
  have hWl : (psVars S nT h).length - (S.vars.length + 1) = (psSizes nT h).length - 1 := by
    rw [PW_length]
    omega
  have hs1 : (bitOf (psVars S nT h) S.vars.length 1 :: (List.range ((psVars S nT h).length - (S.vars.length + 1))).map fun i =>
        bitOf (psVars S nT h) (S.vars.length + 1 + i) 0).mapM (conv (psVars S nT h)) =
      some ((S.vars.length, 1) :: (List.range ((psSizes nT h).length - 1)).map fun i => (S.vars.length + 1 + i, 0)) := by
    apply mapM_some
    simp only [List.map_cons, conv_ptop hne hN (Nat.le_refl 1), List.map_map, hWl]
    congr 1
    refine List.map_congr_left fun i hi => ?_
    have hi : i < (psSizes nT h).length - 1 := by simpa using hi
    have hi' : 1 + i < (psSizes nT h).length := by omega
    have h2 := conv_new (S := S) hne hN (List.getElem?_eq_getElem hi') (Nat.zero_le _)
    rw [show S.vars.length + (1 + i) = S.vars.length + 1 + i from by omega] at h2
    exact h2
  have hg : (S.goal ++ bitOf (psVars S nT h) S.vars.length 0 :: (List.range h.length).map fun i =>
        bitOf (psVars S nT h) (psHead S.vars.length i) 0).mapM (conv (psVars S nT h)) =
      some (P.goal.filterMap (conv vars) ++ (S.vars.length, 0) :: (List.range h.length).map fun k => (psHead S.vars.length k, 0)) := by
    apply mapM_some
    rw [List.map_append, List.map_append, map_PW hne hN hS.goal]
    simp only [List.map_cons, conv_ptop hne hN (Nat.zero_le 1), List.map_map]
    congr 2
    exact List.map_congr_left fun i hi => conv_phead hne hN (by simpa using hi) (Nat.zero_le _)
  have htr : psTranslate P vars nA nT h = some
      { doms := (psVars S nT h).map fun v => v.2 - v.1 + 1
        init := (vals ++ ((S.vars.length, 1) :: (List.range ((psSizes nT h).length - 1)).map fun i =>
          (S.vars.length + 1 + i, 0))).map Prod.snd
        goal := P.goal.filterMap (conv vars) ++ (S.vars.length, 0) :: (List.range h.length).map fun k => (psHead S.vars.length k, 0)
        ops := (((List.range nA).map fun a => ((psPoints h).filter fun x => !decide (x.1 ≥ hAt h x.2)).map fun x =>
            psA P vars h a x.1 x.2).flatten ++
          ((List.range P.numMethods).map fun m => ((psPoints h).filter (psMethAt P h m)).map fun x =>
            if P.head m = P.init then psT P vars h m else psM P vars h m x.1 x.2).flatten) } := by
    simp only [psTranslate]
    rw [hSP]
    simp only [Option.bind_eq_bind, Option.bind_some]
    rw [if_neg, hops]
    · simp only [Option.bind_some]
      rw [hs0, hs1]
      simp only [Option.bind_some]
      rw [hg]
      rfl
    · simp only [List.contains_iff_mem]
      intro h0
      have := h1 0 h0
      omega
  have hvl : vals.length = vars.length := by
    have := congrArg List.length hv2
    simpa using this
  have hsl : 1 ≤ (psSizes nT h).length := by
    rw [psSizes_length]
    omega
  refine ⟨_, htr, fun x => ?_, by simp [hlenS], by simp [PW_length, hlenS], fun i f l hi => ?_, fun i s hi => ?_, ?_, ?_, ?_, ?_⟩
  · simp only [List.mem_append, List.mem_flatten, List.mem_map, List.mem_range]
    refine or_congr ⟨?_, ?_⟩ ⟨?_, ?_⟩
    · rintro ⟨_, ⟨a, ha, rfl⟩, hx⟩
      obtain ⟨y, hy, rfl⟩ := List.mem_map.1 hx
      obtain ⟨hy1, hy2⟩ := List.mem_filter.1 hy
      exact ⟨a, y.1, y.2, ha, (mem_psPoints.1 hy1).2, by simpa using hy2, rfl⟩
    · rintro ⟨a, j, k, ha, hk, hj, rfl⟩
      refine ⟨_, ⟨a, ha, rfl⟩, List.mem_map.2 ⟨(j, k), List.mem_filter.2 ⟨mem_psPoints.2 ⟨?_, hk⟩, by simpa using hj⟩, rfl⟩⟩
      exact lt_of_lt_of_le hj hAt_le
    · rintro ⟨_, ⟨m, hm, rfl⟩, hx⟩
      obtain ⟨y, hy, rfl⟩ := List.mem_map.1 hx
      obtain ⟨hy1, hy2⟩ := List.mem_filter.1 hy
      by_cases e : P.head m = P.init
      · exact .inr ⟨m, hm, e, by rw [if_pos e]⟩
      · rw [psMethAt, if_neg e] at hy2
        exact .inl ⟨m, y.1, y.2, hm, e, (mem_psPoints.1 hy1).2, by simpa using hy2, by rw [if_neg e]⟩
    · rintro (⟨m, j, k, hm, e, hk, hf, rfl⟩ | ⟨m, hm, e, rfl⟩)
      · have := List.length_pos_iff.2 (hin.wf.sub_ne m hm)
        have h2 : hAt h k ≤ hMax h := hAt_le
        refine ⟨_, ⟨m, hm, rfl⟩, List.mem_map.2 ⟨(j, k), List.mem_filter.2 ⟨mem_psPoints.2 ⟨?_, hk⟩, ?_⟩, by rw [if_neg e]⟩⟩
        · simp only
          omega
        · rw [psMethAt, if_neg e]
          simpa using hf
      · have h0 : 0 < h.length := by
          rw [← hin.top_len m hm e]
          exact List.length_pos_iff.2 (hin.wf.sub_ne m hm)
        refine ⟨_, ⟨m, hm, rfl⟩, List.mem_map.2 ⟨(0, 0), List.mem_filter.2 ⟨mem_psPoints.2 ⟨?_, h0⟩, ?_⟩, by rw [if_pos e]⟩⟩
        · have h2 : hAt h 0 ≤ hMax h := hAt_le
          have h3 := hAt1 0 h0
          simp only
          omega
        · rw [psMethAt, if_pos e]
          rfl
  · obtain ⟨f', l', g1, g2, g3⟩ := hS.size i f l hi
    have hi' : i < S.vars.length := (List.getElem?_eq_some_iff.1 g1).1
    simp only [List.getElem?_map, PW_vars hi', g1, Option.map_some, Option.some.injEq]
    omega
  · obtain ⟨f, hf⟩ := PW_new (S := S) hi
    rw [hlenS] at hf
    simp [hf]
  · simp [hvl]
    omega
  · intro i f l hi
    have hlt := (List.getElem?_eq_some_iff.1 hi).1
    simp only [STask.start, List.getElem?_map, List.getElem?_append_left (show i < vals.length by omega)]
    exact hv3 i f l hi
  · simp only [STask.start, List.getElem?_map]
    rw [List.getElem?_append_right (by omega), hvl]
    simp
  · intro y
    simp only [STask.start, List.getElem?_map]
    rw [List.getElem?_append_right (by omega), hvl, show vars.length + 1 + y - vars.length = y + 1 from by omega]
    simp only [List.getElem?_cons_succ, List.getElem?_map]
    cases (List.range ((psSizes nT h).length - 1))[y]? <;> rfl

end

end Verif.Sas
