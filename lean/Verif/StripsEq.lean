import Verif.StripsCompl
import Verif.StripsComb
import Verif.PushEq

/-! # What the translation without conditional effects writes -/

namespace Verif.Sas

open Verif.Htn Relation

theorem mapM_exists {α β : Type} {f : α → Option β} {l : List α} (h : ∀ x ∈ l, ∃ y, f x = some y) :
    ∃ r, l.mapM f = some r ∧ ∀ y, y ∈ r ↔ ∃ x ∈ l, f x = some y := by
  have h1 : ∃ r : List β, l.map f = r.map some := by
    clear * - h
    induction l with
    | nil => exact ⟨[], rfl⟩
    | cons x l ih =>
      obtain ⟨y, hy⟩ := h x List.mem_cons_self
      obtain ⟨r, hr⟩ := ih fun x hx => h x (List.mem_cons_of_mem _ hx)
      exact ⟨y :: r, by rw [List.map_cons, List.map_cons, hy, hr]⟩
  obtain ⟨r, hr⟩ := h1
  refine ⟨r, mapM_some hr, fun y => ⟨mapM_mem (mapM_some hr), ?_⟩⟩
  rintro ⟨x, hx, e⟩
  have : some y ∈ r.map some := by
    rw [← hr, ← e]
    exact List.mem_map_of_mem hx
  obtain ⟨z, hz, hzy⟩ := List.mem_map.1 this
  exact Option.some.inj hzy ▸ hz

/-- All variables and values of an operator exist. -/
structure SOpIn (W : List (Nat × Nat)) (o : SOp) : Prop where
  prevail : ∀ p ∈ o.prevail, InW W p
  eff : ∀ e ∈ o.eff, InW W (e.1, e.2.2) ∧ ∀ v, e.2.1 = some v → InW W (e.1, v)

theorem writeOp_in {W : List (Nat × Nat)} {pre add : List Nat} {k : Nat} {o : SOp} (h1 : writeOp W pre add k = some o) : SOpIn W o := by
  rw [writeOp] at h1
  cases hp : pre.mapM (conv W) with
  | none => simp [hp] at h1
  | some p =>
    cases ha : add.mapM (conv W) with
    | none => simp [hp, ha] at h1
    | some a =>
      simp only [hp, ha, Option.some.injEq] at h1
      subst h1
      have ip := mapM_conv_in hp
      have ia := mapM_conv_in ha
      refine ⟨fun q hq => ip q (List.mem_filter.1 hq).1, fun e he => ?_⟩
      obtain ⟨q, hq, rfl⟩ := List.mem_map.1 he
      refine ⟨ia q hq, fun v hv => ?_⟩
      obtain ⟨r, hr, rfl⟩ := Option.map_eq_some_iff.1 hv
      have := List.mem_filter.1 (List.mem_of_getLast? hr)
      have e : r.1 = q.1 := by simpa using this.2
      simp only
      rw [← e]
      exact ip r this.1

theorem stMethOps_in {P : Problem} {W : List (Nat × Nat)} {nV B m : Nat} {ops : List (SLab × SOp)} (h : stMethOps P W nV B m = some ops) :
    ∀ x ∈ ops, SOpIn W x.2 := by
  intro x hx
  rw [stMethOps] at h
  simp only [Option.bind_eq_bind, Option.bind_eq_some_iff] at h
  obtain ⟨r, -, ord, -, cnt, -, h⟩ := h
  by_cases h1 : (P.sub m).length + (if noLastTask (P.sub m).length ord then 1 else 0) > B
  · rw [if_pos h1] at h
    cases h
    cases hx
  · rw [if_neg h1] at h
    simp only [Option.bind_eq_some_iff] at h
    obtain ⟨os, h2, h3⟩ := h
    cases h3
    obtain ⟨l, hl, hx⟩ := List.mem_flatten.1 hx
    obtain ⟨j, -, hj⟩ := mapM_mem h2 hl
    obtain ⟨i, -, hi⟩ := mapM_mem hj hx
    obtain ⟨subs, -, hi⟩ := Option.bind_eq_some_iff.1 hi
    rw [stMethOp] at hi
    obtain ⟨d, -, hi⟩ := Option.bind_eq_some_iff.1 hi
    obtain ⟨o, ho, e⟩ := Option.bind_eq_some_iff.1 hi
    cases e
    exact writeOp_in ho

theorem stOps_in {P : Problem} {S : SasP} {nA : Nat} {W : List (Nat × Nat)} {B : Nat} {ops : List (SLab × SOp)}
    (h : stOps P S nA W B = some ops) : ∀ x ∈ ops, SOpIn W x.2 := by
  intro x hx
  rw [stOps] at h
  simp only [Option.bind_eq_bind, Option.bind_eq_some_iff] at h
  obtain ⟨es, h1, as, h2, ms, h3, h4⟩ := h
  cases h4
  simp only [List.mem_append, List.mem_flatten] at hx
  rcases hx with (hx | ⟨l, hl, hx⟩) | ⟨l, hl, hx⟩
  · obtain ⟨j, -, hj⟩ := mapM_mem h1 hx
    obtain ⟨o, ho, rfl⟩ := Option.map_eq_some_iff.1 hj
    exact writeOp_in ho
  · obtain ⟨a, -, ha⟩ := mapM_mem h2 hl
    obtain ⟨j, -, hj⟩ := mapM_mem ha hx
    obtain ⟨o, ho, rfl⟩ := Option.map_eq_some_iff.1 hj
    exact writeOp_in ho
  · obtain ⟨m, -, hm⟩ := mapM_mem h3 hl
    exact stMethOps_in hm x hx

section

variable {P : Problem} {vars : List (Nat × Nat)} {nA nT B : Nat}

theorem stMeth_eq (hin : PushInput P vars nA nT) {m j : Nat} {subs : List Nat} (h : MethOk P B m j subs) :
    stMeth B (P.head m) j (mNl P m) (P.sub m).reverse (revOrd (P.sub m).length (P.ord m)) subs =
      some (stMethD P B m j subs, stCells (mNl P m) j subs) := by
  have hpos := hin.len_pos h.lt
  have hes : ordCells (stCells (mNl P m) j subs) (revOrd (P.sub m).length (P.ord m)) =
      some ((P.ord m).map fun o => (cellG (stCells (mNl P m) j subs) o.1, cellG (stCells (mNl P m) j subs) o.2)) := by
    apply mapM_some
    rw [revOrd, List.map_map, List.map_map]
    refine List.map_congr_left fun o ho => ?_
    obtain ⟨h1, h2⟩ := hin.ord_ok h.lt (a := o.1) (b := o.2) ho
    simp only [Function.comp]
    rw [cellG_get hin h (by omega), cellG_get hin h h2]
    rfl
  rcases hr : (P.sub m).reverse with _ | ⟨t', _ | ⟨t2, rest⟩⟩
  · exact absurd (List.reverse_eq_nil_iff.1 hr) (hin.wf.sub_ne m h.lt)
  · have hl : (P.sub m).length = 1 := by
      have := congrArg List.length hr
      simpa using this
    have hnl := mNl_small (P := P) (m := m) (by omega)
    have hs : subs = [] := by
      have := h.subs.len
      rw [mNum, hnl, hl] at this
      simpa using this
    subst hs
    rw [stMeth, stMethD, if_pos (by omega), hr, hnl]
    rfl
  · have hl : (P.sub m).length = rest.length + 2 := by
      have := congrArg List.length hr
      simpa using this
    rw [stMeth, stMethD, if_neg (show ¬ (P.sub m).length ≤ 1 by omega), hr]
    · cases hnl : mNl P m with
      | true =>
        rw [hnl] at hes
        rw [if_pos rfl, if_pos rfl]
        rw [stCells, if_pos rfl] at hes
        simp only [Option.bind_eq_bind]
        rw [hes]
        simp [stCells]
      | false =>
        rw [hnl] at hes
        have h0 : ¬ ((revOrd (P.sub m).length (P.ord m)).any fun o => o.1 == 0) = true := by
          simp only [List.any_eq_true, beq_iff_eq, not_exists, not_and]
          intro o ho
          have := revOrd_lt hin h.lt o ho
          omega
        rw [if_neg Bool.false_ne_true, if_neg Bool.false_ne_true, if_neg h0]
        rw [stCells, if_neg Bool.false_ne_true] at hes
        rw [hes]
        simp [stCells]
    · simp

/-- The operators of a method. -/
theorem stMethOps_eq (hin : PushInput P vars nA nT) {S : SasP} (hlen : S.vars.length = vars.length) (hne : S.vars ≠ []) {N : Nat}
    (hN : Contig 0 S.vars N) {m : Nat} (hm : m < P.numMethods) (hcnt : ∃ c, stCount B (P.sub m).length (mNl P m) = some c) :
    ∃ ops, stMethOps P (stVars S nT B) S.vars.length B m = some ops ∧
      ∀ x, x ∈ ops ↔ ∃ j subs, MethOk P B m j subs ∧
        x = (SLab.meth m j (stCells (mNl P m) j subs), sOp vars.length B [] [] (stMethD P B m j subs) 0) := by
  obtain ⟨cnt, hcnt⟩ := hcnt
  have htop := hin.top m hm
  have hpos := hin.len_pos hm
  obtain ⟨r, hr1, hr2, hr3⟩ := reorder_top (prim := P.prim) (hin.wf.sub_ne m hm) (fun o ho => hin.wf.ord_lt m hm o.1 o.2 ho) htop
  have hnumiff : ¬ (P.sub m).length + (if mNl P m then 1 else 0) > B ↔ mNum P m + 1 ≤ B := by
    rw [mNum]
    split_ifs <;> omega
  by_cases hfit : mNum P m + 1 ≤ B
  · obtain ⟨pick, hpickd⟩ : ∃ pick, pick = stPick B (P.sub m).length (mNl P m) := ⟨_, rfl⟩
    have hpick : (∀ i < cnt, ∃ subs, pick i = some subs) ∧ ∀ subs, (∃ i < cnt, pick i = some subs) ↔ Subs B (mNum P m) subs := by
      by_cases h1 : (P.sub m).length ≤ 1
      · have hc : cnt = 1 := by
          rw [stCount, if_pos h1] at hcnt
          exact (Option.some.inj hcnt).symm
        have hnum : mNum P m = 0 := by
          rw [mNum, mNl_small h1]
          simp
          omega
        refine ⟨fun i _ => ⟨[], by rw [hpickd, stPick, if_pos h1]⟩, fun subs => ⟨?_, fun h => ?_⟩⟩
        · rintro ⟨i, -, e⟩
          rw [hpickd, stPick] at e
          rw [if_pos h1] at e
          cases e
          exact ⟨hnum.symm, .nil, fun _ h => by cases h⟩
        · have := h.len
          rw [hnum] at this
          rw [List.length_eq_zero_iff.1 this]
          exact ⟨0, by omega, by rw [hpickd, stPick, if_pos h1]⟩
      · have hc := stCount_eq (by omega) hcnt
        have hk : (if mNl P m then (P.sub m).length else (P.sub m).length - 1) ≤ B - 1 := by
          rw [mNum] at hfit
          omega
        rw [if_pos hk] at hc
        subst hc
        refine ⟨fun i hi => ?_, fun subs => ?_⟩
        · obtain ⟨l, hl⟩ := combAt_some hk hi
          exact ⟨l, by rw [hpickd, stPick, if_neg h1, hl]⟩
        · simp only [hpickd, stPick, if_neg h1]
          rw [combAt_mem hk]
          exact ⟨fun h => ⟨h.1, h.2.1, h.2.2⟩, fun h => ⟨h.len, h.incr, h.lt⟩⟩
    have hstep : ∀ j < B, ∀ subs, Subs B (mNum P m) subs →
        stMethOp (stVars S nT B) S.vars.length B m (P.head m) j (mNl P m) r.order (revOrd (P.sub m).length (P.ord m)) subs =
        some (SLab.meth m j (stCells (mNl P m) j subs), sOp vars.length B [] [] (stMethD P B m j subs) 0) := by
      intro j hj subs hs
      have hok : MethOk P B m j subs := ⟨hm, hj, hfit, hs⟩
      have hlit := stMethD_lit hin hok
      rw [stMethOp, hr2, stMeth_eq hin hok]
      simp only [Option.bind_eq_bind, Option.bind_some]
      rw [stWrite_eq (nT := nT) hne hN (bp' := []) (ba' := []) rfl rfl hlit.1 hlit.2, hlen]
      rfl
    obtain ⟨one, hone⟩ : ∃ one : Nat → Nat → Option (SLab × SOp), one = fun j i => (pick i).bind fun subs =>
      stMethOp (stVars S nT B) S.vars.length B m (P.head m) j (mNl P m) r.order (revOrd (P.sub m).length (P.ord m)) subs := ⟨_, rfl⟩
    have hone1 : ∀ j < B, ∀ i < cnt, ∃ subs, Subs B (mNum P m) subs ∧
        one j i = some (SLab.meth m j (stCells (mNl P m) j subs), sOp vars.length B [] [] (stMethD P B m j subs) 0) := by
      intro j hj i hi
      obtain ⟨subs, hs⟩ := hpick.1 i hi
      have h2 := (hpick.2 subs).1 ⟨i, hi, hs⟩
      refine ⟨subs, h2, ?_⟩
      rw [hone]
      simp only [hs, Option.bind_some]
      exact hstep j hj subs h2
    have hrow : ∀ j < B, ∃ l, (List.range cnt).mapM (one j) = some l ∧ ∀ y, y ∈ l ↔ ∃ i ∈ List.range cnt, one j i = some y := fun j hj =>
      mapM_exists fun i hi => by
        obtain ⟨subs, -, h⟩ := hone1 j hj i (List.mem_range.1 hi)
        exact ⟨_, h⟩
    obtain ⟨os, ho1, ho2⟩ := mapM_exists (l := List.range B) (f := fun j => (List.range cnt).mapM (one j)) fun j hj => by
      obtain ⟨l, h, -⟩ := hrow j (List.mem_range.1 hj)
      exact ⟨l, h⟩
    refine ⟨os.flatten, ?_, fun x => ?_⟩
    · rw [stMethOps, hr1, hr3]
      simp only [Option.bind_eq_bind, Option.bind_some]
      rw [show noLastTask (P.sub m).length (revOrd (P.sub m).length (P.ord m)) = mNl P m from rfl, hcnt]
      simp only [Option.bind_some]
      rw [if_neg (hnumiff.2 hfit)]
      rw [hone, hpickd] at ho1
      rw [ho1]
      rfl
    · rw [List.mem_flatten]
      constructor
      · rintro ⟨l, hl, hx⟩
        obtain ⟨j, hj, e⟩ := (ho2 l).1 hl
        obtain ⟨i, hi, e'⟩ := mapM_mem e hx
        obtain ⟨subs, h2, h3⟩ := hone1 j (List.mem_range.1 hj) i (List.mem_range.1 hi)
        rw [h3] at e'
        exact ⟨j, subs, ⟨hm, List.mem_range.1 hj, hfit, h2⟩, (Option.some.inj e').symm⟩
      · rintro ⟨j, subs, hok, rfl⟩
        obtain ⟨l, hl, hmem⟩ := hrow j hok.cell
        refine ⟨l, (ho2 l).2 ⟨j, List.mem_range.2 hok.cell, hl⟩, (hmem _).2 ?_⟩
        obtain ⟨i, hi, hs⟩ := (hpick.2 subs).2 hok.subs
        refine ⟨i, List.mem_range.2 hi, ?_⟩
        rw [hone]
        simp only [hs, Option.bind_some]
        exact hstep j hok.cell subs hok.subs
  · refine ⟨[], ?_, fun x => ⟨fun h => (by cases h), ?_⟩⟩
    · rw [stMethOps, hr1, hr3]
      simp only [Option.bind_eq_bind, Option.bind_some]
      rw [show noLastTask (P.sub m).length (revOrd (P.sub m).length (P.ord m)) = mNl P m from rfl, hcnt]
      simp only [Option.bind_some]
      rw [if_pos (not_not.1 fun h => hfit (hnumiff.1 h))]
      rfl
    · rintro ⟨j, subs, hok, -⟩
      exact absurd hok.num hfit

/-- The initial values of the new variables. -/
def stStart (P : Problem) : SV → Nat
  | .task j => if j = 0 then P.init + 2 else 0
  | .occ j => if j = 0 then 1 else 0
  | _ => 0

theorem stTranslate_eq (hin : PushInput P vars nA nT) (hB : 0 < B)
    (hcnt : ∀ m < P.numMethods, ∃ c, stCount B (P.sub m).length (mNl P m) = some c) : ∃ T, stTranslate P vars nA nT B = some T ∧
    StTask P vars nA B T ∧ T.WF ∧ Corr vars P.initState T.start ∧ ∀ p, SOk B p → sView vars.length B T.start p = stStart P p := by
  obtain ⟨S, hSP, hlen0, vals, hv1, hv2, hv3⟩ := sasPlus_init hin.wf hin.sas hin.fits
  have hS := sasPlus_ok hin.wf hin.sas.contig hSP
  have hne : S.vars ≠ [] := by
    intro h
    have := hS.len
    rw [h] at this
    exact hin.sas.ne (List.length_eq_zero_iff.1 this.symm)
  obtain ⟨N, hN⟩ := hS.contig
  have hlenS := hS.len
  obtain ⟨M, hM⟩ := SW_contig (nT := nT) (B := B) hne hN
  have hclr : ∀ j < B, ∀ t ≤ nT + 1, (∀ x ∈ stPre B t j, SLOk B nT x) ∧ ∀ x ∈ stClear B j, SLOk B nT x := by
    intro j hj t ht
    refine ⟨fun x hx => ?_, fun x hx => ?_⟩
    · rcases (mem_stPre hj).1 hx with rfl | ⟨l, hl, hlj, rfl⟩
      · exact ⟨hj, ht⟩
      · exact ⟨⟨hl, hj, hlj⟩, Nat.zero_le _⟩
    · rcases (mem_stClear hj).1 hx with rfl | rfl | ⟨l, hl, hlj, rfl⟩
      · exact ⟨hj, Nat.zero_le _⟩
      · exact ⟨hj, Nat.zero_le _⟩
      · exact ⟨⟨hj, hl, Ne.symm hlj⟩, Nat.zero_le _⟩
  have hes : ((List.range B).mapM fun j => (stWrite (stVars S nT B) S.vars.length B [] [] (stPre B 1 j, stClear B j) (emptyCost P nA)).map
      fun o => (SLab.empty j, o)) =
      some ((List.range B).map fun j => (SLab.empty j, sOp vars.length B [] [] (stPre B 1 j, stClear B j) (emptyCost P nA))) := by
    refine mapM_range_some fun j hj => ?_
    have := hclr j hj 1 (by omega)
    rw [stWrite_eq (nT := nT) hne hN (bp' := []) (ba' := []) rfl rfl this.1 this.2, hlenS]
    rfl
  have hacts : ((List.range nA).mapM fun a => (List.range B).mapM fun j =>
      (stWrite (stVars S nT B) S.vars.length B (S.prec a) (S.add a) (stPre B (a + 2) j, stClear B j) (P.cost a)).map fun o =>
        (SLab.prim a j, o)) =
      some ((List.range nA).map fun a => (List.range B).map fun j =>
        (SLab.prim a j, sOp vars.length B (precV vars P a) (addV vars P a) (stPre B (a + 2) j, stClear B j) (P.cost a))) := by
    refine mapM_range_some fun a ha => mapM_range_some fun j hj => ?_
    have hA := hin.nA_le
    have := hclr j hj (a + 2) (by omega)
    rw [stWrite_eq (nT := nT) hne hN (hS.prec a) (hS.add a) this.1 this.2, hlenS]
    rfl
  obtain ⟨ms, hms1, hms2⟩ := mapM_exists (l := List.range P.numMethods) (f := fun m => stMethOps P (stVars S nT B) S.vars.length B m)
    (fun m hm => by
      obtain ⟨ops, h, -⟩ := stMethOps_eq (nT := nT) hin hlenS hne hN (List.mem_range.1 hm) (hcnt m (List.mem_range.1 hm))
      exact ⟨ops, h⟩)
  have hops : ∃ ops, stOps P S nA (stVars S nT B) B = some ops ∧ ops =
      ((List.range B).map fun j => (SLab.empty j, sOp vars.length B [] [] (stPre B 1 j, stClear B j) (emptyCost P nA))) ++
      ((List.range nA).map fun a => (List.range B).map fun j =>
        (SLab.prim a j, sOp vars.length B (precV vars P a) (addV vars P a) (stPre B (a + 2) j, stClear B j) (P.cost a))).flatten ++
      ms.flatten := by
    refine ⟨_, ?_, rfl⟩
    simp only [stOps]
    rw [hes, hacts, hms1]
    rfl
  obtain ⟨ops, hops, hopsEq⟩ := hops
  have hs0 : S.s0.mapM (conv (stVars S nT B)) = some vals := mapM_some (map_SW hne hN hv1)
  let st : Nat → Nat := fun i => if i = 0 then P.init + 2 else if i = B + B * (B - 1) then 1 else 0
  have hsz : ∀ i < 2 * B + B * (B - 1), ∃ s, (stSizes nT B)[i]? = some s ∧ st i ≤ s := by
    intro i hi
    have hl : i < (stSizes nT B).length := by rw [stSizes_length]; exact hi
    refine ⟨_, List.getElem?_eq_getElem hl, ?_⟩
    simp only [st]
    split_ifs with h1 h2
    · have := stSizes_get (nT := nT) (B := B) (p := .task 0) hB 0
      simp only [svIx, Nat.zero_add, Nat.sub_zero, sMax] at this
      subst h1
      rw [List.getElem?_eq_getElem hl] at this
      have e := Option.some.inj this
      rw [e]
      have := hin.init_lt
      omega
    · have := stSizes_get (nT := nT) (B := B) (p := .occ 0) hB 0
      simp only [svIx, Nat.zero_add, Nat.sub_zero, Nat.add_zero, sMax, ← h2] at this
      rw [List.getElem?_eq_getElem hl] at this
      have e := Option.some.inj this
      rw [e]
    · exact Nat.zero_le _
  have hs1 : (stInit P (stVars S nT B) S.vars.length B).mapM (conv (stVars S nT B)) =
      some ((List.range (2 * B + B * (B - 1))).map fun i => (S.vars.length + i, st i)) := by
    apply mapM_some
    rw [stInit, List.map_map, List.map_map]
    refine List.map_congr_left fun i hi => ?_
    have hi : i < 2 * B + B * (B - 1) := by simpa using hi
    obtain ⟨s, h1, h2⟩ := hsz i hi
    obtain ⟨f, hf⟩ := SW_new (S := S) h1
    exact conv_bitOf hM hf (by simp only [st] at h2; omega)
  have hg : (S.goal ++ (List.range B).map fun i => bitOf (stVars S nT B) (S.vars.length + i) 0).mapM (conv (stVars S nT B)) =
      some (P.goal.filterMap (conv vars) ++ (List.range B).map fun i => (S.vars.length + i, 0)) := by
    apply mapM_some
    rw [List.map_append, List.map_append, map_SW hne hN hS.goal, List.map_map, List.map_map]
    congr 1
    refine List.map_congr_left fun i hi => ?_
    exact conv_stBit (nT := nT) (x := (.task i, 0)) hne hN (show i < B by simpa using hi) (Nat.zero_le _)
  have htr : stTranslate P vars nA nT B = some
      { doms := (stVars S nT B).map fun v => v.2 - v.1 + 1
        init := (vals ++ (List.range (2 * B + B * (B - 1))).map fun i => (S.vars.length + i, st i)).map Prod.snd
        goal := P.goal.filterMap (conv vars) ++ (List.range B).map fun i => (S.vars.length + i, 0)
        ops := ops } := by
    simp only [stTranslate]
    rw [hSP]
    simp only [Option.bind_eq_bind, Option.bind_some]
    rw [if_neg (by omega), hops]
    simp only [Option.bind_some]
    rw [hs0, hs1]
    simp only [Option.bind_some]
    rw [hg]
    rfl
  have hvl : vals.length = vars.length := by
    have := congrArg List.length hv2
    simpa using this
  have hin' : ∀ p, InW (stVars S nT B) p → ∃ d, ((stVars S nT B).map fun v => v.2 - v.1 + 1)[p.1]? = some d ∧ p.2 < d := by
    rintro ⟨i, v⟩ ⟨b, hb⟩
    obtain ⟨f, l, h1, h2, h3, h4⟩ := conv_some hb
    refine ⟨l - f + 1, by simp [h1], ?_⟩
    simp only
    omega
  have hnew : ∀ i < 2 * B + B * (B - 1),
      (((vals ++ (List.range (2 * B + B * (B - 1))).map fun i => (S.vars.length + i, st i)).map Prod.snd)[vars.length + i]?).getD 0 = st i := by
    intro i hi
    rw [List.getElem?_map, List.getElem?_append_right (by omega), hvl, Nat.add_sub_cancel_left, List.getElem?_map, List.getElem?_range hi]
    rfl
  refine ⟨_, htr, ⟨fun x => ?_, fun σ => ?_⟩, ?_, ?_, ?_⟩
  · rw [hopsEq]
    simp only [List.mem_append, List.mem_flatten, List.mem_map, List.mem_range, or_assoc]
    refine or_congr ⟨?_, ?_⟩ (or_congr ⟨?_, ?_⟩ ⟨?_, ?_⟩)
    · rintro ⟨j, hj, rfl⟩
      exact ⟨j, hj, rfl⟩
    · rintro ⟨j, hj, rfl⟩
      exact ⟨j, hj, rfl⟩
    · rintro ⟨_, ⟨a, ha, rfl⟩, hx⟩
      obtain ⟨j, hj, rfl⟩ := List.mem_map.1 hx
      exact ⟨a, j, ha, List.mem_range.1 hj, rfl⟩
    · rintro ⟨a, j, ha, hj, rfl⟩
      exact ⟨_, ⟨a, ha, rfl⟩, List.mem_map.2 ⟨j, List.mem_range.2 hj, rfl⟩⟩
    · rintro ⟨l, hl, hx⟩
      obtain ⟨m, hm, e⟩ := (hms2 l).1 hl
      have hm := List.mem_range.1 hm
      obtain ⟨ops', h1, h2⟩ := stMethOps_eq (nT := nT) hin hlenS hne hN hm (hcnt m hm)
      rw [h1] at e
      cases e
      obtain ⟨j, subs, h3, h4⟩ := (h2 x).1 hx
      exact ⟨m, j, subs, h3, h4⟩
    · rintro ⟨m, j, subs, h3, h4⟩
      obtain ⟨ops', h1, h2⟩ := stMethOps_eq (nT := nT) hin hlenS hne hN h3.lt (hcnt m h3.lt)
      exact ⟨ops', (hms2 _).2 ⟨m, List.mem_range.2 h3.lt, h1⟩, (h2 x).2 ⟨j, subs, h3, h4⟩⟩
  · simp only [STask.Goal, List.mem_append, or_imp, forall_and]
    refine and_congr Iff.rfl ⟨fun h j hj => ?_, fun h g hg => ?_⟩
    · have := h (S.vars.length + j, 0) (List.mem_map.2 ⟨j, List.mem_range.2 hj, rfl⟩)
      rw [hlenS] at this
      exact this
    · obtain ⟨j, hj, rfl⟩ := List.mem_map.1 hg
      rw [hlenS]
      exact h j (List.mem_range.1 hj)
  · have hpo := stOps_in hops
    refine ⟨?_, fun i v hi => ?_, fun g hg' => ?_, fun x hx p hp => ?_, fun x hx e he => ?_⟩
    · simp [SW_length, stSizes_length, hvl, hlenS]
    · simp only [List.getElem?_map] at hi
      obtain ⟨p, hp, rfl⟩ := Option.map_eq_some_iff.1 hi
      have h1 : p.1 = i ∧ InW (stVars S nT B) p := by
        rcases Nat.lt_or_ge i vals.length with h | h
        · rw [List.getElem?_append_left h] at hp
          refine ⟨?_, mapM_conv_in hs0 p (List.mem_of_getElem? hp)⟩
          have := congrArg (fun l => l[i]?) hv2
          simp only [List.getElem?_map, hp, Option.map_some, List.getElem?_range (show i < vars.length by omega), Option.some.injEq] at this
          exact this
        · rw [List.getElem?_append_right h] at hp
          refine ⟨?_, mapM_conv_in hs1 p (List.mem_of_getElem? hp)⟩
          obtain ⟨k, hk, rfl⟩ := List.getElem?_eq_some_iff.1 hp
          simp
          omega
      rw [← h1.1]
      exact hin' p h1.2
    · exact hin' g (mapM_conv_in hg g hg')
    · exact hin' p ((hpo x hx).prevail p hp)
    · exact ⟨hin' _ ((hpo x hx).eff e he).1, fun v hv => hin' _ (((hpo x hx).eff e he).2 v hv)⟩
  · intro i f l hi
    have hlt := (List.getElem?_eq_some_iff.1 hi).1
    simp only [STask.start, List.getElem?_map, List.getElem?_append_left (show i < vals.length by omega)]
    exact hv3 i f l hi
  · intro p hp
    have hge := svIx_ge (nV := vars.length) (B := B) p
    have hlt : svIx vars.length B p - vars.length < 2 * B + B * (B - 1) := by
      rw [← stSizes_length (nT := nT)]
      exact (List.getElem?_eq_some_iff.1 (stSizes_get hp vars.length)).1
    have := hnew _ hlt
    rw [show vars.length + (svIx vars.length B p - vars.length) = svIx vars.length B p by omega] at this
    refine Eq.trans this ?_
    cases p with
    | task j =>
      have hj : j < B := hp
      have e : svIx vars.length B (.task j) - vars.length = j := by simp only [svIx]; omega
      rw [e]
      simp only [st, stStart]
      split_ifs <;> first | rfl | omega
    | con k l =>
      have h1 := con_lt hp
      have e : svIx vars.length B (.con k l) - vars.length = B + (k * (B - 1) + (if k ≤ l then l - 1 else l)) := by simp only [svIx]; omega
      rw [e]
      generalize k * (B - 1) + (if k ≤ l then l - 1 else l) = q at h1
      simp only [st, stStart]
      split_ifs <;> first | rfl | omega
    | occ j =>
      have e : svIx vars.length B (.occ j) - vars.length = B + B * (B - 1) + j := by simp only [svIx]; omega
      rw [e]
      simp only [st, stStart]
      split_ifs <;> first | rfl | omega

/-- The initial state describes the network with the initial task only. -/
theorem st_enc (hB : 0 < B) {T : STask SLab} (hc : Corr vars P.initState T.start)
    (hs : ∀ p, SOk B p → sView vars.length B T.start p = stStart P p) :
    SEnc vars B T.start P.initState {0} (fun _ => P.init) (fun _ => 0) := by
  have hcon : ∀ k l, ¬ edge B (sView vars.length B T.start) k l := by
    rintro k l ⟨⟨h1, h2, h3⟩, h4⟩
    exact h4 (hs (.con k l) ⟨h1, h2, h3⟩)
  refine ⟨hc, ⟨fun u _ => hB, fun u hu v hv _ => ?_, fun u _ => hs (.task 0) hB, fun j hj hf => .inl ?_, fun j hj => ?_,
    fun k l h => absurd h (hcon k l), fun x hx => ?_⟩⟩
  · rw [Finset.mem_singleton.1 hu, Finset.mem_singleton.1 hv]
  · have h0 : j ≠ 0 := fun e => hf 0 (Finset.mem_singleton_self 0) e.symm
    rw [hs (.task j) hj, stStart, if_neg h0]
  · rw [hs (.occ j) hj, hs (.task j) hj]
    simp only [stStart]
    split_ifs <;> first | rfl | omega
  · obtain ⟨y, hy, -⟩ := TransGen.head'_iff.1 hx
    exact hcon _ _ hy

/-- The plans of the translated problem. -/
theorem stPlans (hin : PushInput P vars nA nT) (hf : ∀ a < nA, PrecFun vars P a) (hlast : LastOk P) (hB : 0 < B)
    (hcnt : ∀ m < P.numMethods, ∃ c, stCount B (P.sub m).length (mNl P m) = some c) {T : STask SLab}
    (hT : stTranslate P vars nA nT B = some T) :
    (∀ ρ, T.Plan ρ → IsSolution P (stActs ρ) ∧ planCost ρ = P.planCost (stActs ρ) + stEmpties ρ * emptyCost P nA) ∧
    ∀ M, (∀ m < P.numMethods, (P.sub m).length ≤ M) → ∀ π k, IsSolutionN P π k → 1 + k * M ≤ B → ∃ ρ, T.Plan ρ ∧ stActs ρ = π := by
  obtain ⟨T', hT', ht, -, hc, hs⟩ := stTranslate_eq hin hB hcnt
  rw [hT] at hT'
  cases hT'
  have he := st_enc (P := P) hB hc hs
  have hirr : ¬ cellLt B (sView vars.length B T.start) (fun _ => 0) 0 0 := he.net.acyc 0
  refine ⟨fun ρ hρ => ?_, fun M hM π k hπ hk => ?_⟩
  · obtain ⟨σ, h1, h2⟩ := hρ
    obtain ⟨k, hk⟩ := st_sound hin hf hlast ht h1 he ⟨[], .nil _⟩ h2
    exact ⟨⟨k, (isSolutionN_iff (u := 0) rfl hirr).1 hk⟩, st_cost ht h1⟩
  · have hocc : occN B (sView vars.length B T.start) ≤ 1 := by
      rw [occN]
      refine (Finset.card_le_card (t := {0}) fun x hx => ?_).trans (by simp)
      obtain ⟨h1, h2⟩ := Finset.mem_filter.1 hx
      have hxB := Finset.mem_range.1 h1
      rw [hs (.task x) hxB] at h2
      by_contra h0
      exact h2 (by rw [stStart, if_neg fun e => h0 (Finset.mem_singleton.2 e)])
    obtain ⟨ρ, σ, h1, h2, h3⟩ := st_complete hin hf hlast ht hM _ he ⟨[], .nil _⟩ ((isSolutionN_iff (u := 0) rfl hirr).2 hπ) le_rfl (by omega)
    exact ⟨ρ, ⟨σ, h1, h2⟩, h3⟩

/-! ## `hasNoLastTask` -/

theorem lowerPass_reach {r : Nat} (R : Nat → Nat → Prop) : ∀ (ord : List (Nat × Nat)) (L : List Nat), (∀ o ∈ ord, R o.1 o.2) →
    (∀ x ∈ L, ReflTransGen R r x) → ∀ x ∈ lowerPass ord L, ReflTransGen R r x := by
  intro ord
  induction ord with
  | nil => exact fun L _ h => h
  | cons o ord ih =>
    intro L ho hL
    rw [lowerPass, List.foldl_cons]
    refine ih _ (fun o' h => ho o' (List.mem_cons_of_mem _ h)) fun x hx => ?_
    split_ifs at hx with h
    · rcases List.mem_cons.1 hx with rfl | hx
      · exact (hL _ h).tail (ho o List.mem_cons_self)
      · exact hL x hx
    · exact hL x hx

/-- What `hasNoLastTask` tells: if it is not set, all subtasks are after the first one. -/
theorem mNl_first (hin : PushInput P vars nA nT) {m : Nat} (hm : m < P.numMethods) (h : mNl P m = false) {i : Nat} (h0 : 0 < i)
    (hi : i < (P.sub m).length) : TransGen (P.OrdRel m) 0 i := by
  rw [mNl, noLastTask, if_neg (by omega)] at h
  split_ifs at h with h1
  simp only [Bool.not_eq_false', List.all_eq_true, List.mem_range, decide_eq_true_eq] at h
  have key : ∀ k, ∀ x ∈ (lowerPass (revOrd (P.sub m).length (P.ord m)))^[k] [(P.sub m).length - 1],
      ReflTransGen (fun a b => (a, b) ∈ revOrd (P.sub m).length (P.ord m)) ((P.sub m).length - 1) x := by
    intro k
    induction k with
    | zero =>
      intro x hx
      rw [Function.iterate_zero, id, List.mem_singleton] at hx
      exact hx ▸ .refl
    | succ k ih =>
      rw [Function.iterate_succ_apply']
      exact lowerPass_reach _ _ _ (fun o h => h) ih
  have h2 := key _ _ (h ((P.sub m).length - 1 - i) (by omega))
  have h3 : ∀ a b, ReflTransGen (fun a b => (a, b) ∈ revOrd (P.sub m).length (P.ord m)) a b →
      ReflTransGen (P.OrdRel m) ((P.sub m).length - 1 - a) ((P.sub m).length - 1 - b) := by
    intro a b hab
    induction hab with
    | refl => exact .refl
    | tail _ hs ih =>
      refine ih.tail ?_
      obtain ⟨o, ho, e⟩ := List.mem_map.1 hs
      obtain ⟨g1, g2⟩ := hin.ord_ok hm (a := o.1) (b := o.2) ho
      simp only [Prod.mk.injEq] at e
      obtain ⟨rfl, rfl⟩ := e
      rw [show (P.sub m).length - 1 - ((P.sub m).length - 1 - o.1) = o.1 by omega,
        show (P.sub m).length - 1 - ((P.sub m).length - 1 - o.2) = o.2 by omega]
      exact ho
  have h4 := h3 _ _ h2
  rw [Nat.sub_self, show (P.sub m).length - 1 - ((P.sub m).length - 1 - i) = i by omega] at h4
  rcases reflTransGen_iff_eq_or_transGen.1 h4 with e | h
  · omega
  · exact h

/-- Numbers of operators that fit. -/
theorem stCount_some {n : Nat} {nl : Bool}
    (h : 2 ≤ n → ∀ k, k = n - 1 ∨ k = n → (∀ i < k, (B - 1).choose i * (B - 1 - i) < 2 ^ 63) ∧ (B - 1).choose k < 2 ^ 31 - 1) :
    ∃ c, stCount B n nl = some c := by
  rw [stCount]
  by_cases h1 : n ≤ 1
  · exact ⟨1, if_pos h1⟩
  · rw [if_neg h1]
    simp only
    obtain ⟨k, hk⟩ : ∃ k, k = (if nl then n else n - 1) := ⟨_, rfl⟩
    obtain ⟨h2, h3⟩ := h (by omega) k (by rw [hk]; split <;> simp)
    rw [← hk]
    by_cases h4 : B - 1 < k
    · exact ⟨1, if_pos h4⟩
    · rw [if_neg h4]
      by_cases h5 : k = B - 1
      · exact ⟨1, if_pos h5⟩
      · rw [if_neg h5, binLoop_some h2, Option.bind_some, if_pos h3]
        exact ⟨_, rfl⟩

/-- If the number does not fit, nothing is written. -/
theorem stTranslate_none {m : Nat} (hm : m < P.numMethods) (hin : PushInput P vars nA nT)
    (h : stCount B (P.sub m).length (mNl P m) = none) : stTranslate P vars nA nT B = none := by
  obtain ⟨r, hr1, hr2, hr3⟩ := reorder_top (prim := P.prim) (hin.wf.sub_ne m hm) (fun o ho => hin.wf.ord_lt m hm o.1 o.2 ho) (hin.top m hm)
  by_contra hc
  obtain ⟨T, hT⟩ := Option.ne_none_iff_exists'.1 hc
  rw [stTranslate] at hT
  obtain ⟨S, -, hT⟩ := Option.bind_eq_some_iff.1 hT
  split_ifs at hT
  obtain ⟨ops, ho, -⟩ := Option.bind_eq_some_iff.1 hT
  rw [stOps] at ho
  obtain ⟨es, -, ho⟩ := Option.bind_eq_some_iff.1 ho
  obtain ⟨as, -, ho⟩ := Option.bind_eq_some_iff.1 ho
  obtain ⟨ms, hms, -⟩ := Option.bind_eq_some_iff.1 ho
  have h1 := mapM_eq_some hms
  have h2 : stMethOps P (stVars S nT B) S.vars.length B m ∈ ms.map some := h1 ▸ List.mem_map_of_mem (List.mem_range.2 hm)
  obtain ⟨l, -, hl⟩ := List.mem_map.1 h2
  rw [stMethOps, hr1, hr3] at hl
  simp only [Option.bind_eq_bind, Option.bind_some] at hl
  rw [show noLastTask (P.sub m).length (revOrd (P.sub m).length (P.ord m)) = mNl P m from rfl, h] at hl
  cases hl

end

end Verif.Sas
