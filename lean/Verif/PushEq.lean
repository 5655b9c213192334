import Verif.PushMain

/-! # What the translation of partially ordered problems writes -/

namespace Verif.Sas

open Verif.Htn

/-! ## Every fact is looked up -/

/-- The value exists. -/
def InW (W : List (Nat × Nat)) (p : Nat × Nat) : Prop := ∃ b, conv W b = some p

theorem mapM_conv_in {W : List (Nat × Nat)} {l : List Nat} {r : List (Nat × Nat)} (h : l.mapM (conv W) = some r) : ∀ p ∈ r, InW W p := by
  intro p hp
  have h1 := mapM_eq_some h
  have : some p ∈ l.map (conv W) := by rw [h1]; exact List.mem_map_of_mem hp
  obtain ⟨b, -, e⟩ := List.mem_map.1 this
  exact ⟨b, e⟩

/-- All variables and values of an operator exist. -/
structure COpIn (W : List (Nat × Nat)) (o : COp) : Prop where
  prevail : ∀ p ∈ o.base.prevail, InW W p
  eff : ∀ e ∈ o.base.eff, InW W (e.1, e.2.2) ∧ ∀ v, e.2.1 = some v → InW W (e.1, v)
  cond : ∀ e ∈ o.cond, InW W e.2 ∧ ∀ c ∈ e.1, InW W c

theorem writeCOp_in {W : List (Nat × Nat)} {ce : Bool} {b : PBits} {k : Nat} {o : COp} (h : writeCOp W ce b k = some o) : COpIn W o := by
  rw [writeCOp] at h
  simp only [Option.bind_eq_bind, Option.bind_eq_some_iff] at h
  obtain ⟨so, h1, cs, h2, h3⟩ := h
  cases h3
  rw [writeOp] at h1
  cases hp : b.pre.mapM (conv W) with
  | none => simp [hp] at h1
  | some p =>
    cases ha : b.add.mapM (conv W) with
    | none => simp [hp, ha] at h1
    | some a =>
      simp only [hp, ha, Option.some.injEq] at h1
      subst h1
      have ip := mapM_conv_in hp
      have ia := mapM_conv_in ha
      refine ⟨fun q hq => ip q (List.mem_filter.1 hq).1, fun e he => ?_, fun e he => ?_⟩
      · obtain ⟨q, hq, rfl⟩ := List.mem_map.1 he
        refine ⟨ia q hq, fun v hv => ?_⟩
        obtain ⟨r, hr, rfl⟩ := Option.map_eq_some_iff.1 hv
        have := List.mem_filter.1 (List.mem_of_getLast? hr)
        have e : r.1 = q.1 := by simpa using this.2
        simp only
        rw [← e]
        exact ip r this.1
      · have h4 := mapM_eq_some h2
        have h5 : some e ∈ cs.map some := List.mem_map_of_mem he
        rw [← h4] at h5
        obtain ⟨x, -, hx⟩ := List.mem_map.1 h5
        simp only [Option.bind_eq_some_iff] at hx
        obtain ⟨c, hc, v, hv, h6⟩ := hx
        cases h6
        refine ⟨⟨_, hv⟩, fun c' hc' => ?_⟩
        simp only [List.mem_singleton] at hc'
        subst hc'
        exact ⟨_, hc⟩

theorem mapM_mem {α β : Type} {f : α → Option β} {l : List α} {r : List β} (h : l.mapM f = some r) {y : β} (hy : y ∈ r) :
    ∃ x ∈ l, f x = some y := by
  have h1 := mapM_eq_some h
  have : some y ∈ l.map f := by rw [h1]; exact List.mem_map_of_mem hy
  obtain ⟨b, hb, e⟩ := List.mem_map.1 this
  exact ⟨b, hb, e⟩

theorem pushOps_in {P : Problem} {S : SasP} {nA nT : Nat} {W : List (Nat × Nat)} {B : Nat} {ce : Bool} {junk : Nat → Nat → List (Nat × Nat)}
    {ops : List (PLab × COp)} (h : pushOps P S nA nT W B ce junk = some ops) : ∀ x ∈ ops, COpIn W x.2 := by
  intro x hx
  rw [pushOps] at h
  simp only [Option.bind_eq_bind, Option.bind_eq_some_iff] at h
  obtain ⟨as, h1, ms, h2, vs, h3, h4⟩ := h
  cases h4
  simp only [List.mem_append, List.mem_flatten] at hx
  have hw : ∀ {b : PBits} {k : Nat} {lb : PLab} {x : PLab × COp}, (writeCOp W ce b k).map (fun o => (lb, o)) = some x → COpIn W x.2 := by
    intro b k lb x h
    obtain ⟨o, ho, rfl⟩ := Option.map_eq_some_iff.1 h
    exact writeCOp_in ho
  rcases hx with (⟨l, hl, hx⟩ | ⟨l, hl, hx⟩) | ⟨l, hl, hx⟩
  · obtain ⟨a, -, ha⟩ := mapM_mem h1 hl
    obtain ⟨j, -, hj⟩ := mapM_mem ha hx
    exact hw hj
  · obtain ⟨m, -, hm⟩ := mapM_mem h2 hl
    simp only [Option.bind_eq_some_iff] at hm
    obtain ⟨r, -, ord, -, hm⟩ := hm
    obtain ⟨j, -, hj⟩ := mapM_mem hm hx
    exact hw hj
  · obtain ⟨t, -, ht⟩ := mapM_mem h3 hl
    obtain ⟨j, -, hj⟩ := mapM_mem ht hx
    exact hw hj

/-! ## The whole file -/

variable {P : Problem} {vars : List (Nat × Nat)} {nA nT B : Nat}

/-- The initial values of the new variables. -/
def pushStart (P : Problem) : PV → Nat
  | .task j => if j = 0 then P.init + 1 else 0
  | .occ j => if j = 0 then 1 else 0
  | _ => 0

theorem pushTranslate_eq (hin : PushInput P vars nA nT) (hB : 0 < B) : ∃ T, pushTranslate P vars nA nT B true zeroJunk = some T ∧
    PushTask P vars nA nT B T ∧ T.WF ∧ Corr vars P.initState T.start ∧ ∀ p, VOk B p → view vars.length B T.start p = pushStart P p := by
  obtain ⟨S, hSP, hlen0, vals, hv1, hv2, hv3⟩ := sasPlus_init hin.wf hin.sas hin.fits
  have hS := sasPlus_ok hin.wf hin.sas.contig hSP
  have hne : S.vars ≠ [] := by
    intro h
    have := hS.len
    rw [h] at this
    exact hin.sas.ne (List.length_eq_zero_iff.1 this.symm)
  obtain ⟨N, hN⟩ := hS.contig
  have hlenS := hS.len
  obtain ⟨M, hM⟩ := UW_contig (nT := nT) (B := B) hne hN
  have hacts : ((List.range nA).mapM fun a => (List.range B).mapM fun j =>
      (writeCOp (pushVars S nT B) true (puActBits S (pushVars S nT B) B a j) (P.cost a)).map fun o => (PLab.prim a j, o)) =
      some ((List.range nA).map fun a => (List.range B).map fun j => (PLab.prim a j, (opAct P vars B a j).toC vars.length B)) := by
    refine mapM_range_some fun a ha => mapM_range_some fun j hj => ?_
    rw [actOp_write hS hne hj (lt_of_lt_of_le ha hin.nA_le), hlenS]
    rfl
  have hmeths : ((List.range P.numMethods).mapM fun m => do
      let r ← reorder P.prim (P.sub m) (P.ord m)
      let ord ← remapOrd (P.sub m) (P.ord m)
      ((List.range B).filter fun j => !decide ((P.sub m).length + j > B)).mapM fun j =>
        (writeCOp (pushVars S nT B) true
          (puMethBits (pushVars S nT B) S.vars.length B (P.head m) (P.sub m).length j r.order ord) 0).map fun o => (PLab.meth m j, o)) =
      some ((List.range P.numMethods).map fun m => ((List.range B).filter fun j => !decide ((P.sub m).length + j > B)).map fun j =>
        (PLab.meth m j, (opMeth P B m j).toC vars.length B)) := by
    refine mapM_range_some fun m hm => ?_
    have htop := hin.top m hm
    obtain ⟨r, hr1, hr2, hr3⟩ := reorder_top (prim := P.prim) (hin.wf.sub_ne m hm) (fun o ho => hin.wf.ord_lt m hm o.1 o.2 ho) htop
    rw [hr1, hr3]
    simp only [Option.bind_eq_bind, Option.bind_some]
    apply mapM_some
    rw [List.map_map]
    refine List.map_congr_left fun j hj => ?_
    have hj : (P.sub m).length + j ≤ B := by simpa using (List.mem_filter.1 hj).2
    have := decOp_write (S := S) (nT := nT) (B := B) (t := P.head m) (j := j) (order := (P.sub m).reverse)
      (ord := revOrd (P.sub m).length (P.ord m)) hne hN (by simpa using hin.wf.sub_ne m hm) (by
        intro h1
        rw [List.length_reverse] at h1
        rcases htop with h | ⟨-, o, -, h2, -⟩
        · rw [h]
          rfl
        · omega) (by simpa using hj) (hin.head_lt m hm) (fun x hx => hin.sub_lt m hm x (by simpa using hx))
      (by simpa using revOrd_lt hin hm)
    rw [List.length_reverse] at this
    rw [hr2, this, hlenS]
    rfl
  have hmoves : ((List.range nT).mapM fun t => (List.range (B - 1)).mapM fun j =>
      (writeCOp (pushVars S nT B) true (puMoveBits (pushVars S nT B) S.vars.length B t (j + 1) (zeroJunk t (j + 1))) 0).map fun o =>
        (PLab.move t (j + 1), o)) =
      some ((List.range nT).map fun t => (List.range (B - 1)).map fun j => (PLab.move t (j + 1), (opMove B t (j + 1)).toC vars.length B)) := by
    refine mapM_range_some fun t ht => mapM_range_some fun j hj => ?_
    rw [moveOp_write hne hN (by omega) (by omega) ht, hlenS]
    rfl
  have hops : ∃ ops, pushOps P S nA nT (pushVars S nT B) B true zeroJunk = some ops ∧ ops =
      ((List.range nA).map fun a => (List.range B).map fun j => (PLab.prim a j, (opAct P vars B a j).toC vars.length B)).flatten ++
      ((List.range P.numMethods).map fun m => ((List.range B).filter fun j => !decide ((P.sub m).length + j > B)).map fun j =>
        (PLab.meth m j, (opMeth P B m j).toC vars.length B)).flatten ++
      ((List.range nT).map fun t => (List.range (B - 1)).map fun j =>
        (PLab.move t (j + 1), (opMove B t (j + 1)).toC vars.length B)).flatten := by
    refine ⟨_, ?_, rfl⟩
    simp only [pushOps]
    rw [hacts, hmeths, hmoves]
    rfl
  obtain ⟨ops, hops, hopsEq⟩ := hops
  have hs0 : S.s0.mapM (conv (pushVars S nT B)) = some vals := mapM_some (map_UW hne hN hv1)
  let st : Nat → Nat := fun i => if i = 0 then P.init + 1 else if i = B + B * (B - 1) / 2 then 1 else 0
  have hsz : ∀ i < B * 3 + B * (B - 1) / 2, ∃ s, (pushSizes nT B)[i]? = some s ∧ st i ≤ s := by
    intro i hi
    have hl : i < (pushSizes nT B).length := by rw [pushSizes_length]; exact hi
    refine ⟨_, List.getElem?_eq_getElem hl, ?_⟩
    simp only [st]
    split_ifs with h1 h2
    · have := pushSizes_get (nT := nT) (B := B) (p := .task 0) hB 0
      simp only [ix, puTask, Nat.zero_add, Nat.sub_zero, vMax] at this
      subst h1
      rw [List.getElem?_eq_getElem hl] at this
      have e := Option.some.inj this
      rw [e]
      exact hin.init_lt
    · have := pushSizes_get (nT := nT) (B := B) (p := .occ 0) hB 0
      simp only [ix, puOcc, Nat.zero_add, Nat.sub_zero, Nat.add_zero, vMax, ← h2] at this
      rw [List.getElem?_eq_getElem hl] at this
      have e := Option.some.inj this
      rw [e]
    · exact Nat.zero_le _
  have hs1 : (pushInit P (pushVars S nT B) S.vars.length B).mapM (conv (pushVars S nT B)) =
      some ((List.range (B * 3 + B * (B - 1) / 2)).map fun i => (S.vars.length + i, st i)) := by
    apply mapM_some
    rw [pushInit, List.map_map, List.map_map]
    refine List.map_congr_left fun i hi => ?_
    have hi : i < B * 3 + B * (B - 1) / 2 := by simpa using hi
    obtain ⟨s, h1, h2⟩ := hsz i hi
    obtain ⟨f, hf⟩ := UW_new (S := S) h1
    exact conv_bitOf hM hf (by simp only [st] at h2; omega)
  have hg : (S.goal ++ (List.range B).map fun i => bitOf (pushVars S nT B) (puTask S.vars.length i) 0).mapM (conv (pushVars S nT B)) =
      some (P.goal.filterMap (conv vars) ++ (List.range B).map fun i => (puTask S.vars.length i, 0)) := by
    apply mapM_some
    rw [List.map_append, List.map_append, map_UW hne hN hS.goal, List.map_map, List.map_map]
    congr 1
    refine List.map_congr_left fun i hi => ?_
    exact conv_pbit (x := (.task i, 0)) hne hN (show i < B by simpa using hi) (Nat.zero_le nT)
  have htr : pushTranslate P vars nA nT B true zeroJunk = some
      { doms := (pushVars S nT B).map fun v => v.2 - v.1 + 1
        init := (vals ++ (List.range (B * 3 + B * (B - 1) / 2)).map fun i => (S.vars.length + i, st i)).map Prod.snd
        goal := P.goal.filterMap (conv vars) ++ (List.range B).map fun i => (puTask S.vars.length i, 0)
        ops := ops } := by
    simp only [pushTranslate]
    rw [hSP]
    simp only [Option.bind_eq_bind, Option.bind_some]
    rw [if_neg (by omega), hops]
    simp only [Option.bind_some]
    rw [hs0, hs1]
    simp only [Option.bind_some]
    rw [hg]
    rfl
  have hvl : vals.length = vars.length := by
    have := congrArg List.length hv2
    simpa using this
  have hin' : ∀ p, InW (pushVars S nT B) p → ∃ d, ((pushVars S nT B).map fun v => v.2 - v.1 + 1)[p.1]? = some d ∧ p.2 < d := by
    rintro ⟨i, v⟩ ⟨b, hb⟩
    obtain ⟨f, l, h1, h2, h3, h4⟩ := conv_some hb
    refine ⟨l - f + 1, by simp [h1], ?_⟩
    simp only
    omega
  have hnew : ∀ i < B * 3 + B * (B - 1) / 2,
      (((vals ++ (List.range (B * 3 + B * (B - 1) / 2)).map fun i => (S.vars.length + i, st i)).map Prod.snd)[vars.length + i]?).getD 0 = st i := by
    intro i hi
    rw [List.getElem?_map, List.getElem?_append_right (by omega), hvl, Nat.add_sub_cancel_left, List.getElem?_map, List.getElem?_range hi]
    rfl
  refine ⟨_, htr, ⟨fun x => ?_, fun σ => ?_⟩, ?_, ?_, ?_⟩
  · rw [hopsEq]
    simp only [List.mem_append, List.mem_flatten, List.mem_map, List.mem_range, or_assoc]
    refine or_congr ⟨?_, ?_⟩ (or_congr ⟨?_, ?_⟩ ⟨?_, ?_⟩)
    · rintro ⟨_, ⟨a, ha, rfl⟩, hx⟩
      obtain ⟨j, hj, rfl⟩ := List.mem_map.1 hx
      exact ⟨a, j, ha, List.mem_range.1 hj, rfl⟩
    · rintro ⟨a, j, ha, hj, rfl⟩
      exact ⟨_, ⟨a, ha, rfl⟩, List.mem_map.2 ⟨j, List.mem_range.2 hj, rfl⟩⟩
    · rintro ⟨_, ⟨m, hm, rfl⟩, hx⟩
      obtain ⟨j, hj, rfl⟩ := List.mem_map.1 hx
      exact ⟨m, j, hm, by simpa using (List.mem_filter.1 hj).2, rfl⟩
    · rintro ⟨m, j, hm, hj, rfl⟩
      have := List.length_pos_iff.2 (hin.wf.sub_ne m hm)
      exact ⟨_, ⟨m, hm, rfl⟩, List.mem_map.2 ⟨j, List.mem_filter.2 ⟨List.mem_range.2 (by omega), by simpa using hj⟩, rfl⟩⟩
    · rintro ⟨_, ⟨t, ht, rfl⟩, hx⟩
      obtain ⟨j, hj, rfl⟩ := List.mem_map.1 hx
      have := List.mem_range.1 hj
      exact ⟨t, j + 1, ht, by omega, by omega, rfl⟩
    · rintro ⟨t, j, ht, hj0, hj, rfl⟩
      refine ⟨_, ⟨t, ht, rfl⟩, List.mem_map.2 ⟨j - 1, List.mem_range.2 (by omega), ?_⟩⟩
      rw [show j - 1 + 1 = j by omega]
  · simp only [CTask.Goal, List.mem_append, or_imp, forall_and]
    refine and_congr Iff.rfl ⟨fun h j hj => ?_, fun h g hg => ?_⟩
    · have := h (puTask S.vars.length j, 0) (List.mem_map.2 ⟨j, List.mem_range.2 hj, rfl⟩)
      rw [hlenS] at this
      exact this
    · obtain ⟨j, hj, rfl⟩ := List.mem_map.1 hg
      rw [hlenS]
      exact h j (List.mem_range.1 hj)
  · have hpo := pushOps_in hops
    refine ⟨?_, fun i v hi => ?_, fun g hg' => ?_, fun x hx p hp => ?_, fun x hx e he => ?_, fun x hx e he => ?_⟩
    · simp [UW_length, pushSizes_length, hvl, hlenS]
    · simp only [List.getElem?_map] at hi
      obtain ⟨p, hp, rfl⟩ := Option.map_eq_some_iff.1 hi
      have h1 : p.1 = i ∧ InW (pushVars S nT B) p := by
        rcases Nat.lt_or_ge i vals.length with h | h
        · rw [List.getElem?_append_left h] at hp
          refine ⟨?_, mapM_conv_in hs0 p (List.mem_of_getElem? hp)⟩
          have := congrArg (fun l => l[i]?) hv2
          simp only [List.getElem?_map, hp, Option.map_some, List.getElem?_range (show i < vars.length by omega), Option.some.injEq] at this
          exact this
        · rw [List.getElem?_append_right h] at hp
          refine ⟨?_, mapM_conv_in hs1 p (List.mem_of_getElem? hp)⟩
          obtain ⟨k, hk, rfl⟩ := List.getElem?_eq_some_iff.1 hp
          simp
          omega
      rw [← h1.1]
      exact hin' p h1.2
    · exact hin' g (mapM_conv_in hg g hg')
    · exact hin' p ((hpo x hx).prevail p hp)
    · exact ⟨hin' _ ((hpo x hx).eff e he).1, fun v hv => hin' _ (((hpo x hx).eff e he).2 v hv)⟩
    · exact ⟨hin' _ ((hpo x hx).cond e he).1, fun c hc => hin' _ (((hpo x hx).cond e he).2 c hc)⟩
  · intro i f l hi
    have hlt := (List.getElem?_eq_some_iff.1 hi).1
    simp only [CTask.start, List.getElem?_map, List.getElem?_append_left (show i < vals.length by omega)]
    exact hv3 i f l hi
  · intro p hp
    have hge := ix_ge (nV := vars.length) (B := B) p
    have hlt : ix vars.length B p - vars.length < B * 3 + B * (B - 1) / 2 := by
      rw [← pushSizes_length (nT := nT)]
      exact (List.getElem?_eq_some_iff.1 (pushSizes_get hp vars.length)).1
    have := hnew _ hlt
    rw [show vars.length + (ix vars.length B p - vars.length) = ix vars.length B p by omega] at this
    refine Eq.trans this ?_
    cases p with
    | task j =>
      have hj : j < B := hp
      have e : ix vars.length B (.task j) - vars.length = j := by simp only [ix, puTask]; omega
      rw [e]
      simp only [st, pushStart]
      split_ifs <;> first | rfl | omega
    | con k j =>
      have := tri_lt hp.1 hp.2
      have h2 : j < k := hp.1
      have e : ix vars.length B (.con k j) - vars.length = B + (k * (k - 1) / 2 + j) := by simp only [ix, puCon]; omega
      rw [e]
      simp only [st, pushStart]
      split_ifs <;> first | rfl | omega
    | occ j =>
      have e : ix vars.length B (.occ j) - vars.length = B + B * (B - 1) / 2 + j := by simp only [ix, puOcc]; omega
      rw [e]
      simp only [st, pushStart]
      split_ifs <;> first | rfl | omega
    | mov j =>
      have e : ix vars.length B (.mov j) - vars.length = B + B * (B - 1) / 2 + B + j := by simp only [ix, puMov]; omega
      rw [e]
      simp only [st, pushStart]
      split_ifs <;> first | rfl | omega

/-- The initial state describes the network with the initial task only. -/
theorem push_enc (hin : PushInput P vars nA nT) (hB : 0 < B) {T : CTask PLab} (hc : Corr vars P.initState T.start)
    (hs : ∀ p, VOk B p → view vars.length B T.start p = pushStart P p) :
    QEnc vars nT B T.start P.initState {0} (fun _ => P.init) (fun _ _ => False) (fun _ => 0) ∧ MovZero vars.length B T.start := by
  refine ⟨⟨hc, fun u _ => hB, fun u hu v hv _ => ?_, fun u _ => hin.init_lt, fun u _ => hs (.task 0) hB, fun j hj hf => ?_,
    fun u _ => hs (.occ 0) hB, fun j hj hf => ?_, fun u _ v _ h => h.elim, fun k j hjk hk hne => ?_⟩, fun l hl => hs (.mov l) hl⟩
  · rw [Finset.mem_singleton.1 hu, Finset.mem_singleton.1 hv]
  · have h0 : j ≠ 0 := fun e => hf 0 (Finset.mem_singleton_self 0) e.symm
    rw [hs (.task j) hj, pushStart, if_neg h0]
  · have h0 : j ≠ 0 := fun e => hf 0 (Finset.mem_singleton_self 0) e.symm
    rw [hs (.occ j) hj, pushStart, if_neg h0]
  · exact absurd (hs (.con k j) ⟨hjk, hk⟩) hne

/-- The plans of the translated problem. -/
theorem pushPlans (hin : PushInput P vars nA nT) (hf : ∀ a < nA, PrecFun vars P a) (hB : 0 < B) {T : CTask PLab}
    (hT : pushTranslate P vars nA nT B true zeroJunk = some T) :
    (∀ ρ, T.Plan ρ → BoundedSolution P B (pushActs ρ) ∧ cplanCost ρ = ((pushActs ρ).map P.cost).sum) ∧
    ∀ π, BoundedSolution P B π → ∃ ρ, T.Plan ρ ∧ pushActs ρ = π := by
  obtain ⟨T', hT', ht, -, hc, hs⟩ := pushTranslate_eq hin hB
  rw [hT] at hT'
  cases hT'
  obtain ⟨he, hm⟩ := push_enc hin hB hc hs
  refine ⟨fun ρ hρ => ?_, fun π hπ => ?_⟩
  · obtain ⟨σ, h1, h2⟩ := hρ
    exact ⟨push_sound hin hf ht h1 he ⟨[], .nil _⟩ h2, push_cost ht h1⟩
  · obtain ⟨ρ, σ, h1, h2, h3⟩ := push_complete hin hf ht hπ he hm ⟨[], .nil _⟩
    exact ⟨ρ, ⟨σ, h1, h2⟩, h3⟩

end Verif.Sas
