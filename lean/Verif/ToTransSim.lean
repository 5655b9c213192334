import Verif.ToTransComb
import Verif.ToStack
import Verif.SasInit

/-! # The translated problem does what the stack machine does -/

namespace Verif.Sas

open Verif.Htn

/-- The number of subtasks of a method that are not put on the stack (`firstNumTOPrimTasks`). -/
def leadOf (P : Problem) (m : Nat) : Nat := ((reorder P.prim (P.sub m) (P.ord m)).map Reo.first).getD 0

/-- What is assumed about the input of the translation (besides `P.WF`): the variables fit, actions are numbered before the
other tasks, and for every method `reorderTasks` gives the reverse of the order of its subtasks, with primitive leading
tasks. -/
structure TransInput (P : Problem) (vars : List (Nat × Nat)) (nA nT : Nat) (tot : Nat → List Nat) : Prop where
  wf : P.WF
  sas : SasInput P vars
  fits : S0Fits P vars
  prim : ∀ t, P.prim t = decide (t < nA)
  nA_le : nA ≤ nT
  head_lt : ∀ m < P.numMethods, P.head m < nT
  sub_lt : ∀ m < P.numMethods, ∀ t ∈ P.sub m, t < nT
  init_lt : P.init < nT
  totOK : TotOK P tot
  reo : ∀ m < P.numMethods, ∃ r, reorder P.prim (P.sub m) (P.ord m) = some r ∧ r.order = (tasksOf P tot m).reverse
  lead : ∀ m < P.numMethods, leadOf P m ≤ (P.sub m).length ∧ ∀ t ∈ (tasksOf P tot m).take (leadOf P m), P.prim t = true

/-- No action needs two values of the same variable, and the leading tasks of a method do not need different values of a
variable that none of them changes in between. -/
structure NoConflict (P : Problem) (vars : List (Nat × Nat)) (nA : Nat) (tot : Nat → List Nat) : Prop where
  precFun : ∀ a < nA, PrecFun vars P a
  prefOK : ∀ m < P.numMethods, PrefixOK vars P ((tasksOf P tot m).take (leadOf P m))

/-- The operator of an action. -/
def opA (P : Problem) (vars : List (Nat × Nat)) (a j : Nat) : Lab × SOp :=
  (.prim a j, mkOp (precV vars P a ++ [(vars.length + 1 + j, 1 + a), (vars.length, 1 + j)])
    (addV vars P a ++ [(vars.length + 1 + j, 0), (vars.length, j)]) (P.cost a))

/-- The operator of a method. -/
def opM (P : Problem) (vars : List (Nat × Nat)) (tot : Nat → List Nat) (m j : Nat) : Lab × SOp :=
  let pre := (tasksOf P tot m).take (leadOf P m)
  let rest := ((tasksOf P tot m).drop (leadOf P m)).reverse
  let ps := [(vars.length, 1 + j), (vars.length + 1 + j, P.head m + 1)]
  (.meth m j, if pre = [] then mkOp ps (stackEff vars.length j rest) 0
    else match combPairs vars P pre with
      | none => blankOp
      | some (p, a) => mkOp (ps ++ p) (stackEff vars.length j rest ++ a) ((pre.map P.cost).sum))

theorem tasksOf_mem {P : Problem} {tot : Nat → List Nat} (ht : TotOK P tot) {m : Nat} (hm : m < P.numMethods) {t : Nat}
    (h : t ∈ tasksOf P tot m) : t ∈ P.sub m := by
  obtain ⟨i, hi, rfl⟩ := List.mem_map.1 h
  have : i < (P.sub m).length := by simpa using (ht m hm).1.mem_iff.1 hi
  rw [List.getElem?_eq_getElem this]
  exact List.getElem_mem _

theorem prefixTasks_eq {r : Reo} {l : List Nat} (ho : r.order = l.reverse) (hf : r.first ≤ l.length) :
    r.prefixTasks = l.take r.first := by
  apply List.ext_getElem?
  intro k
  rw [Reo.prefixTasks, List.getElem?_map]
  rcases Nat.lt_or_ge k r.first with hk | hk
  · rw [List.getElem?_range hk, List.getElem?_take_of_lt hk, ho, List.length_reverse, Option.map_some,
      List.getElem?_reverse (by omega), show l.length - 1 - (l.length - 1 - k) = k from by omega,
      List.getElem?_eq_getElem (by omega)]
    rfl
  · rw [List.getElem?_eq_none (by simpa using hk), List.getElem?_eq_none (by rw [List.length_take]; omega)]
    rfl

section

variable {P : Problem} {vars : List (Nat × Nat)} {nA nT : Nat} {tot : Nat → List Nat}

theorem TransInput.len (hin : TransInput P vars nA nT tot) {m : Nat} (hm : m < P.numMethods) :
    (tasksOf P tot m).length = (P.sub m).length := tasksOf_length hin.totOK hm

theorem TransInput.lead_eq (_ : TransInput P vars nA nT tot) {m : Nat} {r : Reo}
    (hr : reorder P.prim (P.sub m) (P.ord m) = some r) : leadOf P m = r.first := by
  simp [leadOf, hr]

/-- The operator that is written for a method. -/
theorem methOp_eq (hin : TransInput P vars nA nT tot) {S : SasP} (hS : SPok P vars S) (hne : S.vars ≠ []) {pgb m j : Nat}
    (hm : m < P.numMethods) (hj : j < pgb) (hfit : (P.sub m).length - leadOf P m + j ≤ pgb) {r : Reo}
    (hr : reorder P.prim (P.sub m) (P.ord m) = some r) :
    methOp P S nA (transVars S nT pgb) r m j = some (opM P vars tot m j) := by
  obtain ⟨n, hn⟩ := hS.contig
  obtain ⟨r', hr', ho⟩ := hin.reo m hm
  rw [hr] at hr'
  cases hr'
  have hl := hin.lead_eq hr
  have hlen := hin.len hm
  have hle := (hin.lead m hm).1
  have hpt : r.prefixTasks = (tasksOf P tot m).take (leadOf P m) := by
    rw [hl]
    exact prefixTasks_eq ho (by omega)
  have hrest : r.order.take ((P.sub m).length - r.first) = ((tasksOf P tot m).drop (leadOf P m)).reverse := by
    rw [ho, hl, List.take_reverse, hlen]
    congr 2
    omega
  have hsub : ∀ x ∈ r.order, x < nT := by
    intro x hx
    rw [ho, List.mem_reverse] at hx
    exact hin.sub_lt m hm x (tasksOf_mem hin.totOK hm hx)
  obtain ⟨b1, b2⟩ := methBits_eq (t := P.head m) (n := (P.sub m).length) (r := r) hS hne hj (hin.head_lt m hm)
    (by rw [ho, List.length_reverse]; exact hlen) hsub (by omega)
  rw [hrest] at b2
  rw [methOp]
  simp only [hpt]
  rw [if_neg]
  · by_cases hnil : (tasksOf P tot m).take (leadOf P m) = []
    · rw [if_pos hnil, writeOp_eq b1 b2, opM, if_pos hnil, hnil, hS.len]
      rfl
    · rw [if_neg hnil, opM, if_neg hnil]
      rcases combine_eq hS ((tasksOf P tot m).take (leadOf P m)) with ⟨h1, h2⟩ | ⟨p, a, p', a', h1, h2, h3, h4⟩
      · rw [h1, h2]
      · rw [h1, h2]
        simp only
        rw [writeOp_eq (p' := [(S.vars.length, 1 + j), (S.vars.length + 1 + j, P.head m + 1)] ++ p')
          (a' := stackEff S.vars.length j ((tasksOf P tot m).drop (leadOf P m)).reverse ++ a'), hS.len]
        · rfl
        · rw [List.map_append, List.map_append, b1, map_W hne hn h3]
        · rw [List.map_append, List.map_append, b2, map_W hne hn h4]
  · simp only [List.any_eq_true, decide_eq_true_eq, not_exists, not_and, not_le]
    intro t ht
    have := (hin.lead m hm).2 t ht
    rw [hin.prim t] at this
    simpa using this

/-- The translation of the input. -/
theorem translate_eq (hin : TransInput P vars nA nT tot) {pgb : Nat} (hp : 1 ≤ pgb) :
    ∃ T : STask Lab, translate P vars nA nT pgb = some T ∧
      (∀ x, x ∈ T.ops ↔ (∃ a j, a < nA ∧ j < pgb ∧ x = opA P vars a j) ∨
        ∃ m j, m < P.numMethods ∧ j < pgb ∧ (P.sub m).length - leadOf P m + j ≤ pgb ∧ x = opM P vars tot m j) ∧
      T.goal = P.goal.filterMap (conv vars) ++ [(vars.length, 0)] ∧
      T.doms.length = vars.length + 1 + pgb ∧
      (∀ i f l : Nat, vars[i]? = some (f, l) → T.doms[i]? = some (l - f + 1 + if f = l then 1 else 0)) ∧
      T.doms[vars.length]? = some (pgb + 1) ∧ (∀ j < pgb, T.doms[vars.length + 1 + j]? = some (nT + 1)) ∧
      T.init.length = vars.length + 1 + pgb ∧ Corr vars P.initState T.start ∧ T.start vars.length = 1 ∧
      T.start (vars.length + 1) = P.init + 1 ∧ ∀ y, 1 ≤ y → T.start (vars.length + 1 + y) = 0 := by
  obtain ⟨S, hSP, hlen0, vals, hv1, hv2, hv3⟩ := sasPlus_init hin.wf hin.sas hin.fits
  have hS := sasPlus_ok hin.wf hin.sas.contig hSP
  have hne : S.vars ≠ [] := by
    intro h
    have := hS.len
    rw [h] at this
    exact hin.sas.ne (List.length_eq_zero_iff.1 this.symm)
  obtain ⟨n, hn⟩ := hS.contig
  have hlenS := hS.len
  have hacts : ((List.range nA).mapM fun a => (List.range pgb).mapM fun j => actOp P S (transVars S nT pgb) a j) =
      some ((List.range nA).map fun a => (List.range pgb).map fun j => opA P vars a j) := by
    refine mapM_range_some fun a ha => mapM_range_some fun j hj => ?_
    rw [actOp_eq hS hne hj (lt_of_lt_of_le ha hin.nA_le), opA, hS.len]
  have hmeths : ((List.range P.numMethods).mapM fun m => do
      let r ← reorder P.prim (P.sub m) (P.ord m)
      ((List.range pgb).filter fun j => !decide ((P.sub m).length + j - r.first > pgb)).mapM fun j =>
        methOp P S nA (transVars S nT pgb) r m j) =
      some ((List.range P.numMethods).map fun m =>
        ((List.range pgb).filter fun j => !decide ((P.sub m).length + j - leadOf P m > pgb)).map fun j => opM P vars tot m j) := by
    refine mapM_range_some fun m hm => ?_
    obtain ⟨r, hr, ho⟩ := hin.reo m hm
    have hle := (hin.lead m hm).1
    rw [hr]
    simp only [Option.bind_eq_bind, Option.bind_some, hin.lead_eq hr]
    apply mapM_some
    rw [List.map_map]
    refine List.map_congr_left fun j hj => ?_
    simp only [List.mem_filter, List.mem_range, Bool.not_eq_true', decide_eq_false_iff_not] at hj
    refine methOp_eq hin hS hne hm hj.1 ?_ hr
    rw [hin.lead_eq hr] at hle ⊢
    omega
  have hops : allOps P S nA (transVars S nT pgb) (fun m => reorder P.prim (P.sub m) (P.ord m)) pgb = some
      (((List.range nA).map fun a => (List.range pgb).map fun j => opA P vars a j).flatten ++
      ((List.range P.numMethods).map fun m =>
        ((List.range pgb).filter fun j => !decide ((P.sub m).length + j - leadOf P m > pgb)).map fun j => opM P vars tot m j).flatten) := by
    simp only [allOps]
    rw [hacts, hmeths]
    rfl
  have hs0 : S.s0.mapM (conv (transVars S nT pgb)) = some vals := mapM_some (map_W hne hn hv1)
  have hs1 : (bitOf (transVars S nT pgb) S.vars.length 1 :: bitOf (transVars S nT pgb) (S.vars.length + 1) (P.init + 1) ::
      (List.range (pgb - 1)).map fun i => bitOf (transVars S nT pgb) (S.vars.length + 2 + i) 0).mapM (conv (transVars S nT pgb)) =
      some ((S.vars.length, 1) :: (S.vars.length + 1, P.init + 1) :: (List.range (pgb - 1)).map fun i => (S.vars.length + 2 + i, 0)) := by
    apply mapM_some
    have h1 := conv_slot (nT := nT) (pgb := pgb) hne hn (j := 0) (v := P.init + 1) (by omega) hin.init_lt
    rw [Nat.add_zero] at h1
    simp only [List.map_cons, conv_head hne hn hp, h1, List.map_map]
    congr 2
    refine List.map_congr_left fun i hi => ?_
    have hi : i < pgb - 1 := by simpa using hi
    have h2 := conv_slot (nT := nT) (pgb := pgb) hne hn (j := 1 + i) (v := 0) (by omega) (Nat.zero_le _)
    rw [show S.vars.length + 1 + (1 + i) = S.vars.length + 2 + i from by omega] at h2
    exact h2
  have hg : (S.goal ++ [bitOf (transVars S nT pgb) S.vars.length 0]).mapM (conv (transVars S nT pgb)) =
      some (P.goal.filterMap (conv vars) ++ [(S.vars.length, 0)]) := by
    apply mapM_some
    rw [List.map_append, List.map_append, map_W hne hn hS.goal]
    congr 1
    simp [conv_head hne hn (Nat.zero_le pgb)]
  have htr : translate P vars nA nT pgb = some
      { doms := (transVars S nT pgb).map fun v => v.2 - v.1 + 1
        init := (vals ++ ((S.vars.length, 1) :: (S.vars.length + 1, P.init + 1) ::
          (List.range (pgb - 1)).map fun i => (S.vars.length + 2 + i, 0))).map Prod.snd
        goal := P.goal.filterMap (conv vars) ++ [(S.vars.length, 0)]
        ops := (((List.range nA).map fun a => (List.range pgb).map fun j => opA P vars a j).flatten ++
          ((List.range P.numMethods).map fun m =>
            ((List.range pgb).filter fun j => !decide ((P.sub m).length + j - leadOf P m > pgb)).map fun j =>
              opM P vars tot m j).flatten) } := by
    simp only [translate]
    rw [hSP]
    simp only [Option.bind_eq_bind, Option.bind_some]
    rw [if_neg (by omega), hops]
    simp only [Option.bind_some]
    rw [hs0, hs1]
    simp only [Option.bind_some]
    rw [hg]
    rfl
  have hvl : vals.length = vars.length := by
    have := congrArg List.length hv2
    simpa using this
  refine ⟨_, htr, fun x => ?_, by simp [hlenS], by simp [W_length, hlenS], fun i f l hi => ?_, ?_, fun j hj => ?_, ?_, ?_, ?_, ?_, ?_⟩
  · simp only [List.mem_append, List.mem_flatten, List.mem_map, List.mem_range, List.mem_filter, Bool.not_eq_true',
      decide_eq_false_iff_not]
    refine or_congr ⟨?_, ?_⟩ ⟨?_, ?_⟩
    · rintro ⟨_, ⟨a, ha, rfl⟩, hx⟩
      obtain ⟨j, hj, rfl⟩ := List.mem_map.1 hx
      exact ⟨a, j, ha, by simpa using hj, rfl⟩
    · rintro ⟨a, j, ha, hj, rfl⟩
      exact ⟨_, ⟨a, ha, rfl⟩, List.mem_map_of_mem (by simpa using hj)⟩
    · rintro ⟨_, ⟨m, hm, rfl⟩, hx⟩
      obtain ⟨j, hj, rfl⟩ := List.mem_map.1 hx
      simp only [List.mem_filter, List.mem_range, Bool.not_eq_true', decide_eq_false_iff_not] at hj
      have := (hin.lead m hm).1
      exact ⟨m, j, hm, hj.1, by omega, rfl⟩
    · rintro ⟨m, j, hm, hj, hf, rfl⟩
      refine ⟨_, ⟨m, hm, rfl⟩, List.mem_map_of_mem ?_⟩
      simp only [List.mem_filter, List.mem_range, Bool.not_eq_true', decide_eq_false_iff_not]
      exact ⟨hj, by omega⟩
  · obtain ⟨f', l', h1, h2, h3⟩ := hS.size i f l hi
    have hi' : i < S.vars.length := (List.getElem?_eq_some_iff.1 h1).1
    simp only [List.getElem?_map, W_vars hi', h1, Option.map_some, Option.some.injEq]
    omega
  · obtain ⟨f, hf⟩ := W_head (S := S) (nT := nT) (pgb := pgb)
    rw [hlenS] at hf
    simp [hf]
  · obtain ⟨f, hf⟩ := W_slot (S := S) (nT := nT) hj
    rw [hlenS] at hf
    simp [hf]
  · simp [hvl]
    omega
  · intro i f l hi
    have hlt := (List.getElem?_eq_some_iff.1 hi).1
    simp only [STask.start, List.getElem?_map, List.getElem?_append_left (show i < vals.length by omega)]
    exact hv3 i f l hi
  · simp only [STask.start, List.getElem?_map]
    rw [List.getElem?_append_right (by omega), hvl]
    simp
  · simp only [STask.start, List.getElem?_map]
    rw [List.getElem?_append_right (by omega), hvl, show vars.length + 1 - vars.length = 1 from by omega]
    simp
  · intro y hy
    simp only [STask.start, List.getElem?_map]
    rw [List.getElem?_append_right (by omega), hvl, show vars.length + 1 + y - vars.length = y - 1 + 1 + 1 from by omega]
    simp only [List.getElem?_cons_succ, List.getElem?_map]
    cases (List.range (pgb - 1))[y - 1]? <;> rfl

end

end Verif.Sas
