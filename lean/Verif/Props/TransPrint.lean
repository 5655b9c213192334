import Verif.ToHddl
import Verif.Props.Translate

/-! # C66: what is printed for a plan of the translated problem -/

namespace Verif.Props

open Verif.Htn Verif.Sas Verif.Pdt

/-- The printed lines describe the decomposition tree `tr` of the initial task with the actions `π`: all numbers of subtasks are
numbers of lines, the actions are `π` in their order, numbered from 0, the lines of the methods have the following numbers and
every line but that of the root is a subtask of exactly one line. -/
structure HddlOK (P : Problem) (out : HOut) (tr : Htn.Tree) (π : List Nat) : Prop where
  valid : Valid P P.init tr
  yield : yield (fun m => List.range (P.sub m).length) tr = π
  acts : out.acts.map Prod.snd = π
  actIds : out.acts.map Prod.fst = List.range π.length
  lines : ∃ D : List DLine, out.decs = D.map toH ∧ (∀ d ∈ D, ∃ m, d.meth = some m) ∧
    Reads P (fun m => List.range (P.sub m).length) out.acts D out.root tr ∧ (out.root :: D.flatMap DLine.subs).Perm (out.acts.map Prod.fst ++ D.map DLine.id)
  decIds : out.decs.map HLine.id = List.range' π.length out.decs.length

theorem reoOf_eq {P : Problem} {vars : List (Nat × Nat)} {nA nT : Nat} (hin : ToInput P vars nA nT) {m : Nat} (hm : m < P.numMethods) :
    reoOf P m = ⟨(tasksOf P (fun m => List.range (P.sub m).length) m).reverse, leadOf P m⟩ := by
  obtain ⟨h1, ⟨r, h2, h3⟩, -, -⟩ := reorder_range hin.wf hin.totOK hm rfl
  rw [reoOf, leadOf, h2, h1, Option.getD_some]
  cases r
  cases h3
  rfl

theorem entActs_eq {P : Problem} {vars : List (Nat × Nat)} {nA nT : Nat} (hin : ToInput P vars nA nT) {N : Nat} {st : List Nat}
    {ls : List Lab} (h : Work P (fun m => List.range (P.sub m).length) (leadOf P) st ls) : ∀ p q,
    (entActs (fun m => (reoOf P m).prefixTasks) (ents (fun m => (reoOf P m).first) N ls p q)).map Prod.snd =
      ls.flatMap fun l => match l with
        | .prim a _ => [a]
        | .meth m _ => (P.sub m).take (primLead P m) := by
  induction h with
  | nil => intro p q; rfl
  | act _ _ ih =>
    intro p q
    rw [ents, entActs, List.map_append, ih, List.flatMap_cons]
    rfl
  | @meth m r ls hm _ ih =>
    intro p q
    have hr := reoOf_eq hin hm
    obtain ⟨h1, -, h3, -⟩ := reorder_range hin.wf hin.totOK hm rfl
    have hlen := congrArg List.length h1
    have hf : (reoOf P m).first = leadOf P m := by rw [hr]
    have hpref : (reoOf P m).prefixTasks = (P.sub m).take (primLead P m) := by
      rw [prefixTasks_eq (l := tasksOf P (fun m => List.range (P.sub m).length) m) (by rw [hr]) (by rw [hf]; omega), hf, h1, hin.leadOf hm]
    rw [ents, entActs, List.map_append, ih, List.flatMap_cons]
    simp only [hpref, hf]
    rw [List.map_snd_zip]
    rw [List.length_take, List.length_range', hin.leadOf hm]
    omega

/-- **C66** (partial: for plans without blank operators, and under `NoConf`): for a plan of the translated problem a solution with
its decomposition tree is printed. -/
theorem C66_hddl_partial (P : Problem) (vars : List (Nat × Nat)) (nA nT : Nat) (hin : ToInput P vars nA nT)
    (hnc : NoConf P vars nA) (pgb : Nat) (hp : 1 ≤ pgb) (T : STask Lab) (hT : translate P vars nA nT pgb = some T)
    (ρ : List (Lab × SOp)) (hρ : T.Plan ρ) (hb : ∀ x ∈ ρ, x.2 ≠ blankOp) :
    IsSolution P (planActs P ρ) ∧ ∃ tr, HddlOK P (planToHddl P (reoOf P) (ρ.map Prod.fst)) tr (planActs P ρ) := by
  refine ⟨(C65_translate_sound_partial P vars nA nT hin hnc pgb hp T hT ρ hρ hb).1, ?_⟩
  have hlead : ∀ m < P.numMethods, leadOf P m ≤ (P.sub m).length ∧
      ∀ t ∈ (tasksOf P (fun m => List.range (P.sub m).length) m).take (leadOf P m), P.prim t = true := fun m hm =>
    (reorder_range hin.wf hin.totOK hm rfl).2.2
  have hw := plan_work hin.trans (hnc.noConflict hin) hp hT hρ hb
  obtain ⟨ts, ids, D, h⟩ := printed_of_work hin.totOK hlead (fun m hm => reoOf_eq hin hm)
    (primNum (fun m => (reoOf P m).first) (ρ.map Prod.fst)) hw 0 0
  obtain ⟨tr, rfl⟩ : ∃ tr, ts = [tr] := List.length_eq_one_iff.1 (by simpa using h.valid.length_eq.symm)
  obtain ⟨k, rfl⟩ : ∃ k, ids = [k] := List.length_eq_one_iff.1 (by simpa using h.len)
  have hroot : k = primNum (fun m => (reoOf P m).first) (ρ.map Prod.fst) := by
    have := h.find 0 P.init k rfl rfl
    have hia := hin.wf.init_abs
    generalize e : ρ.map Prod.fst = ls at hw this ⊢
    generalize primNum (fun m => (reoOf P m).first) ls = N at this ⊢
    generalize P.init = t at hw this hia
    cases hw with
    | act hpt _ => rw [hia] at hpt; cases hpt
    | @meth m r ls _ _ => simpa [ents, findSub] using this.symm
  have hπ : planActs P ρ = (entActs (fun m => (reoOf P m).prefixTasks) (ents (fun m => (reoOf P m).first)
      (primNum (fun m => (reoOf P m).first) (ρ.map Prod.fst)) (ρ.map Prod.fst) 0 0)).map Prod.snd := by
    rw [entActs_eq hin hw, planActs, List.flatMap_map]
    rfl
  have hlen : (planActs P ρ).length = primNum (fun m => (reoOf P m).first) (ρ.map Prod.fst) := by
    have := congrArg List.length h.actIds
    rw [hπ]
    simpa using this
  have hdl : D.length = methNum (ρ.map Prod.fst) := by
    have := congrArg List.length h.decIds
    simpa using this
  have hv := h.valid
  simp only [List.forall₂_cons, List.forall₂_nil_right_iff, and_true] at hv
  refine ⟨tr, hv, ?_, hπ.symm, ?_, ⟨D, h.decs, h.meths, ?_, ?_⟩, ?_⟩
  · rw [hπ, h.acts]
    simp
  · rw [hlen, List.range_eq_range']
    exact h.actIds
  · have := h.reads _ D (fun x hx => hx) (fun d hd => hd) 0 k tr rfl rfl
    rw [hroot] at this
    exact this
  · have := h.once
    rw [hroot, ← h.actIds, ← h.decIds] at this
    exact this
  · show (hddlDecs P (reoOf P) _).map HLine.id = List.range' _ (hddlDecs P (reoOf P) _).length
    rw [h.decs, List.map_map, hlen, List.length_map, hdl]
    exact h.decIds

/-- The hypotheses are met by `trP`: a plan with four operators of methods, what is printed for it, and its tree. -/
example : ∃ T ρ, ToInput trP [(0, 1), (2, 2)] 3 5 ∧ NoConf trP [(0, 1), (2, 2)] 3 ∧
    translate trP [(0, 1), (2, 2)] 3 5 1 = some T ∧ T.Plan ρ ∧ (∀ x ∈ ρ, x.2 ≠ blankOp) ∧
    planToHddl trP (reoOf trP) (ρ.map Prod.fst) = ⟨[(0, 0), (1, 1), (2, 2), (3, 0), (4, 1), (5, 2)], 6,
      [⟨6, 3, 0, [some 0, some 1, some 7]⟩, ⟨7, 4, 2, [some 2, some 8]⟩, ⟨8, 3, 0, [some 3, some 4, some 9]⟩, ⟨9, 4, 1, [some 5]⟩]⟩ := by
  refine ⟨⟨[2, 2, 2, 6], [0, 1, 1, 4], [(0, 0), (2, 0)], [
    (.prim 0 0, ⟨[], [(0, some 0, 1), (3, some 1, 0), (2, some 1, 0)], 1⟩),
    (.prim 1 0, ⟨[(0, 1)], [(1, none, 0), (3, some 2, 0), (2, some 1, 0)], 2⟩),
    (.prim 2 0, ⟨[], [(0, none, 0), (1, some 0, 1), (3, some 3, 0), (2, some 1, 0)], 3⟩),
    (.meth 0 0, ⟨[(2, 1)], [(3, some 4, 5), (0, some 0, 1), (1, none, 0)], 3⟩),
    (.meth 1 0, ⟨[], [(2, some 1, 0), (3, some 5, 0), (0, none, 0), (1, some 0, 1)], 3⟩),
    (.meth 2 0, ⟨[(2, 1)], [(3, some 5, 4), (0, none, 0), (1, some 0, 1)], 3⟩)]⟩, [(.meth 0 0, ⟨[(2, 1)], [(3, some 4, 5), (0, some 0, 1), (1, none, 0)], 3⟩),
    (.meth 2 0, ⟨[(2, 1)], [(3, some 5, 4), (0, none, 0), (1, some 0, 1)], 3⟩),
    (.meth 0 0, ⟨[(2, 1)], [(3, some 4, 5), (0, some 0, 1), (1, none, 0)], 3⟩),
    (.meth 1 0, ⟨[], [(2, some 1, 0), (3, some 5, 0), (0, none, 0), (1, some 0, 1)], 3⟩)], trP_in, trP_noConf, by rfl,
    ⟨_, .cons ?_ ?_ (.cons ?_ ?_ (.cons ?_ ?_ (.cons ?_ ?_ (.nil _)))), ?_⟩, ?_, by decide +kernel⟩
  · simp
  · decide
  · simp
  · decide
  · simp
  · decide
  · simp
  · decide
  · intro g hg
    simp only [List.mem_cons, List.not_mem_nil, or_false] at hg
    rcases hg with rfl | rfl <;> rfl
  · intro x hx
    simp only [List.mem_cons, List.not_mem_nil, or_false] at hx
    rcases hx with rfl | rfl | rfl | rfl <;> decide

/-- The same task twice below one method, first done with another method than the second time, and actions that do not lead:
the subtasks are found by the point of the stack. -/
example : planToHddl { trP with
      sub := fun m => if m = 0 then [0, 4, 1, 4] else if m = 1 then [2] else [2, 3]
      ord := fun m => if m = 0 then [(0, 1), (1, 2), (2, 3)] else if m = 1 then [] else [(0, 1)] }
    (fun m => if m = 0 then ⟨[4, 1, 4, 0], 1⟩ else if m = 1 then ⟨[2], 0⟩ else ⟨[3, 2], 1⟩)
    [.meth 0 0, .meth 1 2, .prim 2 2, .prim 1 1, .meth 1 0, .prim 2 0] =
    ⟨[(0, 0), (1, 2), (2, 1), (3, 2)], 4, [⟨4, 3, 0, [some 0, some 5, some 2, some 6]⟩, ⟨5, 4, 1, [some 1]⟩, ⟨6, 4, 1, [some 3]⟩]⟩ := by
  decide +kernel

end Verif.Props
