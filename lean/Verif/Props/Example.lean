import Verif.Search

/-! # A small problem used to show that hypotheses of property theorems can be met

Tasks: 0 = `A` (abstract, initial), 1 = `a`, 2 = `b`, 3 = `e` (effect-free), 4 = `B` (abstract).
Facts: 0, 1.  `a` needs nothing and adds fact 0; `b` needs fact 0, deletes it and adds fact 1.
Method 0: `A -> a, B, e` with `a < B`.  Method 1: `B -> b`.  Method 2: `B -> b, A` with `b < A`. -/

namespace Verif.Props

open Verif.Htn Verif.Prog

def exP : Problem where
  numFacts := 2
  prim t := t == 1 || t == 2 || t == 3
  prec t := if t = 2 then [0] else []
  add t := if t = 1 then [0] else if t = 2 then [1] else []
  del t := if t = 2 then [0] else []
  cost t := if t = 1 then 1 else if t = 2 then 2 else 0
  numMethods := 3
  head m := if m = 0 then 0 else 4
  sub m := if m = 0 then [1, 4, 3] else if m = 1 then [2] else [2, 0]
  ord m := if m = 0 then [(0, 1)] else if m = 2 then [(0, 1)] else []
  init := 0
  s0 := []
  goal := [1]

theorem exP_wf : exP.WF where
  ord_lt := by
    intro m _ i j h
    simp only [exP] at h ⊢
    split_ifs at h ⊢ <;> simp_all
  ord_acyclic := by
    intro m _
    refine ⟨fun i => i, fun i j h => ?_⟩
    simp only [exP] at h
    split_ifs at h <;> simp_all
  sub_ne := by
    intro m _
    simp only [exP]
    split_ifs <;> simp
  head_abs := by
    intro m _
    simp only [exP]
    split_ifs <;> simp
  init_abs := by simp [exP]
  prec_lt := by
    intro a f h
    simp only [exP] at h ⊢
    split_ifs at h <;> simp_all
  add_lt := by
    intro a f h
    simp only [exP] at h ⊢
    split_ifs at h <;> simp_all
  del_lt := by
    intro a f h
    simp only [exP] at h ⊢
    split_ifs at h <;> simp_all
  s0_lt := by simp [exP]
  goal_lt := by simp [exP]

def exCfg : Cfg where
  effLess := false
  oneMod := false
  trackTasks := false
  perm := id

theorem exCfg_ok : exCfg.Ok := fun _ => List.Perm.refl _

/-- With automatic progression and an address order that reverses sets. -/
def exCfg2 : Cfg where
  effLess := true
  oneMod := true
  trackTasks := false
  perm := List.reverse

theorem exCfg2_ok : exCfg2.Ok := fun l => List.reverse_perm l

end Verif.Props
