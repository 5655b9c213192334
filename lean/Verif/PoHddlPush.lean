import Verif.PoHddlSt
import Verif.PushEq

/-! # What is printed for plans of the `Push` translation in which no task is moved -/

namespace Verif.Sas

open Verif.Htn Relation

/-- The lines of the plans of the `Push` translation with `B` cells, htnToSAS.cpp 913-946. -/
def puLine (P : Problem) (B : Nat) : PLab → OLine
  | .prim a j => .prim a j
  | .meth m j => .meth m j (j :: (List.range ((P.sub m).length - 1)).map fun l => B - (P.sub m).length + 1 + l)
  | .move _ j => .move j (j - 1)

section

variable {P : Problem} {vars : List (Nat × Nat)} {nA nT B : Nat} {T : CTask PLab}

theorem push_cellRun (hin : PushInput P vars nA nT) (hf : ∀ a < nA, PrecFun vars P a) (hT : PushTask P vars nA nT B T) {σ σ' : Val}
    {ρ : List (PLab × COp)} (h : CRun T σ ρ σ') : ∀ {s : State} {I : Finset Nat} {lab : Nat → Nat} {R : Nat → Nat → Prop} {c : Nat → Nat},
    QEnc vars nT B σ s I lab R c → Reach P s → T.Goal σ' → (∀ t j, PLab.move t j ∉ ρ.map Prod.fst) →
    CellRun P I lab (TransGen (Within I R)) c (ρ.map fun x => puLine P B x.1) := by
  induction h with
  | nil σ =>
    intro s I lab R c he _ hg _
    obtain ⟨h1, h2⟩ := (hT.goal _).1 hg
    have hI : I = ∅ := by
      refine Finset.eq_empty_of_forall_notMem fun u hu => ?_
      have := he.task u hu
      have := h2 (c u) (he.lt u hu)
      omega
    subst hI
    exact .nil
  | @cons σ σ' x ρ hx happ _ ih =>
    intro s I lab R c he hr hg hmv
    have hmv' : ∀ t j, PLab.move t j ∉ ρ.map Prod.fst := fun t j h => hmv t j (.tail _ h)
    rcases (hT.ops x).1 hx with ⟨a, j, ha, hj, rfl⟩ | ⟨m, j, hm, hj, rfl⟩ | ⟨t, j, ht, hj0, hj, rfl⟩
    · obtain ⟨h1, u, hu, rfl, rfl, h4, -⟩ := (opAct_app hin (hf a ha) hj he).1 happ
      have hE := (opAct_step hin (hf _ ha) he hu h4 hr h1).1
      exact .prim hu (by rw [hin.prim]; simpa using ha) (fun v hv => he.inj v hv u hu) (fun v _ => not_tg_min h4 v)
        (fun v hv w _ h => tg_erase h4 (Finset.ne_of_mem_erase hv) h) (ih hE (hr.step h1) hg hmv')
    · obtain ⟨⟨u, hu, rfl, h3, h4, -⟩, h5⟩ := (opMeth_app hin hm hj he).1 happ
      obtain ⟨b, I', lab', R', hS⟩ := exists_refines (P := P) I lab R u m
      obtain ⟨⟨c', hE, hc1, hc2⟩, -⟩ := opMeth_step hin hm he hu h4 hj h5 hS
      refine .meth hm h3.symm hu (fun v hv => he.inj v hv u hu) (not_tg_min h4 u) (hS.subst hin.wf hm hu h4) (fun v hv _ => hc1 v hv)
        (fun i hi => ?_) (ih hE hr hg hmv')
      rw [hc2 i hi, puCell]
      cases hn : (P.sub m).length - 1 - i with
      | zero => simp
      | succ k =>
        rw [List.getElem?_cons_succ, List.getElem?_map, List.getElem?_range (by omega), Option.map_some, if_neg (by omega)]
        congr 1
        omega
    · exact absurd (.head _) (hmv t j)

theorem pushActs_lines (ρ : List (PLab × COp)) : ((ρ.map fun x => puLine P B x.1).filterMap fun x => match x with
    | .prim a _ => some a
    | _ => none) = pushActs ρ := by
  rw [pushActs, List.filterMap_map]
  refine List.filterMap_congr fun x _ => ?_
  obtain ⟨l, o⟩ := x
  cases l <;> rfl

theorem push_hddl (hin : PushInput P vars nA nT) (hf : ∀ a < nA, PrecFun vars P a) (hB : 0 < B)
    (hT : pushTranslate P vars nA nT B true zeroJunk = some T) {ρ : List (PLab × COp)} (hρ : T.Plan ρ)
    (hmv : ∀ t j, PLab.move t j ∉ ρ.map Prod.fst) :
    ∃ tr occ, HddlPO P (planToHddlPO P (fun m => (reoOf P m).order) (ρ.map fun x => puLine P B x.1)) tr occ (pushActs ρ) := by
  obtain ⟨T', hT', ht, -, hc, hs⟩ := pushTranslate_eq hin hB
  rw [hT] at hT'
  cases hT'
  obtain ⟨he, -⟩ := push_enc hin hB hc hs
  obtain ⟨σ, h1, h2⟩ := hρ
  have hrun := push_cellRun hin hf ht h1 he ⟨[], .nil _⟩ h2 hmv
  have := hddlPO_of_run (fun m hm => reoOf_order hin hm) hin.wf.init_abs rfl (fun f t h => ?_) hrun
  · obtain ⟨tr, occ, hh⟩ := this
    refine ⟨tr, occ, ?_⟩
    rw [← pushActs_lines (P := P) (B := B)]
    exact hh
  · obtain ⟨x, hx, e⟩ := List.mem_map.1 h
    obtain ⟨l, o⟩ := x
    cases l with
    | prim a j => cases e
    | meth m j => cases e
    | move t j => exact hmv t j (List.mem_map.2 ⟨_, hx, rfl⟩)

end

end Verif.Sas
