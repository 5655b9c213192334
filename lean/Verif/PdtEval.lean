import Verif.SatPlan

/-! # Evaluation of the pruning

`prop` and `propAll` are defined by mutual recursion, which the kernel does not evaluate; these variants are equal to them
and are used for concrete cases only. -/

namespace Verif.Pdt

open Verif.Htn Verif.Sog

/-- `prop` with the recursive calls as a fold, for evaluation. -/
def propS (P : Problem) (t : T) : Nat → Path → Flags → Option Flags
  | 0, _, _ => none
  | f + 1, p, S =>
    match t.nd p with
    | none => none
    | some d => (body P t p d S).2.foldl (fun o q => o.bind (propS P t f q)) (some (body P t p d S).1)

/-- `propAll` likewise. -/
def propAllS (P : Problem) (t : T) (f : Nat) (ps : List Path) (S : Flags) : Option Flags :=
  ps.foldl (fun o q => o.bind (propS P t f q)) (some S)

theorem foldl_bind_none {f : Path → Flags → Option Flags} (ps : List Path) :
    ps.foldl (fun o q => o.bind (f q)) none = none := by
  induction ps with
  | nil => rfl
  | cons p ps ih => exact ih

theorem propS_eq (P : Problem) (t : T) : ∀ f, (∀ p S, prop P t f p S = propS P t f p S) ∧
    ∀ ps S, propAll P t f ps S = propAllS P t f ps S := by
  intro f
  induction f with
  | zero =>
    have h1 : ∀ p S, prop P t 0 p S = propS P t 0 p S := fun p S => by rw [prop, propS]
    refine ⟨h1, fun ps S => ?_⟩
    cases ps with
    | nil => rw [propAll]; rfl
    | cons p ps =>
      rw [propAll, h1]
      exact (foldl_bind_none (f := fun q S => propS P t 0 q S) ps).symm
  | succ f ih =>
    have h1 : ∀ p S, prop P t (f + 1) p S = propS P t (f + 1) p S := fun p S => by
      rw [prop, propS]
      cases t.nd p with
      | none => rfl
      | some d => exact ih.2 _ _
    refine ⟨h1, fun ps => ?_⟩
    induction ps with
    | nil => intro S; rw [propAll]; rfl
    | cons p ps ih' =>
      intro S
      rw [propAll, h1]
      unfold propAllS
      rw [List.foldl_cons, Option.bind_some]
      cases propS P t (f + 1) p S with
      | none => exact (foldl_bind_none ps).symm
      | some S' => exact ih' S'

/-- `prune` with these. -/
def pruneS (P : Problem) (t : T) (mode : Mode) : Option Flags :=
  match propAllS P t (unset P t (Flags.empty.set (leafAbs t)) + 1) t.leaves (Flags.empty.set (leafAbs t)) with
  | none => none
  | some S1 =>
    match filterAll P t mode S1 with
    | none => none
    | some S2 => propAllS P t (unset P t S2 + 1) t.leaves S2

theorem prune_eq (P : Problem) (t : T) (mode : Mode) : prune P t mode = pruneS P t mode := by
  unfold prune pruneS pruneFirst
  simp only [(propS_eq P t _).2]
  rfl

end Verif.Pdt
