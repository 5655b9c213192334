import Verif.DofSafe

/-! # The delete- and order-free relaxation of a problem -/

namespace Verif.Htn

/-- The problem without delete effects and orderings. -/
def relax (P : Problem) : Problem := { P with del := fun _ => [], ord := fun _ => [] }

end Verif.Htn

namespace Verif.Dof

open Verif.Htn Verif.Prog Verif.TaskCounter Verif.Scc Verif.PG Verif.IntUtil Verif.Props Verif.Rc Verif.AO Relation

variable {P : Problem} {I : Finset Nat} {lab : Nat → Nat} {s : Nat → Prop} {tr : Nat → Tree} {π : List Nat}

theorem valid_relax {t : Nat} {tr : Tree} : Valid (relax P) t tr ↔ Valid P t tr := by
  constructor
  · intro h
    induction h with
    | leaf h => exact .leaf h
    | node hm _ ih => exact Valid.node (P := P) hm ih
  · intro h
    induction h with
    | leaf h => exact .leaf h
    | node hm _ ih => exact Valid.node (P := relax P) hm ih

theorem leaves_relax (tr : Tree) : tr.leaves (relax P) = tr.leaves P := by
  induction tr with
  | leaf a => rfl
  | node m cs ih =>
    simp only [Tree.leaves]
    refine List.flatMap_congr fun i _ => ?_
    rw [ih i]

theorem inner_relax (tr : Tree) : tr.inner (relax P) = tr.inner P := by
  induction tr with
  | leaf a => rfl
  | node m cs ih =>
    simp only [Tree.inner]
    exact congrArg (1 + ·) (Finset.sum_congr rfl fun i _ => ih i)

theorem relaxed_relax : Relaxed (relax P) I lab s tr π ↔ Relaxed P I lab s tr π := by
  have hl : (I.toList.flatMap fun u => ((tr u).leaves (relax P)).map Prod.snd) = I.toList.flatMap fun u => ((tr u).leaves P).map Prod.snd :=
    List.flatMap_congr fun u _ => by rw [leaves_relax]
  constructor
  · rintro ⟨h1, h2, h3, h4⟩
    exact ⟨fun u hu => valid_relax.1 (h1 u hu), hl ▸ h2, h3, h4⟩
  · rintro ⟨h1, h2, h3, h4⟩
    exact ⟨fun u hu => valid_relax.2 (h1 u hu), hl ▸ h2, h3, h4⟩

/-- Without delete effects a sequence whose preconditions are added before is executable. -/
theorem exec_of_adds : ∀ {π : List Nat} {s : State}, (∀ π₁ a π₂, π = π₁ ++ a :: π₂ → ∀ f ∈ P.prec a, s f ∨ ∃ b ∈ π₁, f ∈ P.add b) →
    ∃ s', Exec (relax P) s π s' ∧ ∀ f, (s f ∨ ∃ b ∈ π, f ∈ P.add b) → s' f
  | [], s, _ => ⟨s, .nil _, fun f h => by simpa using h⟩
  | a :: π, s, h => by
    obtain ⟨s', h1, h2⟩ := exec_of_adds (π := π) (s := (relax P).result s a) fun π₁ b π₂ e f hf => by
      rcases h (a :: π₁) b π₂ (by rw [e]; rfl) f hf with h | ⟨c, hc, hadd⟩
      · exact .inl (.inr ⟨h, by simp [relax]⟩)
      · rcases List.mem_cons.1 hc with rfl | hc
        · exact .inl (.inl hadd)
        · exact .inr ⟨c, hc, hadd⟩
    refine ⟨s', .cons (fun f hf => ?_) h1, fun f hf => h2 f ?_⟩
    · rcases h [] a π rfl f hf with h | ⟨c, hc, -⟩
      · exact h
      · simp at hc
    · rcases hf with h | ⟨c, hc, hadd⟩
      · exact .inl (.inr ⟨h, by simp [relax]⟩)
      · rcases List.mem_cons.1 hc with rfl | hc
        · exact .inl (.inl hadd)
        · exact .inr ⟨c, hc, hadd⟩

theorem not_before {tr : Tree} {p q : List Nat} : ¬ Before (relax P) tr p q := by
  intro h
  induction h with
  | same _ ih => exact ih
  | diff h =>
    rcases TransGen.head'_iff.1 h with ⟨_, h, -⟩
    simp [Problem.OrdRel, relax] at h

/-- The solutions of the relaxed problem. -/
theorem solvesN_relax {k : Nat} : SolvesN (relax P) I lab (fun _ _ => False) s π k ↔ ∃ tr, Relaxed P I lab s tr π ∧ ∑ u ∈ I, (tr u).inner P = k := by
  rw [solvesN_iff]
  constructor
  · rintro ⟨tr, occ, hl, hk, s', hex, hgo⟩
    exact ⟨tr, relaxed_relax.1 (exec_relaxed hl hex hgo), by rw [← hk]; exact Finset.sum_congr rfl fun u _ => (inner_relax _).symm⟩
  · rintro ⟨tr, hr, hk⟩
    obtain ⟨h1, h2, h3, h4⟩ := relaxed_relax.2 hr
    have h2' : ((I.toList.flatMap fun u => ((tr u).leaves (relax P)).map fun x => ((u, x.1), x.2)).map Prod.snd).Perm π := by
      simpa [List.map_flatMap, Function.comp_def] using h2.symm
    obtain ⟨F, hF1, hF2⟩ := perm_lift_map h2'
    have hmem : ∀ u p a, ((u, p), a) ∈ F ↔ u ∈ I ∧ LeafAt (relax P) (tr u) p a := by
      intro u p a
      rw [hF1.mem_iff]
      simp only [List.mem_flatMap, Finset.mem_toList, List.mem_map, Prod.mk.injEq, Prod.exists]
      constructor
      · rintro ⟨v, hv, q, b, hl, ⟨rfl, rfl⟩, rfl⟩
        exact ⟨hv, mem_leaves.1 hl⟩
      · rintro ⟨hu, hl⟩
        exact ⟨u, hu, p, a, mem_leaves.2 hl, ⟨rfl, rfl⟩, rfl⟩
    have hnd : F.Nodup := by
      rw [hF1.nodup_iff, List.nodup_flatMap]
      refine ⟨fun u _ => (leaves_nodup _).map fun x y e => ?_, ?_⟩
      · simp only [Prod.mk.injEq, true_and] at e
        exact Prod.ext e.1 e.2
      · refine I.nodup_toList.imp fun {i j} hij => ?_
        simp only [List.disjoint_left, List.mem_map, Prod.exists]
        rintro _ ⟨p, a, _, rfl⟩ ⟨q, b, _, e⟩
        simp only [Prod.mk.injEq] at e
        exact hij e.1.1.symm
    obtain ⟨s', hex, hs'⟩ := exec_of_adds (P := P) h3
    refine ⟨tr, F.map Prod.fst, ⟨h1, ?_, ?_, ?_, ?_⟩, by rw [← hk]; exact Finset.sum_congr rfl fun u _ => inner_relax _, s', hex, fun f hf => hs' f (h4 f hf)⟩
    · refine hnd.map_on ?_
      rintro ⟨⟨u, p⟩, a⟩ hx ⟨⟨v, q⟩, b⟩ hy e
      cases e
      rw [((hmem _ _ _).1 hx).2.unique ((hmem _ _ _).1 hy).2]
    · rintro ⟨u, p⟩
      simp only [List.mem_map, Prod.exists]
      constructor
      · rintro ⟨v, q, a, hx, e⟩
        cases e
        exact ⟨((hmem _ _ _).1 hx).1, a, ((hmem _ _ _).1 hx).2⟩
      · rintro ⟨hu, a, hl⟩
        exact ⟨u, p, a, (hmem _ _ _).2 ⟨hu, hl⟩, rfl⟩
    · refine List.pairwise_of_forall fun x y hb => ?_
      rcases hb with ⟨-, hb⟩ | hb
      · exact not_before hb
      · exact hb
    · rw [← hF2, List.forall₂_map_left_iff, List.forall₂_map_right_iff, List.forall₂_same]
      rintro ⟨⟨u, p⟩, a⟩ hx
      exact ((hmem _ _ _).1 hx).2

end Verif.Dof
