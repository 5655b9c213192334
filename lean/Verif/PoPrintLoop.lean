import Verif.PoPrintMain

/-! # The output for partially ordered problems: the printed order, and the loop over depths -/

namespace Verif.Pdt

open Verif.Htn Verif.Sog Verif.Sat Verif.Inv Relation

/-- The loop over depths, with everything that is printed for the model, also the order (sat_planner.cpp 66-148, 782-838). -/
def satRunPO (P : Problem) (cfg : Cfg) (o : SatOpts) (iter : List Nat → List Nat) (solve : List Clause → Option Assignment) :
    Nat → Nat → Nat → VM → Option (Nat × SatOut × List (Nat × List Nat))
  | 0, _, _, _ => none
  | f + 1, K, n, V =>
    match depthFormulaPO P cfg o iter (tree P cfg K) n V with
    | .undef => none
    | .formula V' n' cs M =>
      match solve cs with
      | some w => some (K, satOutPO P (tree P cfg K) V' M w, orderAt P cfg iter K V' M w)
      | none => satRunPO P cfg o iter solve f (K + 1) n' V'

/-- The sequence keeps the printed order: nothing comes before something that the lines put it after. -/
def Obeys (order : List (Nat × List Nat)) (σ : List (Nat × Nat)) : Prop :=
  σ.Pairwise fun x y => ∀ ys, (y.1, ys) ∈ order → x.1 ∉ ys

/-- What the printed order has to be: one line for each printed action, in the order of the plan, with numbers of printed
actions; what has to be before something else in the decomposition is so in the lines; the plan keeps the order; and
every other arrangement of the plan that does is a linearisation of the decomposition, too. -/
structure OrderPO (P : Problem) (out : SatOut) (order : List (Nat × List Nat)) (tr : Tree) (ν : List Nat → Nat) : Prop where
  lines : order.map Prod.fst = out.acts.map Prod.fst
  known : ∀ x ys, (x, ys) ∈ order → ∀ y ∈ ys, y ≠ x ∧ y ∈ out.acts.map Prod.fst
  keeps : ∀ q q' a a', LeafAt P tr q a → LeafAt P tr q' a' → Before P tr q q' → ∃ ys, (ν q, ys) ∈ order ∧ ν q' ∈ ys
  plan : Obeys order out.acts
  other : ∀ σ : List (Nat × Nat), σ.Perm out.acts → Obeys order σ →
    ∃ occ, Linearises P tr occ (σ.map Prod.snd) ∧ σ.map Prod.fst = occ.map ν

/-- The lines contain nothing but what has to be in this order. -/
def OrderExact (P : Problem) (order : List (Nat × List Nat)) (tr : Tree) (ν : List Nat → Nat) : Prop :=
  ∀ q q' a a', LeafAt P tr q a → LeafAt P tr q' a' → (∃ ys, (ν q, ys) ∈ order ∧ ν q' ∈ ys) → Before P tr q q'

theorem forall₂_zip {α β : Type} {R : α → β → Prop} : ∀ {l : List α} {l' : List β}, List.Forall₂ R l l' → ∀ (f : α → Nat) (σ : List (Nat × β)),
    σ.map Prod.fst = l.map f → σ.map Prod.snd = l' → ∀ e ∈ σ, ∃ x ∈ l, f x = e.1 ∧ R x e.2
  | _, _, .nil, f, σ, h1, _, e, he => by
    obtain rfl : σ = [] := by simpa using h1
    simp at he
  | _, _, .cons hr ht, f, [], h1, _, e, he => by simp at he
  | x :: l, b :: l', .cons hr ht, f, s :: σ, h1, h2, e, he => by
    simp only [List.map_cons, List.cons.injEq] at h1 h2
    rcases List.mem_cons.1 he with rfl | he
    · exact ⟨x, by simp, h1.1.symm, by rw [h2.1]; exact hr⟩
    · obtain ⟨y, hy, h⟩ := forall₂_zip ht f σ h1.2 h2.2 e he
      exact ⟨y, List.mem_cons_of_mem _ hy, h⟩

section
variable {P : Problem} {cfg : Cfg} {o : SatOpts} {iter : List Nat → List Nat} {K : Nat} {n : Nat} {V : VM}

/-- Every model is printed correctly, with the order. -/
theorem formulaPO_order (hin : PoInput P cfg o iter) (hst : ¬ Stuck P cfg K) (heff : AllEff P)
    (hac : ∀ p d, (tree P cfg K).nd p = some d → AcyclicAt P cfg d) {n1 : Nat} {V' : VM} {l s M}
    (hp : PartsPO P cfg o iter (tree P cfg K) n V n1 V' l s M) (hV : VMFull P (tree P cfg K) Flags.empty n1 V')
    {w : Assignment} (hw : satAll w (clausesPO P cfg o (tree P cfg K) n1 V' l s M).2) :
    (satOutPO P (tree P cfg K) V' M w).acts.map Prod.snd = printedPO (tree P cfg K) V' M w ∧
    ∃ tr k n ν occ, OutPO P K (satOutPO P (tree P cfg K) V' M w) tr k n ν occ ∧
      OrderPO P (satOutPO P (tree P cfg K) V' M w) (orderAt P cfg iter K V' M w) tr ν ∧
      (ExactAll P cfg K → OrderExact P (orderAt P cfg iter K V' M w) tr ν) := by
  obtain ⟨h0, tr, k, n, φ, occ, hout, hφ, hrep, hord, hk, hex, h1, h2, h3⟩ := formulaPO_out hin hst heff hac hp hV hw
  refine ⟨h0, tr, k, n, _, occ, hout, ?_⟩
  generalize hν : (fun l => ((outPO P (tree P cfg K) V' w).id (φ l)).getD 0) = ν at *
  replace h2 : ∀ q q' a a', LeafAt P tr q a → LeafAt P tr q' a' → LeafLt (tree P cfg K) (adjAt P cfg (tree P cfg K)) K [] (φ q) (φ q') →
      ∃ ys, (ν q, ys) ∈ orderAt P cfg iter K V' M w ∧ ν q' ∈ ys := by subst hν; exact h2
  replace h3 : ∀ x ys, (x, ys) ∈ orderAt P cfg iter K V' M w → ∀ y ∈ ys, ∃ q q' a a', LeafAt P tr q a ∧ LeafAt P tr q' a' ∧
      ν q = x ∧ ν q' = y ∧ LeafLt (tree P cfg K) (adjAt P cfg (tree P cfg K)) K [] (φ q) (φ q') := by subst hν; exact h3
  generalize orderAt P cfg iter K V' M w = order at *
  generalize satOutPO P (tree P cfg K) V' M w = out at *
  have hn : (occ.map ν).Nodup := by
    rw [← hout.nums]
    exact (List.nodup_append.1 (hout.ids.nodup_iff.2 List.nodup_range)).1
  have hinj : ∀ q q' a a', LeafAt P tr q a → LeafAt P tr q' a' → ν q = ν q' → q = q' := fun q q' a a' hq hq' e =>
    List.inj_on_of_nodup_map hn ((hout.lin.all q).2 ⟨a, hq⟩) ((hout.lin.all q').2 ⟨a', hq'⟩) e
  have hnum : ∀ q a, LeafAt P tr q a → ν q ∈ out.acts.map Prod.fst := by
    intro q a h
    rw [hout.nums]
    exact List.mem_map.2 ⟨q, (hout.lin.all q).2 ⟨a, h⟩, rfl⟩
  have hirr : ∀ {x}, ¬ LeafLt (tree P cfg K) (adjAt P cfg (tree P cfg K)) K [] x x := fun h => LeafLt.irrefl (acyclic_tree hac) h
  -- the line of an action
  have hmem : ∀ e ∈ out.acts, ∃ q, LeafAt P tr q e.2 ∧ ν q = e.1 := by
    intro e he
    obtain ⟨q, -, h, h'⟩ := forall₂_zip hout.lin.labels ν out.acts hout.nums rfl e he
    exact ⟨q, h', h⟩
  have hkeep : ∀ q q' a a', LeafAt P tr q a → LeafAt P tr q' a' → Before P tr q q' → ∃ ys, (ν q, ys) ∈ order ∧ ν q' ∈ ys :=
    fun q q' a a' hq hq' hb => h2 q q' a a' hq hq' (hk q q' a a' hq hq' hb)
  have hlt : ∀ q q' a a', LeafAt P tr q a → LeafAt P tr q' a' → (∃ ys, (ν q, ys) ∈ order ∧ ν q' ∈ ys) →
      LeafLt (tree P cfg K) (adjAt P cfg (tree P cfg K)) K [] (φ q) (φ q') := by
    rintro q q' a a' hq hq' ⟨ys, hys, hy⟩
    obtain ⟨r, r', b, b', hr, hr', e, e', h⟩ := h3 _ _ hys _ hy
    obtain rfl := hinj _ _ _ _ hr hq e
    obtain rfl := hinj _ _ _ _ hr' hq' e'
    exact h
  refine ⟨⟨h1, ?_, hkeep, ?_, ?_⟩, fun hx q q' a a' hq hq' h => hex hx q q' a a' hq hq' (hlt q q' a a' hq hq' h)⟩
  · intro x ys hxy y hy
    obtain ⟨q, q', a, a', hq, hq', rfl, rfl, h⟩ := h3 x ys hxy y hy
    refine ⟨fun e => ?_, hnum q' a' hq'⟩
    obtain rfl := hinj _ _ _ _ hq' hq e
    exact hirr h
  · -- the plan keeps the order
    have hp1 : occ.Pairwise fun x y => ¬ LeafLt (tree P cfg K) (adjAt P cfg (tree P cfg K)) K [] (φ y) (φ x) := by
      rw [← hφ, List.pairwise_map] at hord
      exact hord
    have hp2 : (occ.map ν).Pairwise fun x y => ∀ ys, (y, ys) ∈ order → x ∉ ys := by
      rw [List.pairwise_map]
      refine hp1.imp_of_mem fun {x y} hx hy h ys hys hmem => h ?_
      obtain ⟨a, ha⟩ := (hout.lin.all x).1 hx
      obtain ⟨b, hb⟩ := (hout.lin.all y).1 hy
      exact hlt y x b a hb ha ⟨ys, hys, hmem⟩
    rw [← hout.nums, List.pairwise_map] at hp2
    exact hp2
  · intro σ hσ hob
    classical
    have hm : ∀ e : Nat × Nat, ∃ q, e ∈ out.acts → LeafAt P tr q e.2 ∧ ν q = e.1 := by
      intro e
      by_cases he : e ∈ out.acts
      · obtain ⟨q, h⟩ := hmem e he
        exact ⟨q, fun _ => h⟩
      · exact ⟨[], fun h => absurd h he⟩
    choose g hg using hm
    have hg' : ∀ e ∈ σ, LeafAt P tr (g e) e.2 ∧ ν (g e) = e.1 := fun e he => hg e (hσ.subset he)
    have hfst : σ.map Prod.fst = (σ.map g).map ν := by
      rw [List.map_map]
      exact List.map_congr_left fun e he => ((hg' e he).2).symm
    refine ⟨σ.map g, ⟨?_, ?_, ?_, ?_⟩, hfst⟩
    · have hsn : (σ.map Prod.fst).Nodup := by
        rw [(hσ.map Prod.fst).nodup_iff, hout.nums]
        exact hn
      rw [hfst] at hsn
      exact hsn.of_map
    · intro p
      constructor
      · intro h
        obtain ⟨e, he, rfl⟩ := List.mem_map.1 h
        exact ⟨e.2, (hg' e he).1⟩
      · rintro ⟨a, ha⟩
        obtain ⟨e, he, hp⟩ := List.mem_map.1 (hnum p a ha)
        refine List.mem_map.2 ⟨e, hσ.symm.subset he, ?_⟩
        exact hinj _ _ _ _ (hg e he).1 ha (by rw [(hg e he).2, hp])
    · rw [List.pairwise_map]
      refine List.Pairwise.imp_of_mem (fun {x y} hx hy h hb => ?_) hob
      obtain ⟨ys, hys, hmem⟩ := hkeep _ _ _ _ (hg' y hy).1 (hg' x hx).1 hb
      rw [(hg' y hy).2] at hys
      rw [(hg' x hx).2] at hmem
      exact h ys hys hmem
    · rw [List.forall₂_map_left_iff, List.forall₂_map_right_iff, List.forall₂_same]
      exact fun e he => (hg' e he).1

theorem satRunPO_spec (hin : PoInput P cfg o iter) (hst : ∀ K, ¬ Stuck P cfg K) (heff : AllEff P) (hac : ∀ K, AcyclicAll P cfg K)
    {solve : List Clause → Option Assignment} (hso : ∀ cs w, solve cs = some w → satAll w cs) : ∀ (f K n : Nat) (V : VM), VMInv (tree P cfg K) n V →
    (∀ K' out order, satRunPO P cfg o iter solve f K n V = some (K', out, order) →
      satLoopPO P cfg o iter solve f K n V = .plan K' (out.acts.map Prod.snd) ∧
      ∃ tr k n ν occ, OutPO P K' out tr k n ν occ ∧ OrderPO P out order tr ν ∧ (ExactAll P cfg K' → OrderExact P order tr ν)) ∧
    (∀ K' π, satLoopPO P cfg o iter solve f K n V = .plan K' π → ∃ out order, satRunPO P cfg o iter solve f K n V = some (K', out, order)) := by
  intro f
  induction f with
  | zero => intro K n V _; exact ⟨fun K' out order h => by simp [satRunPO] at h, fun K' π h => by simp [satLoopPO] at h⟩
  | succ f ih =>
    intro K n V hV
    rw [satRunPO, satLoopPO]
    cases hd : depthFormulaPO P cfg o iter (tree P cfg K) n V with
    | undef => exact ⟨fun K' out order h => by simp at h, fun K' π h => by simp at h⟩
    | formula V' n' cs M =>
      obtain ⟨hV', -, -⟩ := depthPO_formula hin (hst K) heff (hac K) hV hd
      simp only
      cases hc : solve cs with
      | none => exact ih (K + 1) n' V' hV'.next
      | some w =>
        have ht := tree_ok hin.wf hin.conf (hst K)
        obtain ⟨n1, l, s, hp, hcs⟩ := PartsPO.of_formula hd
        obtain ⟨hV1, -, -⟩ := assignVars_spec ht (localW_empty ht) hV
        rw [hp.vars] at hV1
        obtain ⟨rfl, rfl⟩ : n' = (clausesPO P cfg o (tree P cfg K) n1 V' l s M).1 ∧ cs = (clausesPO P cfg o (tree P cfg K) n1 V' l s M).2 :=
          ⟨congrArg Prod.fst hcs, congrArg Prod.snd hcs⟩
        obtain ⟨h1, h2⟩ := formulaPO_order hin (hst K) heff (hac K) hp hV1 (hso _ w hc)
        refine ⟨fun K' out order he => ?_, fun K' π he => ?_⟩
        · simp only [Option.some.injEq, Prod.mk.injEq] at he
          obtain ⟨rfl, rfl, rfl⟩ := he
          exact ⟨by rw [h1], h2⟩
        · simp only [LRes.plan.injEq] at he
          obtain ⟨rfl, rfl⟩ := he
          exact ⟨_, _, rfl⟩

end

end Verif.Pdt
