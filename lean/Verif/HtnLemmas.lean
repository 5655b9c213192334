import Verif.HtnSpec
import Mathlib.Data.List.Perm.Basic
import Mathlib.Algebra.BigOperators.Group.Finset.Basic
import Mathlib.Data.List.Nodup
import Mathlib.Tactic.Ring

/-! # Facts about the HTN specification

These lemmas only concern the specification: progressing an action, decomposing
a task (substitution) and moving effect-free actions to the front.
-/

namespace Verif.Htn

open Relation

variable {P : Problem}

theorem Valid.exists_leaf (hP : P.WF) {t tr} (h : Valid P t tr) : ∃ p a, LeafAt P tr p a := by
  induction h with
  | @leaf a _ => exact ⟨[], a, .here⟩
  | @node m cs hm _ ih =>
    have hne := hP.sub_ne m hm
    have h0 : 0 < (P.sub m).length := List.length_pos_of_ne_nil hne
    obtain ⟨p, a, hp⟩ := ih 0 _ (List.getElem?_eq_getElem h0)
    exact ⟨0 :: p, a, .child h0 hp⟩

theorem Valid.prim_eq (hP : P.WF) {t tr} (h : Valid P t tr) (hp : P.prim t = true) : tr = .leaf t := by
  cases h with
  | leaf => rfl
  | node hm _ => rw [hP.head_abs _ hm] at hp; exact absurd hp (by simp)

theorem Valid.abs_eq {t tr} (h : Valid P t tr) (hp : P.prim t = false) :
    ∃ m cs, m < P.numMethods ∧ P.head m = t ∧ tr = .node m cs ∧
      (∀ i t, (P.sub m)[i]? = some t → Valid P t (cs i)) := by
  cases h with
  | leaf h => rw [h] at hp; exact absurd hp (by simp)
  | @node m cs hm hc => exact ⟨m, cs, hm, rfl, rfl, hc⟩

theorem leafAt_leaf {a p b} : LeafAt P (.leaf a) p b ↔ p = [] ∧ b = a := by
  constructor
  · intro h; cases h; exact ⟨rfl, rfl⟩
  · rintro ⟨rfl, rfl⟩; exact .here

theorem leafAt_node {m cs p b} : LeafAt P (.node m cs) p b ↔
    ∃ i q, p = i :: q ∧ i < (P.sub m).length ∧ LeafAt P (cs i) q b := by
  constructor
  · intro h; cases h with
    | child hi h => exact ⟨_, _, rfl, hi, h⟩
  · rintro ⟨i, q, rfl, hi, h⟩; exact .child hi h

theorem not_before_leaf {a p q} : ¬ Before P (.leaf a) p q := by
  intro h; cases h

theorem before_node_iff {m cs i j p q} : Before P (.node m cs) (i :: p) (j :: q) ↔
    (i = j ∧ Before P (cs i) p q) ∨ TransGen (P.OrdRel m) i j := by
  constructor
  · intro h; cases h with
    | same h => exact .inl ⟨rfl, h⟩
    | diff h => exact .inr h
  · rintro (⟨rfl, h⟩ | h)
    · exact .same h
    · exact .diff h

theorem LeafAt.unique {tr p a b} (h : LeafAt P tr p a) (h' : LeafAt P tr p b) : a = b := by
  induction h with
  | here => cases h'; rfl
  | child _ _ ih => cases h' with | child _ h => exact ih h

/-! ### Congruence -/

theorem SolvesN.congr {I : Finset Nat} {lab lab' lt lt' s π k} (h : SolvesN P I lab lt s π k)
    (hl : ∀ u ∈ I, lab' u = lab u) (ho : ∀ u ∈ I, ∀ v ∈ I, lt' u v → lt u v) :
    SolvesN P I lab' lt' s π k := by
  obtain ⟨tr, hv, hk, ⟨occ, hn, ha, hp, hf⟩, hs⟩ := h
  refine ⟨tr, fun u hu => by rw [hl u hu]; exact hv u hu, hk, ⟨occ, hn, ha, ?_, hf⟩, hs⟩
  refine hp.imp_of_mem (fun {x y} hx hy hnb hb => hnb ?_)
  rcases hb with hb | hb
  · exact .inl hb
  · exact .inr (ho _ ((ha y).1 hy).1 _ ((ha x).1 hx).1 hb)

theorem SolvesN.state_congr {I : Finset Nat} {lab lt s s' π k} (h : SolvesN P I lab lt s π k)
    (hs : ∀ f, s f ↔ s' f) : SolvesN P I lab lt s' π k := by
  have : s = s' := funext fun f => propext (hs f)
  exact this ▸ h

/-! ### Progressing an action -/

theorem SolvesN.progress {I : Finset Nat} {lab lt s π k u} (hu : u ∈ I) (hp : P.prim (lab u) = true)
    (hmin : ∀ v ∈ I, ¬ lt v u) (happ : P.Applicable s (lab u))
    (h : SolvesN P (I.erase u) lab lt (P.result s (lab u)) π k) :
    SolvesN P I lab lt s (lab u :: π) k := by
  classical
  obtain ⟨tr, hv, hk, ⟨occ, hn, ha, hpw, hf⟩, s', he, hg⟩ := h
  set tr' : Nat → Tree := fun v => if v = u then .leaf (lab u) else tr v with htr'
  have htu : tr' u = .leaf (lab u) := by simp [htr']
  have htv : ∀ v, v ≠ u → tr' v = tr v := fun v hv => by simp [htr', hv]
  have hocc : ∀ x ∈ occ, x.1 ≠ u := fun x hx => (Finset.mem_erase.1 ((ha x).1 hx).1).1
  refine ⟨tr', ?_, ?_, ⟨(u, []) :: occ, ?_, ?_, ?_, ?_⟩, s', .cons happ he, hg⟩
  · intro v hv'
    by_cases hvu : v = u
    · subst hvu; rw [htu]; exact .leaf hp
    · rw [htv v hvu]; exact hv v (Finset.mem_erase.2 ⟨hvu, hv'⟩)
  · rw [← Finset.add_sum_erase I _ hu, htu]
    rw [Tree.inner, zero_add, ← hk]
    exact Finset.sum_congr rfl fun v hv' => by rw [htv v (Finset.ne_of_mem_erase hv')]
  · exact List.nodup_cons.2 ⟨fun hx => hocc _ hx rfl, hn⟩
  · rintro ⟨v, p⟩
    by_cases hvu : v = u
    · subst hvu
      simp only [List.mem_cons, htu]
      constructor
      · rintro (h | h)
        · cases h; exact ⟨hu, _, .here⟩
        · exact absurd rfl (hocc _ h)
      · rintro ⟨_, a, hl⟩
        obtain ⟨rfl, _⟩ := leafAt_leaf.1 hl
        exact .inl rfl
    · simp only [List.mem_cons, htv v hvu]
      rw [ha]
      simp [hvu]
  · refine List.pairwise_cons.2 ⟨fun x hx => ?_, ?_⟩
    · rintro (⟨h, _⟩ | h)
      · exact hocc x hx h
      · exact hmin _ (Finset.mem_of_mem_erase ((ha x).1 hx).1) h
    · refine hpw.imp_of_mem (fun {x y} hx hy hnb hb => hnb ?_)
      rcases hb with ⟨h1, h2⟩ | hb
      · refine .inl ⟨h1, ?_⟩
        rwa [htv _ (hocc y hy)] at h2
      · exact .inr hb
  · refine .cons (by rw [htu]; exact .here) ?_
    have : ∀ l, (∀ x ∈ l, x ∈ occ) → ∀ ρ, List.Forall₂ (fun x a => LeafAt P (tr x.1) x.2 a) l ρ →
        List.Forall₂ (fun x a => LeafAt P (tr' x.1) x.2 a) l ρ := by
      intro l
      induction l with
      | nil => intro _ ρ h; cases h; exact .nil
      | cons x l ih =>
        intro hl ρ h; cases h with
        | cons h1 h2 =>
          refine .cons ?_ (ih (fun y hy => hl y (List.mem_cons_of_mem _ hy)) _ h2)
          rwa [htv _ (hocc x (hl x List.mem_cons_self))]
    exact this occ (fun _ h => h) π hf

/-- The part of `SolvesN` that does not concern execution. -/
structure LinNet (P : Problem) (I : Finset Nat) (lab : Nat → Nat) (lt : Nat → Nat → Prop)
    (tr : Nat → Tree) (occ : List (Nat × List Nat)) (π : List Nat) : Prop where
  valid : ∀ u ∈ I, Valid P (lab u) (tr u)
  nodup : occ.Nodup
  all : ∀ x, x ∈ occ ↔ x.1 ∈ I ∧ ∃ a, LeafAt P (tr x.1) x.2 a
  order : occ.Pairwise (fun x y => ¬ OccBefore P lt tr y x)
  labels : List.Forall₂ (fun x a => LeafAt P (tr x.1) x.2 a) occ π

theorem solvesN_iff {I : Finset Nat} {lab lt s π k} : SolvesN P I lab lt s π k ↔
    ∃ tr occ, LinNet P I lab lt tr occ π ∧ (∑ u ∈ I, (tr u).inner P = k) ∧
      ∃ s', Exec P s π s' ∧ P.GoalState s' := by
  constructor
  · rintro ⟨tr, hv, hk, ⟨occ, hn, ha, hp, hf⟩, hs⟩
    exact ⟨tr, occ, ⟨hv, hn, ha, hp, hf⟩, hk, hs⟩
  · rintro ⟨tr, occ, ⟨hv, hn, ha, hp, hf⟩, hk, hs⟩
    exact ⟨tr, hv, hk, ⟨occ, hn, ha, hp, hf⟩, hs⟩

theorem forall₂_append_left {α β} {R : α → β → Prop} {l₁ l₂ : List α} {ρ : List β}
    (h : List.Forall₂ R (l₁ ++ l₂) ρ) :
    ∃ ρ₁ ρ₂, ρ = ρ₁ ++ ρ₂ ∧ List.Forall₂ R l₁ ρ₁ ∧ List.Forall₂ R l₂ ρ₂ := by
  induction l₁ generalizing ρ with
  | nil => exact ⟨[], ρ, rfl, .nil, h⟩
  | cons x l ih =>
    cases h with
    | cons h1 h2 =>
      obtain ⟨ρ₁, ρ₂, rfl, h3, h4⟩ := ih h2
      exact ⟨_ :: ρ₁, ρ₂, rfl, .cons h1 h3, h4⟩

theorem forall₂_append {α β} {R : α → β → Prop} {l₁ l₂ : List α} {ρ₁ ρ₂ : List β}
    (h : List.Forall₂ R l₁ ρ₁) (h' : List.Forall₂ R l₂ ρ₂) :
    List.Forall₂ R (l₁ ++ l₂) (ρ₁ ++ ρ₂) := by
  induction h with
  | nil => exact h'
  | cons h1 _ ih => exact .cons h1 ih

/-- Dropping the single leaf of a primitive task. -/
theorem LinNet.remove (hP : P.WF) {I : Finset Nat} {lab lt tr π u} {l₁ l₂ : List (Nat × List Nat)}
    (hu : u ∈ I) (hp : P.prim (lab u) = true)
    (h : LinNet P I lab lt tr (l₁ ++ (u, []) :: l₂) π) :
    ∃ π₁ π₂, π = π₁ ++ lab u :: π₂ ∧ π₁.length = l₁.length ∧
      LinNet P (I.erase u) lab lt tr (l₁ ++ l₂) (π₁ ++ π₂) ∧
      ∑ v ∈ I.erase u, (tr v).inner P = ∑ v ∈ I, (tr v).inner P := by
  classical
  obtain ⟨hv, hn, ha, hpw, hf⟩ := h
  have htu : tr u = .leaf (lab u) := (hv u hu).prim_eq hP hp
  obtain ⟨π₁, π₂', rfl, hf1, hf2⟩ := forall₂_append_left hf
  cases hf2 with
  | @cons _ b _ π₂ hb hf2 =>
  rw [htu] at hb
  obtain ⟨_, rfl⟩ := leafAt_leaf.1 hb
  have hsub : List.Sublist (l₁ ++ l₂) (l₁ ++ (u, []) :: l₂) :=
    List.Sublist.append_left (List.sublist_cons_self _ _) _
  refine ⟨π₁, π₂, rfl, hf1.length_eq.symm, ⟨?_, ?_, ?_, ?_, ?_⟩, ?_⟩
  · exact fun v hv' => hv v (Finset.mem_of_mem_erase hv')
  · exact hn.sublist hsub
  · rintro ⟨v, q⟩
    have hnot : (u, []) ∉ l₁ ++ l₂ := by
      have := (List.perm_middle (a := (u, ([] : List Nat))) (l₁ := l₁) (l₂ := l₂)).nodup_iff.1 hn
      exact (List.nodup_cons.1 this).1
    constructor
    · intro hm
      obtain ⟨h1, a, h2⟩ := (ha (v, q)).1 (hsub.subset hm)
      refine ⟨Finset.mem_erase.2 ⟨?_, h1⟩, a, h2⟩
      rintro rfl
      simp only at h2
      rw [htu] at h2
      obtain ⟨rfl, _⟩ := leafAt_leaf.1 h2
      exact hnot hm
    · rintro ⟨h1, h2⟩
      obtain ⟨hne, h1⟩ := Finset.mem_erase.1 h1
      have := (ha (v, q)).2 ⟨h1, h2⟩
      simp only [List.mem_append, List.mem_cons, Prod.mk.injEq] at this ⊢
      rcases this with h | ⟨h, _⟩ | h
      · exact .inl h
      · exact absurd h hne
      · exact .inr h
  · exact hpw.sublist hsub
  · exact forall₂_append hf1 hf2
  · rw [← Finset.add_sum_erase I _ hu, htu]; simp [Tree.inner]

/-- If all minimal tasks are primitive, every solution starts with one of them. -/
theorem SolvesN.unprogress {I : Finset Nat} {lab lt s π k}
    (hP : P.WF) (hI : I.Nonempty) (hirr : ∀ u ∈ I, ¬ lt u u)
    (hmin : ∀ u ∈ I, (∀ v ∈ I, ¬ lt v u) → P.prim (lab u) = true)
    (h : SolvesN P I lab lt s π k) :
    ∃ u ∈ I, (∀ v ∈ I, ¬ lt v u) ∧ P.Applicable s (lab u) ∧ ∃ π', π = lab u :: π' ∧
      SolvesN P (I.erase u) lab lt (P.result s (lab u)) π' k := by
  classical
  obtain ⟨tr, occ, hL, hk, s', he, hg⟩ := solvesN_iff.1 h
  cases occ with
  | nil =>
    obtain ⟨u, hu⟩ := hI
    obtain ⟨p, a, hl⟩ := (hL.valid u hu).exists_leaf hP
    exact absurd ((hL.all (u, p)).2 ⟨hu, a, hl⟩) (by simp)
  | cons x occ =>
    obtain ⟨u, p⟩ := x
    obtain ⟨hu, b, hb⟩ := (hL.all (u, p)).1 List.mem_cons_self
    simp only at hu hb
    have humin : ∀ v ∈ I, ¬ lt v u := by
      intro v hvI hlt
      obtain ⟨q, b, hl⟩ := (hL.valid v hvI).exists_leaf hP
      rcases List.mem_cons.1 ((hL.all (v, q)).2 ⟨hvI, b, hl⟩) with h | h
      · cases h; exact hirr _ hu hlt
      · exact (List.pairwise_cons.1 hL.order).1 _ h (.inr hlt)
    have hpu := hmin u hu humin
    have htu : tr u = .leaf (lab u) := (hL.valid u hu).prim_eq hP hpu
    rw [htu] at hb
    obtain ⟨rfl, _⟩ := leafAt_leaf.1 hb
    obtain ⟨π₁, π₂, rfl, hlen, hL', hs⟩ := LinNet.remove hP (l₁ := []) hu hpu hL
    obtain rfl := List.length_eq_zero_iff.1 hlen
    cases he with
    | cons happ he =>
      exact ⟨u, hu, humin, happ, π₂, rfl, solvesN_iff.2 ⟨tr, _, hL', hs.trans hk, s', he, hg⟩⟩

theorem exec_append {s s' : State} {π₁ π₂} :
    Exec P s (π₁ ++ π₂) s' ↔ ∃ s₁, Exec P s π₁ s₁ ∧ Exec P s₁ π₂ s' := by
  induction π₁ generalizing s with
  | nil =>
    constructor
    · intro h; exact ⟨s, .nil s, h⟩
    · rintro ⟨s₁, h1, h2⟩; cases h1; exact h2
  | cons a π ih =>
    constructor
    · intro h
      cases h with
      | cons ha h =>
        obtain ⟨s₁, h1, h2⟩ := ih.1 h
        exact ⟨s₁, .cons ha h1, h2⟩
    · rintro ⟨s₁, h1, h2⟩
      cases h1 with
      | cons ha h1 => exact .cons ha (ih.2 ⟨s₁, h1, h2⟩)

/-- An action without effects. -/
def Problem.EffectFree (P : Problem) (a : Nat) : Prop := P.add a = [] ∧ P.del a = []

theorem result_effectFree {s a} (h : P.EffectFree a) : P.result s a = s := by
  funext f; simp [Problem.result, h.1, h.2]

/-- An unconstrained, applicable action without effects can be moved to the front. -/
theorem SolvesN.effectFree_front {I : Finset Nat} {lab lt s π k u}
    (hP : P.WF) (hu : u ∈ I) (hp : P.prim (lab u) = true) (hfree : P.EffectFree (lab u))
    (h : SolvesN P I lab lt s π k) :
    ∃ π', π.Perm (lab u :: π') ∧ SolvesN P (I.erase u) lab lt (P.result s (lab u)) π' k := by
  classical
  obtain ⟨tr, occ, hL, hk, s', he, hg⟩ := solvesN_iff.1 h
  have htu : tr u = .leaf (lab u) := (hL.valid u hu).prim_eq hP hp
  have hmem : (u, []) ∈ occ := (hL.all (u, [])).2 ⟨hu, lab u, by rw [htu]; exact .here⟩
  obtain ⟨l₁, l₂, rfl⟩ := List.append_of_mem hmem
  obtain ⟨π₁, π₂, rfl, hlen, hL', hs⟩ := LinNet.remove hP hu hp hL
  refine ⟨π₁ ++ π₂, List.perm_middle, solvesN_iff.2 ⟨tr, _, hL', hs.trans hk, s', ?_, hg⟩⟩
  rw [result_effectFree hfree]
  obtain ⟨s₁, h1, h2⟩ := exec_append.1 he
  cases h2 with
  | cons _ h2 =>
    rw [result_effectFree hfree] at h2
    exact exec_append.2 ⟨s₁, h1, h2⟩

/-! ### Decomposing a task -/

/-- `Subst P I lab lt u m b I' lab' lt'`: the network `(I', lab', lt')` arises from
`(I, lab, lt)` by replacing occurrence `u` with fresh occurrences `b, b+1, ...`, one
per subtask of method `m`. -/
structure Subst (P : Problem) (I : Finset Nat) (lab : Nat → Nat) (lt : Nat → Nat → Prop)
    (u m b : Nat) (I' : Finset Nat) (lab' : Nat → Nat) (lt' : Nat → Nat → Prop) : Prop where
  mem : ∀ v, v ∈ I' ↔ (v ∈ I ∧ v ≠ u) ∨ ∃ i, i < (P.sub m).length ∧ v = b + i
  fresh : ∀ v ∈ I, v < b
  lab_old : ∀ v ∈ I, v ≠ u → lab' v = lab v
  lab_new : ∀ i t, (P.sub m)[i]? = some t → lab' (b + i) = t
  lt_old : ∀ v ∈ I, ∀ w ∈ I, v ≠ u → w ≠ u → (lt' v w ↔ lt v w)
  lt_new : ∀ i j, i < (P.sub m).length → j < (P.sub m).length →
    (lt' (b + i) (b + j) ↔ TransGen (P.OrdRel m) i j)
  lt_new_old : ∀ i w, i < (P.sub m).length → w ∈ I → w ≠ u → (lt' (b + i) w ↔ lt u w)
  lt_old_new : ∀ v j, v ∈ I → v ≠ u → j < (P.sub m).length → (lt' v (b + j) ↔ lt v u)

theorem Subst.sum_eq {I I' : Finset Nat} {lab lt u m b lab' lt'}
    (S : Subst P I lab lt u m b I' lab' lt') (hu : u ∈ I) (f g : Nat → Nat)
    (hfg : ∀ v ∈ I, v ≠ u → f v = g v) (hgu : g u = 1 + ∑ i ∈ Finset.range (P.sub m).length, f (b + i)) :
    ∑ v ∈ I, g v = 1 + ∑ v ∈ I', f v := by
  classical
  have hI' : I' = I.erase u ∪ (Finset.range (P.sub m).length).image (fun i => b + i) := by
    ext v
    rw [S.mem v]
    simp only [Finset.mem_union, Finset.mem_erase, Finset.mem_image, Finset.mem_range]
    constructor
    · rintro (⟨h1, h2⟩ | ⟨i, hi, rfl⟩)
      · exact .inl ⟨h2, h1⟩
      · exact .inr ⟨i, hi, rfl⟩
    · rintro (⟨h2, h1⟩ | ⟨i, hi, rfl⟩)
      · exact .inl ⟨h1, h2⟩
      · exact .inr ⟨i, hi, rfl⟩
  have hdisj : Disjoint (I.erase u) ((Finset.range (P.sub m).length).image (fun i => b + i)) := by
    rw [Finset.disjoint_left]
    intro v hv hv'
    obtain ⟨i, _, rfl⟩ := Finset.mem_image.1 hv'
    have := S.fresh _ (Finset.mem_of_mem_erase hv)
    omega
  rw [hI', Finset.sum_union hdisj, Finset.sum_image (by intro a _ c _ h; simpa using h)]
  rw [← Finset.add_sum_erase I _ hu, hgu]
  have : ∑ v ∈ I.erase u, g v = ∑ v ∈ I.erase u, f v :=
    Finset.sum_congr rfl fun v hv => (hfg v (Finset.mem_of_mem_erase hv) (Finset.ne_of_mem_erase hv)).symm
  rw [this]; ring

theorem forall₂_imp_mem {α β} {R S : α → β → Prop} {l : List α} {ρ : List β}
    (h : List.Forall₂ R l ρ) (hRS : ∀ x ∈ l, ∀ y, R x y → S x y) : List.Forall₂ S l ρ := by
  induction h with
  | nil => exact .nil
  | cons h1 _ ih =>
    exact .cons (hRS _ List.mem_cons_self _ h1) (ih fun x hx => hRS x (List.mem_cons_of_mem _ hx))

theorem forall₂_map_left' {α β γ} {R : γ → β → Prop} {f : α → γ} {l : List α} {ρ : List β} :
    List.Forall₂ R (l.map f) ρ ↔ List.Forall₂ (fun x y => R (f x) y) l ρ := by
  induction l generalizing ρ with
  | nil => constructor <;> (intro h; cases h; exact .nil)
  | cons x l ih =>
    constructor
    · intro h; cases h with | cons h1 h2 => exact .cons h1 (ih.1 h2)
    · intro h; cases h with | cons h1 h2 => exact .cons h1 (ih.2 h2)

/-- A solution of the decomposed network is a solution of the original one. -/
theorem SolvesN.of_subst {I I' : Finset Nat} {lab lt u m b lab' lt' s π k}
    (hm : m < P.numMethods) (hhead : P.head m = lab u) (hu : u ∈ I) (hirr : ¬ lt u u)
    (S : Subst P I lab lt u m b I' lab' lt') (h : SolvesN P I' lab' lt' s π k) :
    SolvesN P I lab lt s π (k + 1) := by
  classical
  obtain ⟨tr', occ, hL, hk, hs⟩ := solvesN_iff.1 h
  -- trees: hang the new trees below `u`
  set tr : Nat → Tree := fun v => if v = u then .node m (fun i => tr' (b + i)) else tr' v with htr
  have htu : tr u = .node m (fun i => tr' (b + i)) := by simp [htr]
  have htv : ∀ v, v ≠ u → tr v = tr' v := fun v hv => by simp [htr, hv]
  -- occurrences
  set f : Nat × List Nat → Nat × List Nat :=
    fun x => if x.1 < b then x else (u, (x.1 - b) :: x.2) with hf
  have hub : u < b := S.fresh u hu
  have hf_old : ∀ v p, v ∈ I → f (v, p) = (v, p) := fun v p hv => by simp [hf, S.fresh v hv]
  have hf_new : ∀ i p, f (b + i, p) = (u, i :: p) := fun i p => by simp [hf]
  have hcase : ∀ x ∈ occ, (∃ v p, x = (v, p) ∧ v ∈ I ∧ v ≠ u) ∨
      ∃ i p, x = (b + i, p) ∧ i < (P.sub m).length := by
    rintro ⟨v, p⟩ hx
    rcases (S.mem v).1 ((hL.all _).1 hx).1 with ⟨h1, h2⟩ | ⟨i, hi, rfl⟩
    · exact .inl ⟨v, p, rfl, h1, h2⟩
    · exact .inr ⟨i, p, rfl, hi⟩
  refine solvesN_iff.2 ⟨tr, occ.map f, ⟨?_, ?_, ?_, ?_, ?_⟩, ?_, hs⟩
  · intro v hv
    by_cases hvu : v = u
    · subst hvu
      rw [htu, ← hhead]
      refine .node hm fun i t ht => ?_
      have hi : i < (P.sub m).length := (List.getElem?_eq_some_iff.1 ht).1
      have := hL.valid (b + i) ((S.mem _).2 (.inr ⟨i, hi, rfl⟩))
      rwa [S.lab_new i t ht] at this
    · rw [htv v hvu, ← S.lab_old v hv hvu]
      exact hL.valid v ((S.mem v).2 (.inl ⟨hv, hvu⟩))
  · refine List.Nodup.map_on ?_ hL.nodup
    intro x hx y hy hxy
    rcases hcase x hx with ⟨v, p, rfl, h1, h2⟩ | ⟨i, p, rfl, hi⟩ <;>
      rcases hcase y hy with ⟨w, q, rfl, h3, h4⟩ | ⟨j, q, rfl, hj⟩
    · rwa [hf_old v p h1, hf_old w q h3] at hxy
    · rw [hf_old v p h1, hf_new] at hxy; cases hxy; exact absurd rfl h2
    · rw [hf_new, hf_old w q h3] at hxy; cases hxy; exact absurd rfl h4
    · rw [hf_new, hf_new] at hxy; cases hxy; rfl
  · rintro ⟨v, p⟩
    rw [List.mem_map]
    constructor
    · rintro ⟨x, hx, hfx⟩
      obtain ⟨_, a, hla⟩ := (hL.all x).1 hx
      rcases hcase x hx with ⟨w, q, rfl, h1, h2⟩ | ⟨i, q, rfl, hi⟩
      · rw [hf_old w q h1] at hfx; cases hfx
        exact ⟨h1, a, by rw [htv _ h2]; exact hla⟩
      · rw [hf_new] at hfx; cases hfx
        exact ⟨hu, a, by simp only [htu]; exact .child hi hla⟩
    · rintro ⟨hv, a, hla⟩
      simp only at hv hla
      by_cases hvu : v = u
      · subst hvu
        rw [htu] at hla
        obtain ⟨i, q, rfl, hi, hq⟩ := leafAt_node.1 hla
        exact ⟨(b + i, q), (hL.all _).2 ⟨(S.mem _).2 (.inr ⟨i, hi, rfl⟩), a, hq⟩, hf_new i q⟩
      · rw [htv v hvu] at hla
        exact ⟨(v, p), (hL.all _).2 ⟨(S.mem _).2 (.inl ⟨hv, hvu⟩), a, hla⟩, hf_old v p hv⟩
  · rw [List.pairwise_map]
    refine hL.order.imp_of_mem (fun {x y} hx hy hnb hb => hnb ?_)
    rcases hcase x hx with ⟨v, p, rfl, h1, h2⟩ | ⟨i, p, rfl, hi⟩ <;>
      rcases hcase y hy with ⟨w, q, rfl, h3, h4⟩ | ⟨j, q, rfl, hj⟩
    · rw [hf_old v p h1, hf_old w q h3] at hb
      rcases hb with ⟨hb1, hb2⟩ | hb
      · exact .inl ⟨hb1, by simpa only [htv w h4] using hb2⟩
      · exact .inr ((S.lt_old w h3 v h1 h4 h2).2 hb)
    · rw [hf_old v p h1, hf_new] at hb
      rcases hb with ⟨hb1, hb2⟩ | hb
      · exact absurd hb1.symm h2
      · exact .inr ((S.lt_new_old j v hj h1 h2).2 hb)
    · rw [hf_new, hf_old w q h3] at hb
      rcases hb with ⟨hb1, hb2⟩ | hb
      · exact absurd hb1 h4
      · exact .inr ((S.lt_old_new w i h3 h4 hi).2 hb)
    · rw [hf_new, hf_new] at hb
      rcases hb with ⟨_, hb2⟩ | hb
      · simp only [htu] at hb2
        rcases before_node_iff.1 hb2 with ⟨rfl, hb3⟩ | hb3
        · exact .inl ⟨rfl, hb3⟩
        · exact .inr ((S.lt_new j i hj hi).2 hb3)
      · exact absurd hb hirr
  · rw [forall₂_map_left']
    refine forall₂_imp_mem hL.labels ?_
    intro x hx a hla
    rcases hcase x hx with ⟨w, q, rfl, h1, h2⟩ | ⟨i, q, rfl, hi⟩
    · rw [hf_old w q h1]; simpa only [htv w h2] using hla
    · rw [hf_new]; simp only [htu]; exact .child hi hla
  · rw [S.sum_eq hu (fun v => (tr' v).inner P) (fun v => (tr v).inner P)
      (fun v _ hvu => by simp only [htv v hvu]) (by simp only [htu, Tree.inner]), hk, Nat.add_comm]

/-- Every solution of a network decomposes a given abstract task with some method, and
is a solution of the network decomposed with that method. -/
theorem SolvesN.to_subst {I : Finset Nat} {lab lt u s π k}
    (hu : u ∈ I) (habs : P.prim (lab u) = false) (h : SolvesN P I lab lt s π k) :
    ∃ m, m < P.numMethods ∧ P.head m = lab u ∧ 0 < k ∧ ∀ b I' lab' lt',
      Subst P I lab lt u m b I' lab' lt' → SolvesN P I' lab' lt' s π (k - 1) := by
  classical
  obtain ⟨tr, occ, hL, hk, hs⟩ := solvesN_iff.1 h
  obtain ⟨m, cs, hm, hhead, htu, hcs⟩ := (hL.valid u hu).abs_eq habs
  refine ⟨m, hm, hhead, ?_, ?_⟩
  · rw [← hk, ← Finset.add_sum_erase I _ hu, htu, Tree.inner]; omega
  intro b I' lab' lt' S
  set tr' : Nat → Tree := fun v => if v < b then tr v else cs (v - b) with htr'
  have ht_old : ∀ v ∈ I, tr' v = tr v := fun v hv => by simp [htr', S.fresh v hv]
  have ht_new : ∀ i, tr' (b + i) = cs i := fun i => by simp [htr']
  set g : Nat × List Nat → Nat × List Nat :=
    fun x => if x.1 = u then (match x.2 with | [] => x | i :: p => (b + i, p)) else x with hg
  have hg_old : ∀ v p, v ≠ u → g (v, p) = (v, p) := fun v p hv => by simp [hg, hv]
  have hg_new : ∀ i p, g (u, i :: p) = (b + i, p) := fun i p => by simp [hg]
  have hcase : ∀ x ∈ occ, (∃ v p, x = (v, p) ∧ v ∈ I ∧ v ≠ u) ∨
      ∃ i p, x = (u, i :: p) ∧ i < (P.sub m).length := by
    rintro ⟨v, p⟩ hx
    obtain ⟨hv, a, ha⟩ := (hL.all _).1 hx
    simp only at hv ha
    by_cases hvu : v = u
    · subst hvu
      rw [htu] at ha
      obtain ⟨i, q, rfl, hi, _⟩ := leafAt_node.1 ha
      exact .inr ⟨i, q, rfl, hi⟩
    · exact .inl ⟨v, p, rfl, hv, hvu⟩
  refine solvesN_iff.2 ⟨tr', occ.map g, ⟨?_, ?_, ?_, ?_, ?_⟩, ?_, hs⟩
  · intro v hv
    rcases (S.mem v).1 hv with ⟨h1, h2⟩ | ⟨i, hi, rfl⟩
    · rw [ht_old v h1, S.lab_old v h1 h2]; exact hL.valid v h1
    · rw [ht_new, S.lab_new i _ (List.getElem?_eq_getElem hi)]
      exact hcs i _ (List.getElem?_eq_getElem hi)
  · refine List.Nodup.map_on ?_ hL.nodup
    intro x hx y hy hxy
    rcases hcase x hx with ⟨v, p, rfl, h1, h2⟩ | ⟨i, p, rfl, hi⟩ <;>
      rcases hcase y hy with ⟨w, q, rfl, h3, h4⟩ | ⟨j, q, rfl, hj⟩
    · rwa [hg_old v p h2, hg_old w q h4] at hxy
    · rw [hg_old v p h2, hg_new] at hxy; cases hxy
      have := S.fresh _ h1; omega
    · rw [hg_new, hg_old w q h4] at hxy; cases hxy
      have := S.fresh _ h3; omega
    · rw [hg_new, hg_new] at hxy
      simp only [Prod.mk.injEq, Nat.add_left_cancel_iff] at hxy
      rw [hxy.1, hxy.2]
  · rintro ⟨v, p⟩
    rw [List.mem_map]
    constructor
    · rintro ⟨x, hx, hgx⟩
      obtain ⟨_, a, hla⟩ := (hL.all x).1 hx
      rcases hcase x hx with ⟨w, q, rfl, h1, h2⟩ | ⟨i, q, rfl, hi⟩
      · rw [hg_old w q h2] at hgx; cases hgx
        exact ⟨(S.mem _).2 (.inl ⟨h1, h2⟩), a, by rw [ht_old _ h1]; exact hla⟩
      · rw [hg_new] at hgx; cases hgx
        refine ⟨(S.mem _).2 (.inr ⟨i, hi, rfl⟩), a, ?_⟩
        simp only [htu] at hla
        simp only [ht_new]
        obtain ⟨i', q', he, _, hq⟩ := leafAt_node.1 hla
        cases he; exact hq
    · rintro ⟨hv, a, hla⟩
      simp only at hv hla
      rcases (S.mem v).1 hv with ⟨h1, h2⟩ | ⟨i, hi, rfl⟩
      · rw [ht_old v h1] at hla
        exact ⟨(v, p), (hL.all _).2 ⟨h1, a, hla⟩, hg_old v p h2⟩
      · rw [ht_new] at hla
        refine ⟨(u, i :: p), (hL.all _).2 ⟨hu, a, ?_⟩, hg_new i p⟩
        simp only [htu]; exact .child hi hla
  · rw [List.pairwise_map]
    refine hL.order.imp_of_mem (fun {x y} hx hy hnb hb => hnb ?_)
    rcases hcase x hx with ⟨v, p, rfl, h1, h2⟩ | ⟨i, p, rfl, hi⟩ <;>
      rcases hcase y hy with ⟨w, q, rfl, h3, h4⟩ | ⟨j, q, rfl, hj⟩
    · rw [hg_old v p h2, hg_old w q h4] at hb
      rcases hb with ⟨hb1, hb2⟩ | hb
      · exact .inl ⟨hb1, by simpa only [ht_old w h3] using hb2⟩
      · exact .inr ((S.lt_old w h3 v h1 h4 h2).1 hb)
    · rw [hg_old v p h2, hg_new] at hb
      rcases hb with ⟨hb1, hb2⟩ | hb
      · simp only at hb1; have := S.fresh _ h1; omega
      · exact .inr ((S.lt_new_old j v hj h1 h2).1 hb)
    · rw [hg_new, hg_old w q h4] at hb
      rcases hb with ⟨hb1, hb2⟩ | hb
      · simp only at hb1; have := S.fresh _ h3; omega
      · exact .inr ((S.lt_old_new w i h3 h4 hi).1 hb)
    · rw [hg_new, hg_new] at hb
      refine .inl ⟨rfl, ?_⟩
      simp only [htu]
      rcases hb with ⟨hb1, hb2⟩ | hb
      · simp only [Nat.add_left_cancel_iff] at hb1
        subst hb1
        simp only [ht_new] at hb2
        exact .same hb2
      · exact .diff ((S.lt_new j i hj hi).1 hb)
  · rw [forall₂_map_left']
    refine forall₂_imp_mem hL.labels ?_
    intro x hx a hla
    rcases hcase x hx with ⟨w, q, rfl, h1, h2⟩ | ⟨i, q, rfl, hi⟩
    · rw [hg_old w q h2]; simpa only [ht_old w h1] using hla
    · rw [hg_new]; simp only [ht_new]
      simp only [htu] at hla
      obtain ⟨i', q', he, _, hq⟩ := leafAt_node.1 hla
      cases he; exact hq
  · have := S.sum_eq hu (fun v => (tr' v).inner P) (fun v => (tr v).inner P)
      (fun v hv _ => by simp only [ht_old v hv])
      (by simp only [htu, Tree.inner, ht_new])
    omega

/-! ### The initial network -/

theorem solvesN_single {lab lt s π k u} (hirr : ¬ lt u u) :
    SolvesN P {u} lab lt s π k ↔ ∃ tr, Valid P (lab u) tr ∧ tr.inner P = k ∧
      (∃ occ, Linearises P tr occ π) ∧ ∃ s', Exec P s π s' ∧ P.GoalState s' := by
  classical
  constructor
  · intro h
    obtain ⟨tr, occ, hL, hk, hs⟩ := solvesN_iff.1 h
    have hocc : ∀ x ∈ occ, x.1 = u := fun x hx => by simpa using ((hL.all x).1 hx).1
    refine ⟨tr u, hL.valid u (by simp), by simpa using hk, ⟨occ.map Prod.snd, ?_⟩, hs⟩
    refine ⟨?_, ?_, ?_, ?_⟩
    · refine List.Nodup.map_on ?_ hL.nodup
      intro x hx y hy hxy
      exact Prod.ext ((hocc x hx).trans (hocc y hy).symm) hxy
    · intro p
      rw [List.mem_map]
      constructor
      · rintro ⟨⟨v, q⟩, hx, rfl⟩
        obtain ⟨h1, h2⟩ := (hL.all _).1 hx
        have : v = u := hocc _ hx
        subst this; exact h2
      · rintro ⟨a, ha⟩
        exact ⟨(u, p), (hL.all _).2 ⟨by simp, a, ha⟩, rfl⟩
    · rw [List.pairwise_map]
      refine hL.order.imp_of_mem (fun {x y} hx hy hnb hb => hnb (.inl ⟨?_, ?_⟩))
      · exact (hocc y hy).trans (hocc x hx).symm
      · rw [hocc y hy]; exact hb
    · rw [forall₂_map_left']
      refine forall₂_imp_mem hL.labels fun x hx a ha => ?_
      rwa [hocc x hx] at ha
  · rintro ⟨tr, hv, hk, ⟨occ, hl⟩, hs⟩
    refine solvesN_iff.2 ⟨fun _ => tr, occ.map (fun p => (u, p)), ⟨?_, ?_, ?_, ?_, ?_⟩, ?_, hs⟩
    · intro v hv'; rw [Finset.mem_singleton.1 hv']; exact hv
    · exact hl.nodup.map (fun p q h => (Prod.mk.inj h).2)
    · rintro ⟨v, p⟩
      simp only [List.mem_map, Prod.mk.injEq, Finset.mem_singleton]
      constructor
      · rintro ⟨q, hq, rfl, rfl⟩; exact ⟨rfl, (hl.all _).1 hq⟩
      · rintro ⟨rfl, h⟩; exact ⟨p, (hl.all _).2 h, rfl, rfl⟩
    · rw [List.pairwise_map]
      refine hl.order.imp (fun {x y} hnb hb => hnb ?_)
      rcases hb with ⟨_, hb⟩ | hb
      · exact hb
      · exact absurd hb hirr
    · rw [forall₂_map_left']; exact hl.labels
    · simpa using hk

theorem isSolutionN_iff {lt : Nat → Nat → Prop} {lab : Nat → Nat} {u π k} (hlab : lab u = P.init)
    (hirr : ¬ lt u u) :
    SolvesN P {u} lab lt P.initState π k ↔ IsSolutionN P π k := by
  rw [solvesN_single hirr, hlab]; rfl

/-- The empty network is solved by the empty plan exactly in goal states. -/
theorem solvesN_empty {lab lt s π k} :
    SolvesN P ∅ lab lt s π k ↔ π = [] ∧ k = 0 ∧ P.GoalState s := by
  constructor
  · intro h
    obtain ⟨tr, occ, hL, hk, s', he, hg⟩ := solvesN_iff.1 h
    cases occ with
    | nil =>
      have := hL.labels; cases this; cases he
      exact ⟨rfl, by simpa using hk.symm, hg⟩
    | cons x occ => exact absurd ((hL.all x).1 List.mem_cons_self).1 (by simp)
  · rintro ⟨rfl, rfl, hg⟩
    exact solvesN_iff.2 ⟨fun _ => .leaf 0, [], ⟨by simp, by simp, by simp, by simp, .nil⟩, by simp,
      s, .nil s, hg⟩

end Verif.Htn
