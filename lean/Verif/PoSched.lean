import Verif.PoPlan

/-! # Sequences of leaves, linearisations and the matching of leaves with positions -/

namespace Verif.Pdt

open Verif.Htn Verif.Sog Verif.Sat Verif.Inv Relation

section
variable {P : Problem} {t : T} {sel : Path → Sel} {A : Path → List (Nat × Nat)}

/-- The selected leaves in an order that the tree allows. -/
structure Sched (t : T) (sel : Path → Sel) (A : Path → List (Nat × Nat)) (xs : List Path) : Prop where
  nodup : xs.Nodup
  mem : ∀ x, x ∈ xs ↔ x ∈ t.leaves ∧ actAt t sel x ≠ []
  order : xs.Pairwise fun x y => ¬ LeafLt t A t.K [] y x

theorem actAt_le {x : Path} : actAt t sel x = [] ∨ ∃ a, actAt t sel x = [a] := by
  unfold actAt
  split
  · exact .inr ⟨_, rfl⟩
  · exact .inl rfl

theorem actAt_one {x : Path} (h : actAt t sel x ≠ []) : ∃ a, actAt t sel x = [a] := actAt_le.resolve_left h

/-- Such an order linearises the decomposition that the selection represents. -/
theorem Sched.linearises {xs : List Path} (hx : Sched t sel A xs) {tr : Tree} {φ : List Nat → Path} (hφ : RepMap P t sel t.K [] tr φ)
    (hk : ∀ q q' a a', LeafAt P tr q a → LeafAt P tr q' a' → Before P tr q q' → LeafLt t A t.K [] (φ q) (φ q')) :
    ∃ occ, Linearises P tr occ (xs.flatMap (actAt t sel)) ∧ occ.map φ = xs := by
  classical
  have hex : ∀ x, ∃ q, x ∈ xs → φ q = x ∧ ∃ a, LeafAt P tr q a ∧ actAt t sel x = [a] := by
    intro x
    by_cases h : x ∈ xs
    · obtain ⟨h1, h2⟩ := (hx.mem x).1 h
      obtain ⟨q, a, h3, rfl⟩ := hφ.surj x h1 h2
      exact ⟨q, fun _ => ⟨rfl, a, h3, (hφ.act q a h3).2⟩⟩
    · exact ⟨[], fun h' => absurd h' h⟩
  choose ψ hψ using hex
  refine ⟨xs.map ψ, ⟨?_, ?_, ?_, ?_⟩, ?_⟩
  rotate_left 4
  · rw [List.map_map]
    conv_rhs => rw [← List.map_id xs]
    exact List.map_congr_left fun x h => (hψ x h).1
  · refine List.Nodup.map_on (fun x h y h' e => ?_) hx.nodup
    rw [← (hψ x h).1, ← (hψ y h').1, e]
  · intro q
    rw [List.mem_map]
    constructor
    · rintro ⟨x, h, rfl⟩
      obtain ⟨-, a, ha, -⟩ := hψ x h
      exact ⟨a, ha⟩
    · rintro ⟨a, ha⟩
      obtain ⟨h1, h2⟩ := hφ.act q a ha
      have hm : φ q ∈ xs := (hx.mem _).2 ⟨h1, by rw [h2]; simp⟩
      obtain ⟨h3, b, h4, -⟩ := hψ _ hm
      exact ⟨φ q, hm, hφ.inj _ _ b a h4 ha h3⟩
  · rw [List.pairwise_map]
    refine List.Pairwise.imp_of_mem (fun {x y} h h' hxy hb => hxy ?_) hx.order
    obtain ⟨e, a, ha, -⟩ := hψ x h
    obtain ⟨e', a', ha', -⟩ := hψ y h'
    have := hk _ _ a' a ha' ha hb
    rwa [e, e'] at this
  · have h : ∀ l : List Path, (∀ x ∈ l, x ∈ xs) → List.Forall₂ (LeafAt P tr) (l.map ψ) (l.flatMap (actAt t sel)) := by
      intro l
      induction l with
      | nil => intro _; exact .nil
      | cons x l ih =>
        intro h
        obtain ⟨-, a, ha, e⟩ := hψ x (h x (by simp))
        rw [List.map_cons, List.flatMap_cons, e]
        exact .cons ha (ih fun y hy => h y (by simp [hy]))
    exact h xs fun _ h => h

/-- A linearisation gives such an order, if the tree imposes nothing more than the decomposition. -/
theorem sched_of_linearises {tr : Tree} {φ : List Nat → Path} (hφ : RepMap P t sel t.K [] tr φ)
    (hk : ∀ q q' a a', LeafAt P tr q a → LeafAt P tr q' a' → LeafLt t A t.K [] (φ q) (φ q') → Before P tr q q')
    {occ : List (List Nat)} {π : List Nat} (hl : Linearises P tr occ π) :
    Sched t sel A (occ.map φ) ∧ (occ.map φ).flatMap (actAt t sel) = π := by
  refine ⟨⟨?_, fun x => ?_, ?_⟩, ?_⟩
  · refine List.Nodup.map_on (fun x h y h' e => ?_) hl.nodup
    obtain ⟨a, ha⟩ := (hl.all x).1 h
    obtain ⟨b, hb⟩ := (hl.all y).1 h'
    exact hφ.inj _ _ a b ha hb e
  · rw [List.mem_map]
    constructor
    · rintro ⟨q, h, rfl⟩
      obtain ⟨a, ha⟩ := (hl.all q).1 h
      obtain ⟨h1, h2⟩ := hφ.act q a ha
      exact ⟨h1, by rw [h2]; simp⟩
    · rintro ⟨h1, h2⟩
      obtain ⟨q, a, ha, rfl⟩ := hφ.surj x h1 h2
      exact ⟨q, (hl.all q).2 ⟨a, ha⟩, rfl⟩
  · rw [List.pairwise_map]
    refine List.Pairwise.imp_of_mem (fun {x y} h h' hxy hb => hxy ?_) hl.order
    obtain ⟨a, ha⟩ := (hl.all x).1 h
    obtain ⟨b, hb'⟩ := (hl.all y).1 h'
    exact hk _ _ b a hb' ha hb
  · have := hl.labels
    clear hl hk
    induction this with
    | nil => rfl
    | cons h1 _ ih => rw [List.map_cons, List.flatMap_cons, (hφ.act _ _ h1).2, ih]; rfl

end

section
variable {P : Problem} {t : T} {sel : Path → Sel} {V : VM} {M : MData} {w : Assignment}

theorem leaf_get {l : Nat} (hl : l < M.vs.length) : M.leaf l = M.vs[l] := List.getD_eq_getElem _ _ hl

theorem leaf_mem {l : Nat} (hl : l < M.vs.length) : M.leaf l ∈ M.vs := by rw [leaf_get hl]; exact List.getElem_mem hl

theorem leaf_inj (hn : M.vs.Nodup) {l l' : Nat} (hl : l < M.vs.length) (hl' : l' < M.vs.length) (h : M.leaf l = M.leaf l') : l = l' := by
  rw [leaf_get hl, leaf_get hl'] at h
  exact (List.Nodup.getElem_inj_iff hn).1 h

theorem leaf_idx {x : Path} (hx : x ∈ M.vs) : M.vs.idxOf x < M.vs.length ∧ M.leaf (M.vs.idxOf x) = x := by
  have := List.idxOf_lt_length_of_mem hx
  exact ⟨this, by rw [leaf_get this, List.getElem_idxOf]⟩

theorem idx_leaf (hn : M.vs.Nodup) {l : Nat} (hl : l < M.vs.length) : M.vs.idxOf (M.leaf l) = l := by
  rw [leaf_get hl]; exact hn.idxOf_getElem l hl

/-- The edges between the leaves and the edges between their numbers. -/
theorem edges_trans {es : List (Path × Path)} (hes : ∀ e ∈ es, e.1 ∈ M.vs ∧ e.2 ∈ M.vs) {l k : Nat} :
    (∀ x y, TransGen (fun a b => (a, b) ∈ es) x y →
      TransGen (fun l k => (l, k) ∈ M.edges es) (M.vs.idxOf x) (M.vs.idxOf y)) ∧
    (TransGen (fun l k => (l, k) ∈ M.edges es) l k → TransGen (fun a b => (a, b) ∈ es) (M.leaf l) (M.leaf k)) := by
  constructor
  · intro x y h
    induction h with
    | single h => exact .single (List.mem_map.2 ⟨_, h, rfl⟩)
    | tail _ h ih => exact (ih).tail (List.mem_map.2 ⟨_, h, rfl⟩)
  · intro h
    have key : ∀ a b, (a, b) ∈ M.edges es → (M.leaf a, M.leaf b) ∈ es := by
      intro a b h
      obtain ⟨e, he, h⟩ := List.mem_map.1 h
      simp only [Prod.mk.injEq] at h
      obtain ⟨rfl, rfl⟩ := h
      rw [(leaf_idx (hes e he).1).2, (leaf_idx (hes e he).2).2]
      exact he
    induction h with
    | single h => exact .single (key _ _ h)
    | tail _ h ih => exact ih.tail (key _ _ h)

theorem edges_in {es : List (Path × Path)} (hes : ∀ e ∈ es, e.1 ∈ M.vs ∧ e.2 ∈ M.vs) :
    ∀ l k, (l, k) ∈ M.edges es → l < M.vs.length ∧ k < M.vs.length := by
  intro l k h
  obtain ⟨e, he, h⟩ := List.mem_map.1 h
  simp only [Prod.mk.injEq] at h
  obtain ⟨rfl, rfl⟩ := h
  exact ⟨(leaf_idx (hes e he).1).1, (leaf_idx (hes e he).2).1⟩

/-- The selected leaves at a position. -/
def leavesAt (t : T) (sel : Path → Sel) (M : MData) (w : Assignment) (p : Nat) : List Nat :=
  (List.range M.vs.length).filter fun l => w (M.mv l p) && !(actAt t sel (M.leaf l)).isEmpty

theorem mem_leavesAt {p l : Nat} : l ∈ leavesAt t sel M w p ↔ l < M.vs.length ∧ w (M.mv l p) = true ∧ actAt t sel (M.leaf l) ≠ [] := by
  unfold leavesAt
  rw [List.mem_filter, List.mem_range]
  simp

theorem nodup_le_one {α : Type} {l : List α} (hn : l.Nodup) (h : ∀ a ∈ l, ∀ b ∈ l, a = b) : l = [] ∨ ∃ a, l = [a] := by
  match l, hn, h with
  | [], _, _ => exact .inl rfl
  | [a], _, _ => exact .inr ⟨a, rfl⟩
  | a :: b :: l, hn, h =>
    have := h a (by simp) b (by simp)
    subst this
    simp at hn

/-- The actions at a position. -/
def actsAt (M : MData) (w : Assignment) (p : Nat) : List Nat := M.acts.filter fun a => w (M.pv p a)

theorem selected_vars : selected w M.vars = (List.range M.steps).flatMap (actsAt M w) := by
  unfold selected MData.vars
  rw [List.flatMap_map]
  refine List.flatMap_congr fun p _ => ?_
  unfold selOf actsAt
  rw [List.filter_map, List.map_map]
  conv_rhs => rw [← List.map_id (List.filter _ _)]
  rfl

/-- The assumptions about leaves and actions. -/
structure MOK (P : Problem) (t : T) (M : MData) : Prop where
  vs : M.vs = t.leaves
  acts : M.acts.Nodup
  mem : ∀ a, a ∈ M.acts ↔ ∃ q ∈ M.vs, a ∈ leafPrims t q
  eff : ∀ q ∈ M.vs, ∀ a ∈ leafPrims t q, hasEff P a = true

theorem mem_prims_of_var {q : Path} {x a : Nat} (h : (x, a) ∈ leafVars V t q) : a ∈ leafPrims t q := by
  obtain ⟨d, i, hd, ha, -⟩ := mem_leafVars.1 h
  unfold leafPrims
  rw [hd]
  exact List.mem_of_getElem? ha

theorem MOK.effLeaf_of (hM : MOK P t M) {q : Path} (hq : q ∈ M.vs) {a : Nat} (h : a ∈ leafPrims t q) : effLeaf P t q = true := by
  unfold effLeaf
  rw [List.any_eq_true]
  exact ⟨a, h, hM.eff q hq a h⟩

/-- A position holds at most one leaf that is selected, and its action. -/
theorem position (hM : MOK P t M) (hms : MatchSem P t V M w)
    (hleaf : ∀ l < M.vs.length, selOf w (leafVars V t (M.leaf l)) = actAt t sel (M.leaf l)) {p : Nat} (hp : p < M.steps) :
    (leavesAt t sel M w p = [] ∧ actsAt M w p = []) ∨
      ∃ l a, leavesAt t sel M w p = [l] ∧ actAt t sel (M.leaf l) = [a] ∧ actsAt M w p = [a] := by
  have hact : ∀ l < M.vs.length, ∀ a, actAt t sel (M.leaf l) = [a] ↔ ∃ x, (x, a) ∈ leafVars V t (M.leaf l) ∧ w x = true := by
    intro l hl a
    rw [← mem_selOf, hleaf l hl]
    rcases actAt_le (t := t) (sel := sel) (x := M.leaf l) with h | ⟨b, h⟩
    · rw [h]; simp
    · rw [h]; simp [eq_comm]
  -- an action at the position comes from a leaf
  have hup : ∀ a ∈ actsAt M w p, ∃ l < M.vs.length, w (M.mv l p) = true ∧ actAt t sel (M.leaf l) = [a] := by
    intro a ha
    obtain ⟨ha, hwa⟩ := List.mem_filter.1 ha
    obtain ⟨q, hq, hap⟩ := (hM.mem a).1 ha
    have he := hM.eff q hq a hap
    obtain ⟨l, hl, hel, hml⟩ := hms.pplace p hp ((hms.pact p hp).2 ⟨a, ha, he, hwa⟩)
    exact ⟨l, hl, hml, (hact l hl a).2 (hms.up l hl hel p hp a ha he hml hwa)⟩
  have hdown : ∀ l < M.vs.length, w (M.mv l p) = true → ∀ a, actAt t sel (M.leaf l) = [a] → a ∈ actsAt M w p := by
    intro l hl hml a ha
    obtain ⟨x, hx, hwx⟩ := (hact l hl a).1 ha
    exact List.mem_filter.2 ⟨(hM.mem a).2 ⟨_, leaf_mem hl, mem_prims_of_var hx⟩, hms.down p hp l hl (x, a) hx hml hwx⟩
  have heff : ∀ l < M.vs.length, ∀ a, actAt t sel (M.leaf l) = [a] → effLeaf P t (M.leaf l) = true := by
    intro l hl a ha
    obtain ⟨x, hx, -⟩ := (hact l hl a).1 ha
    exact hM.effLeaf_of (leaf_mem hl) (mem_prims_of_var hx)
  have huniq : ∀ l < M.vs.length, ∀ l' < M.vs.length, w (M.mv l p) = true → w (M.mv l' p) = true → ∀ a a', actAt t sel (M.leaf l) = [a] →
      actAt t sel (M.leaf l') = [a'] → l = l' := fun l hl l' hl' h h' a a' ha ha' =>
    hms.amoP p hp l hl l' hl' (heff l hl a ha) (heff l' hl' a' ha') h h'
  have hl1 : leavesAt t sel M w p = [] ∨ ∃ l, leavesAt t sel M w p = [l] := by
    refine nodup_le_one (List.nodup_range.filter _) fun l h l' h' => ?_
    obtain ⟨h1, h2, h3⟩ := mem_leavesAt.1 h
    obtain ⟨k1, k2, k3⟩ := mem_leavesAt.1 h'
    obtain ⟨a, ha⟩ := actAt_one h3
    obtain ⟨a', ha'⟩ := actAt_one k3
    exact huniq l h1 l' k1 h2 k2 a a' ha ha'
  have ha1 : actsAt M w p = [] ∨ ∃ a, actsAt M w p = [a] := by
    refine nodup_le_one (hM.acts.filter _) fun a h a' h' => ?_
    obtain ⟨l, h1, h2, h3⟩ := hup a h
    obtain ⟨l', k1, k2, k3⟩ := hup a' h'
    have := huniq l h1 l' k1 h2 k2 a a' h3 k3
    subst this
    rw [h3] at k3
    simpa using k3
  rcases hl1 with h | ⟨l, h⟩
  · refine .inl ⟨h, ?_⟩
    by_contra hne
    obtain ⟨a, ha⟩ := List.exists_mem_of_ne_nil _ hne
    obtain ⟨l, h1, h2, h3⟩ := hup a ha
    have : l ∈ leavesAt t sel M w p := mem_leavesAt.2 ⟨h1, h2, by rw [h3]; simp⟩
    rw [h] at this
    simp at this
  · have hl : l ∈ leavesAt t sel M w p := by rw [h]; simp
    obtain ⟨h1, h2, h3⟩ := mem_leavesAt.1 hl
    obtain ⟨a, ha⟩ := actAt_one h3
    have := hdown l h1 h2 a ha
    refine .inr ⟨l, a, h, ha, ?_⟩
    rcases ha1 with h | ⟨b, h⟩
    · rw [h] at this; simp at this
    · rw [h] at this ⊢
      simp at this
      rw [this]

/-- The leaves in the order of their positions. -/
def seqOf (t : T) (sel : Path → Sel) (M : MData) (w : Assignment) : List Path :=
  ((List.range M.steps).flatMap (leavesAt t sel M w)).map M.leaf

/-- The actions at the positions are the ones of the leaves, and they are printed. -/
theorem seqOf_acts (hM : MOK P t M) (hms : MatchSem P t V M w)
    (hleaf : ∀ l < M.vs.length, selOf w (leafVars V t (M.leaf l)) = actAt t sel (M.leaf l)) :
    (seqOf t sel M w).flatMap (actAt t sel) = selected w M.vars ∧ printedPO t V M w = selected w M.vars := by
  rw [selected_vars]
  constructor
  · unfold seqOf
    rw [List.flatMap_map, List.flatMap_assoc]
    refine List.flatMap_congr fun p hp => ?_
    rcases position hM hms hleaf (List.mem_range.1 hp) with ⟨h1, h2⟩ | ⟨l, a, h1, h2, h3⟩
    · rw [h1, h2]; rfl
    · rw [h1, h3]; simp [h2]
  · unfold printedPO
    refine List.flatMap_congr fun p hp => ?_
    change (actsAt M w p).flatMap _ = _
    rcases position hM hms hleaf (List.mem_range.1 hp) with ⟨h1, h2⟩ | ⟨l, a, h1, h2, h3⟩
    · rw [h2]; rfl
    · rw [h3]
      simp only [List.flatMap_cons, List.flatMap_nil, List.append_nil]
      have : ((List.range M.vs.length).filter fun l => w (M.mv l p) && outTask t V w (M.leaf l) == some a) = leavesAt t sel M w p := by
        unfold leavesAt
        refine List.filter_congr fun k hk => ?_
        rw [List.mem_range] at hk
        unfold outTask
        rw [hleaf k hk]
        cases hw : w (M.mv k p) with
        | false => rfl
        | true =>
          rcases actAt_le (t := t) (sel := sel) (x := M.leaf k) with h | ⟨b, h⟩
          · rw [h]; simp
          · have hmem : k ∈ leavesAt t sel M w p := mem_leavesAt.2 ⟨hk, hw, by rw [h]; simp⟩
            rw [h1] at hmem
            simp at hmem
            subst hmem
            rw [h2] at h
            simp at h
            rw [h2, h]
            simp
      rw [this, h1]
      rfl

/-- The order of the positions is an order that the tree allows. -/
theorem seqOf_sched {A : Path → List (Nat × Nat)} {es : List (Path × Path)} {g : Nat} (hM : MOK P t M) (hms : MatchSem P t V M w)
    (hos : OrderSem M es g w) (hes : ∀ e ∈ es, e.1 ∈ M.vs ∧ e.2 ∈ M.vs)
    (hlt : ∀ x y, LeafLt t A t.K [] x y → TransGen (fun a b => (a, b) ∈ es) x y)
    (hleaf : ∀ l < M.vs.length, selOf w (leafVars V t (M.leaf l)) = actAt t sel (M.leaf l)) :
    Sched t sel A (seqOf t sel M w) := by
  have hn : M.vs.Nodup := by rw [hM.vs]; exact leaves_nodup
  have hpw : ((List.range M.steps).flatMap (leavesAt t sel M w)).Pairwise fun l l' =>
      M.leaf l ≠ M.leaf l' ∧ ¬ LeafLt t A t.K [] (M.leaf l') (M.leaf l) := by
    rw [List.pairwise_flatMap]
    constructor
    · intro p hp
      rcases position hM hms hleaf (List.mem_range.1 hp) with ⟨h1, h2⟩ | ⟨l, a, h1, h2, h3⟩
      · rw [h1]; exact .nil
      · rw [h1]; exact List.pairwise_singleton _ _
    · refine List.Pairwise.imp_of_mem (fun {p p'} hp hp' hlt' l hl l' hl' => ?_) List.pairwise_lt_range
      rw [List.mem_range] at hp hp'
      obtain ⟨h1, h2, h3⟩ := mem_leavesAt.1 hl
      obtain ⟨k1, k2, k3⟩ := mem_leavesAt.1 hl'
      refine ⟨fun e => ?_, fun h => ?_⟩
      · have := leaf_inj hn h1 k1 e
        subst this
        have := hms.amoL l h1 p hp p' hp' h2 k2
        omega
      · have := (edges_trans (l := 0) (k := 0) hes).1 _ _ (hlt _ _ h)
        rw [idx_leaf hn h1, idx_leaf hn k1] at this
        have := hos.le (edges_in hes) this hp' hp k2 h2
        omega
  refine ⟨?_, fun x => ?_, ?_⟩
  · unfold seqOf List.Nodup
    rw [List.pairwise_map]
    exact hpw.imp fun h => h.1
  · unfold seqOf
    rw [List.mem_map, ← hM.vs]
    constructor
    · rintro ⟨l, hl, rfl⟩
      obtain ⟨p, -, hl⟩ := List.mem_flatMap.1 hl
      obtain ⟨h1, -, h3⟩ := mem_leavesAt.1 hl
      exact ⟨leaf_mem h1, h3⟩
    · rintro ⟨h1, h2⟩
      obtain ⟨hl, e⟩ := leaf_idx h1
      refine ⟨_, ?_, e⟩
      have hact : w (M.la (M.vs.idxOf x)) = true := by
        rw [hms.act _ hl, e]
        obtain ⟨a, ha⟩ := actAt_one h2
        have : a ∈ selOf w (leafVars V t x) := by
          have := hleaf _ hl
          rw [e] at this
          rw [this, ha]; simp
        obtain ⟨y, hy, hwy⟩ := mem_selOf.1 this
        exact ⟨(y, a), hy, hwy⟩
      obtain ⟨p, hp, hpl⟩ := hms.place _ hl hact
      exact List.mem_flatMap.2 ⟨p, List.mem_range.2 hp, mem_leavesAt.2 ⟨hl, hpl, by rw [e]; exact h2⟩⟩
  · unfold seqOf
    rw [List.pairwise_map]
    exact hpw.imp fun h => h.2

end

end Verif.Pdt
