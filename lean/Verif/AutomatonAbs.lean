import Verif.AutomatonPrim

/-! # The symbolic search: abstract tasks keep the invariant -/

namespace Verif.Sym

open Verif.Htn

variable {B σ : Type} {P : Problem} {tr : Nat → σ → σ → Prop} {ini gl : σ → Prop} {G G' : Nat → σ → Option Nat}
  {mem : B → σ → σ → σ → Prop} {nA : Nat} {st st' : St B} {pend : Nat → σ → Prop} {x : Ctx B}

/-- Nothing is pending. -/
def noPend : Nat → σ → Prop := fun _ _ => False

theorem unitMethod_inv (L : Lawful x.O mem tr ini gl) (hx : x.P = P) (hn : x.nA = nA) (hI : Inv P tr ini mem nA st G x.c x.d pend)
    {v m t : Nat} {state : B} (hs : E0 P tr ini mem G (P.head m) v x.c state) (hm : m < P.numMethods) (hsub : P.sub m = [t]) :
    Inv P tr ini mem nA (unitMethod x v t state st) G x.c x.d pend := by
  unfold unitMethod
  simp only
  obtain ⟨hI1, -⟩ := hI.ensure L (v := 0) (t := t) (u := v) (c' := x.c) (d' := x.d)
  split
  · exact hI1
  · have h0 : E0 P tr ini mem G t v x.c state := ⟨hs.1, fun s b q h => (hs.2 s b q h).one hm hsub⟩
    obtain ⟨hI2, -⟩ := hI1.grow L hx hn (d' := x.d) h0
    exact (hI2.addQ hx hn t v 0 none false).1

/-- Annotating extra costs. -/
theorem Inv.setExtra (hI : Inv P tr ini mem nA st G x.c x.d pend) {v t u ec : Nat} {z : B}
    (h1 : FreeP mem z ∧ ∀ a p q, mem z a p q → ∃ m f gp, IsV P v m f t ∧ G v p = some gp ∧ Reach P tr ini G u q (P.head m) p (gp + ec))
    (hold : ∀ y, st.extra.get? [v, t, u, ec] = some y → ∀ a b c, mem y a b c → mem z a b c) :
    Inv P tr ini mem nA { st with extra := st.extra.set [v, t, u, ec] z } G x.c x.d pend ∧
      Ext mem st { st with extra := st.extra.set [v, t, u, ec] z } := by
  have hE : Ext mem st { st with extra := st.extra.set [v, t, u, ec] z } := by
    refine ⟨fun _ x h => ⟨x, h, fun _ _ _ h => h⟩, fun k' y hy => ?_, rfl⟩
    simp only [Map.get?_set]
    by_cases hk : k' = [v, t, u, ec]
    · subst hk
      exact ⟨z, by rw [if_pos rfl], hold y hy⟩
    · exact ⟨y, by rw [if_neg hk]; exact hy, fun _ _ _ h => h⟩
  refine ⟨{ hI with e1 := ?_, x1 := ?_ }, hE⟩
  · intro v' t' u' c' d' y hm hv
    exact (hI.e1 _ _ _ _ _ _ hm hv).mono GLe.refl hE.extra
  · intro v' t' u' ec' y hm
    rcases Map.mem_set hm with h | h
    · cases h
      exact h1
    · exact hI.x1 _ _ _ _ _ h

/-- The shortcut. -/
theorem epsStep_inv (L : Lawful x.O mem tr ini gl) (hx : x.P = P) (hn : x.nA = nA) {vm m f g v getHere : Nat} (hv : IsV P vm m f g) {fresh : B}
    (hfresh : ∀ a p q, mem fresh a p q → Reach P tr ini G v q (P.head m) p x.c)
    {acc : St B × B} {l : Nat × Nat} (hl : getHere ≤ l.1) (hI : Inv P tr ini mem nA acc.1 G x.c x.d pend)
    (hacc : ∀ a p q, mem acc.2 a p q → ∃ gp, G vm p = some gp ∧ getHere ≤ gp) :
    Inv P tr ini mem nA (epsStep x vm g v getHere fresh acc l).1 G x.c x.d pend ∧ Ext mem acc.1 (epsStep x vm g v getHere fresh acc l).1 ∧
      ∀ a b c, mem (epsStep x vm g v getHere fresh acc l).2 a b c → mem acc.2 a b c := by
  unfold epsStep
  split
  · exact ⟨hI, Ext.refl _ _, fun _ _ _ h => h⟩
  · split
    · exact ⟨hI, Ext.refl _ _, fun _ _ _ h => h⟩
    · split
      · exact ⟨hI, Ext.refl _ _, fun _ _ _ h => h⟩
      · next e he =>
        simp only
        split
        · exact ⟨hI, Ext.refl _ _, fun _ _ _ h => h⟩
        · generalize (if l.1 - getHere = 0 then x.d else 0) = dd
          have hrest : ∀ a b c, mem (x.O.and acc.2 (x.O.not (x.O.exP (x.O.and e acc.2)))) a b c → mem acc.2 a b c :=
            fun a b c h => ((L.and _ _ _ _ _).1 h).1
          have hnew : E0 P tr ini mem G g v (x.c + (l.1 - getHere)) (x.O.exE (x.O.and (x.O.exA (x.O.and e acc.2)) fresh)) := by
            refine ⟨fun a b b' q h => ?_, fun s b q h => ?_⟩
            · rw [L.exE] at h ⊢
              exact h
            · rw [L.exE] at h
              obtain ⟨p, h⟩ := h
              rw [L.and, L.exA] at h
              obtain ⟨⟨q', h1⟩, h2⟩ := h
              rw [L.and] at h1
              obtain ⟨gp, h3, h4⟩ := hacc _ _ _ h1.2
              have h5 := (hI.gg _ _ _ h3).1
              have h6 : Reach P tr ini G v q (P.head m) p (gp + (x.c - gp)) := (hfresh _ _ _ h2).mono GLe.refl (by omega)
              exact (Reach.second hv h3 h6 (hI.ep _ _ _ _ (Map.mem_of_get? he) _ _ _ h1.1)).mono GLe.refl (by omega)
          obtain ⟨hI1, hE1⟩ := hI.ensure L (v := 0) (t := g) (u := v) (c' := x.c + (l.1 - getHere)) (d' := dd)
          split
          · obtain ⟨hI2, hE2⟩ := hI1.addQ hx hn g v (l.1 - getHere) (some l.1) true
            exact ⟨hI2, hE1.trans hE2, hrest⟩
          · obtain ⟨hI2, hE2⟩ := hI1.grow L hx hn (d' := dd) hnew
            obtain ⟨hI3, hE3⟩ := hI2.addQ hx hn g v (l.1 - getHere) (some l.1) false
            exact ⟨hI3, (hE1.trans hE2).trans hE3, hrest⟩

theorem epsFold_inv (L : Lawful x.O mem tr ini gl) (hx : x.P = P) (hn : x.nA = nA) {vm m f g v getHere : Nat} (hv : IsV P vm m f g) {fresh : B}
    (hfresh : ∀ a p q, mem fresh a p q → Reach P tr ini G v q (P.head m) p x.c)
    (l : List (Nat × Nat)) (hl : ∀ e ∈ l, getHere ≤ e.1) {acc : St B × B} (hI : Inv P tr ini mem nA acc.1 G x.c x.d pend)
    (hacc : ∀ a p q, mem acc.2 a p q → ∃ gp, G vm p = some gp ∧ getHere ≤ gp) :
    Inv P tr ini mem nA (l.foldl (epsStep x vm g v getHere fresh) acc).1 G x.c x.d pend ∧
      Ext mem acc.1 (l.foldl (epsStep x vm g v getHere fresh) acc).1 := by
  induction l generalizing acc with
  | nil => exact ⟨hI, Ext.refl _ _⟩
  | cons e r ih =>
    rw [List.foldl_cons]
    obtain ⟨h1, h2, h3⟩ := epsStep_inv L hx hn hv hfresh (hl e List.mem_cons_self) hI hacc
    obtain ⟨h4, h5⟩ := ih (fun e' he' => hl e' (List.mem_cons_of_mem _ he')) h1 fun a p q h => hacc _ _ _ (h3 _ _ _ h)
    exact ⟨h4, h2.trans h5⟩

theorem mem_epsLayers {eps : Map B} {vm getHere lc : Nat} {e : Nat × Nat} (h : e ∈ epsLayers eps vm getHere lc) : getHere ≤ e.1 := by
  simp only [epsLayers, List.mem_flatMap, List.mem_range', List.mem_map] at h
  obtain ⟨cost, ⟨i, -, rfl⟩, d, -, rfl⟩ := h
  simp only
  omega

/-- The state was pushed before, for all targets with fresh pushed states the extra costs are annotated. -/
def Ann (mem : B → σ → σ → σ → Prop) (vm g v : Nat) (fresh : B) (st : St B) (p : σ) : Prop :=
  ∀ a q, mem fresh a p q → ∃ ec eb, st.extra.get? [vm, g, v, ec] = some eb ∧ mem eb a p q

theorem Ext.ann (h : Ext mem st st') {vm g v : Nat} {fresh : B} {p : σ} (ha : Ann mem vm g v fresh st p) : Ann mem vm g v fresh st' p := by
  intro a q hf
  obtain ⟨ec, eb, h1, h2⟩ := ha a q hf
  obtain ⟨eb', h3, h4⟩ := h.extra _ _ h1
  exact ⟨ec, eb', h3, h4 _ _ _ h2⟩

variable (P tr ini) in
/-- The invariant of the loops over the layers in which states were pushed. -/
structure KOK (mem : B → σ → σ → σ → Prop) (nA : Nat) (G : Nat → σ → Option Nat) (c d vm lo : Nat) (st : St B) (ak : B) : Prop where
  inv : Inv P tr ini mem nA st G c d noPend
  free : FreeE mem ak
  lo : ∀ p b q, mem ak p b q → p = q ∧ ∃ gp, G vm q = some gp ∧ lo ≤ gp

/-- What the loops do. -/
structure KStep (mem : B → σ → σ → σ → Prop) (vm g v : Nat) (fresh : B) (st : St B) (ak : B) (st' : St B) (ak' : B) : Prop where
  ext : Ext mem st st'
  sub : ∀ p b q, mem ak' p b q → mem ak p b q
  ann : ∀ p b, mem ak p b p → mem ak' p b p ∨ Ann mem vm g v fresh st' p

theorem KStep.trans {vm g v : Nat} {fresh : B} {s₁ s₂ s₃ : St B} {a₁ a₂ a₃ : B} (h : KStep mem vm g v fresh s₁ a₁ s₂ a₂)
    (h' : KStep mem vm g v fresh s₂ a₂ s₃ a₃) : KStep mem vm g v fresh s₁ a₁ s₃ a₃ := by
  refine ⟨h.ext.trans h'.ext, fun p b q hm => h.sub _ _ _ (h'.sub _ _ _ hm), fun p b hm => ?_⟩
  rcases h.ann p b hm with h1 | h1
  · exact h'.ann p b h1
  · exact .inr (h'.ext.ann h1)

theorem knownStep_inv (L : Lawful x.O mem tr ini gl) (hx : x.P = P) (hn : x.nA = nA) {vm m f g v lc getHere gd : Nat} (hv : IsV P vm m f g)
    {fresh : B} (hfresh : ∀ a p q, mem fresh a p q → Reach P tr ini G v q (P.head m) p x.c) (hfree : FreeP mem fresh) {ak : B}
    (hK : KOK P tr ini mem nA G x.c x.d vm getHere st ak) {r : St B × B × Bool}
    (hr : knownStep x f vm g v lc getHere gd fresh st ak = r) :
    KOK P tr ini mem nA G x.c x.d vm getHere r.1 r.2.1 ∧ KStep mem vm g v fresh st ak r.1 r.2.1 ∧
      ∀ p b, Has mem st.edges [0, f, vm, getHere, gd] p → ¬ mem r.2.1 p b p := by
  unfold knownStep at hr
  simp only at hr
  obtain ⟨hI1, hE1⟩ := hK.inv.ensure L (v := 0) (t := f) (u := vm) (c' := getHere) (d' := gd)
  have hhas : ∀ p b, Has mem st.edges [0, f, vm, getHere, gd] p → mem ak p b p →
      mem (x.O.and ak (edgeAt x.O (ensure x.O st [0, f, vm, getHere, gd]) [0, f, vm, getHere, gd])) p b p := by
    rintro p b ⟨y, hy, hy'⟩ hm
    rw [L.and, ensure_edgeAt, edgeAt, hy]
    exact ⟨hm, hy' b⟩
  have hfi : FreeE mem (x.O.and ak (edgeAt x.O (ensure x.O st [0, f, vm, getHere, gd]) [0, f, vm, getHere, gd])) := by
    intro a b b' q h
    rw [L.and] at h ⊢
    exact ⟨hK.free _ _ _ _ h.1, (hI1.edge0 L _ _ _ _).1 _ _ _ _ h.2⟩
  split at hr
  · next hz =>
    rw [isZero_iff L] at hz
    subst hr
    exact ⟨⟨hI1, hK.free, hK.lo⟩, ⟨hE1, fun _ _ _ h => h, fun _ _ h => .inl h⟩, fun p b h1 h2 => hz _ _ _ (hhas p b h1 h2)⟩
  · generalize hin : x.O.and ak (edgeAt x.O (ensure x.O st [0, f, vm, getHere, gd]) [0, f, vm, getHere, gd]) = inter at hr hhas hfi
    have hint : ∀ p b q, mem inter p b q → mem ak p b q := by
      intro p b q h
      rw [← hin, L.and] at h
      exact h.1
    obtain ⟨hI2, hE2⟩ := epsFold_inv L hx hn hv hfresh (epsLayers (ensure x.O st [0, f, vm, getHere, gd]).eps vm getHere lc)
      (fun e he => mem_epsLayers he) (acc := (ensure x.O st [0, f, vm, getHere, gd], x.O.swapPE inter)) hI1 (by
        intro a p q h
        rw [L.swapPE] at h
        obtain ⟨rfl, h2⟩ := hK.lo _ _ _ (hint _ _ _ h)
        exact h2)
    generalize (List.foldl (epsStep x vm g v getHere fresh) (ensure x.O st [0, f, vm, getHere, gd], x.O.swapPE inter)
      (epsLayers (ensure x.O st [0, f, vm, getHere, gd]).eps vm getHere lc)).1 = s2 at hr hI2 hE2
    have hak : ∀ p b q, mem (x.O.and ak (x.O.not inter)) p b q → mem ak p b q := fun p b q h => ((L.and _ _ _ _ _).1 h).1
    have hakf : FreeE mem (x.O.and ak (x.O.not inter)) := by
      intro a b b' q h
      rw [L.and, L.not] at h ⊢
      exact ⟨hK.free _ _ _ _ h.1, fun h' => h.2 (hfi _ _ _ _ h')⟩
    have hno : ∀ p b, Has mem st.edges [0, f, vm, getHere, gd] p → ¬ mem (x.O.and ak (x.O.not inter)) p b p := by
      intro p b h1 h2
      rw [L.and, L.not] at h2
      exact h2.2 (hhas p b h1 h2.1)
    have hsi : ∀ a p q, mem (x.O.and (x.O.exA (x.O.swapPE inter)) fresh) a p q ↔ mem inter p a p ∧ mem fresh a p q := by
      intro a p q
      rw [L.and, L.exA]
      refine and_congr ⟨?_, ?_⟩ Iff.rfl
      · rintro ⟨q', h⟩
        rw [L.swapPE] at h
        obtain ⟨rfl, -⟩ := hK.lo _ _ _ (hint _ _ _ h)
        exact h
      · exact fun h => ⟨p, (L.swapPE _ _ _ _).2 h⟩
    by_cases hz : x.O.isZero (x.O.and (x.O.exA (x.O.swapPE inter)) fresh) = true
    · rw [if_pos hz] at hr
      subst hr
      rw [isZero_iff L] at hz
      refine ⟨⟨hI2, hakf, fun p b q h => hK.lo _ _ _ (hak _ _ _ h)⟩, ⟨hE1.trans hE2, hak, fun p b h => ?_⟩, hno⟩
      by_cases hi : mem inter p b p
      · right
        intro a q hq
        exact absurd ((hsi a p q).2 ⟨hfi _ _ _ _ hi, hq⟩) (hz _ _ _)
      · exact .inl ((L.and _ _ _ _ _).2 ⟨h, (L.not _ _ _ _).2 hi⟩)
    · rw [if_neg hz] at hr
      have hz1 : ∀ a p q, mem (x.O.and (x.O.exA (x.O.swapPE inter)) fresh) a p q → ∃ m f gp, IsV P vm m f g ∧ G vm p = some gp ∧
          Reach P tr ini G v q (P.head m) p (gp + (x.c - getHere)) := by
        intro a p q h
        obtain ⟨h1, h2⟩ := (hsi a p q).1 h
        obtain ⟨-, gp, h3, h4⟩ := hK.lo _ _ _ (hint _ _ _ h1)
        exact ⟨m, f, gp, hv, h3, (hfresh _ _ _ h2).mono GLe.refl (by have := (hK.inv.gg _ _ _ h3).1; omega)⟩
      have hz2 : FreeP mem (x.O.and (x.O.exA (x.O.swapPE inter)) fresh) := by
        intro a a' p q h
        rw [hsi] at h ⊢
        exact ⟨hfi _ _ _ _ h.1, hfree _ _ _ _ h.2⟩
      obtain ⟨hI3, hE3⟩ := hI2.setExtra (v := vm) (t := g) (u := v) (ec := x.c - getHere)
        (z := x.O.or ((s2.extra.get? [vm, g, v, x.c - getHere]).getD x.O.zero) (x.O.and (x.O.exA (x.O.swapPE inter)) fresh)) (by
          constructor
          · intro a a' p q h
            rw [L.or] at h ⊢
            refine h.imp (fun h => ?_) (hz2 _ _ _ _)
            cases hg : s2.extra.get? [vm, g, v, x.c - getHere] with
            | none => rw [hg] at h; exact absurd h (L.zero _ _ _)
            | some y =>
              rw [hg] at h
              exact (hI2.x1 _ _ _ _ _ (Map.mem_of_get? hg)).1 _ _ _ _ h
          · intro a p q h
            rcases (L.or _ _ _ _ _).1 h with h | h
            · cases hg : s2.extra.get? [vm, g, v, x.c - getHere] with
              | none => rw [hg] at h; exact absurd h (L.zero _ _ _)
              | some y =>
                rw [hg] at h
                exact (hI2.x1 _ _ _ _ _ (Map.mem_of_get? hg)).2 _ _ _ h
            · exact hz1 _ _ _ h)
        (fun y hy a b c h => by rw [L.or, hy]; exact .inl h)
      subst hr
      refine ⟨⟨hI3, hakf, fun p b q h => hK.lo _ _ _ (hak _ _ _ h)⟩, ⟨(hE1.trans hE2).trans hE3, hak, fun p b h => ?_⟩, hno⟩
      by_cases hi : mem inter p b p
      · right
        intro a q hq
        exact ⟨x.c - getHere, _, (Map.get?_set _ _ _ _).trans (if_pos rfl), (L.or _ _ _ _ _).2 (.inr ((hsi a p q).2 ⟨hfi _ _ _ _ hi, hq⟩))⟩
      · exact .inl ((L.and _ _ _ _ _).2 ⟨h, (L.not _ _ _ _).2 hi⟩)

theorem knownLoop_inv (L : Lawful x.O mem tr ini gl) (hx : x.P = P) (hn : x.nA = nA) {vm m f g v lc getHere : Nat} (hv : IsV P vm m f g)
    {fresh : B} (hfresh : ∀ a p q, mem fresh a p q → Reach P tr ini G v q (P.head m) p x.c) (hfree : FreeP mem fresh) (l : List Nat) {st : St B} {ak : B}
    (hK : KOK P tr ini mem nA G x.c x.d vm getHere st ak) {r : St B × B}
    (hr : knownLoop x f vm g v lc getHere fresh l st ak = r) :
    KOK P tr ini mem nA G x.c x.d vm getHere r.1 r.2 ∧ KStep mem vm g v fresh st ak r.1 r.2 ∧
      ∀ gd ∈ l, ∀ p b, Has mem st.edges [0, f, vm, getHere, gd] p → ¬ mem r.2 p b p := by
  induction l generalizing st ak with
  | nil =>
    rw [knownLoop] at hr
    subst hr
    exact ⟨hK, ⟨Ext.refl _ _, fun _ _ _ h => h, fun _ _ h => .inl h⟩, by simp⟩
  | cons gd l ih =>
    rw [knownLoop] at hr
    obtain ⟨h1, h2, h3⟩ := knownStep_inv L hx hn hv hfresh hfree hK (gd := gd) (lc := lc) rfl
    generalize knownStep x f vm g v lc getHere gd fresh st ak = q at hr h1 h2 h3
    split at hr
    · next hz =>
      subst hr
      have hz' := (isZero_iff L).1 hz.2
      exact ⟨h1, h2, fun _ _ p b _ => hz' _ _ _⟩
    · obtain ⟨h4, h5, h6⟩ := ih h1 hr
      refine ⟨h4, h2.trans h5, fun gd' hg p b hh => ?_⟩
      rcases List.mem_cons.1 hg with rfl | hg
      · exact fun hm => h3 p b hh (h5.sub _ _ _ hm)
      · exact h6 gd' hg p b (h2.ext.has hh)

theorem le_maxDepth {e : Map B} {a t u c dd : Nat} {y : B} (h : e.get? [a, t, u, c, dd] = some y) :
    ∃ md, maxDepth e a t u c = some md ∧ dd ≤ md := by
  have hm : dd ∈ e.filterMap fun e => match e.1 with
      | [a', t', u', c', dd] => if a' = a ∧ t' = t ∧ u' = u ∧ c' = c then some dd else none
      | _ => none := by
    rw [List.mem_filterMap]
    exact ⟨_, Map.mem_of_get? h, by simp⟩
  unfold maxDepth
  generalize (e.filterMap fun e => match e.1 with
      | [a', t', u', c', dd] => if a' = a ∧ t' = t ∧ u' = u ∧ c' = c then some dd else none
      | _ => none) = l at hm ⊢
  cases hl : l.max? with
  | none =>
    rw [List.max?_eq_none_iff] at hl
    subst hl
    simp at hm
  | some md =>
    exact ⟨md, rfl, (List.max?_eq_some_iff.1 hl).2 dd hm⟩

theorem getHereStep_inv (L : Lawful x.O mem tr ini gl) (hx : x.P = P) (hn : x.nA = nA) {vm m f g v lc getHere : Nat} (hv : IsV P vm m f g)
    {fresh : B} (hfresh : ∀ a p q, mem fresh a p q → Reach P tr ini G v q (P.head m) p x.c) (hfree : FreeP mem fresh) {acc : St B × B}
    (hK : KOK P tr ini mem nA G x.c x.d vm getHere acc.1 acc.2) {r : St B × B}
    (hr : getHereStep x f vm g v lc fresh acc getHere = r) :
    KOK P tr ini mem nA G x.c x.d vm (getHere + 1) r.1 r.2 ∧ KStep mem vm g v fresh acc.1 acc.2 r.1 r.2 ∧
      (getHere = x.c → ∀ gd ≤ x.d, ∀ p b, Has mem acc.1.edges [0, f, vm, getHere, gd] p → ¬ mem r.2 p b p) := by
  have hgg : ∀ p gp, G vm p = some gp → ∃ gd, Has mem acc.1.edges [0, f, vm, gp, gd] p ∧ (gp = x.c → gd ≤ x.d) := by
    intro p gp h
    have := ((hK.inv.gg _ _ _ h).2 id).1
    rwa [hv.rootOf] at this
  unfold getHereStep at hr
  split at hr
  · next hnone =>
    subst hr
    have hno : ∀ gd p, ¬ Has mem acc.1.edges [0, f, vm, getHere, gd] p := by
      rintro gd p ⟨y, hy, -⟩
      obtain ⟨md, h1, -⟩ := le_maxDepth hy
      rw [hnone] at h1
      cases h1
    refine ⟨⟨hK.inv, hK.free, fun p b q h => ?_⟩, ⟨Ext.refl _ _, fun _ _ _ h => h, fun _ _ h => .inl h⟩, fun _ gd _ p b h => absurd h (hno _ _)⟩
    obtain ⟨h1, gp, h2, h3⟩ := hK.lo _ _ _ h
    refine ⟨h1, gp, h2, ?_⟩
    rcases Nat.lt_or_ge getHere gp with h4 | h4
    · exact h4
    · obtain rfl : gp = getHere := by omega
      obtain ⟨gd, h5, -⟩ := hgg _ _ h2
      exact absurd h5 (hno _ _)
  · next ld hld =>
    obtain ⟨h1, h2, h3⟩ := knownLoop_inv L hx hn hv hfresh hfree _ hK hr
    refine ⟨⟨h1.inv, h1.free, fun p b q h => ?_⟩, h2, fun e gd hgd p b hh => h3 gd (List.mem_range.2 (by rw [if_pos e]; omega)) p b hh⟩
    obtain ⟨h4, gp, h5, h6⟩ := h1.lo _ _ _ h
    subst h4
    refine ⟨rfl, gp, h5, ?_⟩
    rcases Nat.lt_or_ge getHere gp with h7 | h7
    · exact h7
    · obtain rfl : gp = getHere := by omega
      obtain ⟨gd, h8, h9⟩ := hgg _ _ h5
      refine absurd h (h3 gd (List.mem_range.2 ?_) p b h8)
      split
      · next e => have := h9 e; omega
      · obtain ⟨y, hy, -⟩ := h8
        obtain ⟨md, h10, h11⟩ := le_maxDepth hy
        rw [hld] at h10
        cases h10
        omega

theorem getHereFold_inv (L : Lawful x.O mem tr ini gl) (hx : x.P = P) (hn : x.nA = nA) {vm m f g v lc : Nat} (hv : IsV P vm m f g)
    {fresh : B} (hfresh : ∀ a p q, mem fresh a p q → Reach P tr ini G v q (P.head m) p x.c) (hfree : FreeP mem fresh) {ak : B}
    (hK : KOK P tr ini mem nA G x.c x.d vm 0 st ak) (n : Nat) {r : St B × B}
    (hr : (List.range n).foldl (getHereStep x f vm g v lc fresh) (st, ak) = r) :
    KOK P tr ini mem nA G x.c x.d vm n r.1 r.2 ∧ KStep mem vm g v fresh st ak r.1 r.2 := by
  induction n generalizing r with
  | zero =>
    subst hr
    exact ⟨hK, ⟨Ext.refl _ _, fun _ _ _ h => h, fun _ _ h => .inl h⟩⟩
  | succ n ih =>
    rw [List.range_succ, List.foldl_append] at hr
    obtain ⟨h1, h2⟩ := ih rfl
    obtain ⟨h3, h4, -⟩ := getHereStep_inv L hx hn hv hfresh hfree (acc := (List.range n).foldl (getHereStep x f vm g v lc fresh) (st, ak)) h1 hr
    exact ⟨h3, h2.trans h4⟩

/-- After the loops the extra costs of all states that were known are annotated. -/
theorem getHereAll_inv (L : Lawful x.O mem tr ini gl) (hx : x.P = P) (hn : x.nA = nA) {vm m f g v : Nat} (hv : IsV P vm m f g)
    {fresh : B} (hfresh : ∀ a p q, mem fresh a p q → Reach P tr ini G v q (P.head m) p x.c) (hfree : FreeP mem fresh) {ak : B}
    (hK : KOK P tr ini mem nA G x.c x.d vm 0 st ak) {ld : Nat} (hld : ld ≤ x.d)
    (hak : ∀ p b, mem ak p b p → Has mem st.edges [0, f, vm, x.c, ld] p) {r : St B × B}
    (hr : (List.range (x.c + 1)).foldl (getHereStep x f vm g v x.c fresh) (st, ak) = r) :
    Inv P tr ini mem nA r.1 G x.c x.d noPend ∧ Ext mem st r.1 ∧ ∀ p b, mem ak p b p → Ann mem vm g v fresh r.1 p := by
  rw [List.range_succ, List.foldl_append] at hr
  obtain ⟨h1, h2⟩ := getHereFold_inv L hx hn hv hfresh hfree hK x.c (lc := x.c) rfl
  obtain ⟨h3, h4, h5⟩ := getHereStep_inv L hx hn hv hfresh hfree (acc := (List.range x.c).foldl (getHereStep x f vm g v x.c fresh) (st, ak)) h1 hr
  refine ⟨h3.inv, h2.ext.trans h4.ext, fun p b hm => ?_⟩
  rcases h2.ann p b hm with h6 | h6
  · rcases h4.ann p b h6 with h7 | h7
    · exact absurd h7 (h5 rfl ld hld p b (h2.ext.has (hak p b hm)))
    · exact h7
  · exact h4.ext.ann h6

end Verif.Sym
