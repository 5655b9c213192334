import Verif.AutomatonAbs

/-! # The symbolic search: methods with two subtasks, layers and runs keep the invariant -/

namespace Verif.Sym

open Verif.Htn

variable {B σ : Type} {P : Problem} {tr : Nat → σ → σ → Prop} {ini gl : σ → Prop} {G G' : Nat → σ → Option Nat}
  {mem : B → σ → σ → σ → Prop} {nA : Nat} {st st' : St B} {pend : Nat → σ → Prop} {x : Ctx B} {c d : Nat}

theorem Inv.extend (hI : Inv P tr ini mem nA st G c d noPend) (hG : GLe G G')
    (hnew : ∀ v p g, G' v p = some g → G v p = some g ∨ (pend v p ∧ g = c)) : Inv P tr ini mem nA st G' c d pend where
  shape := hI.shape
  e0 := fun t v c' d' x h => (hI.e0 t v c' d' x h).mono hG le_rfl
  e1 := fun v t u c' d' x h hv => (hI.e1 v t u c' d' x h hv).mono hG fun _ x h => ⟨x, h, fun _ _ _ h => h⟩
  x1 := by
    intro v t u ec x h
    obtain ⟨h1, h2⟩ := hI.x1 v t u ec x h
    refine ⟨h1, fun a p q hm => ?_⟩
    obtain ⟨m, f, gp, h3, h4, h5⟩ := h2 a p q hm
    exact ⟨m, f, gp, h3, hG _ _ _ h4, h5.mono hG le_rfl⟩
  ep := fun v c' d' x h s p b hm => (hI.ep v c' d' x h s p b hm).mono hG le_rfl
  gg := by
    intro v p g hg
    rcases hnew v p g hg with h | ⟨h, rfl⟩
    · obtain ⟨h1, h2⟩ := hI.gg v p g h
      exact ⟨h1, fun _ => h2 id⟩
    · exact ⟨le_rfl, fun hn => absurd h hn⟩
  pq := hI.pq
  aq := hI.aq

theorem Inv.unpend (hI : Inv P tr ini mem nA st G c d pend)
    (hp : ∀ v p g, pend v p → G v p = some g → g = c ∧ Has mem st.edges [0, rootOf P v, v, c, d] p) : Inv P tr ini mem nA st G c d noPend :=
  { hI with
    gg := by
      intro v p g hg
      obtain ⟨h1, h2⟩ := hI.gg v p g hg
      refine ⟨h1, fun _ => ?_⟩
      by_cases h : pend v p
      · obtain ⟨rfl, h4⟩ := hp v p g h hg
        exact ⟨⟨d, h4, fun _ => le_rfl⟩, h4, fun _ => .inl rfl⟩
      · exact h2 h }

theorem has_edgeAt {O : Ops B} (L : Lawful O mem tr ini gl) {k : List Nat} {p b : σ} (hf : FreeE mem (edgeAt O st k)) (hm : mem (edgeAt O st k) p b p) :
    Has mem st.edges k p := by
  rw [edgeAt] at hf hm
  cases h : st.edges.get? k with
  | none =>
    rw [h] at hm
    exact absurd hm (L.zero _ _ _)
  | some y =>
    rw [h] at hf hm
    exact ⟨y, h ▸ rfl, fun b' => hf _ _ _ _ hm⟩

open Classical in
theorem twoMethod_inv (L : Lawful x.O mem tr ini gl) (hx : x.P = P) (hn : x.nA = nA) (hI : Inv P tr ini mem nA st G x.c x.d noPend)
    {v vm m f g : Nat} (hv : IsV P vm m f g) {state : B} (hs : E0 P tr ini mem G (P.head m) v x.c state) (hd : 1 ≤ x.d) :
    ∃ G', GLe G G' ∧ Inv P tr ini mem nA (twoMethod x v x.c (x.d - 1) vm f g state st) G' x.c x.d noPend := by
  have hvm : vm ≠ 0 := by have := hv.two; omega
  unfold twoMethod
  simp only
  obtain ⟨hI1, hE1⟩ := hI.ensure L (v := vm) (t := g) (u := v) (c' := x.c) (d' := x.d)
  generalize ensure x.O st [vm, g, v, x.c, x.d] = s1 at hI1 hE1
  have hedge1 := hI1.edge1 L hvm g v x.c x.d
  have hr : ∀ a p q, mem (x.O.swapPE state) a p q ↔ mem state p a q := L.swapPE state
  have hfr : ∀ a p q, mem (x.O.and (x.O.swapPE state) (x.O.not (edgeAt x.O s1 [vm, g, v, x.c, x.d]))) a p q ↔
      mem state p a q ∧ ¬ mem (edgeAt x.O s1 [vm, g, v, x.c, x.d]) a p q := by
    intro a p q
    rw [L.and, L.not, hr]
  have hfresh : ∀ a p q, mem (x.O.and (x.O.swapPE state) (x.O.not (edgeAt x.O s1 [vm, g, v, x.c, x.d]))) a p q →
      Reach P tr ini G v q (P.head m) p x.c := fun a p q h => hs.2 _ _ _ ((hfr _ _ _).1 h).1
  have hfree : FreeP mem (x.O.and (x.O.swapPE state) (x.O.not (edgeAt x.O s1 [vm, g, v, x.c, x.d]))) := by
    intro a a' p q h
    rw [hfr] at h ⊢
    exact ⟨hs.1 _ _ _ _ h.1, fun h' => h.2 (hedge1.1 _ _ _ _ h')⟩
  generalize x.O.and (x.O.swapPE state) (x.O.not (edgeAt x.O s1 [vm, g, v, x.c, x.d])) = fresh at hfr hfresh hfree
  have hss : ∀ s b q, mem (x.O.and (x.O.exA state) x.O.biimp) s b q ↔ (∃ q', mem state s b q') ∧ s = q := by
    intro s b q
    rw [L.and, L.exA, L.biimp]
  generalize x.O.and (x.O.exA state) x.O.biimp = ss at hss
  obtain ⟨hI2, hE2⟩ := hI1.ensure L (v := 0) (t := f) (u := vm) (c' := x.c) (d' := x.d - 1)
  generalize ensure x.O s1 [0, f, vm, x.c, x.d - 1] = s2 at hI2 hE2
  have hprev := hI2.edge0 L f vm x.c (x.d - 1)
  have hak : ∀ p b q, mem (x.O.and ss (edgeAt x.O s2 [0, f, vm, x.c, x.d - 1])) p b q ↔
      ((∃ q', mem state p b q') ∧ p = q) ∧ mem (edgeAt x.O s2 [0, f, vm, x.c, x.d - 1]) p b q := by
    intro p b q
    rw [L.and, hss]
  have hK : KOK P tr ini mem nA G x.c x.d vm 0 s2 (x.O.and ss (edgeAt x.O s2 [0, f, vm, x.c, x.d - 1])) := by
    refine ⟨hI2, fun a b b' q h => ?_, fun p b q h => ?_⟩
    · rw [hak] at h ⊢
      obtain ⟨⟨⟨q', h1⟩, h2⟩, h3⟩ := h
      exact ⟨⟨⟨q', hs.1 _ _ _ _ h1⟩, h2⟩, hprev.1 _ _ _ _ h3⟩
    · rw [hak] at h
      obtain ⟨gp, h1, -⟩ := (hprev.2 _ _ _ h.2).known hv.two
      exact ⟨h.1.2, gp, h1, Nat.zero_le _⟩
  have hak' : ∀ p b, mem (x.O.and ss (edgeAt x.O s2 [0, f, vm, x.c, x.d - 1])) p b p → Has mem s2.edges [0, f, vm, x.c, x.d - 1] p :=
    fun p b h => has_edgeAt L hprev.1 ((hak _ _ _).1 h).2
  -- the loops
  have hloop : ∃ s3, (if x.O.isZero (x.O.and ss (edgeAt x.O s2 [0, f, vm, x.c, x.d - 1])) = true then s2
        else ((List.range (x.c + 1)).foldl (getHereStep x f vm g v x.c fresh) (s2, x.O.and ss (edgeAt x.O s2 [0, f, vm, x.c, x.d - 1]))).1) = s3 ∧
      Inv P tr ini mem nA s3 G x.c x.d noPend ∧ Ext mem s2 s3 ∧
      ∀ p b, mem (x.O.and ss (edgeAt x.O s2 [0, f, vm, x.c, x.d - 1])) p b p → Ann mem vm g v fresh s3 p := by
    split
    · next hz =>
      rw [isZero_iff L] at hz
      exact ⟨s2, rfl, hI2, Ext.refl _ _, fun p b h => absurd h (hz _ _ _)⟩
    · obtain ⟨h1, h2, h3⟩ := getHereAll_inv L hx hn hv hfresh hfree hK (ld := x.d - 1) (by omega) hak' rfl
      exact ⟨_, rfl, h1, h2, h3⟩
  obtain ⟨s3, hs3, hI3, hE3, hann⟩ := hloop
  rw [hs3]
  -- the costs at which states are pushed first
  let pn : Nat → σ → Prop := fun v' p => v' = vm ∧ G vm p = none ∧ ∃ b q, mem state p b q
  let G' : Nat → σ → Option Nat := fun v' p => if pn v' p then some x.c else G v' p
  have hG' : GLe G G' := by
    intro v' p gp h
    have : ¬ pn v' p := by
      rintro ⟨rfl, h1, -⟩
      rw [h] at h1
      cases h1
    simp only [G', this, if_false]
    exact h
  have hI3' : Inv P tr ini mem nA s3 G' x.c x.d pn := by
    refine hI3.extend hG' fun v' p gp h => ?_
    simp only [G'] at h
    split at h
    · next hp =>
      cases h
      exact .inr ⟨hp, rfl⟩
    · exact .inl h
  obtain ⟨hI4, hE4⟩ := hI3'.ensure L (v := vm) (t := g) (u := v) (c' := x.c) (d' := x.d)
  generalize ensure x.O s3 [vm, g, v, x.c, x.d] = s4 at hI4 hE4
  have hdef : ∀ p b q, mem state p b q → ∃ gp, G' vm p = some gp ∧ gp ≤ x.c := by
    intro p b q h
    cases hg : G vm p with
    | none =>
      have : pn vm p := ⟨rfl, hg, b, q, h⟩
      exact ⟨x.c, by simp only [G', this, if_true], le_rfl⟩
    | some gp => exact ⟨gp, hG' _ _ _ hg, (hI.gg _ _ _ hg).1⟩
  have hr1 : E1 P tr ini mem G' s4.extra vm g v (x.O.swapPE state) := by
    refine ⟨fun a a' p q h => ?_, fun a p q h => ?_⟩
    · rw [hr] at h ⊢
      exact hs.1 _ _ _ _ h
    · rw [hr] at h
      cases hg : G vm p with
      | none =>
        have : pn vm p := ⟨rfl, hg, a, q, h⟩
        exact ⟨m, f, x.c, hv, by simp only [G', this, if_true], .inr ((hs.2 _ _ _ h).mono hG' le_rfl)⟩
      | some gp =>
        refine ⟨m, f, gp, hv, hG' _ _ _ hg, ?_⟩
        rcases ((hI2.gg _ _ _ hg).2 id).2.2 hd with rfl | hh
        · exact .inr ((hs.2 _ _ _ h).mono hG' le_rfl)
        · rw [hv.rootOf] at hh
          have hmem : mem (x.O.and ss (edgeAt x.O s2 [0, f, vm, x.c, x.d - 1])) p a p := by
            rw [hak]
            refine ⟨⟨⟨q, h⟩, rfl⟩, ?_⟩
            obtain ⟨y, hy, hy'⟩ := hh
            rw [edgeAt, hy]
            exact hy' a
          by_cases hf : mem fresh a p q
          · exact .inl (hE4.ann (hann p a hmem) a q hf)
          · have hin : mem (edgeAt x.O s1 [vm, g, v, x.c, x.d]) a p q := by
              by_contra hc
              exact hf ((hfr _ _ _).2 ⟨h, hc⟩)
            obtain ⟨m', f', gp', k1, k2, k3⟩ := ((hedge1.mono hG' ((hE2.trans hE3).trans hE4).extra).2 a p q hin)
            obtain ⟨rfl, -, -⟩ := hv.inj k1
            rw [hG' _ _ _ hg] at k2
            cases k2
            exact k3
  obtain ⟨hI5, hE5⟩ := hI4.setE1 hvm (c' := x.c) (d' := x.d) ((hI4.edge1 L hvm g v x.c x.d).or L hr1) (fun y hy a b c h => by
    rw [L.or, edgeAt, hy]
    exact .inl h)
  generalize ({ s4 with edges := s4.edges.set [vm, g, v, x.c, x.d] (x.O.or (edgeAt x.O s4 [vm, g, v, x.c, x.d]) (x.O.swapPE state)) } : St B) = s5 at hI5 hE5
  obtain ⟨hI6, -⟩ := hI5.ensure L (v := 0) (t := f) (u := vm) (c' := x.c) (d' := x.d)
  generalize ensure x.O s5 [0, f, vm, x.c, x.d] = s6 at hI6
  have hss0 : E0 P tr ini mem G' f vm x.c ss := by
    refine ⟨fun a b b' q h => ?_, fun s b q h => ?_⟩
    · rw [hss] at h ⊢
      obtain ⟨⟨q', h1⟩, h2⟩ := h
      exact ⟨⟨q', hs.1 _ _ _ _ h1⟩, h2⟩
    · rw [hss] at h
      obtain ⟨⟨q', h1⟩, rfl⟩ := h
      obtain ⟨gp, h3, h4⟩ := hdef _ _ _ h1
      exact (Reach.push hv h3).mono GLe.refl h4
  have hcur := hI6.edge0 L f vm x.c x.d
  refine ⟨G', hG', ?_⟩
  split
  · next he =>
    rw [L.isEq] at he
    refine ((hI6.unpend fun v' p gp hp hgp => ?_).addQ hx hn f vm 0 none true).1
    have hgp' := hgp
    simp only [G', hp, if_true] at hgp
    cases hgp
    obtain ⟨rfl, h1, b, q, h2⟩ := hp
    refine ⟨rfl, ?_⟩
    rw [hv.rootOf]
    refine has_edgeAt L (b := b) hcur.1 ((he _ _ _).1 ((L.or _ _ _ _ _).2 (.inr ?_)))
    rw [hss]
    exact ⟨⟨q, h2⟩, rfl⟩
  · obtain ⟨hI7, -⟩ := hI6.grow L hx hn (d' := x.d) hss0
    refine ((hI7.unpend fun v' p gp hp hgp => ?_).addQ hx hn f vm 0 none false).1
    simp only [G', hp, if_true] at hgp
    cases hgp
    obtain ⟨rfl, h1, b, q, h2⟩ := hp
    refine ⟨rfl, ?_⟩
    rw [hv.rootOf]
    refine ⟨_, (Map.get?_set _ _ _ _).trans (if_pos rfl), fun b' => (L.or _ _ _ _ _).2 (.inr ?_)⟩
    rw [hss]
    exact ⟨⟨q, hs.1 _ _ _ _ h2⟩, rfl⟩

end Verif.Sym
