import Verif.AutomatonInv

/-! # The symbolic search: primitive tasks keep the invariant -/

namespace Verif.Sym

open Verif.Htn

variable {B σ : Type} {P : Problem} {tr : Nat → σ → σ → Prop} {ini gl : σ → Prop} {G G' : Nat → σ → Option Nat}
  {mem : B → σ → σ → σ → Prop} {nA : Nat} {st st' : St B} {pend : Nat → σ → Prop} {x : Ctx B}

/-- Adding states to an edge that leaves vertex 0, with the entry in the queue. -/
theorem Inv.grow (L : Lawful x.O mem tr ini gl) (hx : x.P = P) (hn : x.nA = nA) (hI : Inv P tr ini mem nA st G x.c x.d pend)
    {t v c' d' : Nat} {y : B} (hy : E0 P tr ini mem G t v c' y) :
    Inv P tr ini mem nA { st with edges := st.edges.set [0, t, v, c', d'] (x.O.or (edgeAt x.O st [0, t, v, c', d']) y) } G x.c x.d pend ∧
      Ext mem st { st with edges := st.edges.set [0, t, v, c', d'] (x.O.or (edgeAt x.O st [0, t, v, c', d']) y) } := by
  refine hI.setE0 ((hI.edge0 L t v c' d').or L hy) fun z hz a b c hm => ?_
  rw [L.or, edgeAt, hz]
  exact .inl hm

theorem extraStep_inv (L : Lawful x.O mem tr ini gl) (hx : x.P = P) (hn : x.nA = nA) {v t2 to2 : Nat} {add : B} {acc : St B × B} {e : Nat × B}
    (hI : Inv P tr ini mem nA acc.1 G x.c x.d pend) (hsub : ∀ a b c, mem acc.2 a b c → mem add a b c)
    (hadd : ∀ s p q, mem add s p q → ∃ m f gp, IsV P v m f t2 ∧ G v p = some gp ∧ Done P tr ini G v p s x.c)
    (he : ∀ a p q, mem e.2 a p q → ∃ m f gp, IsV P v m f t2 ∧ G v p = some gp ∧ Reach P tr ini G to2 q (P.head m) p (gp + e.1)) :
    Inv P tr ini mem nA (extraStep x t2 to2 acc e).1 G x.c x.d pend ∧ Ext mem acc.1 (extraStep x t2 to2 acc e).1 ∧
      (extraStep x t2 to2 acc e).1.extra = acc.1.extra ∧
      ∀ a b c, mem (extraStep x t2 to2 acc e).2 a b c → mem acc.2 a b c ∧ ¬ mem e.2 a b c := by
  unfold extraStep
  simp only
  split
  · next hz =>
    rw [isZero_iff L] at hz
    exact ⟨hI, Ext.refl _ _, rfl, fun a b c h => ⟨h, fun h' => hz a b c ((L.and _ _ _ _ _).2 ⟨h, h'⟩)⟩⟩
  · have hrest : ∀ a b c, mem (x.O.and acc.2 (x.O.not (x.O.and acc.2 e.2))) a b c → mem acc.2 a b c ∧ ¬ mem e.2 a b c := by
      intro a b c h
      rw [L.and, L.not, L.and] at h
      exact ⟨h.1, fun h' => h.2 ⟨h.1, h'⟩⟩
    have hfut : E0 P tr ini mem G t2 to2 (x.c + e.1) (x.O.exE (x.O.and acc.2 e.2)) := by
      refine ⟨fun a b b' q h => ?_, fun s b q h => ?_⟩
      · rw [L.exE] at h ⊢
        exact h
      · rw [L.exE] at h
        obtain ⟨p, h⟩ := h
        rw [L.and] at h
        obtain ⟨m, f, gp, h1, h2, h3⟩ := hadd _ _ _ (hsub _ _ _ h.1)
        obtain ⟨m', f', gp', h4, h5, h6⟩ := he _ _ _ h.2
        obtain ⟨rfl, -, -⟩ := h1.inj h4
        rw [h2] at h5
        cases h5
        exact (Reach.second h1 h2 h6 h3).mono GLe.refl (by omega)
    generalize (if e.1 = 0 then x.d else 0) = dd
    obtain ⟨hI1, hE1⟩ := hI.ensure L (v := 0) (t := t2) (u := to2) (c' := x.c + e.1) (d' := dd)
    split
    · obtain ⟨hI2, hE2⟩ := hI1.addQ hx hn t2 to2 e.1 (some e.1) true
      refine ⟨hI2, hE1.trans hE2, ?_, hrest⟩
      simp only [addQ]
      split <;> exact (ensure_eq _ _).1
    · obtain ⟨hI2, hE2⟩ := hI1.grow L hx hn (d' := dd) hfut
      obtain ⟨hI3, hE3⟩ := hI2.addQ hx hn t2 to2 e.1 (some e.1) false
      refine ⟨hI3, (hE1.trans hE2).trans hE3, ?_, hrest⟩
      simp only [addQ]
      split <;> exact (ensure_eq _ _).1

theorem extraFold_inv (L : Lawful x.O mem tr ini gl) (hx : x.P = P) (hn : x.nA = nA) {v t2 to2 : Nat} {add : B} (l : List (Nat × B))
    {acc : St B × B}
    (hI : Inv P tr ini mem nA acc.1 G x.c x.d pend) (hsub : ∀ a b c, mem acc.2 a b c → mem add a b c)
    (hadd : ∀ s p q, mem add s p q → ∃ m f gp, IsV P v m f t2 ∧ G v p = some gp ∧ Done P tr ini G v p s x.c)
    (he : ∀ e ∈ l, ∀ a p q, mem e.2 a p q → ∃ m f gp, IsV P v m f t2 ∧ G v p = some gp ∧ Reach P tr ini G to2 q (P.head m) p (gp + e.1)) :
    Inv P tr ini mem nA (l.foldl (extraStep x t2 to2) acc).1 G x.c x.d pend ∧ Ext mem acc.1 (l.foldl (extraStep x t2 to2) acc).1 ∧
      (l.foldl (extraStep x t2 to2) acc).1.extra = acc.1.extra ∧
      ∀ a b c, mem (l.foldl (extraStep x t2 to2) acc).2 a b c → mem acc.2 a b c ∧ ∀ e ∈ l, ¬ mem e.2 a b c := by
  induction l generalizing acc with
  | nil => exact ⟨hI, Ext.refl _ _, rfl, fun a b c h => ⟨h, by simp⟩⟩
  | cons e r ih =>
    rw [List.foldl_cons]
    obtain ⟨h1, h2, h3, h4⟩ := extraStep_inv L hx hn hI hsub hadd (he e List.mem_cons_self)
    obtain ⟨h5, h6, h7, h8⟩ := ih h1 (fun a b c h => hsub _ _ _ (h4 a b c h).1) fun e' he' => he e' (List.mem_cons_of_mem _ he')
    refine ⟨h5, h2.trans h6, h7.trans h3, fun a b c h => ?_⟩
    obtain ⟨h9, h10⟩ := h8 a b c h
    obtain ⟨h11, h12⟩ := h4 a b c h9
    refine ⟨h11, fun e' he' => ?_⟩
    rcases List.mem_cons.1 he' with rfl | he'
    · exact h12
    · exact h10 e' he'

theorem mem_extrasOf {m : Map B} {v t u : Nat} {e : Nat × B} : e ∈ extrasOf m v t u ↔ ([v, t, u, e.1], e.2) ∈ m := by
  simp only [extrasOf, List.mem_filterMap]
  constructor
  · rintro ⟨⟨k, y⟩, h1, h2⟩
    simp only at h2
    split at h2
    · next a b c ec =>
      split at h2
      · next h =>
        obtain ⟨rfl, rfl, rfl⟩ := h
        cases h2
        exact h1
      · cases h2
    · cases h2
  · intro h
    exact ⟨_, h, by simp⟩

theorem primEdge_inv (L : Lawful x.O mem tr ini gl) (hx : x.P = P) (hn : x.nA = nA) {v lc ld : Nat} {next : B} {e : Nat × Nat}
    (hI : Inv P tr ini mem nA st G x.c x.d pend) (hnext : ∀ s p b, mem next s p b → Done P tr ini G v p s x.c) :
    Inv P tr ini mem nA (primEdge x v lc ld next st e) G x.c x.d pend := by
  unfold primEdge
  split
  · exact hI
  · next bdd hb =>
    simp only
    obtain ⟨hI1, hE1⟩ := hI.ensure L (v := 0) (t := e.1) (u := e.2) (c' := x.c) (d' := x.d)
    split
    · exact hI1
    · have hbdd : ∀ s p q, mem next s p q → E1 P tr ini mem G st.extra v e.1 e.2 bdd := by
        intro s p q h
        exact hI.e1 _ _ _ _ _ _ (Map.mem_of_get? hb) (by have := (hnext _ _ _ h).one_le; omega)
      have hadd : ∀ s p q, mem (x.O.and (x.O.and next bdd) (x.O.not (edgeAt x.O (ensure x.O st [0, e.1, e.2, x.c, x.d]) [0, e.1, e.2, x.c, x.d]))) s p q →
          ∃ m f gp, IsV P v m f e.1 ∧ G v p = some gp ∧ Done P tr ini G v p s x.c := by
        intro s p q h
        rw [L.and, L.and] at h
        obtain ⟨m, f, gp, h1, h2, -⟩ := (hbdd _ _ _ h.1.1).2 _ _ _ h.1.2
        exact ⟨m, f, gp, h1, h2, hnext _ _ _ h.1.1⟩
      have hex := (ensure_eq (O := x.O) st [0, e.1, e.2, x.c, x.d]).1
      obtain ⟨h1, h2, h3, h4⟩ := extraFold_inv L hx hn (extrasOf (ensure x.O st [0, e.1, e.2, x.c, x.d]).extra v e.1 e.2)
        (acc := (ensure x.O st [0, e.1, e.2, x.c, x.d], x.O.and (x.O.and next bdd) (x.O.not (edgeAt x.O (ensure x.O st [0, e.1, e.2, x.c, x.d]) [0, e.1, e.2, x.c, x.d]))))
        hI1 (fun a b c h => h) hadd (fun e' he' => (hI1.x1 _ _ _ _ _ (mem_extrasOf.1 he')).2)
      split
      · exact h1
      · split
        · exact h1
        · have hnew : E0 P tr ini mem G e.1 e.2 x.c (x.O.exE ((extrasOf (ensure x.O st [0, e.1, e.2, x.c, x.d]).extra v e.1 e.2).foldl (extraStep x e.1 e.2)
              (ensure x.O st [0, e.1, e.2, x.c, x.d], x.O.and (x.O.and next bdd) (x.O.not (edgeAt x.O (ensure x.O st [0, e.1, e.2, x.c, x.d]) [0, e.1, e.2, x.c, x.d])))).2) := by
            refine ⟨fun a b b' q h => ?_, fun s b q h => ?_⟩
            · rw [L.exE] at h ⊢
              exact h
            · rw [L.exE] at h
              obtain ⟨p, h⟩ := h
              obtain ⟨h5, h6⟩ := h4 _ _ _ h
              simp only [L.and] at h5
              obtain ⟨m, f, gp, g1, g2, g3⟩ := (hbdd _ _ _ h5.1.1).2 _ _ _ h5.1.2
              rcases g3 with ⟨ec, eb, g3, g4⟩ | g3
              · exact absurd g4 (h6 (ec, eb) (mem_extrasOf.2 (by rw [hex]; exact Map.mem_of_get? g3)))
              · exact (Reach.second (b := 0) g1 g2 g3 (hnext _ _ _ h5.1.1)).mono GLe.refl (by omega)
          obtain ⟨hI2, -⟩ := h1.grow L hx hn (d' := x.d) hnew
          obtain ⟨hI3, -⟩ := hI2.addQ hx hn e.1 e.2 0 none false
          exact { hI3 with }

/-- A primitive task. -/
theorem doPrim_inv (L : Lawful x.O mem tr ini gl) (hx : x.P = P) (hn : x.nA = nA) (hI : Inv P tr ini mem nA st G x.c x.d pend)
    {task v lc ld : Nat} {state : B} (hs : E0 P tr ini mem G task v lc state) (hp : P.prim task = true) (hc : lc + P.cost task ≤ x.c) :
    (∀ st', doPrim x task v lc ld state st = .ok st' → Inv P tr ini mem nA st' G x.c x.d pend) ∧
    ∀ k, doPrim x task v lc ld state st = .error (.goal k) →
      ∃ a π b, ini a ∧ Full P tr P.init a π b ∧ gl b ∧ P.planCost π ≤ k := by
  have hnext : ∀ s p b, mem (x.O.swapEA (x.O.image task state)) s p b → Done P tr ini G v p s x.c := by
    intro s p b h
    rw [L.swapEA, L.image _ _ hs.1] at h
    obtain ⟨a, h1, h2⟩ := h
    exact ((hs.2 _ _ _ h1).act hp h2).mono GLe.refl hc
  unfold doPrim
  simp only
  split
  · exact ⟨fun st' h => by cases h; exact hI, fun k h => by cases h⟩
  · split
    · exact ⟨fun st' h => (by cases h), fun k h => by cases h⟩
    · next cur hcur =>
      split
      · exact ⟨fun st' h => by cases h; exact hI, fun k h => by cases h⟩
      · have hI1 : Inv P tr ini mem nA { st with eps := st.eps.set [v, x.c, x.d] (x.O.or cur (x.O.swapEA (x.O.image task state))) } G x.c x.d pend := by
          refine { hI with ep := ?_ }
          intro v' c' d' z hm s p b hz
          rcases Map.mem_set hm with h | h
          · cases h
            rcases (L.or _ _ _ _ _).1 hz with hz | hz
            · exact hI.ep _ _ _ _ (Map.mem_of_get? hcur) _ _ _ hz
            · exact hnext _ _ _ hz
          · exact hI.ep _ _ _ _ h _ _ _ hz
        have hfold : ∀ (l : List (Nat × Nat)) (s : St B), Inv P tr ini mem nA s G x.c x.d pend →
            Inv P tr ini mem nA (l.foldl (primEdge x v lc ld (x.O.swapEA (x.O.image task state))) s) G x.c x.d pend := by
          intro l
          induction l with
          | nil => exact fun s h => h
          | cons e r ih =>
            intro s h
            exact ih _ (primEdge_inv L hx hn h hnext)
        split
        · next hg =>
          refine ⟨fun st' h => (by cases h), fun k h => ?_⟩
          cases h
          obtain ⟨rfl, hz⟩ := hg
          have : ¬ ∀ a b c, ¬ mem (x.O.and (x.O.swapEA (x.O.image task state)) x.O.goal) a b c := by
            rw [← isZero_iff L, hz]
            simp
          simp only [not_forall, not_not] at this
          obtain ⟨s, p, b, h⟩ := this
          rw [L.and, L.goal] at h
          obtain ⟨a, π, g, h1, h2, h3⟩ := hnext _ _ _ h.1
          rcases h1 with ⟨-, h1, rfl⟩ | ⟨h1, -⟩
          · exact ⟨a, π, s, h1, h2, h.2, h3⟩
          · omega
        · exact ⟨fun st' h => by cases h; exact hfold _ _ hI1, fun k h => by cases h⟩

end Verif.Sym
