import Verif.AutomatonSpec

/-! # Invariants of the symbolic search -/

namespace Verif.Sym

open Verif.Htn

/-! ## Maps -/

theorem Map.get?_set {V : Type} (m : Map V) (k k' : List Nat) (v : V) :
    Map.get? (Map.set m k v) k' = if k' = k then some v else Map.get? m k' := by
  induction m with
  | nil => simp only [Map.set, Map.get?]
  | cons e r ih =>
    obtain ⟨k₀, v₀⟩ := e
    simp only [Map.set]
    split
    · next h =>
      subst h
      simp only [Map.get?]
      split <;> rfl
    · next h =>
      split
      · simp only [Map.get?]
      · simp only [Map.get?, ih]
        by_cases h1 : k' = k
        · subst h1
          simp [h]
        · rw [if_neg h1]
          simp only [h1, if_false]

theorem Map.mem_set {V : Type} {m : Map V} {k : List Nat} {v : V} {e : List Nat × V} (h : e ∈ Map.set m k v) :
    e = (k, v) ∨ e ∈ m := by
  induction m with
  | nil => simpa [Map.set] using h
  | cons e₀ r ih =>
    obtain ⟨k₀, v₀⟩ := e₀
    simp only [Map.set] at h
    split at h
    · rcases List.mem_cons.1 h with h | h
      · exact .inl h
      · exact .inr (List.mem_cons_of_mem _ h)
    · split at h
      · rcases List.mem_cons.1 h with h | h
        · exact .inl h
        · exact .inr h
      · rcases List.mem_cons.1 h with h | h
        · exact .inr (h ▸ List.mem_cons_self)
        · rcases ih h with h | h
          · exact .inl h
          · exact .inr (List.mem_cons_of_mem _ h)

theorem Map.mem_of_get? {V : Type} {m : Map V} {k : List Nat} {v : V} (h : Map.get? m k = some v) : (k, v) ∈ m := by
  induction m with
  | nil => simp [Map.get?] at h
  | cons e r ih =>
    obtain ⟨k₀, v₀⟩ := e
    simp only [Map.get?] at h
    split at h
    · next hk =>
      cases h
      rw [hk]
      exact List.mem_cons_self
    · exact List.mem_cons_of_mem _ (ih h)

/-! ## Progress -/

section
variable {B σ : Type} {P : Problem} {tr : Nat → σ → σ → Prop}

/-- `t` at `x` can be worked off, by executing `π`, until `t'` at `y` is left. -/
def Prog (P : Problem) (tr : Nat → σ → σ → Prop) (t : Nat) (x : σ) (π : List Nat) (t' : Nat) (y : σ) : Prop :=
  ∀ ρ z, Full P tr t' y ρ z → Full P tr t x (π ++ ρ) z

theorem Prog.refl (t : Nat) (x : σ) : Prog P tr t x [] t x := fun _ _ h => h

theorem Prog.one {t : Nat} {x : σ} {π : List Nat} {m t' : Nat} {y : σ} (h : Prog P tr t x π (P.head m) y) (hm : m < P.numMethods)
    (hs : P.sub m = [t']) : Prog P tr t x π t' y := fun ρ z hf => h ρ z (.one hm hs hf)

theorem Prog.first {t : Nat} {x : σ} {π : List Nat} {m f g : Nat} {y y' : σ} {π' : List Nat} (h : Prog P tr t x π (P.head m) y)
    (hm : m < P.numMethods) (hs : P.sub m = [f, g]) (hf : Full P tr f y π' y') : Prog P tr t x (π ++ π') g y' := by
  intro ρ z hg
  rw [List.append_assoc]
  exact h _ _ (.two hm hs hf hg)

/-- The method of a vertex. -/
def methOf (P : Problem) (v : Nat) : Nat := (twoMethods P).getD (v - 2) 0

/-- The task that is worked off between the vertices 0 and `v`. -/
def rootOf (P : Problem) (v : Nat) : Nat := if v = 1 then P.init else (P.sub (methOf P v)).headD 0

/-- The vertex of a method. -/
structure IsV (P : Problem) (v m f g : Nat) : Prop where
  lt : m < P.numMethods
  sub : P.sub m = [f, g]
  vert : vertexOf P m = v

theorem IsV.mem {v m f g : Nat} (h : IsV P v m f g) : m ∈ twoMethods P := by
  simp only [twoMethods, List.mem_filter, List.mem_range, beq_iff_eq]
  exact ⟨h.lt, by rw [h.sub]; rfl⟩

theorem IsV.methOf {v m f g : Nat} (h : IsV P v m f g) : methOf P v = m := by
  have h1 := List.idxOf_lt_length_of_mem h.mem
  rw [Sym.methOf, ← h.vert, vertexOf, Nat.add_sub_cancel, List.getD_eq_getElem?_getD, List.getElem?_eq_getElem h1]
  exact List.getElem_idxOf h1

theorem IsV.two {v m f g : Nat} (h : IsV P v m f g) : 2 ≤ v := by rw [← h.vert, vertexOf]; omega

theorem IsV.rootOf {v m f g : Nat} (h : IsV P v m f g) : rootOf P v = f := by
  have := h.two
  rw [Sym.rootOf, if_neg (by omega), h.methOf, h.sub]
  rfl

theorem IsV.inj {v m f g m' f' g' : Nat} (h : IsV P v m f g) (h' : IsV P v m' f' g') : m = m' ∧ f = f' ∧ g = g' := by
  have e : m = m' := h.methOf.symm.trans h'.methOf
  subst e
  have := h.sub.symm.trans h'.sub
  simp only [List.cons.injEq, and_true] at this
  exact ⟨rfl, this⟩

/-- Where the work that leads to vertex `v` starts: for the end vertex in an initial state with cost 0, for the vertex of a method
in the state that was pushed, with the cost at which it was pushed first. -/
def Start (ini : σ → Prop) (G : Nat → σ → Option Nat) (v : Nat) (q x : σ) (g : Nat) : Prop :=
  (v = 1 ∧ ini x ∧ g = 0) ∨ (2 ≤ v ∧ x = q ∧ G v q = some g)

/-- `t` at `s` is left of the work that leads to `v`, for costs that fit in the layers up to `b`. -/
def Reach (P : Problem) (tr : Nat → σ → σ → Prop) (ini : σ → Prop) (G : Nat → σ → Option Nat) (v : Nat) (q : σ) (t : Nat) (s : σ)
    (b : Nat) : Prop :=
  ∃ x π g, Start ini G v q x g ∧ Prog P tr (rootOf P v) x π t s ∧ P.planCost π + g ≤ b

/-- The work that leads to `v` is done, in `s`. -/
def Done (P : Problem) (tr : Nat → σ → σ → Prop) (ini : σ → Prop) (G : Nat → σ → Option Nat) (v : Nat) (q : σ) (s : σ) (b : Nat) : Prop :=
  ∃ x π g, Start ini G v q x g ∧ Full P tr (rootOf P v) x π s ∧ P.planCost π + g ≤ b

/-- `G'` knows what `G` knows. -/
def GLe (G G' : Nat → σ → Option Nat) : Prop := ∀ v p g, G v p = some g → G' v p = some g

variable {ini gl : σ → Prop} {G G' : Nat → σ → Option Nat}

theorem Start.mono (h : GLe G G') {v : Nat} {q x : σ} {g : Nat} (hs : Start ini G v q x g) : Start ini G' v q x g := by
  rcases hs with hs | ⟨h1, h2, h3⟩
  · exact .inl hs
  · exact .inr ⟨h1, h2, h _ _ _ h3⟩

theorem Reach.mono (h : GLe G G') {v : Nat} {q : σ} {t : Nat} {s : σ} {b b' : Nat} (hb : b ≤ b') (hr : Reach P tr ini G v q t s b) :
    Reach P tr ini G' v q t s b' := by
  obtain ⟨x, π, g, h1, h2, h3⟩ := hr
  exact ⟨x, π, g, h1.mono h, h2, by omega⟩

theorem Done.mono (h : GLe G G') {v : Nat} {q s : σ} {b b' : Nat} (hb : b ≤ b') (hr : Done P tr ini G v q s b) :
    Done P tr ini G' v q s b' := by
  obtain ⟨x, π, g, h1, h2, h3⟩ := hr
  exact ⟨x, π, g, h1.mono h, h2, by omega⟩

theorem GLe.refl : GLe G G := fun _ _ _ h => h

theorem planCost_append (P : Problem) (π ρ : List Nat) : P.planCost (π ++ ρ) = P.planCost π + P.planCost ρ := by
  simp [Problem.planCost]

/-- Going on with the second subtask. -/
theorem Reach.second {u : Nat} {q : σ} {v m f g : Nat} (hv : IsV P v m f g) {p s : σ} {b k gp : Nat} (hg : G v p = some gp)
    (hr : Reach P tr ini G u q (P.head m) p (gp + b)) (hd : Done P tr ini G v p s k) : Reach P tr ini G u q g s (b + k) := by
  obtain ⟨x, π, g1, h1, h2, h3⟩ := hr
  obtain ⟨y, ρ, g2, h4, h5, h6⟩ := hd
  have h2v := hv.two
  rcases h4 with ⟨e, -⟩ | ⟨-, e1, e2⟩
  · omega
  · subst e1
    rw [hg] at e2
    cases e2
    refine ⟨x, π ++ ρ, g1, h1, h2.first hv.lt hv.sub ?_, ?_⟩
    · rw [← hv.rootOf]
      exact h5
    · rw [planCost_append]
      omega

theorem Reach.one {v : Nat} {q : σ} {m t : Nat} {s : σ} {b : Nat} (hr : Reach P tr ini G v q (P.head m) s b) (hm : m < P.numMethods)
    (hs : P.sub m = [t]) : Reach P tr ini G v q t s b := by
  obtain ⟨x, π, g, h1, h2, h3⟩ := hr
  exact ⟨x, π, g, h1, h2.one hm hs, h3⟩

/-- Executing an action. -/
theorem Reach.act {v : Nat} {q : σ} {a : Nat} {s s' : σ} {b : Nat} (hr : Reach P tr ini G v q a s b) (hp : P.prim a = true)
    (h : tr a s s') : Done P tr ini G v q s' (b + P.cost a) := by
  obtain ⟨x, π, g, h1, h2, h3⟩ := hr
  refine ⟨x, π ++ [a], g, h1, h2 _ _ (.act hp h), ?_⟩
  rw [planCost_append]
  simp only [Problem.planCost, List.map_cons, List.map_nil, List.sum_cons, List.sum_nil, Nat.add_zero] at h3 ⊢
  omega

/-- Pushing a state for the first time. -/
theorem Reach.push {v m f g : Nat} (hv : IsV P v m f g) {p : σ} {c : Nat} (h : G v p = some c) : Reach P tr ini G v p f p c := by
  refine ⟨p, [], c, .inr ⟨hv.two, rfl, h⟩, ?_, by simp [Problem.planCost]⟩
  rw [hv.rootOf]
  exact Prog.refl _ _

theorem Reach.one_le {v : Nat} {q : σ} {t : Nat} {s : σ} {b : Nat} (hr : Reach P tr ini G v q t s b) : 1 ≤ v := by
  obtain ⟨x, π, g, h1 | h1, -, -⟩ := hr <;> omega

theorem Reach.known {v : Nat} {q : σ} {t : Nat} {s : σ} {b : Nat} (hr : Reach P tr ini G v q t s b) (hv : 2 ≤ v) :
    ∃ g, G v q = some g ∧ g ≤ b := by
  obtain ⟨x, π, g, h1 | h1, -, h3⟩ := hr
  · omega
  · exact ⟨g, h1.2.2, by omega⟩

theorem Done.one_le {v : Nat} {q s : σ} {b : Nat} (hr : Done P tr ini G v q s b) : 1 ≤ v := by
  obtain ⟨x, π, g, h1 | h1, -, -⟩ := hr <;> omega

/-! ## The invariant -/

/-- The BDD does not depend on `v'`. -/
def FreeE (mem : B → σ → σ → σ → Prop) (x : B) : Prop := ∀ a b b' c, mem x a b c → mem x a b' c

/-- The BDD does not depend on `v`. -/
def FreeP (mem : B → σ → σ → σ → Prop) (x : B) : Prop := ∀ a a' b c, mem x a b c → mem x a' b c

variable (P tr ini) in
/-- The BDD of an edge that leaves vertex 0. -/
def E0 (mem : B → σ → σ → σ → Prop) (G : Nat → σ → Option Nat) (t v c : Nat) (x : B) : Prop :=
  FreeE mem x ∧ ∀ s b q, mem x s b q → Reach P tr ini G v q t s c

variable (P tr ini) in
/-- The BDD of an edge that leaves another vertex. -/
def E1 (mem : B → σ → σ → σ → Prop) (G : Nat → σ → Option Nat) (extra : Map B) (v t u : Nat) (x : B) : Prop :=
  FreeP mem x ∧ ∀ a p q, mem x a p q → ∃ m f gp, IsV P v m f t ∧ G v p = some gp ∧
    ((∃ ec eb, extra.get? [v, t, u, ec] = some eb ∧ mem eb a p q) ∨ Reach P tr ini G u q (P.head m) p gp)

/-- The entry of the map has the state `p` as current and as pushed state. -/
def Has (mem : B → σ → σ → σ → Prop) (m : Map B) (k : List Nat) (p : σ) : Prop := ∃ x, m.get? k = some x ∧ ∀ b, mem x p b p

variable (P tr ini) in
structure Inv (mem : B → σ → σ → σ → Prop) (nA : Nat) (st : St B) (G : Nat → σ → Option Nat) (c d : Nat) (pend : Nat → σ → Prop) :
    Prop where
  shape : ∀ k x, (k, x) ∈ st.edges → ∃ v t u c' d', k = [v, t, u, c', d']
  e0 : ∀ t v c' d' x, ([0, t, v, c', d'], x) ∈ st.edges → E0 P tr ini mem G t v c' x
  e1 : ∀ v t u c' d' x, ([v, t, u, c', d'], x) ∈ st.edges → v ≠ 0 → E1 P tr ini mem G st.extra v t u x
  x1 : ∀ v t u ec x, ([v, t, u, ec], x) ∈ st.extra → FreeP mem x ∧ ∀ a p q, mem x a p q →
    ∃ m f gp, IsV P v m f t ∧ G v p = some gp ∧ Reach P tr ini G u q (P.head m) p (gp + ec)
  ep : ∀ v c' d' x, ([v, c', d'], x) ∈ st.eps → ∀ s p b, mem x s p b → Done P tr ini G v p s c'
  gg : ∀ v p g, G v p = some g → g ≤ c ∧ (¬ pend v p →
    (∃ gd, Has mem st.edges [0, rootOf P v, v, g, gd] p ∧ (g = c → gd ≤ d)) ∧ Has mem st.edges [0, rootOf P v, v, c, d] p ∧
    (1 ≤ d → g = c ∨ Has mem st.edges [0, rootOf P v, v, c, d - 1] p))
  pq : ∀ k l, (k, l) ∈ st.prim → ∃ c' a u, k = [c', a, u] ∧ a < nA ∧ ∀ i ∈ l, Info.source i + P.cost a ≤ c'
  aq : ∀ k l, (k, l) ∈ st.abst → ∃ c' d' t u, k = [c', d', t, u] ∧ (nA ≤ t ∨ P.cost t = 0) ∧ 1 ≤ d' ∧ (c' = c → d' ≤ d + 1) ∧
    (c < c' → d' = 1)

/-- Nothing is lost. -/
structure Ext (mem : B → σ → σ → σ → Prop) (st st' : St B) : Prop where
  edges : ∀ k x, st.edges.get? k = some x → ∃ x', st'.edges.get? k = some x' ∧ ∀ a b c, mem x a b c → mem x' a b c
  extra : ∀ k x, st.extra.get? k = some x → ∃ x', st'.extra.get? k = some x' ∧ ∀ a b c, mem x a b c → mem x' a b c
  eps : st'.eps = st.eps

variable {O : Ops B} {mem : B → σ → σ → σ → Prop} {nA : Nat} {st st' : St B} {c d : Nat} {pend : Nat → σ → Prop}

theorem Ext.refl (mem : B → σ → σ → σ → Prop) (st : St B) : Ext mem st st :=
  ⟨fun _ x h => ⟨x, h, fun _ _ _ h => h⟩, fun _ x h => ⟨x, h, fun _ _ _ h => h⟩, rfl⟩

theorem Ext.trans {st₁ st₂ st₃ : St B} (h : Ext mem st₁ st₂) (h' : Ext mem st₂ st₃) : Ext mem st₁ st₃ := by
  refine ⟨fun k x hx => ?_, fun k x hx => ?_, h'.eps.trans h.eps⟩
  · obtain ⟨y, h1, h2⟩ := h.edges k x hx
    obtain ⟨z, h3, h4⟩ := h'.edges k y h1
    exact ⟨z, h3, fun a b c hm => h4 _ _ _ (h2 _ _ _ hm)⟩
  · obtain ⟨y, h1, h2⟩ := h.extra k x hx
    obtain ⟨z, h3, h4⟩ := h'.extra k y h1
    exact ⟨z, h3, fun a b c hm => h4 _ _ _ (h2 _ _ _ hm)⟩

theorem Ext.has (h : Ext mem st st') {k : List Nat} {p : σ} (hh : Has mem st.edges k p) : Has mem st'.edges k p := by
  obtain ⟨x, h1, h2⟩ := hh
  obtain ⟨y, h3, h4⟩ := h.edges k x h1
  exact ⟨y, h3, fun b => h4 _ _ _ (h2 b)⟩

theorem E0.mono (hG : GLe G G') {t v c c' : Nat} (hc : c ≤ c') {x : B} (h : E0 P tr ini mem G t v c x) : E0 P tr ini mem G' t v c' x :=
  ⟨h.1, fun s b q hm => (h.2 s b q hm).mono hG hc⟩

theorem E1.mono (hG : GLe G G') {e e' : Map B} (he : ∀ k x, e.get? k = some x → ∃ x', e'.get? k = some x' ∧ ∀ a b c, mem x a b c → mem x' a b c)
    {v t u : Nat} {x : B} (h : E1 P tr ini mem G e v t u x) : E1 P tr ini mem G' e' v t u x := by
  refine ⟨h.1, fun a p q hm => ?_⟩
  obtain ⟨m, f, gp, h1, h2, h3⟩ := h.2 a p q hm
  refine ⟨m, f, gp, h1, hG _ _ _ h2, ?_⟩
  rcases h3 with ⟨ec, eb, h3, h4⟩ | h3
  · obtain ⟨eb', h5, h6⟩ := he _ _ h3
    exact .inl ⟨ec, eb', h5, h6 _ _ _ h4⟩
  · exact .inr (h3.mono hG le_rfl)

/-- Changing the BDD of an edge. -/
theorem Inv.setEdge (hI : Inv P tr ini mem nA st G c d pend) {k : List Nat} {z : B}
    (hshape : ∃ v t u c' d', k = [v, t, u, c', d'])
    (h0 : ∀ t v c' d', k = [0, t, v, c', d'] → E0 P tr ini mem G t v c' z)
    (h1 : ∀ v t u c' d', k = [v, t, u, c', d'] → v ≠ 0 → E1 P tr ini mem G st.extra v t u z)
    (hold : ∀ x, st.edges.get? k = some x → ∀ a b c, mem x a b c → mem z a b c) :
    Inv P tr ini mem nA { st with edges := st.edges.set k z } G c d pend ∧ Ext mem st { st with edges := st.edges.set k z } := by
  have hE : Ext mem st { st with edges := st.edges.set k z } := by
    refine ⟨fun k' x hx => ?_, fun _ x h => ⟨x, h, fun _ _ _ h => h⟩, rfl⟩
    simp only [Map.get?_set]
    by_cases hk : k' = k
    · subst hk
      exact ⟨z, by rw [if_pos rfl], hold x hx⟩
    · exact ⟨x, by rw [if_neg hk]; exact hx, fun _ _ _ h => h⟩
  refine ⟨{ hI with shape := ?_, e0 := ?_, e1 := ?_, gg := ?_ }, hE⟩
  · intro k' x hm
    rcases Map.mem_set hm with h | h
    · cases h
      exact hshape
    · exact hI.shape _ _ h
  · intro t v c' d' x hm
    rcases Map.mem_set hm with h | h
    · cases h
      exact h0 _ _ _ _ rfl
    · exact hI.e0 _ _ _ _ _ h
  · intro v t u c' d' x hm hv
    rcases Map.mem_set hm with h | h
    · cases h
      exact h1 _ _ _ _ _ rfl hv
    · exact hI.e1 _ _ _ _ _ _ h hv
  · intro v p g hg
    obtain ⟨h2, h3⟩ := hI.gg v p g hg
    refine ⟨h2, fun hp => ?_⟩
    obtain ⟨⟨gd, h4, h5⟩, h6, h7⟩ := h3 hp
    exact ⟨⟨gd, hE.has h4, h5⟩, hE.has h6, fun hd => (h7 hd).imp id hE.has⟩

theorem Inv.setE0 (hI : Inv P tr ini mem nA st G c d pend) {t v c' d' : Nat} {z : B} (h0 : E0 P tr ini mem G t v c' z)
    (hold : ∀ x, st.edges.get? [0, t, v, c', d'] = some x → ∀ a b c, mem x a b c → mem z a b c) :
    Inv P tr ini mem nA { st with edges := st.edges.set [0, t, v, c', d'] z } G c d pend ∧
      Ext mem st { st with edges := st.edges.set [0, t, v, c', d'] z } := by
  refine hI.setEdge ⟨0, t, v, c', d', rfl⟩ ?_ ?_ hold
  · intro t2 v2 c2 d2 h
    cases h
    exact h0
  · intro v2 t2 u2 c2 d2 h hv
    cases h
    exact absurd rfl hv

theorem Inv.setE1 (hI : Inv P tr ini mem nA st G c d pend) {v t u c' d' : Nat} (hv : v ≠ 0) {z : B}
    (h1 : E1 P tr ini mem G st.extra v t u z)
    (hold : ∀ x, st.edges.get? [v, t, u, c', d'] = some x → ∀ a b c, mem x a b c → mem z a b c) :
    Inv P tr ini mem nA { st with edges := st.edges.set [v, t, u, c', d'] z } G c d pend ∧
      Ext mem st { st with edges := st.edges.set [v, t, u, c', d'] z } := by
  refine hI.setEdge ⟨v, t, u, c', d', rfl⟩ ?_ ?_ hold
  · intro t2 v2 c2 d2 h
    cases h
    exact absurd rfl hv
  · intro v2 t2 u2 c2 d2 h hv
    cases h
    exact h1

variable (L : Lawful O mem tr ini gl)
include L

theorem E0_zero (t v c : Nat) : E0 P tr ini mem G t v c O.zero :=
  ⟨fun _ _ _ _ h => absurd h (L.zero _ _ _), fun _ _ _ h => absurd h (L.zero _ _ _)⟩

theorem E1_zero (e : Map B) (v t u : Nat) : E1 P tr ini mem G e v t u O.zero :=
  ⟨fun _ _ _ _ h => absurd h (L.zero _ _ _), fun _ _ _ h => absurd h (L.zero _ _ _)⟩

theorem E0.or {t v c : Nat} {x y : B} (hx : E0 P tr ini mem G t v c x) (hy : E0 P tr ini mem G t v c y) :
    E0 P tr ini mem G t v c (O.or x y) := by
  refine ⟨fun a b b' q h => ?_, fun s b q h => ?_⟩
  · rw [L.or] at h ⊢
    exact h.imp (hx.1 _ _ _ _) (hy.1 _ _ _ _)
  · rcases (L.or _ _ _ _ _).1 h with h | h
    · exact hx.2 _ _ _ h
    · exact hy.2 _ _ _ h

theorem E1.or {e : Map B} {v t u : Nat} {x y : B} (hx : E1 P tr ini mem G e v t u x) (hy : E1 P tr ini mem G e v t u y) :
    E1 P tr ini mem G e v t u (O.or x y) := by
  refine ⟨fun a b b' q h => ?_, fun s b q h => ?_⟩
  · rw [L.or] at h ⊢
    exact h.imp (hx.1 _ _ _ _) (hy.1 _ _ _ _)
  · rcases (L.or _ _ _ _ _).1 h with h | h
    · exact hx.2 _ _ _ h
    · exact hy.2 _ _ _ h

theorem isZero_iff {x : B} : O.isZero x = true ↔ ∀ a b c, ¬ mem x a b c := by
  rw [Ops.isZero, L.isEq]
  exact forall_congr' fun a => forall_congr' fun b => forall_congr' fun c => iff_false_right (L.zero a b c)

omit L in
theorem ensure_get? (st : St B) (k k' : List Nat) :
    (ensure O st k).edges.get? k' = if k' = k then some (edgeAt O st k) else st.edges.get? k' := by
  simp only [ensure, edgeAt]
  split
  · next x h =>
    split
    · next e => rw [e, h]; rfl
    · rfl
  · next h =>
    rw [Map.get?_set, h]
    rfl

omit L in
theorem ensure_edgeAt (st : St B) (k : List Nat) : edgeAt O (ensure O st k) k = edgeAt O st k := by
  rw [edgeAt, ensure_get?, if_pos rfl]
  rfl

omit L in
theorem ensure_eq (st : St B) (k : List Nat) : (ensure O st k).extra = st.extra ∧ (ensure O st k).eps = st.eps ∧
    (ensure O st k).ins = st.ins ∧ (ensure O st k).prim = st.prim ∧ (ensure O st k).abst = st.abst := by
  simp only [ensure]
  split <;> exact ⟨rfl, rfl, rfl, rfl, rfl⟩

theorem Inv.ensure (hI : Inv P tr ini mem nA st G c d pend) {v t u c' d' : Nat} :
    Inv P tr ini mem nA (ensure O st [v, t, u, c', d']) G c d pend ∧ Ext mem st (ensure O st [v, t, u, c', d']) := by
  simp only [Sym.ensure]
  split
  · exact ⟨hI, Ext.refl _ _⟩
  · next hn =>
    exact hI.setEdge ⟨_, _, _, _, _, rfl⟩ (fun _ _ _ _ _ => E0_zero L _ _ _) (fun _ _ _ _ _ _ _ => E1_zero L _ _ _ _)
      (fun x hx => by rw [hn] at hx; cases hx)

theorem Inv.edge0 (hI : Inv P tr ini mem nA st G c d pend) (t v c' d' : Nat) : E0 P tr ini mem G t v c' (edgeAt O st [0, t, v, c', d']) := by
  rw [edgeAt]
  cases h : st.edges.get? [0, t, v, c', d'] with
  | none => exact E0_zero L _ _ _
  | some x => exact hI.e0 _ _ _ _ _ (Map.mem_of_get? h)

theorem Inv.edge1 (hI : Inv P tr ini mem nA st G c d pend) {v : Nat} (hv : v ≠ 0) (t u c' d' : Nat) :
    E1 P tr ini mem G st.extra v t u (edgeAt O st [v, t, u, c', d']) := by
  rw [edgeAt]
  cases h : st.edges.get? [v, t, u, c', d'] with
  | none => exact E1_zero L _ _ _ _
  | some x => exact hI.e1 _ _ _ _ _ _ (Map.mem_of_get? h) hv

omit L in
theorem Inv.addQ {x : Ctx B} (hx : x.P = P) (hn : x.nA = nA) (hI : Inv P tr ini mem nA st G x.c x.d pend) (task isTo extra : Nat)
    (param : Option Nat) (only : Bool) :
    Inv P tr ini mem nA (addQ x st task isTo extra param only) G x.c x.d pend ∧ Ext mem st (addQ x st task isTo extra param only) := by
  subst hx hn
  unfold Sym.addQ
  simp only
  split
  · next h =>
    refine ⟨{ hI with aq := ?_ }, ⟨fun _ x h => ⟨x, h, fun _ _ _ h => h⟩, fun _ x h => ⟨x, h, fun _ _ _ h => h⟩, rfl⟩⟩
    intro k l hm
    rcases Map.mem_set hm with e | e
    · simp only [Prod.mk.injEq] at e
      obtain ⟨rfl, -⟩ := e
      split
      · exact ⟨_, _, _, _, rfl, h, by omega, by omega, by omega⟩
      · exact ⟨_, _, _, _, rfl, h, by omega, by omega, by omega⟩
    · exact hI.aq k l e
  · next h =>
    refine ⟨{ hI with pq := ?_ }, ⟨fun _ x h => ⟨x, h, fun _ _ _ h => h⟩, fun _ x h => ⟨x, h, fun _ _ _ h => h⟩, rfl⟩⟩
    intro k l hm
    rcases Map.mem_set hm with e | e
    · simp only [Prod.mk.injEq] at e
      obtain ⟨rfl, rfl⟩ := e
      refine ⟨_, _, _, rfl, by omega, fun i hi => ?_⟩
      rcases List.mem_append.1 hi with hi | hi
      · cases hg : st.prim.get? [x.c + extra + x.P.cost task, task, isTo] with
        | none => rw [hg] at hi; simp at hi
        | some l' =>
          rw [hg] at hi
          obtain ⟨c', a, u, e1, -, e3⟩ := hI.pq _ _ (Map.mem_of_get? hg)
          cases e1
          exact e3 i hi
      · simp only [List.mem_singleton] at hi
        subst hi
        simp only [Info.source]
        split <;> omega
    · exact hI.pq k l e

end

end Verif.Sym
