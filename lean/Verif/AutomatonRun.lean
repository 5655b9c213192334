import Verif.AutomatonTwo

/-! # The symbolic search: layers and runs keep the invariant -/

namespace Verif.Sym

open Verif.Htn

variable {B σ : Type} {P : Problem} {tr : Nat → σ → σ → Prop} {ini gl : σ → Prop} {G G' : Nat → σ → Option Nat}
  {mem : B → σ → σ → σ → Prop} {nA : Nat} {st st' : St B} {x : Ctx B} {c d c' d' : Nat}

variable (P tr ini gl) in
/-- There is a solution with at most the given costs. -/
def Sound (k : Nat) : Prop := ∃ a π b, ini a ∧ Full P tr P.init a π b ∧ gl b ∧ P.planCost π ≤ k

theorem foldlM_inv {α S : Type} {f : S → α → Except Out S} {I : S → Prop} {Q : Out → Prop} (l : List α)
    (h : ∀ a ∈ l, ∀ s, I s → (∀ s', f s a = .ok s' → I s') ∧ ∀ o, f s a = .error o → Q o) (s : S) (hs : I s) :
    (∀ s', l.foldlM f s = .ok s' → I s') ∧ ∀ o, l.foldlM f s = .error o → Q o := by
  induction l generalizing s with
  | nil => exact ⟨fun s' h => (by cases h; exact hs), fun o h => (by cases h)⟩
  | cons a r ih =>
    rw [List.foldlM_cons]
    obtain ⟨h1, h2⟩ := h a List.mem_cons_self s hs
    cases hf : f s a with
    | error o' => exact ⟨fun s' h => (by cases h), fun o h => (by cases h; exact h2 _ hf)⟩
    | ok s1 => exact ih (fun a' ha' => h a' (List.mem_cons_of_mem _ ha')) s1 (h1 s1 hf)

theorem doMethod_inv (L : Lawful x.O mem tr ini gl) (hx : x.P = P) (hn : x.nA = nA)
    (hord : ∀ m < P.numMethods, (P.sub m).length = 2 → P.ord m = [(0, 1)]) (hd : 1 ≤ x.d)
    {v m : Nat} (hm : m < P.numMethods) {state : B} (hs : E0 P tr ini mem G (P.head m) v x.c state)
    (hI : ∃ G', GLe G G' ∧ Inv P tr ini mem nA st G' x.c x.d noPend) :
    (∀ st', doMethod x v x.c (x.d - 1) state st m = .ok st' → ∃ G', GLe G G' ∧ Inv P tr ini mem nA st' G' x.c x.d noPend) ∧
    ∀ o, doMethod x v x.c (x.d - 1) state st m = .error o → ∀ k, o = .goal k → Sound P tr ini gl k := by
  obtain ⟨G1, hG, hI⟩ := hI
  unfold doMethod
  rw [hx]
  split
  · exact ⟨fun st' h => (by cases h; exact ⟨G1, hG, hI⟩), fun o h => (by cases h)⟩
  · next t ht =>
    exact ⟨fun st' h => (by cases h; exact ⟨G1, hG, unitMethod_inv L hx hn hI (hs.mono hG le_rfl) hm ht⟩), fun o h => (by cases h)⟩
  · split
    · exact ⟨fun st' h => (by cases h), fun o h k hk => (by cases h; cases hk)⟩
    · next f g hfg =>
      refine ⟨fun st' h => ?_, fun o h => (by cases h)⟩
      have hsub : P.sub m = [f, g] := by
        unfold taskPair at hfg
        split at hfg
        · next a b i j ha hb =>
          rw [hord m hm (by rw [ha]; rfl)] at hb
          cases hb
          simp only [Option.some.injEq] at hfg
          simp only [show ¬ ((0 : Nat) = 1 ∧ (1 : Nat) ≠ 0) from by omega, if_false, Prod.mk.injEq] at hfg
          rw [ha, hfg.1, hfg.2]
        · cases hfg
      obtain ⟨G2, h1, h2⟩ := twoMethod_inv L hx hn hI (v := v) (vm := vertexOf P m) (m := m) (f := f) (g := g) ⟨hm, hsub, rfl⟩ (hs.mono hG le_rfl) hd
      cases h
      exact ⟨G2, fun v p g hg => h1 _ _ _ (hG _ _ _ hg), h2⟩

theorem doInfo_inv (L : Lawful x.O mem tr ini gl) (hx : x.P = P) (hn : x.nA = nA) (hp : ∀ t, P.prim t = true ↔ t < nA)
    (hord : ∀ m < P.numMethods, (P.sub m).length = 2 → P.ord m = [(0, 1)])
    {task v source : Nat} (h1 : 1 ≤ x.d → nA ≤ task ∨ P.cost task = 0) (h0 : x.d = 0 → task < nA ∧ source + P.cost task ≤ x.c)
    (hI : ∃ G, Inv P tr ini mem nA st G x.c x.d noPend) :
    (∀ st', doInfo x task v source st = .ok st' → ∃ G, Inv P tr ini mem nA st' G x.c x.d noPend) ∧
    ∀ o, doInfo x task v source st = .error o → ∀ k, o = .goal k → Sound P tr ini gl k := by
  obtain ⟨G, hI⟩ := hI
  unfold doInfo
  split
  · exact ⟨fun st' h => (by cases h), fun o h k hk => (by cases h; cases hk)⟩
  · next lc ld hl =>
    split
    · exact ⟨fun st' h => (by cases h), fun o h k hk => (by cases h; cases hk)⟩
    · next state hst =>
      have hs : E0 P tr ini mem G task v lc state := hI.e0 _ _ _ _ _ (Map.mem_of_get? hst)
      split
      · exact ⟨fun st' h => (by cases h), fun o h k hk => (by cases h; cases hk)⟩
      · split
        · next ht =>
          rw [hn] at ht
          have hc : lc + P.cost task ≤ x.c := by
            by_cases hd : x.d = 0
            · rw [if_neg (by omega)] at hl
              simp only [Option.map_eq_some_iff, Prod.mk.injEq] at hl
              obtain ⟨_, -, rfl, -⟩ := hl
              exact (h0 hd).2
            · rw [if_pos hd] at hl
              cases hl
              rcases h1 (by omega) with h | h <;> omega
          obtain ⟨h2, h3⟩ := doPrim_inv L hx hn hI (ld := ld) hs ((hp _).2 ht) hc
          exact ⟨fun st' h => ⟨G, h2 st' h⟩, fun o h k hk => h3 k (by rw [h, hk])⟩
        · next ht =>
          rw [hn] at ht
          have hd : x.d ≠ 0 := fun hd => ht (h0 hd).1
          rw [if_pos hd] at hl
          cases hl
          obtain ⟨h2, h3⟩ := foldlM_inv (f := doMethod x v x.c (x.d - 1) state) (I := fun s => ∃ G', GLe G G' ∧ Inv P tr ini mem nA s G' x.c x.d noPend)
            (Q := fun o => ∀ k, o = .goal k → Sound P tr ini gl k) (methodsOf x.P task) (by
              intro m hm s hs'
              rw [hx, methodsOf, List.mem_filter, List.mem_range, beq_iff_eq] at hm
              refine doMethod_inv L hx hn hord (by omega) hm.1 ?_ hs'
              rw [hm.2]
              exact hs) st ⟨G, GLe.refl, hI⟩
          refine ⟨fun st' h => ?_, h3⟩
          obtain ⟨G', -, h4⟩ := h2 st' h
          exact ⟨G', h4⟩

variable (P nA) in
/-- The elements of a queue belong to the layer. -/
def QOK (c d : Nat) (q : List ((Nat × Nat) × List Info)) : Prop :=
  ∀ e ∈ q, (1 ≤ d → nA ≤ e.1.1 ∨ P.cost e.1.1 = 0) ∧ (d = 0 → e.1.1 < nA ∧ ∀ i ∈ e.2, i.source + P.cost e.1.1 ≤ c)

theorem doQueue_inv (L : Lawful x.O mem tr ini gl) (hx : x.P = P) (hn : x.nA = nA) (hp : ∀ t, P.prim t = true ↔ t < nA)
    (hord : ∀ m < P.numMethods, (P.sub m).length = 2 → P.ord m = [(0, 1)]) {q : List ((Nat × Nat) × List Info)} (hq : QOK P nA x.c x.d q)
    (hI : ∃ G, Inv P tr ini mem nA st G x.c x.d noPend) :
    (∀ st', q.foldlM (doEntry x) st = .ok st' → ∃ G, Inv P tr ini mem nA st' G x.c x.d noPend) ∧
    ∀ o, q.foldlM (doEntry x) st = .error o → ∀ k, o = .goal k → Sound P tr ini gl k := by
  refine foldlM_inv (I := fun s => ∃ G, Inv P tr ini mem nA s G x.c x.d noPend) (Q := fun o => ∀ k, o = .goal k → Sound P tr ini gl k) q ?_ st hI
  intro e he s hs
  obtain ⟨h1, h0⟩ := hq e he
  refine foldlM_inv (I := fun s => ∃ G, Inv P tr ini mem nA s G x.c x.d noPend) (Q := fun o => ∀ k, o = .goal k → Sound P tr ini gl k) _ ?_ s hs
  intro source hsrc s hs
  refine doInfo_inv L hx hn hp hord h1 (fun hd => ⟨(h0 hd).1, ?_⟩) hs
  rw [List.mem_reverse, List.mem_dedup, List.mem_reverse, List.mem_map] at hsrc
  obtain ⟨i, hi, rfl⟩ := hsrc
  exact (h0 hd).2 i hi

theorem least_some {l : List Nat} {p : Nat → Bool} {n : Nat} (h : least l p = some n) : n ∈ l ∧ p n = true := by
  have := (List.min?_eq_some_iff.1 h).1
  rwa [List.mem_filter] at this

theorem nextLayer_inv (hI : Inv P tr ini mem nA st G c d noPend) :
    (∀ r, nextLayer st c d = .ok r → ((r.1 = c ∧ r.2.1 = d + 1) ∨ (c < r.1 ∧ r.2.1 = 0)) ∧ QOK P nA r.1 r.2.1 r.2.2) ∧
    ∀ o, nextLayer st c d = .error o → ∀ k, o ≠ .goal k := by
  unfold nextLayer
  simp only
  generalize hD : (st.abst.filterMap fun e => match e.1 with
    | [c', d', _, _] => if c' = c then some d' else none
    | _ => none) = depths
  have hdep : ∀ n ∈ depths, 1 ≤ n ∧ n ≤ d + 1 := by
    intro n hn
    rw [← hD, List.mem_filterMap] at hn
    obtain ⟨⟨k, l⟩, h1, h2⟩ := hn
    obtain ⟨c1, d1, t1, u1, rfl, -, h4, h5, -⟩ := hI.aq _ _ h1
    simp only at h2
    split at h2
    · next e =>
      cases h2
      exact ⟨h4, h5 e⟩
    · cases h2
  split
  · next d1 h1 =>
    refine ⟨fun r h => ?_, fun o h => (by cases h)⟩
    cases h
    have : d1 = d + 1 := by
      split at h1
      · have := hdep _ (least_some h1).1
        omega
      · split at h1
        · obtain ⟨h2, h3⟩ := least_some h1
          have := hdep _ h2
          simp only [decide_eq_true_eq] at h3
          omega
        · cases h1
    refine ⟨.inl ⟨rfl, this⟩, fun e he => ⟨fun _ => ?_, fun h => ?_⟩⟩
    · simp only [abstQueue, List.mem_filterMap] at he
      obtain ⟨⟨k, l⟩, h2, h3⟩ := he
      obtain ⟨c2, d2, t2, u2, rfl, h4, -⟩ := hI.aq _ _ h2
      simp only at h3
      split at h3
      · cases h3
        exact h4
      · cases h3
    · simp only at h
      omega
  · split
    · next c1 h1 =>
      refine ⟨fun r h => ?_, fun o h => (by cases h)⟩
      cases h
      have h2 := (least_some h1).2
      simp only [decide_eq_true_eq] at h2
      refine ⟨.inr ⟨h2, rfl⟩, fun e he => ⟨fun h => ?_, fun _ => ?_⟩⟩
      · simp only at h
        omega
      · simp only [primQueue, List.mem_filterMap] at he
        obtain ⟨⟨k, l⟩, h3, h4⟩ := he
        obtain ⟨c2, a2, u2, rfl, h5, h6⟩ := hI.pq _ _ h3
        simp only at h4
        split at h4
        · next e =>
          cases h4
          subst e
          exact ⟨h5, h6⟩
        · cases h4
    · split
      · exact ⟨fun r h => (by cases h), fun o h k hk => (by cases h; cases hk)⟩
      · exact ⟨fun r h => (by cases h), fun o h k hk => (by cases h; cases hk)⟩

/-- Copying one edge. -/
def copyEdge (O : Ops B) (c d c' d' : Nat) (st : St B) (e : List Nat × B) : St B :=
  match e.1 with
  | [a, t, u, lc, ld] =>
    if lc = c ∧ ld = d then
      let k := [a, t, u, c', d']
      let st := ensure O st k
      { st with edges := st.edges.set k (O.or (edgeAt O st k) e.2) }
    else st
  | _ => st

theorem copyEdge_inv {O : Ops B} (L : Lawful O mem tr ini gl) (hI : Inv P tr ini mem nA st G c d noPend) (hc : c ≤ c') {e : List Nat × B}
    (h0 : ∀ t v d₁, e.1 = [0, t, v, c, d₁] → E0 P tr ini mem G t v c e.2)
    (h1 : ∀ v t u c₁ d₁, e.1 = [v, t, u, c₁, d₁] → v ≠ 0 → E1 P tr ini mem G st.extra v t u e.2) :
    Inv P tr ini mem nA (copyEdge O c d c' d' st e) G c d noPend ∧ Ext mem st (copyEdge O c d c' d' st e) ∧
      (copyEdge O c d c' d' st e).extra = st.extra ∧
      ∀ t v p, e.1 = [0, t, v, c, d] → (∀ b, mem e.2 p b p) → Has mem (copyEdge O c d c' d' st e).edges [0, t, v, c', d'] p := by
  unfold copyEdge
  split
  · next a t u lc ld he =>
    split
    · next hl =>
      obtain ⟨rfl, rfl⟩ := hl
      simp only
      obtain ⟨hI1, hE1⟩ := hI.ensure L (v := a) (t := t) (u := u) (c' := c') (d' := d')
      have hex := (ensure_eq (O := O) st [a, t, u, c', d']).1
      have hhas : ∀ t' v' p, e.1 = [0, t', v', lc, ld] → (∀ b, mem e.2 p b p) →
          Has mem ((ensure O st [a, t, u, c', d']).edges.set [a, t, u, c', d'] (O.or (edgeAt O (ensure O st [a, t, u, c', d']) [a, t, u, c', d']) e.2))
            [0, t', v', c', d'] p := by
        intro t' v' p h h'
        rw [he] at h
        cases h
        exact ⟨_, (Map.get?_set _ _ _ _).trans (if_pos rfl), fun b => (L.or _ _ _ _ _).2 (.inr (h' b))⟩
      by_cases ha : a = 0
      · subst ha
        obtain ⟨hI2, hE2⟩ := hI1.setE0 (d' := d') ((hI1.edge0 L t u c' d').or L ((h0 _ _ _ he).mono GLe.refl hc)) (fun y hy a b c h => by
          rw [L.or, edgeAt, hy]
          exact .inl h)
        exact ⟨hI2, hE1.trans hE2, hex, hhas⟩
      · obtain ⟨hI2, hE2⟩ := hI1.setE1 ha (c' := c') (d' := d') ((hI1.edge1 L ha t u c' d').or L (by rw [hex]; exact h1 _ _ _ _ _ he ha)) (fun y hy a b c h => by
          rw [L.or, edgeAt, hy]
          exact .inl h)
        exact ⟨hI2, hE1.trans hE2, hex, hhas⟩
    · next hl =>
      refine ⟨hI, Ext.refl _ _, rfl, fun t' v' p h => ?_⟩
      rw [he] at h
      cases h
      exact absurd ⟨rfl, rfl⟩ hl
  · next hno =>
    refine ⟨hI, Ext.refl _ _, rfl, fun t' v' p h => ?_⟩
    exact absurd h (hno _ _ _ _ _)

theorem copyFold_inv {O : Ops B} (L : Lawful O mem tr ini gl) (hc : c ≤ c') (l : List (List Nat × B)) {st : St B} (hI : Inv P tr ini mem nA st G c d noPend)
    (h0 : ∀ e ∈ l, ∀ t v d₁, e.1 = [0, t, v, c, d₁] → E0 P tr ini mem G t v c e.2)
    (h1 : ∀ e ∈ l, ∀ v t u c₁ d₁, e.1 = [v, t, u, c₁, d₁] → v ≠ 0 → E1 P tr ini mem G st.extra v t u e.2) :
    Inv P tr ini mem nA (l.foldl (copyEdge O c d c' d') st) G c d noPend ∧ Ext mem st (l.foldl (copyEdge O c d c' d') st) ∧
      ∀ e ∈ l, ∀ t v p, e.1 = [0, t, v, c, d] → (∀ b, mem e.2 p b p) → Has mem (l.foldl (copyEdge O c d c' d') st).edges [0, t, v, c', d'] p := by
  induction l generalizing st with
  | nil => exact ⟨hI, Ext.refl _ _, by simp⟩
  | cons e r ih =>
    rw [List.foldl_cons]
    obtain ⟨h2, h3, h4, h5⟩ := copyEdge_inv (d' := d') L hI hc (h0 e List.mem_cons_self) (h1 e List.mem_cons_self)
    obtain ⟨h6, h7, h8⟩ := ih h2 (fun e' he' => h0 e' (List.mem_cons_of_mem _ he')) (fun e' he' => by
      rw [h4]
      exact h1 e' (List.mem_cons_of_mem _ he'))
    refine ⟨h6, h3.trans h7, fun e' he' t v p h h' => ?_⟩
    rcases List.mem_cons.1 he' with rfl | he'
    · exact h7.has (h5 t v p h h')
    · exact h8 e' he' t v p h h'

theorem copyLayer_inv {O : Ops B} (L : Lawful O mem tr ini gl) (nV : Nat) (hI : Inv P tr ini mem nA st G c d noPend)
    (hl : (c' = c ∧ d' = d + 1) ∨ (c < c' ∧ d' = 0)) : Inv P tr ini mem nA (copyLayer O nV c d c' d' st) G c' d' noPend := by
  have hc : c ≤ c' := by omega
  unfold copyLayer
  simp only
  change Inv P tr ini mem nA ((List.range nV).foldl (fun st v => { st with eps := st.eps.set [v, c', d'] ((st.eps.get? [v, c, d]).getD O.zero) })
    (st.edges.foldl (copyEdge O c d c' d') st)) G c' d' noPend
  obtain ⟨h1, h2, h3⟩ := copyFold_inv (d' := d') L hc st.edges hI (fun e he t v d₁ h => hI.e0 t v c d₁ e.2 (h ▸ he))
    (fun e he v t u c₁ d₁ h => hI.e1 v t u c₁ d₁ e.2 (h ▸ he))
  have hnew : Inv P tr ini mem nA (st.edges.foldl (copyEdge O c d c' d') st) G c' d' noPend := by
    refine { h1 with gg := ?_, aq := ?_ }
    · intro v p g hg
      obtain ⟨h4, h5⟩ := h1.gg v p g hg
      obtain ⟨-, h5'⟩ := hI.gg v p g hg
      obtain ⟨⟨gd, h6, h7⟩, h8, -⟩ := h5 id
      refine ⟨by omega, fun _ => ⟨⟨gd, h6, fun e => ?_⟩, ?_, fun hd => ?_⟩⟩
      · have := h7 (by omega)
        omega
      · obtain ⟨y, hy, hy'⟩ := (h5' id).2.1
        exact h3 _ (Map.mem_of_get? hy) _ _ p rfl hy'
      · right
        obtain ⟨rfl, rfl⟩ : c' = c ∧ d' = d + 1 := by omega
        exact h8
    · intro k l hm
      obtain ⟨c1, d1, t1, u1, e, h4, h5, h6, h7⟩ := h1.aq k l hm
      exact ⟨c1, d1, t1, u1, e, h4, h5, by omega, by omega⟩
  clear h1 h2 h3
  generalize st.edges.foldl (copyEdge O c d c' d') st = s at hnew
  suffices ∀ (l : List Nat) (s : St B), Inv P tr ini mem nA s G c' d' noPend → Inv P tr ini mem nA
      (l.foldl (fun st v => { st with eps := st.eps.set [v, c', d'] ((st.eps.get? [v, c, d]).getD O.zero) }) s) G c' d' noPend from this _ s hnew
  intro l
  induction l with
  | nil => exact fun s h => h
  | cons v r ih =>
    intro s h
    refine ih _ { h with ep := ?_ }
    intro v' c₁ d₁ y hm s' p b hy
    rcases Map.mem_set hm with e | e
    · simp only [Prod.mk.injEq, List.cons.injEq, and_true] at e
      obtain ⟨⟨rfl, rfl, rfl⟩, rfl⟩ := e
      cases hg : s.eps.get? [v', c, d] with
      | none =>
        rw [hg] at hy
        exact absurd hy (L.zero _ _ _)
      | some z =>
        rw [hg] at hy
        exact (h.ep _ _ _ _ (Map.mem_of_get? hg) _ _ _ hy).mono GLe.refl hc
    · exact h.ep _ _ _ _ e _ _ _ hy

theorem runLoop_sound {O : Ops B} (L : Lawful O mem tr ini gl) (hp : ∀ t, P.prim t = true ↔ t < nA)
    (hord : ∀ m < P.numMethods, (P.sub m).length = 2 → P.ord m = [(0, 1)]) (nV fuel : Nat) {c d : Nat} {q : List ((Nat × Nat) × List Info)}
    {st : St B} (hq : QOK P nA c d q) (hI : ∃ G, Inv P tr ini mem nA st G c d noPend) {k : Nat}
    (h : runLoop O P nA nV fuel c d q st = some (.goal k)) : Sound P tr ini gl k := by
  induction fuel generalizing c d q st with
  | zero => cases h
  | succ n ih =>
    rw [runLoop] at h
    obtain ⟨h1, h2⟩ := doQueue_inv (x := ⟨O, P, nA, c, d⟩) L rfl rfl hp hord hq hI
    split at h
    · next o ho =>
      cases h
      exact h2 _ ho k rfl
    · next s hs =>
      obtain ⟨G, hI1⟩ := h1 s hs
      obtain ⟨h3, h4⟩ := nextLayer_inv hI1
      split at h
      · next o ho =>
        cases h
        exact absurd rfl (h4 _ ho k)
      · next c' d' q' hr =>
        obtain ⟨h5, h6⟩ := h3 _ hr
        exact ih h6 ⟨G, copyLayer_inv L nV hI1 h5⟩ h

theorem startSt_inv {O : Ops B} (L : Lawful O mem tr ini gl) (hi : nA ≤ P.init) : Inv P tr ini mem nA (startSt O P) (fun _ _ => none) 0 0 noPend where
  shape := by
    intro k x h
    simp only [startSt, List.mem_singleton, Prod.mk.injEq] at h
    exact ⟨_, _, _, _, _, h.1⟩
  e0 := by
    intro t v c' d' x h
    simp only [startSt, List.mem_singleton, Prod.mk.injEq, List.cons.injEq, and_true, true_and] at h
    obtain ⟨⟨rfl, rfl, rfl, -⟩, rfl⟩ := h
    refine ⟨fun a b b' q h => ?_, fun s b q h => ?_⟩
    · rw [L.init] at h ⊢
      exact h
    · rw [L.init] at h
      exact ⟨s, [], 0, .inl ⟨rfl, h, rfl⟩, by rw [rootOf, if_pos rfl]; exact Prog.refl _ _, by simp [Problem.planCost]⟩
  e1 := by
    intro v t u c' d' x h hv
    simp only [startSt, List.mem_singleton, Prod.mk.injEq, List.cons.injEq] at h
    exact absurd h.1.1 hv
  x1 := by
    intro v t u ec x h
    simp [startSt] at h
  ep := by
    intro v c' d' x h s p b hm
    simp only [startSt, List.mem_map, Prod.mk.injEq] at h
    obtain ⟨_, -, -, rfl⟩ := h
    exact absurd hm (L.zero _ _ _)
  gg := by
    intro v p g h
    cases h
  pq := by
    intro k l h
    simp [startSt] at h
  aq := by
    intro k l h
    simp only [startSt, List.mem_singleton, Prod.mk.injEq] at h
    exact ⟨0, 1, P.init, 1, h.1, .inl hi, by omega, by omega, by omega⟩

/-- "Goal reached" is only reported if there is a solution, and its costs are at most the reported number. -/
theorem buildAutomaton_sound {O : Ops B} (L : Lawful O mem tr ini gl) (hp : ∀ t, P.prim t = true ↔ t < nA) (hi : P.prim P.init = false)
    (hord : ∀ m < P.numMethods, (P.sub m).length = 2 → P.ord m = [(0, 1)]) {fuel k : Nat}
    (h : buildAutomaton O P nA fuel = some (.goal k)) : Sound P tr ini gl k := by
  unfold buildAutomaton at h
  split at h
  · cases h
  · refine runLoop_sound L hp hord _ _ (by intro e he; cases he) ⟨_, startSt_inv L ?_⟩ h
    by_contra hn
    rw [(hp _).2 (by omega)] at hi
    cases hi

end Verif.Sym
