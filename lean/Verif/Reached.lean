import Verif.SearchSound

/-! # Nodes reached by progression, and definedness of the search -/

namespace Verif.Prog

open Verif.Htn Verif.TaskCounter Relation

variable {P : Problem} {cfg : Cfg}

/-- `Reached P cfg g n`: the node `n` can have been generated, starting from the initial node,
by calls of `apply` (for applicable actions) and `decompose` as the search makes them, while
the shared data is now `g`.  (Nodes are immutable, but expanding other nodes changes the shared
heap of plan steps.) -/
inductive Reached (P : Problem) (cfg : Cfg) : Glob → Node → Prop
  | init : Reached P cfg (initNode P cfg).1 (initNode P cfg).2
  | app {f g n i u g' n'} : Reached P cfg g n → n.prims[i]? = some u →
      isApplicable P n.state (taskOf g.heap u) = true →
      apply P cfg f g n i = some (g', n') → Reached P cfg g' n'
  | dec {f g n j u m g' n'} : Reached P cfg g n → n.abs[j]? = some u →
      m ∈ methodsOf P (taskOf g.heap u) →
      decompose P cfg f g n j m = some (g', n') → Reached P cfg g' n'
  | otherApp {f g n o i u g' o'} : Reached P cfg g n → Reached P cfg g o → o.prims[i]? = some u →
      isApplicable P o.state (taskOf g.heap u) = true →
      apply P cfg f g o i = some (g', o') → Reached P cfg g' n
  | otherDec {f g n o j u m g' o'} : Reached P cfg g n → Reached P cfg g o → o.abs[j]? = some u →
      m ∈ methodsOf P (taskOf g.heap u) →
      decompose P cfg f g o j m = some (g', o') → Reached P cfg g' n

theorem Reached.ninv (hP : P.WF) (hcfg : cfg.Ok) {g n} (h : Reached P cfg g n) :
    NInv P cfg g.heap n := by
  induction h with
  | init => exact (init_ninv hP).1
  | app _ hu ha h ih =>
    obtain ⟨e1, e2, -⟩ := apply_step hP hcfg ih hu (isApplicable_iff.1 ha) h
    rw [e1]; exact e2
  | dec _ hu hm h ih =>
    obtain ⟨e1, e2, e3, -⟩ := decompose_step hP hcfg ih hu hm h
    exact e3
  | otherApp _ _ hu ha h ih iho =>
    obtain ⟨e1, e2, -⟩ := apply_step hP hcfg iho hu (isApplicable_iff.1 ha) h
    rw [e1]; exact ih
  | otherDec _ _ hu hm h ih iho =>
    obtain ⟨e1, e2, -⟩ := decompose_step hP hcfg iho hu hm h
    exact ih.ext e1 e2

/-! ## Fuel does not matter -/

/-- `F'` is defined wherever `F` is, with the same value. -/
def Ext {α : Type} (a b : Option α) : Prop := ∀ r, a = some r → b = some r

theorem applyBase_mono {f f' g n i} (hf : f ≤ f') : Ext (applyBase P cfg f g n i) (applyBase P cfg f' g n i) := by
  intro r h
  unfold applyBase at h ⊢
  cases h1 : n.prims[i]? with
  | none => simp [h1] at h
  | some u =>
    cases h2 : g.heap[u]? with
    | none => simp [h1, h2] at h
    | some ps =>
      cases h3 : candLoop g.heap f ps.succs.dedup (initPreds g.heap n i ps.succs).reverse [] with
      | none => simp [h1, h2, h3] at h
      | some pf =>
        have h4 := candLoop_mono f f' _ _ _ _ hf h3
        simp only [h1, h2, h3, h4, Option.bind_eq_bind, Option.bind_some] at h ⊢
        exact h

theorem effLoop_mono {app app' : Glob → Node → Nat → Option (Glob × Node)}
    (ha : ∀ g n i, Ext (app g n i) (app' g n i)) : ∀ f f' g n o, f ≤ f' →
      Ext (effLoop app f g n o) (effLoop app' f' g n o) := by
  intro f
  induction f with
  | zero => intro f' g n o _ r h; simp [effLoop] at h
  | succ f ih =>
    intro f' g n o hf r h
    obtain ⟨f', rfl⟩ : ∃ k, f' = k + 1 := ⟨f' - 1, by omega⟩
    cases o with
    | none => simpa [effLoop] using h
    | some ac =>
      simp only [effLoop] at h ⊢
      cases h1 : app g n ac with
      | none => simp [h1] at h
      | some r1 =>
        rw [ha _ _ _ _ h1]
        rw [h1] at h
        exact ih f' _ _ _ (by omega) r h

theorem post_mono {app app' : Glob → Node → Nat → Option (Glob × Node)}
    (ha : ∀ g n i, Ext (app g n i) (app' g n i)) {f f' g n} (hf : f ≤ f') :
    Ext (post P cfg app f g n) (post P cfg app' f' g n) := by
  intro r h
  unfold post at h ⊢
  have h1 : Ext (effPart cfg app f g n) (effPart cfg app' f' g n) := by
    intro r h
    unfold effPart at h ⊢
    split
    · rename_i he
      rw [if_pos he] at h
      exact effLoop_mono ha _ _ _ _ _ hf r h
    · rename_i he
      rwa [if_neg he] at h
  cases h2 : effPart cfg app f g n with
  | none => simp [h2] at h
  | some r2 =>
    rw [h1 _ h2]
    simp only [h2, Option.bind_eq_bind, Option.bind_some] at h ⊢
    split
    · rename_i ho
      rw [if_pos ho] at h
      unfold oneModStep at h ⊢
      split
      · rename_i hc
        rw [if_pos hc] at h
        split
        · rename_i hl; simpa [hl] using h
        · rename_i hl; simp only [hl] at h; exact ha _ _ _ r h
        · rename_i x h3 h4
          split at h
          · rename_i hl; exact absurd hl h3
          · rename_i j hl; exact absurd hl (h4 j)
          · exact h
      · rename_i hc
        rwa [if_neg hc] at h
    · rename_i ho
      rwa [if_neg ho] at h

theorem apply_mono : ∀ f f' g n i, f ≤ f' → Ext (apply P cfg f g n i) (apply P cfg f' g n i) := by
  intro f
  induction f with
  | zero => intro f' g n i _ r h; simp [apply] at h
  | succ f ih =>
    intro f' g n i hf r h
    obtain ⟨f', rfl⟩ : ∃ k, f' = k + 1 := ⟨f' - 1, by omega⟩
    simp only [apply] at h ⊢
    cases h1 : applyBase P cfg f g n i with
    | none => simp [h1] at h
    | some r1 =>
      rw [applyBase_mono (show f ≤ f' by omega) _ h1]
      simp only [h1, Option.bind_eq_bind, Option.bind_some] at h ⊢
      exact post_mono (fun g n i => ih f' g n i (by omega)) (by omega) r h

theorem decompose_mono {f f' g n j m} (hf : f ≤ f') :
    Ext (decompose P cfg f g n j m) (decompose P cfg f' g n j m) := by
  intro r h
  simp only [decompose] at h ⊢
  cases h1 : decomposeBase P cfg g n j m with
  | none => simp [h1] at h
  | some r1 =>
    simp only [h1, Option.bind_eq_bind, Option.bind_some] at h ⊢
    exact post_mono (fun g n i => apply_mono _ _ g n i hf) hf r h

variable {V F H : Type} {E : Env V F H}

theorem applyAll_mono {f f' par} (hf : f ≤ f') : ∀ is (s : St V F H),
    Ext (applyAll P cfg E f par is s) (applyAll P cfg E f' par is s) := by
  intro is
  induction is with
  | nil => intro s r h; exact h
  | cons i is ih =>
    intro s r h
    unfold applyAll at h ⊢
    split
    · rename_i hc; rw [if_pos hc] at h; exact ih s r h
    · rename_i hc
      rw [if_neg hc] at h
      cases h1 : apply P cfg f s.g par i with
      | none => simp [h1] at h
      | some r1 =>
        rw [apply_mono _ _ _ _ _ hf _ h1]
        simp only [h1] at h ⊢
        split
        · rename_i h2; simpa [h2] using h
        · rename_i h2; simp only [h2] at h; exact ih _ r h

theorem decAll_mono {f f' par d} (hf : f ≤ f') : ∀ ms (s : St V F H),
    Ext (decAll P cfg E f par d ms s) (decAll P cfg E f' par d ms s) := by
  intro ms
  induction ms with
  | nil => intro s r h; exact h
  | cons m ms ih =>
    intro s r h
    unfold decAll at h ⊢
    cases h1 : decompose P cfg f s.g par d m with
    | none => simp [h1] at h
    | some r1 =>
      rw [decompose_mono hf _ h1]
      simp only [h1] at h ⊢
      split
      · rename_i h2; simpa [h2] using h
      · rename_i h2; simp only [h2] at h; exact ih _ r h

theorem expand_mono {f f' par} (hf : f ≤ f') (s : St V F H) :
    Ext (expand P cfg E f par s) (expand P cfg E f' par s) := by
  intro r h
  unfold expand at h ⊢
  split
  · rename_i hc; rw [if_pos hc] at h; exact applyAll_mono hf _ _ r h
  · rename_i hc; rw [if_neg hc] at h; exact decAll_mono hf _ _ r h

theorem loop_mono : ∀ f f' (s : St V F H), f ≤ f' → Ext (loop P cfg E f s) (loop P cfg E f' s) := by
  intro f
  induction f with
  | zero => intro f' s _ r h; simp [loop] at h
  | succ f ih =>
    intro f' s hf r h
    obtain ⟨f', rfl⟩ : ∃ k, f' = k + 1 := ⟨f' - 1, by omega⟩
    unfold loop at h ⊢
    cases h1 : E.pop s.fr with
    | none => simpa [h1] using h
    | some p =>
      simp only [h1] at h ⊢
      split
      · rename_i hc; rw [if_pos hc] at h; exact ih f' _ (by omega) r h
      · rename_i hc
        rw [if_neg hc] at h
        unfold afterCheck at h ⊢
        split
        · rename_i hg; rwa [if_pos hg] at h
        · rename_i hg
          rw [if_neg hg] at h
          unfold afterExpand at h
          split at h
          · simp at h
          · rename_i hx
            rw [expand_mono (show f ≤ f' by omega) _ _ hx]
            simpa [afterExpand] using h
          · rename_i hx
            rw [expand_mono (show f ≤ f' by omega) _ _ hx]
            simp only [afterExpand]
            split
            · rename_i ht; rwa [if_pos ht] at h
            · rename_i ht; rw [if_neg ht] at h; exact ih f' _ (by omega) r h

/-! ## Expansion and search are defined -/

variable {items : F → List SNode} {f0 : F} {eval : SNode → Option Int}

theorem child_iter {s s' : St V F H} {par n2 r} (h : child P E s par n2 = (s', r)) :
    s'.g = s.g ∧ s'.iter = s.iter := by
  simp only [child] at h
  split_ifs at h <;> (simp only [Prod.mk.injEq] at h; obtain ⟨rfl, -⟩ := h; exact ⟨rfl, rfl⟩)

theorem applyAll_total (hP : P.WF) (hcfg : cfg.Ok) {par : Node} (hsol : par.sol ≠ []) {h : Heap}
    (hpi : NInv P cfg h par) {f : Nat}
    (hf : ∀ (g : Glob) (i u : Nat), g.heap = h → par.prims[i]? = some u →
      P.Applicable (holds par.state) (taskOf h u) → ∃ g' n', apply P cfg f g par i = some (g', n')) :
    ∀ (is : List Nat) (s : St V F H), s.g.heap = h → (∀ i ∈ is, i < par.prims.length) →
      ∃ s' r, applyAll P cfg E f par is s = some (s', r) ∧ s'.iter = s.iter := by
  intro is
  induction is with
  | nil => intro s _ _; exact ⟨s, none, rfl, rfl⟩
  | cons i is ih =>
    intro s hs hlt
    have hi := hlt i List.mem_cons_self
    have hiu : par.prims[i]? = some par.prims[i] := List.getElem?_eq_getElem hi
    have hlt' : ∀ i ∈ is, i < par.prims.length := fun j hj => hlt j (List.mem_cons_of_mem _ hj)
    unfold applyAll
    split
    · exact ih s hs hlt'
    · rename_i hna
      have ha : P.Applicable (holds par.state) (taskOf h par.prims[i]) := by
        rw [hiu, hs] at hna
        exact isApplicable_iff.1 (by simpa using hna)
      obtain ⟨g', n', h1⟩ := hf s.g i _ hs hiu ha
      simp only [h1]
      obtain ⟨e1, -⟩ := apply_step hP hcfg (by rw [hs]; exact hpi) hiu (by rw [hs]; exact ha) h1
      cases h2 : child P E { s with g := g' } par n' with
      | mk s1 r1 =>
        obtain ⟨e2, e3⟩ := child_iter h2
        cases r1 with
        | some x => exact ⟨s1, some x, rfl, e3⟩
        | none =>
          obtain ⟨s', r, h3, h4⟩ := ih s1 (by rw [e2, ← hs]; exact e1) hlt'
          exact ⟨s', r, h3, by rw [h4]; exact e3⟩

theorem decAll_total (hP : P.WF) (hcfg : cfg.Ok) {par : Node} {d u t : Nat} (hu : par.abs[d]? = some u) :
    ∀ (ms : List Nat) (s : St V F H), NInv P cfg s.g.heap par → taskOf s.g.heap u = t →
      (∀ m ∈ ms, m ∈ methodsOf P t) →
      ∃ f s' r, decAll P cfg E f par d ms s = some (s', r) ∧ s'.iter = s.iter := by
  intro ms
  induction ms with
  | nil => intro s _ _ _; exact ⟨0, s, none, rfl, rfl⟩
  | cons m ms ih =>
    intro s hpi ht hms
    have hm : m ∈ methodsOf P (taskOf s.g.heap u) := by rw [ht]; exact hms m List.mem_cons_self
    have hm' : m < P.numMethods ∧ P.head m = taskOf s.g.heap u := by
      simpa [methodsOf] using hm
    have hul : u < s.g.heap.length :=
      hpi.good.node.lt u (List.mem_append_right _ (List.mem_of_getElem? hu))
    obtain ⟨F0, hF0⟩ := decompose_total hP hcfg hpi.good hm'.1 hu hm'.2
    obtain ⟨g', n', h1⟩ := hF0 F0 (Nat.le_refl _)
    obtain ⟨e0, e1, e2, -⟩ := decompose_step hP hcfg hpi hu hm h1
    cases h2 : child P E { s with g := g' } par n' with
    | mk s1 r1 =>
      obtain ⟨e3, e4⟩ := child_iter h2
      cases r1 with
      | some x => exact ⟨F0, s1, some x, by simp only [decAll, h1, h2], e4⟩
      | none =>
        have hp : s.g.heap <+: s1.g.heap := by rw [e3]; exact e0
        obtain ⟨f, s', r, h3, h4⟩ := ih s1 (hpi.ext hp (by rw [e3]; exact e1))
          (by rw [prefix_taskOf hp hul, ht]) (fun m hm => hms m (List.mem_cons_of_mem _ hm))
        refine ⟨max F0 f, s', r, ?_, by rw [h4]; exact e4⟩
        simp only [decAll, decompose_mono (Nat.le_max_left F0 f) _ h1, h2]
        exact decAll_mono (Nat.le_max_right F0 f) _ _ _ h3

theorem expand_total (hP : P.WF) (hcfg : cfg.Ok) {par : Node} (s : St V F H)
    (hpi : NInv P cfg s.g.heap par) :
    ∃ f s' r, expand P cfg E f par s = some (s', r) ∧ s'.iter = s.iter := by
  unfold expand
  split
  · by_cases hsol : par.sol = []
    · exact ⟨0, s, none, by simp [hpi.solne hsol, applyAll], rfl⟩
    · obtain ⟨f, hf⟩ := fuel_exists hP hcfg hpi.good.heap
      obtain ⟨s', r, h1, h2⟩ := applyAll_total (E := E) hP hcfg hsol hpi (f := f)
        (fun g i u hg hu ha => hf f (Nat.le_refl _) g par i u hg hpi.good hsol hu ha)
        (List.range par.prims.length) s rfl (fun i hi => List.mem_range.1 hi)
      exact ⟨f, s', r, h1, h2⟩
  · rename_i habs
    have hdl : E.rnd s.iter % par.abs.length < par.abs.length :=
      Nat.mod_lt _ (List.length_pos_of_ne_nil (by simpa using habs))
    have hdu := List.getElem?_eq_getElem hdl
    simp only [hdu, Option.getD_some]
    exact decAll_total hP hcfg hdu _ s hpi rfl (fun m hm => hm)

theorem expand_sound (hP : P.WF) (hcfg : cfg.Ok) (hF : FringeOK E f0 items eval) {f par} {s s' : St V F H} {r}
    (hpi : NInv P cfg s.g.heap par) (I : FInv P cfg items s) (h : expand P cfg E f par s = some (s', r)) :
    FInv P cfg items s' := by
  unfold expand at h
  split at h
  · exact (applyAll_sound hP hcfg hF _ s s' r hpi (fun i hi => List.mem_range.1 hi) I h).1
  · rename_i habs
    have hdl : E.rnd s.iter % par.abs.length < par.abs.length :=
      Nat.mod_lt _ (List.length_pos_of_ne_nil (by simpa using habs))
    have hdu := List.getElem?_eq_getElem hdl
    simp only [hdu, Option.getD_some] at h
    exact (decAll_sound hP hcfg hF hdu _ s s' r hpi rfl (fun m hm => hm) I h).1

theorem loop_total (hP : P.WF) (hcfg : cfg.Ok) (hF : FringeOK E f0 items eval) {T : Nat}
    (hT : ∀ i, T ≤ i → E.timeUp i = true) : ∀ (k l : Nat) (s : St V F H), FInv P cfg items s →
      T < k + s.iter → (items s.fr).length < l → ∃ f r, loop P cfg E f s = some r := by
  intro k
  induction k with
  | zero =>
    intro l
    induction l with
    | zero => intro s _ _ hl; omega
    | succ l ihl =>
      intro s I hk hl
      cases hp : E.pop s.fr with
      | none => exact ⟨1, (.unsolvable, s), by simp [loop, hp]⟩
      | some p =>
        obtain ⟨x, fr'⟩ := p
        have hperm := hF.pop_some _ _ _ hp
        have hx := I.items_ok x (hperm.mem_iff.2 List.mem_cons_self)
        have I1 : FInv P cfg items { s with fr := fr', vis := (popCheck E s x).1 } :=
          ⟨I.heap, fun y hy => I.items_ok y (hperm.mem_iff.2 (List.mem_cons_of_mem _ hy))⟩
        by_cases hc : (popCheck E s x).2 = false
        · have hlen := hperm.length_eq
          simp only [List.length_cons] at hlen
          obtain ⟨f, r, hr⟩ := ihl { s with fr := fr', vis := (popCheck E s x).1 } I1 hk (by simp; omega)
          exact ⟨f + 1, r, by simp only [loop, hp, hc, if_true]; exact hr⟩
        · by_cases hg : (!E.subopt && isGoal P x.node) = true
          · exact ⟨1, _, by simp only [loop, hp, hc, if_false, afterCheck, hg, if_true]; rfl⟩
          · obtain ⟨f, s', r, h1, h2⟩ := expand_total (E := E) hP hcfg
              { s with fr := fr', vis := (popCheck E s x).1 } hx
            cases r with
            | some y => exact ⟨f + 1, _, by simp only [loop, hp, hc, if_false, afterCheck, hg, h1, afterExpand]; rfl⟩
            | none =>
              have ht : E.timeUp s'.iter = true := hT _ (by rw [h2]; simp; omega)
              exact ⟨f + 1, _, by simp only [loop, hp, hc, if_false, afterCheck, hg, h1, afterExpand, ht, if_true]; rfl⟩
  | succ k ihk =>
    intro l
    induction l with
    | zero => intro s _ _ hl; omega
    | succ l ihl =>
      intro s I hk hl
      cases hp : E.pop s.fr with
      | none => exact ⟨1, (.unsolvable, s), by simp [loop, hp]⟩
      | some p =>
        obtain ⟨x, fr'⟩ := p
        have hperm := hF.pop_some _ _ _ hp
        have hx := I.items_ok x (hperm.mem_iff.2 List.mem_cons_self)
        have I1 : FInv P cfg items { s with fr := fr', vis := (popCheck E s x).1 } :=
          ⟨I.heap, fun y hy => I.items_ok y (hperm.mem_iff.2 (List.mem_cons_of_mem _ hy))⟩
        by_cases hc : (popCheck E s x).2 = false
        · have hlen := hperm.length_eq
          simp only [List.length_cons] at hlen
          obtain ⟨f, r, hr⟩ := ihl { s with fr := fr', vis := (popCheck E s x).1 } I1 hk (by simp; omega)
          exact ⟨f + 1, r, by simp only [loop, hp, hc, if_true]; exact hr⟩
        · by_cases hg : (!E.subopt && isGoal P x.node) = true
          · exact ⟨1, _, by simp only [loop, hp, hc, if_false, afterCheck, hg, if_true]; rfl⟩
          · obtain ⟨f, s', r, h1, h2⟩ := expand_total (E := E) hP hcfg
              { s with fr := fr', vis := (popCheck E s x).1 } hx
            cases r with
            | some y => exact ⟨f + 1, _, by simp only [loop, hp, hc, if_false, afterCheck, hg, h1, afterExpand]; rfl⟩
            | none =>
              have I2 := expand_sound hP hcfg hF (s := { s with fr := fr', vis := (popCheck E s x).1 }) hx I1 h1
              by_cases ht : E.timeUp s'.iter = true
              · exact ⟨f + 1, _, by simp only [loop, hp, hc, if_false, afterCheck, hg, h1, afterExpand, ht, if_true]; rfl⟩
              · obtain ⟨f2, r, hr⟩ := ihk _ { s' with iter := s'.iter + 1 } ⟨I2.heap, I2.items_ok⟩
                  (by simp only [h2]; omega) (Nat.lt_succ_self _)
                refine ⟨max f f2 + 1, r, ?_⟩
                simp only [loop, hp, hc, if_false, afterCheck, hg,
                  expand_mono (Nat.le_max_left f f2) _ _ h1, afterExpand, ht]
                exact loop_mono _ _ _ (Nat.le_max_right f f2) _ hr

theorem search_total (hP : P.WF) (hcfg : cfg.Ok) (hF : FringeOK E f0 items eval) {T : Nat}
    (hT : ∀ i, T ≤ i → E.timeUp i = true) (v0 : V) (hs0 : H) :
    ∃ f r, search P cfg E f v0 f0 hs0 = some r := by
  obtain ⟨hn, -⟩ := init_ninv (cfg := cfg) hP
  refine loop_total hP hcfg hF hT (T + 1) _ _ ⟨hn.good.heap, fun x hx => ?_⟩ (by simp) (Nat.lt_succ_self _)
  have hperm := hF.push f0 (rootNode P cfg E.hLength)
  rw [hF.empty] at hperm
  obtain rfl := List.mem_singleton.1 (hperm.mem_iff.1 hx)
  exact hn

end Verif.Prog
