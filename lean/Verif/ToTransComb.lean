import Verif.ToTransOps

/-! # Combining the leading primitive tasks of a method (`calculatePrecsAndAdds`) -/

namespace Verif.Sas

open Verif.Htn

/-! ## One variable -/

/-- A sequence of preconditions and effects on one variable is executable from value `x`. -/
def okSeq : Nat → List (Option Nat × Option Nat) → Prop
  | _, [] => True
  | x, (p, a) :: r => (∀ y, p = some y → x = y) ∧ okSeq (a.getD x) r

/-- The value after the sequence. -/
def finSeq : Nat → List (Option Nat × Option Nat) → Nat
  | x, [] => x
  | x, (_, a) :: r => finSeq (a.getD x) r

theorem startEnd_some {l : List (Option Nat × Option Nat)} : ∀ {x : Nat} {st : Option Nat}, okSeq x l →
    ∃ e, startEnd l st (some x) = some (st, some e) ∧ e = finSeq x l := by
  induction l with
  | nil => exact fun _ => ⟨_, rfl, rfl⟩
  | cons q r ih =>
    obtain ⟨p, a⟩ := q
    rintro x st ⟨h1, h2⟩
    obtain ⟨e, h3, h4⟩ := ih (st := st) h2
    refine ⟨e, ?_, h4⟩
    rw [startEnd, if_neg]
    · rw [← h3]
      cases a <;> rfl
    · rintro ⟨hp, hq⟩
      obtain ⟨y, rfl⟩ := Option.ne_none_iff_exists'.1 hp
      exact hq (by rw [h1 y rfl])

theorem startEnd_none {l : List (Option Nat × Option Nat)} : ∀ {x : Nat} {st : Option Nat}, okSeq x l →
    ∃ st' en, startEnd l st none = some (st', en) ∧ (st' = st ∨ st' = some x) ∧ en.getD x = finSeq x l := by
  induction l with
  | nil => exact fun _ => ⟨_, _, rfl, .inl rfl, rfl⟩
  | cons q r ih =>
    obtain ⟨p, a⟩ := q
    rintro x st ⟨h1, h2⟩
    have hst : st.or p = st ∨ st.or p = some x := by
      cases st with
      | some z => exact .inl rfl
      | none => cases p with
        | none => exact .inl rfl
        | some y => exact .inr (by rw [h1 y rfl]; rfl)
    cases a with
    | none =>
      obtain ⟨st', en, h3, h4, h5⟩ := ih (st := st.or p) h2
      refine ⟨st', en, by rw [startEnd]; exact h3, ?_, h5⟩
      rcases h4 with rfl | h4
      · exact hst
      · exact .inr h4
    | some y =>
      obtain ⟨e, h3, h4⟩ := startEnd_some (st := st.or p) h2
      refine ⟨st.or p, some e, by rw [startEnd]; exact h3, hst, h4⟩

/-- The preconditions before the first effect agree. -/
def noSkip : Option Nat → List (Option Nat × Option Nat) → Prop
  | _, [] => True
  | st, (p, a) :: r => (∀ y z, st = some y → p = some z → y = z) ∧ (a = none → noSkip (st.or p) r)

theorem okSeq_of_some {l : List (Option Nat × Option Nat)} : ∀ {x : Nat} {st : Option Nat} {q : Option Nat × Option Nat},
    startEnd l st (some x) = some q → okSeq x l ∧ q.1 = st := by
  induction l with
  | nil => intro x st q h; cases h; exact ⟨trivial, rfl⟩
  | cons q r ih =>
    obtain ⟨p, a⟩ := q
    intro x st q h
    rw [startEnd] at h
    split at h
    · cases h
    · rename_i hp
      have hor : a.or (some x) = some (a.getD x) := by cases a <;> rfl
      rw [hor] at h
      obtain ⟨h1, h2⟩ := ih h
      refine ⟨⟨fun y hy => ?_, h1⟩, h2⟩
      by_contra hne
      exact hp ⟨by simp [hy], by simp [hy]; omega⟩

theorem startEnd_start {l : List (Option Nat × Option Nat)} : ∀ {y : Nat} {q : Option Nat × Option Nat},
    startEnd l (some y) none = some q → q.1 = some y := by
  induction l with
  | nil => intro y q h; cases h; rfl
  | cons q r ih =>
    obtain ⟨p, a⟩ := q
    intro y q h
    rw [startEnd] at h
    cases a with
    | none => exact ih h
    | some z => exact (okSeq_of_some h).2

theorem okSeq_of_none {l : List (Option Nat × Option Nat)} : ∀ {x : Nat} {st : Option Nat} {q : Option Nat × Option Nat},
    noSkip st l → startEnd l st none = some q → (∀ y, q.1 = some y → x = y) → okSeq x l := by
  induction l with
  | nil => intros; trivial
  | cons q r ih =>
    obtain ⟨p, a⟩ := q
    intro x st q hn h hq
    rw [startEnd] at h
    have hp : ∀ y, p = some y → x = y := by
      rintro y rfl
      -- the start is y
      have hy : st.or (some y) = some y := by
        cases st with
        | none => rfl
        | some z => rw [hn.1 z y rfl rfl]; rfl
      rw [hy] at h
      refine hq y ?_
      cases a with
      | none => exact startEnd_start h
      | some z => exact (okSeq_of_some h).2
    refine ⟨hp, ?_⟩
    cases a with
    | none => exact ih (hn.2 rfl) h hq
    | some z => exact (okSeq_of_some h).1

theorem startEnd_map {g : Nat → Nat} (hg : Function.Injective g) (l : List (Option Nat × Option Nat)) : ∀ (st en : Option Nat),
    startEnd (l.map fun q => (q.1.map g, q.2.map g)) (st.map g) (en.map g) =
      (startEnd l st en).map fun q => (q.1.map g, q.2.map g) := by
  induction l with
  | nil => intro st en; rfl
  | cons q r ih =>
    obtain ⟨p, a⟩ := q
    intro st en
    cases en with
    | none =>
      have := ih (st.or p) a
      simp only [List.map_cons, startEnd, Option.map_none, Option.or_none]
      rw [← this]
      cases st <;> rfl
    | some e =>
      have := ih st (a.or (some e))
      simp only [List.map_cons, startEnd, Option.map_some]
      have hc : ((p.map g ≠ none ∧ p.map g ≠ some (g e)) ↔ (p ≠ none ∧ p ≠ some e)) := by
        cases p with
        | none => simp
        | some y => simp [hg.eq_iff]
      by_cases h : p ≠ none ∧ p ≠ some e
      · rw [if_pos h, if_pos (hc.2 h)]; rfl
      · rw [if_neg h, if_neg (fun h' => h (hc.1 h')), ← this]
        cases a <;> rfl

/-! ## All variables -/

/-- The precondition and the effect of an action on a variable. -/
def onVar (vars : List (Nat × Nat)) (P : Problem) (v a : Nat) : Option Nat × Option Nat :=
  (lastVal v (precV vars P a), lastVal v (addV vars P a))

/-- The actions are executable one after the other. -/
def SeqHolds (vars : List (Nat × Nat)) (P : Problem) : Val → List Nat → Prop
  | _, [] => True
  | σ, a :: r => Holds σ (precV vars P a) ∧ SeqHolds vars P (assign σ (addV vars P a)) r

/-- The values after the actions. -/
def seqRes (vars : List (Nat × Nat)) (P : Problem) : Val → List Nat → Val
  | σ, [] => σ
  | σ, a :: r => seqRes vars P (assign σ (addV vars P a)) r

/-- No action has preconditions on two values of a variable. -/
def PrecFun (vars : List (Nat × Nat)) (P : Problem) (a : Nat) : Prop :=
  ∀ x ∈ precV vars P a, ∀ y ∈ precV vars P a, x.1 = y.1 → x.2 = y.2

theorem lastVal_fun {i v : Nat} {l : List (Nat × Nat)} (hf : ∀ x ∈ l, ∀ y ∈ l, x.1 = y.1 → x.2 = y.2) (h : (i, v) ∈ l) :
    lastVal i l = some v := by
  cases e : lastVal i l with
  | none => exact absurd rfl (lastVal_none.1 e _ h)
  | some w => exact congrArg some (hf _ (lastVal_mem e) _ h rfl)

theorem SeqHolds.ok {vars : List (Nat × Nat)} {P : Problem} {l : List Nat} : ∀ {σ : Val}, SeqHolds vars P σ l → ∀ v,
    okSeq (σ v) (l.map (onVar vars P v)) ∧ seqRes vars P σ l v = finSeq (σ v) (l.map (onVar vars P v)) := by
  induction l with
  | nil => intro σ _ v; exact ⟨trivial, rfl⟩
  | cons a r ih =>
    rintro σ ⟨h1, h2⟩ v
    obtain ⟨h3, h4⟩ := ih h2 v
    rw [assign_eq] at h3 h4
    exact ⟨⟨fun y hy => h1 _ (lastVal_mem hy), h3⟩, h4⟩

theorem seqHolds_of_ok {vars : List (Nat × Nat)} {P : Problem} {l : List Nat} (hf : ∀ a ∈ l, PrecFun vars P a) : ∀ {σ : Val},
    (∀ a ∈ l, ∀ p ∈ precV vars P a, okSeq (σ p.1) (l.map (onVar vars P p.1))) →
    (∀ v, (∃ a ∈ l, ∃ p ∈ precV vars P a, p.1 = v) → okSeq (σ v) (l.map (onVar vars P v))) → SeqHolds vars P σ l := by
  induction l with
  | nil => intros; trivial
  | cons a r ih =>
    intro σ _ h
    refine ⟨fun p hp => ?_, ?_⟩
    · have := (h p.1 ⟨a, .head _, p, hp, rfl⟩).1 p.2 (lastVal_fun (hf a (.head _)) hp)
      exact this
    · have key : ∀ v, (∃ b ∈ r, ∃ p ∈ precV vars P b, p.1 = v) →
          okSeq (assign σ (addV vars P a) v) (r.map (onVar vars P v)) := by
        rintro v ⟨b, hb, p, hp, rfl⟩
        rw [assign_eq]
        exact (h p.1 ⟨b, .tail _ hb, p, hp, rfl⟩).2
      exact ih (fun b hb => hf b (.tail _ hb)) (fun b hb p hp => key _ ⟨b, hb, p, hp, rfl⟩) key

theorem lastIn_eq {vars V : List (Nat × Nat)} {n : Nat} (hc : Contig 0 V n) {v f l : Nat} (hv : V[v]? = some (f, l)) :
    ∀ {bits : List Nat} {pairs : List (Nat × Nat)}, bits.map (conv V) = pairs.map some →
      lastIn V v bits = (lastVal v pairs).map (f + ·) := by
  intro bits
  induction bits with
  | nil =>
    intro pairs h
    cases pairs with
    | nil => rfl
    | cons y r => simp at h
  | cons b r ih =>
    intro pairs h
    cases pairs with
    | nil => simp at h
    | cons y ps =>
      simp only [List.map_cons, List.cons.injEq] at h
      rw [lastIn, ih h.2, lastVal]
      cases lastVal v ps with
      | some w => rfl
      | none =>
        obtain ⟨i, x⟩ := y
        obtain ⟨f', l', h1, h2, h3, h4⟩ := conv_some h.1
        have hvi : varIdx V b = some i := varIdx_eq hc h1 h2 h3
        simp only [Option.map_none]
        by_cases hiv : i = v
        · subst hiv
          rw [h1] at hv
          cases hv
          rw [if_pos hvi, h4]
          simp
        · simp [hvi, hiv]

theorem mapM_range_some {β : Type} {f : Nat → Option β} {n : Nat} {g : Nat → β} (h : ∀ i < n, f i = some (g i)) :
    (List.range n).mapM f = some ((List.range n).map g) := by
  apply mapM_some
  rw [List.map_map]
  exact List.map_congr_left fun i hi => h i (by simpa using hi)

theorem mapM_eq_some {α β : Type} {f : α → Option β} : ∀ {l : List α} {r : List β}, l.mapM f = some r → l.map f = r.map some := by
  intro l
  induction l with
  | nil =>
    intro r h
    simp only [List.mapM_nil, pure, Option.some.injEq] at h
    subst h; rfl
  | cons x l ih =>
    intro r h
    rw [List.mapM_cons] at h
    cases e : f x with
    | none => simp [e] at h
    | some y =>
      cases e' : l.mapM f with
      | none => simp [e, e'] at h
      | some t =>
        simp only [e, e', Option.bind_eq_bind, Option.bind_some, pure, Option.some.injEq] at h
        subst h
        simp [e, ih e']

/-- The combined preconditions and effects, as pairs: the first precondition and the last effect of each variable. -/
def combPairs (vars : List (Nat × Nat)) (P : Problem) (tasks : List Nat) : Option (List (Nat × Nat) × List (Nat × Nat)) :=
  match tasks with
  | [t] => some (precV vars P t, addV vars P t)
  | _ => ((List.range vars.length).mapM fun v =>
      (startEnd (tasks.map (onVar vars P v)) none none).map fun q => (v, q)).map fun l =>
    (l.filterMap fun x => x.2.1.map fun y => (x.1, y), l.filterMap fun x => x.2.2.map fun y => (x.1, y))

theorem onVar_lt {P : Problem} {vars : List (Nat × Nat)} {S : SasP} (hS : SPok P vars S) {a v x : Nat}
    (h : (v, x) ∈ precV vars P a ∨ (v, x) ∈ addV vars P a) : ∃ f l, S.vars[v]? = some (f, l) ∧ x ≤ l - f := by
  have key : ∀ {bits : List Nat} {pairs : List (Nat × Nat)}, bits.map (conv S.vars) = pairs.map some → (v, x) ∈ pairs →
      ∃ f l, S.vars[v]? = some (f, l) ∧ x ≤ l - f := by
    intro bits pairs hb hm
    have : some (v, x) ∈ bits.map (conv S.vars) := by rw [hb]; exact List.mem_map_of_mem hm
    obtain ⟨b, -, e⟩ := List.mem_map.1 this
    obtain ⟨f, l, h1, h2, h3, h4⟩ := conv_some e
    exact ⟨f, l, h1, by omega⟩
  rcases h with h | h
  · exact key (hS.prec a) h
  · exact key (hS.add a) h

theorem startEnd_mem {l : List (Option Nat × Option Nat)} : ∀ {st en : Option Nat} {q : Option Nat × Option Nat},
    startEnd l st en = some q →
    (∀ y, q.1 = some y → st = some y ∨ ∃ z ∈ l, z.1 = some y) ∧ ∀ y, q.2 = some y → en = some y ∨ ∃ z ∈ l, z.2 = some y := by
  induction l with
  | nil => intro st en q h; cases h; exact ⟨fun y h => .inl h, fun y h => .inl h⟩
  | cons z r ih =>
    obtain ⟨p, a⟩ := z
    intro st en q h
    cases en with
    | none =>
      rw [startEnd] at h
      obtain ⟨h1, h2⟩ := ih h
      refine ⟨fun y hy => ?_, fun y hy => ?_⟩
      · rcases h1 y hy with h3 | ⟨z, hz, e⟩
        · cases st with
          | some w => exact .inl h3
          | none => exact .inr ⟨_, .head _, h3⟩
        · exact .inr ⟨z, .tail _ hz, e⟩
      · rcases h2 y hy with h3 | ⟨z, hz, e⟩
        · exact .inr ⟨_, .head _, by simpa using h3⟩
        · exact .inr ⟨z, .tail _ hz, e⟩
    | some e =>
      rw [startEnd] at h
      split at h
      · cases h
      obtain ⟨h1, h2⟩ := ih h
      refine ⟨fun y hy => ?_, fun y hy => ?_⟩
      · rcases h1 y hy with h3 | ⟨z, hz, e⟩
        · exact .inl h3
        · exact .inr ⟨z, .tail _ hz, e⟩
      · rcases h2 y hy with h3 | ⟨z, hz, e⟩
        · cases a with
          | none => exact .inl h3
          | some w => exact .inr ⟨_, .head _, h3⟩
        · exact .inr ⟨z, .tail _ hz, e⟩

/-- `combine` and `combPairs` describe the same preconditions and effects. -/
theorem combine_eq {P : Problem} {vars : List (Nat × Nat)} {S : SasP} (hS : SPok P vars S) (tasks : List Nat) :
    (combine S tasks = none ∧ combPairs vars P tasks = none) ∨
    ∃ p a p' a', combine S tasks = some (p, a) ∧ combPairs vars P tasks = some (p', a') ∧
      p.map (conv S.vars) = p'.map some ∧ a.map (conv S.vars) = a'.map some := by
  obtain ⟨n, hn⟩ := hS.contig
  rcases ht : tasks with _ | ⟨t, _ | ⟨t', r⟩⟩
  rotate_left
  · exact .inr ⟨_, _, _, _, rfl, rfl, hS.prec t, hS.add t⟩
  all_goals
    rw [← ht]
    have e1 : combine S tasks = ((List.range S.vars.length).mapM fun v =>
        startEnd (tasks.map fun t => (lastIn S.vars v (S.prec t), lastIn S.vars v (S.add t))) none none).map fun l =>
          (l.filterMap fun x => x.1, l.filterMap fun x => x.2) := by rw [ht]; rfl
    have e2 : combPairs vars P tasks = ((List.range vars.length).mapM fun v =>
        (startEnd (tasks.map (onVar vars P v)) none none).map fun q => (v, q)).map fun l =>
          (l.filterMap fun x => x.2.1.map fun y => (x.1, y), l.filterMap fun x => x.2.2.map fun y => (x.1, y)) := by rw [ht]; rfl
    have hvar : ∀ v < vars.length, ∃ f l, S.vars[v]? = some (f, l) ∧
        startEnd (tasks.map fun t => (lastIn S.vars v (S.prec t), lastIn S.vars v (S.add t))) none none =
          (startEnd (tasks.map (onVar vars P v)) none none).map fun q => (q.1.map (f + ·), q.2.map (f + ·)) := by
      intro v hv
      obtain ⟨⟨f, l⟩, hfl⟩ : ∃ x, S.vars[v]? = some x := ⟨_, List.getElem?_eq_getElem (by rw [hS.len]; exact hv)⟩
      refine ⟨f, l, hfl, ?_⟩
      have := startEnd_map (g := (f + ·)) (fun a b h => by simpa using h) (tasks.map (onVar vars P v)) none none
      rw [← this, List.map_map]
      congr 1
      refine List.map_congr_left fun t _ => ?_
      simp only [Function.comp, onVar, lastIn_eq (vars := vars) hn hfl (hS.prec t), lastIn_eq (vars := vars) hn hfl (hS.add t)]
    rw [e1, e2, hS.len]
    -- go through the variables
    have key : ∀ L : List Nat, (∀ v ∈ L, v < vars.length) →
        ((L.mapM fun v => startEnd (tasks.map fun t => (lastIn S.vars v (S.prec t), lastIn S.vars v (S.add t))) none none) = none ∧
          (L.mapM fun v => (startEnd (tasks.map (onVar vars P v)) none none).map fun q => (v, q)) = none) ∨
        ∃ l l', (L.mapM fun v => startEnd (tasks.map fun t => (lastIn S.vars v (S.prec t), lastIn S.vars v (S.add t))) none none) = some l ∧
          (L.mapM fun v => (startEnd (tasks.map (onVar vars P v)) none none).map fun q => (v, q)) = some l' ∧
          (l.filterMap fun x => x.1).map (conv S.vars) = (l'.filterMap fun x => x.2.1.map fun y => (x.1, y)).map some ∧
          (l.filterMap fun x => x.2).map (conv S.vars) = (l'.filterMap fun x => x.2.2.map fun y => (x.1, y)).map some := by
      intro L
      induction L with
      | nil => intro _; exact .inr ⟨[], [], rfl, rfl, rfl, rfl⟩
      | cons v L ih =>
        intro hL
        obtain ⟨f, l, hfl, hse⟩ := hvar v (hL v (.head _))
        simp only [List.mapM_cons, hse]
        cases e : startEnd (tasks.map (onVar vars P v)) none none with
        | none => exact .inl ⟨rfl, rfl⟩
        | some q =>
          have hmem := startEnd_mem e
          have hcv : ∀ y, q.1 = some y ∨ q.2 = some y → conv S.vars (f + y) = some (v, y) := by
            intro y hy
            have : ∃ a, (v, y) ∈ precV vars P a ∨ (v, y) ∈ addV vars P a := by
              rcases hy with hy | hy
              · rcases hmem.1 y hy with h | ⟨z, hz, e⟩
                · cases h
                · obtain ⟨t, -, rfl⟩ := List.mem_map.1 hz
                  exact ⟨t, .inl (lastVal_mem e)⟩
              · rcases hmem.2 y hy with h | ⟨z, hz, e⟩
                · cases h
                · obtain ⟨t, -, rfl⟩ := List.mem_map.1 hz
                  exact ⟨t, .inr (lastVal_mem e)⟩
            obtain ⟨a, ha⟩ := this
            obtain ⟨f', l', e1, e2⟩ := onVar_lt hS ha
            rw [hfl] at e1
            cases e1
            have := hn.get hfl
            rw [conv_eq hn hfl (by omega) (by omega)]
            congr 2
            omega
          rcases ih fun w hw => hL w (.tail _ hw) with ⟨h1, h2⟩ | ⟨l1, l2, h1, h2, h3, h4⟩
          · left
            rw [h1, h2]
            exact ⟨rfl, rfl⟩
          · right
            rw [h1, h2]
            refine ⟨_, _, rfl, rfl, ?_, ?_⟩
            · obtain ⟨q1, q2⟩ := q
              cases q1 with
              | none => simpa using h3
              | some y => simpa [hcv y (.inl rfl)] using h3
            · obtain ⟨q1, q2⟩ := q
              cases q2 with
              | none => simpa using h4
              | some y => simpa [hcv y (.inr rfl)] using h4
    rcases key (List.range vars.length) (by simp) with ⟨h1, h2⟩ | ⟨l, l', h1, h2, h3, h4⟩
    · left
      rw [h1, h2]
      exact ⟨rfl, rfl⟩
    · right
      rw [h1, h2]
      exact ⟨_, _, _, _, rfl, rfl, h3, h4⟩

/-! ## Combined operators and sequences -/

/-- Preconditions that only later effects or earlier preconditions concern agree: if two of the actions need a value of the
same variable and no action from the first to the one before the second has an effect on it, then they need the same
value. -/
def PrefixOK (vars : List (Nat × Nat)) (P : Problem) (tasks : List Nat) : Prop :=
  ∀ i j a b : Nat, i ≤ j → tasks[i]? = some a → tasks[j]? = some b → ∀ p ∈ precV vars P a, ∀ q ∈ precV vars P b, p.1 = q.1 →
    (∀ k c : Nat, i ≤ k → k < j → tasks[k]? = some c → ∀ e ∈ addV vars P c, e.1 ≠ p.1) → p.2 = q.2

theorem PrefixOK.precFun {vars : List (Nat × Nat)} {P : Problem} {tasks : List Nat} (h : PrefixOK vars P tasks) {a : Nat}
    (ha : a ∈ tasks) : PrecFun vars P a := by
  obtain ⟨i, hi⟩ := List.mem_iff_getElem?.1 ha
  exact fun x hx y hy e => h i i a a (le_refl _) hi hi x hx y hy e fun k c h1 h2 => by omega

theorem PrefixOK.tail {vars : List (Nat × Nat)} {P : Problem} {a : Nat} {r : List Nat} (h : PrefixOK vars P (a :: r)) :
    PrefixOK vars P r := by
  intro i j x y hij hi hj p hp q hq e hk
  refine h (i + 1) (j + 1) x y (by omega) (by simpa using hi) (by simpa using hj) p hp q hq e fun k c h1 h2 hc => ?_
  cases k with
  | zero => omega
  | succ k => exact hk k c (by omega) (by omega) (by simpa using hc)

/-- `st` is a precondition of an action before `tasks`, without effect in between. -/
theorem PrefixOK.noSkip_aux {vars : List (Nat × Nat)} {P : Problem} {v : Nat} : ∀ {tasks : List Nat} {st : Option Nat},
    PrefixOK vars P tasks →
    (∀ y, st = some y → ∀ j b : Nat, tasks[j]? = some b → ∀ q ∈ precV vars P b, q.1 = v →
      (∀ k c : Nat, k < j → tasks[k]? = some c → ∀ e ∈ addV vars P c, e.1 ≠ v) → y = q.2) →
    noSkip st (tasks.map (onVar vars P v)) := by
  intro tasks
  induction tasks with
  | nil => intros; trivial
  | cons a r ih =>
    intro st hP hst
    refine ⟨fun y z hy hz => ?_, fun ha => ih hP.tail fun y hy j b hb q hq hqv hk => ?_⟩
    · exact hst y hy 0 a rfl (v, z) (lastVal_mem hz) rfl fun k c hk => by omega
    · have ha : ∀ e ∈ addV vars P a, e.1 ≠ v := lastVal_none.1 ha
      have hk' : ∀ k c : Nat, k < j + 1 → (a :: r)[k]? = some c → ∀ e ∈ addV vars P c, e.1 ≠ v := by
        intro k c h1 hc
        cases k with
        | zero =>
          obtain rfl : a = c := by simpa using hc
          exact ha
        | succ k => exact hk k c (by omega) (by simpa using hc)
      cases st with
      | some w =>
        obtain rfl : w = y := by simpa using hy
        exact hst w rfl (j + 1) b (by simpa using hb) q hq hqv hk'
      | none =>
        have hy : lastVal v (precV vars P a) = some y := hy
        exact hP 0 (j + 1) a b (by omega) rfl (by simpa using hb) (v, y) (lastVal_mem hy) q hq hqv.symm
          fun k c _ h2 hc => hk' k c h2 hc

theorem PrefixOK.noSkip {vars : List (Nat × Nat)} {P : Problem} {tasks : List Nat} (h : PrefixOK vars P tasks) (v : Nat) :
    noSkip none (tasks.map (onVar vars P v)) := h.noSkip_aux fun y hy => by cases hy

theorem mem_filterMap_range {n : Nat} {g : Nat → Option Nat × Option Nat} {pr : Option Nat × Option Nat → Option Nat} {v y : Nat} :
    (v, y) ∈ (((List.range n).map fun v => (v, g v)).filterMap fun x => (pr x.2).map fun y => (x.1, y)) ↔
      v < n ∧ pr (g v) = some y := by
  simp only [List.mem_filterMap, List.mem_map, List.mem_range]
  constructor
  · rintro ⟨x, ⟨w, hw, rfl⟩, h⟩
    simp only [Option.map_eq_some_iff, Prod.mk.injEq] at h
    obtain ⟨z, hz, rfl, rfl⟩ := h
    exact ⟨hw, hz⟩
  · rintro ⟨h1, h2⟩
    exact ⟨_, ⟨v, h1, rfl⟩, by simp [h2]⟩

theorem lastVal_range {n : Nat} {g : Nat → Option Nat × Option Nat} {pr : Option Nat × Option Nat → Option Nat} {v : Nat} (hv : v < n) :
    lastVal v (((List.range n).map fun v => (v, g v)).filterMap fun x => (pr x.2).map fun y => (x.1, y)) = pr (g v) := by
  cases e : pr (g v) with
  | some y =>
    refine lastVal_fun ?_ (mem_filterMap_range.2 ⟨hv, e⟩)
    rintro ⟨x1, x2⟩ hx ⟨y1, y2⟩ hy h
    simp only at h
    subst h
    have h1 := (mem_filterMap_range.1 hx).2
    have h2 := (mem_filterMap_range.1 hy).2
    rw [h1] at h2
    exact Option.some.inj h2
  | none =>
    rw [lastVal_none]
    rintro ⟨w, y⟩ h rfl
    have := (mem_filterMap_range.1 h).2
    simp [e] at this

/-- What `combPairs` is made of. -/
theorem combPairs_some {vars : List (Nat × Nat)} {P : Problem} {tasks : List Nat} (h2 : 2 ≤ tasks.length)
    {p a : List (Nat × Nat)} (h : combPairs vars P tasks = some (p, a)) :
    ∃ g : Nat → Option Nat × Option Nat, (∀ v < vars.length, startEnd (tasks.map (onVar vars P v)) none none = some (g v)) ∧
      p = (((List.range vars.length).map fun v => (v, g v)).filterMap fun x => x.2.1.map fun y => (x.1, y)) ∧
      a = (((List.range vars.length).map fun v => (v, g v)).filterMap fun x => x.2.2.map fun y => (x.1, y)) := by
  match tasks, h2, h with
  | t :: t' :: r, _, h =>
    replace h : (((List.range vars.length).mapM fun v =>
        (startEnd ((t :: t' :: r).map (onVar vars P v)) none none).map fun q => (v, q)).map fun l =>
      (l.filterMap fun x => x.2.1.map fun y => (x.1, y), l.filterMap fun x => x.2.2.map fun y => (x.1, y))) = some (p, a) := h
    cases e : ((List.range vars.length).mapM fun v =>
      (startEnd ((t :: t' :: r).map (onVar vars P v)) none none).map fun q => (v, q)) with
    | none => rw [e] at h; cases h
    | some l =>
      simp only [e, Option.map_some, Option.some.injEq, Prod.mk.injEq] at h
      have hm := mapM_eq_some e
      have hget : ∀ v < vars.length, ∃ q, startEnd ((t :: t' :: r).map (onVar vars P v)) none none = some q ∧ l[v]? = some (v, q) := by
        intro v hv
        have := congrArg (fun l => l[v]?) hm
        simp only [List.getElem?_map, List.getElem?_range hv, Option.map_some] at this
        cases e1 : startEnd ((t :: t' :: r).map (onVar vars P v)) none none with
        | none => rw [e1] at this; cases e2 : l[v]? <;> simp [e2] at this
        | some q =>
          rw [e1] at this
          refine ⟨q, rfl, ?_⟩
          cases e2 : l[v]? with
          | none => simp [e2] at this
          | some x => rw [e2] at this; simpa using this.symm
      have hlen : l.length = vars.length := by
        have := congrArg List.length hm
        simpa using this.symm
      refine ⟨fun v => ((l[v]?).map Prod.snd).getD (none, none), fun v hv => ?_, ?_⟩
      · obtain ⟨q, h1, h2⟩ := hget v hv
        rw [h1]
        simp [h2]
      · have hl : l = (List.range vars.length).map fun v => (v, ((l[v]?).map Prod.snd).getD (none, none)) := by
          apply List.ext_getElem?
          intro v
          rcases Nat.lt_or_ge v vars.length with hv | hv
          · obtain ⟨q, h1, h2⟩ := hget v hv
            simp [List.getElem?_range hv, h2]
          · rw [List.getElem?_eq_none (by omega), List.getElem?_eq_none (by simpa using hv)]
        rw [← hl]
        exact ⟨h.1.symm, h.2.symm⟩

/-- The combined preconditions name each variable once. -/
theorem combPairs_fun {vars : List (Nat × Nat)} {P : Problem} {tasks : List Nat} (hne : tasks ≠ [])
    (hf : ∀ a ∈ tasks, PrecFun vars P a) {p a : List (Nat × Nat)} (h : combPairs vars P tasks = some (p, a)) :
    ∀ x ∈ p, ∀ y ∈ p, x.1 = y.1 → x.2 = y.2 := by
  rcases tasks with _ | ⟨t, _ | ⟨t', r⟩⟩
  · exact absurd rfl hne
  · simp only [combPairs, Option.some.injEq, Prod.mk.injEq] at h
    rw [← h.1]
    exact hf t (.head _)
  · obtain ⟨g, -, rfl, -⟩ := combPairs_some (by simp) h
    rintro ⟨x1, x2⟩ hx ⟨y1, y2⟩ hy e
    simp only at e
    subst e
    have h1 := (mem_filterMap_range.1 hx).2
    have h2 := (mem_filterMap_range.1 hy).2
    rw [h1] at h2
    exact Option.some.inj h2

theorem precV_lt {vars : List (Nat × Nat)} {P : Problem} {a : Nat} {p : Nat × Nat} (h : p ∈ precV vars P a) : p.1 < vars.length := by
  obtain ⟨b, -, e⟩ := List.mem_filterMap.1 h
  obtain ⟨f, l, h1, -⟩ := conv_some (i := p.1) (v := p.2) e
  exact (List.getElem?_eq_some_iff.1 h1).1

theorem addV_lt {vars : List (Nat × Nat)} {P : Problem} {a : Nat} {p : Nat × Nat} (h : p ∈ addV vars P a) : p.1 < vars.length := by
  rcases List.mem_append.1 h with h | h
  · obtain ⟨b, -, e⟩ := List.mem_filterMap.1 h
    obtain ⟨f, l, h1, -⟩ := conv_some (i := p.1) (v := p.2) e
    exact (List.getElem?_eq_some_iff.1 h1).1
  · obtain ⟨b, -, e⟩ := List.mem_filterMap.1 h
    cases e' : varIdx vars b with
    | none => simp [e'] at e
    | some i =>
      simp only [e', Option.map_some, Option.some.injEq] at e
      subst e
      obtain ⟨f, l, h1, -⟩ := varIdx_some e'
      exact (List.getElem?_eq_some_iff.1 h1).1

theorem seqRes_ge {vars : List (Nat × Nat)} {P : Problem} {v : Nat} (hv : vars.length ≤ v) : ∀ (l : List Nat) (σ : Val),
    seqRes vars P σ l v = σ v := by
  intro l
  induction l with
  | nil => intro σ; rfl
  | cons a r ih =>
    intro σ
    rw [seqRes, ih, assign_eq, lastVal_none.2]
    · rfl
    · intro p hp e
      have := addV_lt hp
      omega

/-- An executable sequence is combined, and the combined operator does what the sequence does. -/
theorem combPairs_complete {vars : List (Nat × Nat)} {P : Problem} {tasks : List Nat} (hne : tasks ≠ []) {σ : Val}
    (h : SeqHolds vars P σ tasks) :
    ∃ p a, combPairs vars P tasks = some (p, a) ∧ Holds σ p ∧ assign σ a = seqRes vars P σ tasks := by
  rcases tasks with _ | ⟨t, _ | ⟨t', r⟩⟩
  · exact absurd rfl hne
  · exact ⟨_, _, rfl, h.1, rfl⟩
  · have hok := h.ok
    have hse := fun v => startEnd_none (st := none) (hok v).1
    choose st en h1 h2 h3 using hse
    have he : combPairs vars P (t :: t' :: r) = some
        ((((List.range vars.length).map fun v => (v, (st v, en v))).filterMap fun x => x.2.1.map fun y => (x.1, y)),
        (((List.range vars.length).map fun v => (v, (st v, en v))).filterMap fun x => x.2.2.map fun y => (x.1, y))) := by
      simp only [combPairs]
      rw [mapM_range_some (g := fun v => (v, (st v, en v))) fun v _ => by rw [h1 v]; rfl]
      rfl
    refine ⟨_, _, he, ?_, ?_⟩
    · rintro ⟨v, y⟩ hp
      have := (mem_filterMap_range.1 hp).2
      rcases h2 v with h | h
      · simp [h] at this
      · simpa [h] using this
    · funext v
      rw [assign_eq]
      rcases Nat.lt_or_ge v vars.length with hv | hv
      · rw [lastVal_range (pr := Prod.snd) hv, (hok v).2]
        exact h3 v
      · rw [seqRes_ge hv, lastVal_none.2]
        · rfl
        · rintro ⟨w, y⟩ hp rfl
          have := (mem_filterMap_range.1 hp).1
          simp only at hv
          omega

/-- If the preconditions agree, the sequence is executable when the combined operator is. -/
theorem combPairs_sound {vars : List (Nat × Nat)} {P : Problem} {tasks : List Nat} (hok : PrefixOK vars P tasks)
    {p a : List (Nat × Nat)} (h : combPairs vars P tasks = some (p, a)) {σ : Val} (hp : Holds σ p) (hne : tasks ≠ []) :
    SeqHolds vars P σ tasks ∧ assign σ a = seqRes vars P σ tasks := by
  have hs : SeqHolds vars P σ tasks := by
    rcases tasks with _ | ⟨t, _ | ⟨t', r⟩⟩
    · exact absurd rfl hne
    · simp only [combPairs, Option.some.injEq, Prod.mk.injEq] at h
      refine ⟨?_, trivial⟩
      rw [h.1]
      exact hp
    · obtain ⟨g, h1, rfl, -⟩ := combPairs_some (by simp) h
      have key : ∀ v < vars.length, okSeq (σ v) ((t :: t' :: r).map (onVar vars P v)) := fun v hv =>
        okSeq_of_none (hok.noSkip v) (h1 v hv) fun y hy => hp (v, y) (mem_filterMap_range.2 ⟨hv, hy⟩)
      refine seqHolds_of_ok (fun a ha => hok.precFun ha) (fun a ha q hq => key _ (precV_lt hq)) ?_
      rintro v ⟨b, -, q, hq, rfl⟩
      exact key _ (precV_lt hq)
  obtain ⟨p', a', h1, -, h3⟩ := combPairs_complete hne hs
  rw [h] at h1
  cases h1
  exact ⟨hs, h3⟩

end Verif.Sas
