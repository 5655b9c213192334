import Verif.SymVars

/-! # Images of transition relations

The valuation of the variables of the problem that an assignment of the BDD variables stands for, and proofs that images and
preimages are computed exactly. -/

namespace Verif.Sym

open Verif.Htn Verif.Sas

/-- The number with the given bits. -/
def bitsVal (α : Asg) : List Nat → Nat
  | [] => 0
  | v :: vs => (if α v then 1 else 0) + 2 * bitsVal α vs

/-- The values of the variables. -/
def val (st : Nat) (vars : List (Nat × Nat)) (α : Asg) : Val := fun i => bitsVal α (pre st vars i)

theorem gen_iff (α : Asg) : ∀ (vs : List Nat) (k : Nat), k < 2 ^ vs.length → (gen vs k α ↔ bitsVal α vs = k)
  | [], k, h => by
    have : k = 0 := by simpa using h
    subst this
    exact ⟨fun _ => rfl, fun _ => trivial⟩
  | v :: vs, k, h => by
    have hk : k / 2 < 2 ^ vs.length := by
      rw [List.length_cons, Nat.pow_succ] at h
      omega
    simp only [gen, gen_iff α vs (k / 2) hk, bitsVal]
    cases hv : α v
    · simp only [Bool.false_eq_true, if_false]
      split <;> constructor <;> intro h' <;> (try simp at h') <;> (try refine ⟨trivial, ?_⟩) <;> omega
    · simp only [Bool.true_eq_false, if_true]
      split <;> constructor <;> intro h' <;> (try simp at h') <;> (try refine ⟨trivial, ?_⟩) <;> omega

theorem bitsVal_lt (α : Asg) : ∀ vs : List Nat, bitsVal α vs < 2 ^ vs.length
  | [] => by simp [bitsVal]
  | v :: vs => by
    have := bitsVal_lt α vs
    rw [bitsVal, List.length_cons, Nat.pow_succ]
    split <;> omega

theorem bitsVal_inj {α β : Asg} : ∀ vs : List Nat, bitsVal α vs = bitsVal β vs → ∀ v ∈ vs, α v = β v
  | [], _, v, hv => by simp at hv
  | x :: vs, h, v, hv => by
    rw [bitsVal, bitsVal] at h
    have h1 : α x = β x := by
      cases ha : α x <;> cases hb : β x <;> simp [ha, hb] at h ⊢ <;> omega
    rcases List.mem_cons.1 hv with rfl | hv
    · exact h1
    · exact bitsVal_inj vs (by rw [h1] at h; omega) v hv

theorem bitsVal_congr {α β : Asg} : ∀ vs : List Nat, (∀ v ∈ vs, α v = β v) → bitsVal α vs = bitsVal β vs
  | [], _ => rfl
  | x :: vs, h => by rw [bitsVal, bitsVal, h x (.head _), bitsVal_congr vs fun v hv => h v (.tail _ hv)]

theorem bitsVal_map {α : Asg} (g : Nat → Nat) : ∀ vs : List Nat, bitsVal α (vs.map g) = bitsVal (fun v => α (g v)) vs
  | [] => rfl
  | x :: vs => by rw [List.map_cons, bitsVal, bitsVal, bitsVal_map g vs]

/-! ## The numbers of the BDD variables -/

theorem preIdxs_get (st : Nat) : ∀ (b : Nat) (vars : List (Nat × Nat)) (i : Nat) (v : Nat × Nat), vars[i]? = some v →
    ∃ k, b ≤ k ∧ (st ∣ k - b) ∧ (preIdxs st b vars)[i]? = some ((List.range (varLen v)).map fun j => k + st * j)
  | b, [], i, v, h => by simp at h
  | b, x :: r, 0, v, h => by
    simp only [List.getElem?_cons_zero, Option.some.injEq] at h
    subst h
    exact ⟨b, le_refl _, by simp, by simp [preIdxs]⟩
  | b, x :: r, i + 1, v, h => by
    obtain ⟨k, h1, h2, h3⟩ := preIdxs_get st (b + st * varLen x) r i v (by simpa using h)
    refine ⟨k, by omega, ?_, by simpa [preIdxs] using h3⟩
    have e : k - b = (k - (b + st * varLen x)) + st * varLen x := by omega
    rw [e]
    exact Nat.dvd_add h2 (Nat.dvd_mul_right _ _)

theorem pre_length {st : Nat} {vars : List (Nat × Nat)} {i : Nat} {v : Nat × Nat} (hi : vars[i]? = some v) :
    (pre st vars i).length = varLen v := by
  obtain ⟨k, -, -, h⟩ := preIdxs_get st 0 vars i v hi
  simp [pre, h]

theorem pre_nil {st : Nat} {vars : List (Nat × Nat)} {i : Nat} (hi : vars.length ≤ i) : pre st vars i = [] := by
  have : ∀ b (vars : List (Nat × Nat)), (preIdxs st b vars).length = vars.length := by
    intro b vars
    induction vars generalizing b with
    | nil => rfl
    | cons x r ih => simp [preIdxs, ih]
  rw [pre, List.getElem?_eq_none (by rw [this]; exact hi)]
  rfl

theorem pre_mod {st : Nat} {vars : List (Nat × Nat)} {i v : Nat} (h : v ∈ pre st vars i) : v % st = 0 := by
  rcases Nat.lt_or_ge i vars.length with hi | hi
  · obtain ⟨k, -, h2, h3⟩ := preIdxs_get st 0 vars i _ (List.getElem?_eq_getElem hi)
    rw [pre, h3] at h
    simp only [Option.getD_some, List.mem_map] at h
    obtain ⟨j, -, rfl⟩ := h
    exact Nat.mod_eq_zero_of_dvd (Nat.dvd_add (by simpa using h2) (Nat.dvd_mul_right _ _))
  · rw [pre_nil hi] at h
    simp at h

theorem preIdxs_lt (st : Nat) (h0 : 0 < st) : ∀ (b : Nat) (vars : List (Nat × Nat)) (i j : Nat) (xs ys : List Nat),
    i < j → (preIdxs st b vars)[i]? = some xs → (preIdxs st b vars)[j]? = some ys → ∀ x ∈ xs, ∀ y ∈ ys, x < y
  | b, [], i, j, xs, ys, _, h, _ => by simp [preIdxs] at h
  | b, v :: r, i, 0, xs, ys, h, _, _ => absurd h (by omega)
  | b, v :: r, 0, j + 1, xs, ys, _, hx, hy => by
    intro x h1 y h2
    simp only [preIdxs, List.getElem?_cons_zero, Option.some.injEq] at hx
    subst hx
    simp only [List.mem_map, List.mem_range] at h1
    obtain ⟨k, hk, rfl⟩ := h1
    simp only [preIdxs, List.getElem?_cons_succ] at hy
    have hj : j < r.length := by
      have : ∀ b (vars : List (Nat × Nat)), (preIdxs st b vars).length = vars.length := by
        intro b vars
        induction vars generalizing b with
        | nil => rfl
        | cons x r ih => simp [preIdxs, ih]
      by_contra hc
      rw [List.getElem?_eq_none (by rw [this]; omega)] at hy
      cases hy
    obtain ⟨k', h3, -, h4⟩ := preIdxs_get st (b + st * varLen v) r j _ (List.getElem?_eq_getElem hj)
    rw [h4] at hy
    cases hy
    simp only [List.mem_map] at h2
    obtain ⟨k2, -, rfl⟩ := h2
    have : st * k < st * varLen v := Nat.mul_lt_mul_of_pos_left hk h0
    omega
  | b, v :: r, i + 1, j + 1, xs, ys, h, hx, hy => by
    simp only [preIdxs, List.getElem?_cons_succ] at hx hy
    exact preIdxs_lt st h0 _ r i j xs ys (by omega) hx hy

theorem pre_disjoint {st : Nat} (h0 : 0 < st) {vars : List (Nat × Nat)} {i j v : Nat} (hi : v ∈ pre st vars i)
    (hj : v ∈ pre st vars j) : i = j := by
  have get : ∀ k, v ∈ pre st vars k → ∃ xs, (preIdxs st 0 vars)[k]? = some xs ∧ v ∈ xs := by
    intro k hk
    rw [pre] at hk
    cases h : (preIdxs st 0 vars)[k]? with
    | none => simp [h] at hk
    | some xs => exact ⟨xs, rfl, by simpa [h] using hk⟩
  obtain ⟨xs, h1, h2⟩ := get i hi
  obtain ⟨ys, h3, h4⟩ := get j hj
  rcases Nat.lt_trichotomy i j with h | h | h
  · exact absurd (preIdxs_lt st h0 0 vars i j xs ys h h1 h3 v h2 v h4) (lt_irrefl _)
  · exact h
  · exact absurd (preIdxs_lt st h0 0 vars j i ys xs h h3 h1 v h4 v h2) (lt_irrefl _)

/-! ## Exchanging variables -/

theorem swapVar_map (xs : List Nat) (hd : ∀ x ∈ xs, x + 1 ∉ xs) (v : Nat) : swapVar xs (xs.map (· + 1)) v =
    if v ∈ xs then v + 1 else if 0 < v ∧ v - 1 ∈ xs then v - 1 else v := by
  induction xs with
  | nil => simp [swapVar]
  | cons x xs ih =>
    have ih := ih fun y hy h => hd y (.tail _ hy) (.tail _ h)
    rw [List.map_cons, swapVar, ih]
    by_cases h1 : v = x
    · subst h1; simp
    · by_cases h2 : v = x + 1
      · subst h2
        have : x + 1 ∉ x :: xs := hd x (.head _)
        rw [if_neg h1, if_pos rfl, if_neg this, if_pos (by simp)]
        simp
      · rw [if_neg h1, if_neg h2]
        have e1 : v ∈ x :: xs ↔ v ∈ xs := by simp [h1]
        have e2 : 0 < v ∧ v - 1 ∈ x :: xs ↔ 0 < v ∧ v - 1 ∈ xs := by
          simp only [List.mem_cons]
          constructor
          · rintro ⟨a, b | b⟩
            · omega
            · exact ⟨a, b⟩
          · rintro ⟨a, b⟩
            exact ⟨a, .inr b⟩
        simp only [e1, e2]

variable {st : Nat} {P : Problem} {vars : List (Nat × Nat)} {a : Nat}

theorem swapSp_eq (st : Nat) (P : Problem) (vars : List (Nat × Nat)) (a : Nat) : swapSp st P vars a = (swapS st P vars a).map (· + 1) := by
  rw [swapS, swapSp, List.map_flatMap]
  rfl

theorem mem_swapS {v : Nat} : v ∈ swapS st P vars a ↔
    ∃ i < vars.length, (effAt i (effWrites P vars a)).isSome ∧ v ∈ pre st vars i := by
  simp only [swapS, effVars, List.mem_flatMap, List.mem_filter, List.mem_range]
  constructor
  · rintro ⟨i, ⟨h1, h2⟩, h3⟩
    exact ⟨i, h1, h2, h3⟩
  · rintro ⟨i, h1, h2, h3⟩
    exact ⟨i, ⟨h1, h2⟩, h3⟩

theorem swapS_mod {v : Nat} (h : v ∈ swapS st P vars a) : v % st = 0 := by
  obtain ⟨i, -, -, h⟩ := mem_swapS.1 h
  exact pre_mod h

theorem swapVar_eq (h2 : 2 ≤ st) (v : Nat) : swapVar (swapS st P vars a) (swapSp st P vars a) v =
    if v ∈ swapS st P vars a then v + 1 else if 0 < v ∧ v - 1 ∈ swapS st P vars a then v - 1 else v := by
  rw [swapSp_eq]
  refine swapVar_map _ (fun x hx hx' => ?_) v
  have h3 := swapS_mod hx
  have h4 := swapS_mod hx'
  rw [Nat.add_mod, h3, Nat.zero_add, Nat.mod_mod, Nat.mod_eq_of_lt (by omega)] at h4
  omega

/-! ## The transition relation -/

theorem domSize_le {v : Nat × Nat} : domSize v ≤ 2 ^ varLen v := Nat.le_pow_clog (by omega) _

theorem conv_lt {c i v : Nat} (h : conv vars c = some (i, v)) : v < 2 ^ (pre st vars i).length := by
  obtain ⟨f, l, h1, h2, h3, h4⟩ := conv_some h
  rw [pre_length h1]
  refine lt_of_lt_of_le ?_ domSize_le
  simp only [domSize]
  split <;> omega

theorem val_pair (α : Asg) {l : List Nat} : (∀ p ∈ l.filterMap (conv vars), gen (pre st vars p.1) p.2 α) ↔
    Holds (val st vars α) (l.filterMap (conv vars)) := by
  refine forall_congr' fun p => forall_congr' fun hp => ?_
  obtain ⟨c, -, hc⟩ := List.mem_filterMap.1 hp
  exact gen_iff α _ _ (conv_lt (i := p.1) (v := p.2) hc)

/-- The value that a write stands for. -/
def writeVal (e : Nat × Bool) : Nat := if e.2 then e.1 else 1

theorem lastVal_writes (i : Nat) (ws : List (Nat × Nat × Bool)) :
    lastVal i (ws.map fun w => (w.1, writeVal w.2)) = (effAt i ws).map writeVal := by
  induction ws with
  | nil => rfl
  | cons w r ih =>
    rw [List.map_cons, lastVal, ih, effAt]
    cases effAt i r with
    | some e => rfl
    | none =>
      simp only [Option.map_none]
      split <;> rfl

theorem effAt_mem {i : Nat} {e : Nat × Bool} {ws : List (Nat × Nat × Bool)} (h : effAt i ws = some e) : (i, e) ∈ ws := by
  induction ws with
  | nil => cases h
  | cons w r ih =>
    rw [effAt] at h
    cases h' : effAt i r with
    | some e' =>
      rw [h'] at h
      cases h
      exact .tail _ (ih h')
    | none =>
      rw [h'] at h
      simp only at h
      split at h
      · next hw =>
        cases h
        subst hw
        exact .head _
      · cases h

theorem writes_addV (hc : Contig 0 vars P.numFacts) :
    (effWrites P vars a).map (fun w => (w.1, writeVal w.2)) = addV vars P a := by
  rw [effWrites, addV, List.map_append, List.map_map, List.map_map]
  congr 1
  · exact List.map_id _
  · rw [List.map_filterMap]
    refine List.filterMap_congr fun b hb => ?_
    rw [conv]
    cases h : varIdx vars b with
    | none => rfl
    | some i =>
      obtain ⟨f, l, h1, -, -⟩ := varIdx_some h
      simp [h1, writeVal]

theorem effAt_lastVal (hc : Contig 0 vars P.numFacts) (i : Nat) :
    (effAt i (effWrites P vars a)).map writeVal = lastVal i (addV vars P a) := by
  rw [← lastVal_writes, writes_addV hc]

theorem effBdd_iff (hc : Contig 0 vars P.numFacts) (α : Asg) {i : Nat} :
    effBdd st vars i (effAt i (effWrites P vars a)) α ↔
      ∀ v, lastVal i (addV vars P a) = some v → bitsVal α (eff st vars i) = v := by
  rw [← effAt_lastVal hc]
  cases h : effAt i (effWrites P vars a) with
  | none => simp [effBdd]
  | some e =>
    obtain ⟨v, b⟩ := e
    have hm := effAt_mem h
    rw [effWrites, List.mem_append] at hm
    have hlen : (eff st vars i).length = (pre st vars i).length := by simp [eff]
    cases b with
    | true =>
      simp only [effBdd, Option.map_some, writeVal, if_true, Option.some.injEq, forall_eq']
      rcases hm with hm | hm
      · obtain ⟨p, h1, h2⟩ := List.mem_map.1 hm
        simp only [Prod.mk.injEq, and_true] at h2
        obtain ⟨rfl, rfl⟩ := h2
        obtain ⟨c, -, h3⟩ := List.mem_filterMap.1 h1
        exact gen_iff α _ _ (by rw [hlen]; exact conv_lt (i := p.1) (v := p.2) h3)
      · simp at hm
    | false =>
      simp only [effBdd, Option.map_some, writeVal, Bool.false_eq_true, if_false, Option.some.injEq, forall_eq']
      rcases hm with hm | hm
      · simp at hm
      · obtain ⟨p, h1, h2⟩ := List.mem_map.1 hm
        simp only [Prod.mk.injEq, and_true] at h2
        obtain ⟨rfl, rfl⟩ := h2
        obtain ⟨c, h4, h3⟩ := List.mem_filterMap.1 h1
        obtain ⟨f, l, e1, e2, e3, e4⟩ := conv_some (i := p.1) (v := p.2) h3
        have e5 := (bitAlone_iff hc e1 e2 e3).1 (List.mem_filter.1 h4).2
        have e6 : p.2 = 0 := by omega
        have e7 : (eff st vars p.1).length = 1 := by
          rw [hlen, pre_length e1]
          simp only [varLen, domSize, e5, if_true]
          decide
        have e8 := bitsVal_lt α (eff st vars p.1)
        rw [e7] at e8
        rw [gen_iff α _ _ (by rw [e6]; exact Nat.two_pow_pos _), e6]
        omega

/-- The transition relation: preconditions in the first copy, effects in the second. -/
theorem trBdd_iff (hc : Contig 0 vars P.numFacts) (α : Asg) : trBdd st P vars a α ↔
    Holds (val st vars α) (precV vars P a) ∧
      ∀ i < vars.length, ∀ v, lastVal i (addV vars P a) = some v → bitsVal α (eff st vars i) = v := by
  rw [trBdd, val_pair]
  exact and_congr Iff.rfl (forall_congr' fun i => forall_congr' fun _ => effBdd_iff hc α)

/-- The BDD does not depend on the second copy. -/
def FreeEff (st : Nat) (f : Bdd) : Prop := ∀ α β : Asg, (∀ v, v % st ≠ 1 → α v = β v) → (f α ↔ f β)

theorem isSome_iff (hc : Contig 0 vars P.numFacts) {i : Nat} :
    (effAt i (effWrites P vars a)).isSome ↔ (lastVal i (addV vars P a)).isSome := by
  rw [← effAt_lastVal hc, Option.isSome_map]

theorem mod_ne (h2 : 2 ≤ st) {v : Nat} (h : v % st = 0) : (v + 1) % st = 1 := by
  rw [Nat.add_mod, h, Nat.zero_add, Nat.mod_mod, Nat.mod_eq_of_lt (by omega)]

/-- Images: exactly the assignments reached by the action, with the other copies unchanged. -/
theorem image_iff (h2 : 2 ≤ st) (hc : Contig 0 vars P.numFacts) {f : Bdd} (hf : FreeEff st f) (α' : Asg) :
    image st P vars a f α' ↔ ∃ α : Asg, f α ∧ (∀ v, (∀ i < vars.length, v ∉ pre st vars i) → α v = α' v) ∧
      Holds (val st vars α) (precV vars P a) ∧
      ∀ i < vars.length, val st vars α' i = assign (val st vars α) (addV vars P a) i := by
  have hpe : ∀ {v i : Nat}, v ∈ pre st vars i → v + 1 ∉ swapS st P vars a := by
    intro v i h h'
    have := swapS_mod h'
    rw [mod_ne h2 (pre_mod h)] at this
    omega
  have heff : ∀ {β : Asg} {i : Nat}, i < vars.length → (lastVal i (addV vars P a)).isSome →
      (∀ v, v ∉ swapS st P vars a → β v = α' (swapVar (swapS st P vars a) (swapSp st P vars a) v)) →
      bitsVal β (eff st vars i) = val st vars α' i := by
    intro β i hi hs hβ
    rw [eff, bitsVal_map, val]
    refine bitsVal_congr _ fun v hv => ?_
    have hm : v ∈ swapS st P vars a := mem_swapS.2 ⟨i, hi, (isSome_iff hc).2 hs, hv⟩
    rw [hβ _ (hpe hv), swapVar_eq h2, if_neg (hpe hv), if_pos (by simpa using hm)]
    simp
  constructor
  · rintro ⟨β, h1, h3, h4⟩
    simp only at h1
    rw [trBdd_iff hc] at h3
    refine ⟨fun v => if v % st = 1 then α' v else β v, ?_, ?_, ?_, ?_⟩
    · exact (hf _ _ fun v hv => by simp [hv]).2 h4
    · intro v hv
      by_cases hm : v % st = 1
      · simp [hm]
      · simp only [hm, if_false]
        have hns : v ∉ swapS st P vars a := fun h => by
          obtain ⟨i, hi, -, h⟩ := mem_swapS.1 h
          exact hv i hi h
        rw [h1 v hns, swapVar_eq h2, if_neg hns]
        split
        · next h =>
          have := mod_ne h2 (swapS_mod h.2)
          rw [show v - 1 + 1 = v from by omega] at this
          exact absurd this hm
        · rfl
    · have : val st vars (fun v => if v % st = 1 then α' v else β v) = val st vars β := by
        funext i
        refine bitsVal_congr _ fun v hv => ?_
        simp [pre_mod hv]
      rw [this]
      exact h3.1
    · intro i hi
      rw [assign_eq]
      cases hl : lastVal i (addV vars P a) with
      | some v =>
        simp only [Option.getD_some]
        rw [← heff hi (by simp [hl]) h1]
        exact h3.2 i hi v hl
      | none =>
        simp only [Option.getD_none]
        refine (bitsVal_congr _ fun v hv => ?_).symm
        have hns : v ∉ swapS st P vars a := fun h => by
          obtain ⟨j, -, hj, h⟩ := mem_swapS.1 h
          rw [pre_disjoint (by omega) hv h] at hl
          rw [isSome_iff hc, hl] at hj
          cases hj
        have hm := pre_mod hv
        simp only [hm, Nat.zero_ne_one, if_false]
        rw [h1 v hns, swapVar_eq h2, if_neg hns]
        split
        · next h =>
          have := mod_ne h2 (swapS_mod h.2)
          rw [show v - 1 + 1 = v from by omega] at this
          omega
        · rfl
  · rintro ⟨α, h1, h3, h4, h5⟩
    refine ⟨fun v => if v ∈ swapS st P vars a then α v else
      α' (swapVar (swapS st P vars a) (swapSp st P vars a) v), fun v hv => by simp [hv], ?_, ?_⟩
    all_goals
      have hag : ∀ v, v % st ≠ 1 → (if v ∈ swapS st P vars a then α v else
          α' (swapVar (swapS st P vars a) (swapSp st P vars a) v)) = α v := by
        intro v hv
        split
        · rfl
        · next hns =>
          rw [swapVar_eq h2, if_neg hns]
          have : ¬ (0 < v ∧ v - 1 ∈ swapS st P vars a) := by
            rintro ⟨h6, h7⟩
            have := mod_ne h2 (swapS_mod h7)
            rw [show v - 1 + 1 = v from by omega] at this
            exact hv this
          rw [if_neg this]
          by_cases hex : ∃ i < vars.length, v ∈ pre st vars i
          · obtain ⟨i, hi, hvi⟩ := hex
            have hl : lastVal i (addV vars P a) = none := by
              by_contra hl
              exact hns (mem_swapS.2 ⟨i, hi, (isSome_iff hc).2 (Option.isSome_iff_ne_none.2 hl), hvi⟩)
            have := h5 i hi
            rw [assign_eq, hl] at this
            exact bitsVal_inj _ this v hvi
          · push Not at hex
            exact (h3 v hex).symm
    · rw [trBdd_iff hc]
      refine ⟨?_, ?_⟩
      · have : val st vars (fun v => if v ∈ swapS st P vars a then α v else
            α' (swapVar (swapS st P vars a) (swapSp st P vars a) v)) = val st vars α := by
          funext i
          exact bitsVal_congr _ fun v hv => hag v (by rw [pre_mod hv]; omega)
        rw [this]
        exact h4
      · intro i hi v hl
        rw [heff hi (by simp [hl]) (fun w hw => by simp [hw]), h5 i hi, assign_eq, hl]
        rfl
    · exact (hf _ _ hag).2 h1

theorem mem_swapSp {v : Nat} : v ∈ swapSp st P vars a ↔ 0 < v ∧ v - 1 ∈ swapS st P vars a := by
  rw [swapSp_eq, List.mem_map]
  constructor
  · rintro ⟨x, h, rfl⟩
    exact ⟨by omega, by simpa using h⟩
  · rintro ⟨h1, h2⟩
    exact ⟨v - 1, h2, by omega⟩

theorem swapSp_mod (h2 : 2 ≤ st) {v : Nat} (h : v ∈ swapSp st P vars a) : v % st = 1 := by
  rw [mem_swapSp] at h
  have := mod_ne h2 (swapS_mod h.2)
  rwa [show v - 1 + 1 = v from by omega] at this

/-- Preimages. -/
theorem preimage_iff (h2 : 2 ≤ st) (hc : Contig 0 vars P.numFacts) {f : Bdd} (hf : FreeEff st f) (α : Asg) :
    preimage st P vars a f α ↔ ∃ α' : Asg, f α' ∧ (∀ v, (∀ i < vars.length, v ∉ pre st vars i) → α v = α' v) ∧
      Holds (val st vars α) (precV vars P a) ∧
      ∀ i < vars.length, val st vars α' i = assign (val st vars α) (addV vars P a) i := by
  have hsw : ∀ {v}, v % st ≠ 1 → v ∉ swapS st P vars a → swapVar (swapS st P vars a) (swapSp st P vars a) v = v := by
    intro v hv hns
    rw [swapVar_eq h2, if_neg hns, if_neg]
    intro h
    exact hv (swapSp_mod h2 (mem_swapSp.2 h))
  have hnS : ∀ {i v}, lastVal i (addV vars P a) = none → v ∈ pre st vars i → v ∉ swapS st P vars a := by
    intro i v hl hv h
    obtain ⟨j, -, hj, h⟩ := mem_swapS.1 h
    rw [pre_disjoint (by omega) hv h] at hl
    rw [isSome_iff hc, hl] at hj
    cases hj
  have hpSp : ∀ {v}, v % st ≠ 1 → v ∉ swapSp st P vars a := fun h h' => h (swapSp_mod h2 h')
  have hp1 : ∀ {i v}, v ∈ pre st vars i → v % st ≠ 1 := fun h => by rw [pre_mod h]; omega
  constructor
  · rintro ⟨β, h1, h3, h4⟩
    rw [trBdd_iff hc] at h3
    have hval : val st vars β = val st vars α := by
      funext i
      exact bitsVal_congr _ fun v hv => h1 v (hpSp (hp1 hv))
    refine ⟨fun v => if v % st = 1 then α v else β (swapVar (swapS st P vars a) (swapSp st P vars a) v), ?_, ?_, ?_, ?_⟩
    · exact (hf _ _ fun v hv => by simp [hv]).2 h4
    · intro v hv
      by_cases hm : v % st = 1
      · simp [hm]
      · simp only [hm, if_false]
        have hns : v ∉ swapS st P vars a := fun h => by
          obtain ⟨i, hi, -, h⟩ := mem_swapS.1 h
          exact hv i hi h
        rw [hsw hm hns, h1 v (hpSp hm)]
    · rw [← hval]
      exact h3.1
    · intro i hi
      rw [assign_eq]
      cases hl : lastVal i (addV vars P a) with
      | some v =>
        simp only [Option.getD_some]
        rw [← h3.2 i hi v hl, eff, bitsVal_map, val]
        refine bitsVal_congr _ fun w hw => ?_
        have hm : w ∈ swapS st P vars a := mem_swapS.2 ⟨i, hi, (isSome_iff hc).2 (by simp [hl]), hw⟩
        simp only [hp1 hw, if_false]
        rw [swapVar_eq h2, if_pos hm]
      | none =>
        simp only [Option.getD_none]
        refine bitsVal_congr _ fun v hv => ?_
        simp only [hp1 hv, if_false]
        rw [hsw (hp1 hv) (hnS hl hv), h1 v (hpSp (hp1 hv))]
  · rintro ⟨α', h1, h3, h4, h5⟩
    refine ⟨fun v => if v ∈ swapSp st P vars a then α' (v - 1) else α v, fun v hv => by simp [hv], ?_, ?_⟩
    · rw [trBdd_iff hc]
      refine ⟨?_, ?_⟩
      · have : val st vars (fun v => if v ∈ swapSp st P vars a then α' (v - 1) else α v) = val st vars α := by
          funext i
          exact bitsVal_congr _ fun v hv => by simp [hpSp (hp1 hv)]
        rw [this]
        exact h4
      · intro i hi v hl
        have := h5 i hi
        rw [assign_eq, hl] at this
        rw [eff, bitsVal_map, ← show val st vars α' i = v from this, val]
        refine bitsVal_congr _ fun w hw => ?_
        have hm : w + 1 ∈ swapSp st P vars a := mem_swapSp.2 ⟨by omega, by
          simpa using mem_swapS.2 ⟨i, hi, (isSome_iff hc).2 (by simp [hl]), hw⟩⟩
        simp [hm]
    · refine (hf _ α' fun v hv => ?_).2 h1
      by_cases hS : v ∈ swapS st P vars a
      · rw [swapVar_eq h2, if_pos hS]
        have : v + 1 ∈ swapSp st P vars a := mem_swapSp.2 ⟨by omega, by simpa using hS⟩
        simp [this]
      · rw [hsw hv hS]
        simp only [hpSp hv, if_false]
        by_cases hex : ∃ i < vars.length, v ∈ pre st vars i
        · obtain ⟨i, hi, hvi⟩ := hex
          have hl : lastVal i (addV vars P a) = none := by
            by_contra hl
            exact hS (mem_swapS.2 ⟨i, hi, (isSome_iff hc).2 (Option.isSome_iff_ne_none.2 hl), hvi⟩)
          have := h5 i hi
          rw [assign_eq, hl] at this
          exact (bitsVal_inj _ this v hvi).symm
        · push Not at hex
          exact h3 v hex

/-! ## States -/

/-- The BDD of the initial state. -/
theorem stateBdd_iff {n : Nat} (hc : Contig 0 vars n) {fs : List Nat} (hfs : ∀ f ∈ fs, f < n)
    (hs : Consistent vars fun f => f ∈ fs) (α : Asg) :
    stateBdd st vars fs α ↔ Corr vars (fun f => f ∈ fs) (val st vars α) := by
  have hone : ∀ {i : Nat} {v : Nat × Nat}, vars[i]? = some v → 1 < 2 ^ (pre st vars i).length := by
    intro i v hi
    rw [pre_length hi]
    refine lt_of_lt_of_le ?_ domSize_le
    have := (hc.get (f := v.1) (l := v.2) hi).2.1
    simp only [domSize]
    split <;> omega
  constructor
  · rintro ⟨h1, h2⟩
    rw [val_pair] at h1
    intro i f l hi
    have hfl := hc.get hi
    have hmem : ∀ b, b ∈ fs → f ≤ b → b ≤ l → val st vars α i = b - f := fun b hb e1 e2 =>
      h1 (i, b - f) (List.mem_filterMap.2 ⟨b, hb, conv_eq hc hi e1 e2⟩)
    rcases Nat.lt_or_ge f l with hlt | hge
    · obtain ⟨b, e1, e2, e3, e4⟩ := hs _ (List.mem_of_getElem? hi) hlt
      simp only at e1 e2 e4
      have := hmem b e3 e1 e2
      refine ⟨.inl (by omega), fun v hv => ⟨fun h => ?_, fun h => ?_⟩⟩
      · have := e4 (f + v) (by omega) (by omega) h
        omega
      · rw [show f + v = b from by omega]
        exact e3
    · by_cases hf : f ∈ fs
      · have := hmem f hf (le_refl _) (by omega)
        refine ⟨.inl (by omega), fun v hv => ?_⟩
        rw [show v = 0 from by omega]
        exact ⟨fun _ => by omega, fun _ => hf⟩
      · have := h2 i (List.getElem?_eq_some_iff.1 hi).1 (fun p hp e => by
          obtain ⟨c, hc1, hc2⟩ := List.mem_filterMap.1 hp
          obtain ⟨f', l', g1, g2, g3, -⟩ := conv_some (i := p.1) (v := p.2) hc2
          rw [e, hi] at g1
          cases g1
          rw [show f = c from by omega] at hf
          exact hf hc1)
        rw [gen_iff α _ _ (hone hi)] at this
        have : val st vars α i = 1 := this
        refine ⟨.inr ⟨by omega, this⟩, fun v hv => ?_⟩
        rw [show v = 0 from by omega, this]
        exact ⟨fun h => absurd h hf, fun h => by omega⟩
  · intro h
    refine ⟨(val_pair α).2 ((h.holds hc hfs).2 fun b hb => hb), fun i hi hno => ?_⟩
    obtain ⟨⟨f, l⟩, hv⟩ : ∃ v, vars[i]? = some v := ⟨_, List.getElem?_eq_getElem hi⟩
    have hfl := hc.get hv
    have hnot : ∀ b, f ≤ b → b ≤ l → b ∉ fs := fun b e1 e2 hb =>
      hno (i, b - f) (List.mem_filterMap.2 ⟨b, hb, conv_eq hc hv e1 e2⟩) rfl
    rw [gen_iff α _ _ (hone hv)]
    obtain ⟨g1, g2⟩ := h i f l hv
    rcases Nat.lt_or_ge f l with hlt | hge
    · obtain ⟨b, e1, e2, e3, -⟩ := hs _ (List.mem_of_getElem? hv) hlt
      exact absurd e3 (hnot b e1 e2)
    · rcases g1 with g1 | g1
      · exact absurd ((g2 0 (by omega)).2 (by omega)) (hnot f (le_refl _) (by omega))
      · exact g1.2

/-- Every valuation of the variables in their domains has an assignment of the BDD variables. -/
theorem exists_bits (vs : List Nat) (hn : vs.Nodup) (k : Nat) (h : k < 2 ^ vs.length) : ∃ α : Asg, bitsVal α vs = k := by
  induction vs generalizing k with
  | nil => exact ⟨fun _ => false, by simp at h; simp [bitsVal, h]⟩
  | cons v vs ih =>
    rw [List.length_cons, Nat.pow_succ] at h
    obtain ⟨α, hα⟩ := ih (List.nodup_cons.1 hn).2 (k / 2) (by omega)
    refine ⟨Function.update α v (k % 2 = 1), ?_⟩
    rw [bitsVal, bitsVal_congr (β := α) vs fun w hw => Function.update_of_ne (fun e => (List.nodup_cons.1 hn).1 (by rw [← e]; exact hw)) _ _, hα]
    rcases Nat.mod_two_eq_zero_or_one k with h0 | h0 <;> simp [h0] <;> omega

theorem exists_asg (h0 : 0 < st) {σ : Val} (hσ : ∀ (i : Nat) v, vars[i]? = some v → σ i < domSize v) :
    ∃ α : Asg, ∀ i < vars.length, val st vars α i = σ i := by
  classical
  have h1 : ∀ i : Nat, ∃ α : Asg, i < vars.length → bitsVal α (pre st vars i) = σ i := by
    intro i
    by_cases hi : i < vars.length
    · have hv := List.getElem?_eq_getElem hi
      obtain ⟨k, -, -, hk⟩ := preIdxs_get st 0 vars i _ hv
      obtain ⟨α, hα⟩ := exists_bits (pre st vars i) (by
        rw [pre, hk]
        exact List.Nodup.map (fun x y h => by
          have : st * x = st * y := by omega
          exact Nat.eq_of_mul_eq_mul_left h0 this) List.nodup_range) (σ i) (by
        rw [pre_length hv]
        exact lt_of_lt_of_le (hσ i _ hv) domSize_le)
      exact ⟨α, fun _ => hα⟩
    · exact ⟨fun _ => false, fun h => absurd h hi⟩
  choose A hA using h1
  refine ⟨fun v => if h : ∃ i, v ∈ pre st vars i then A h.choose v else false, fun i hi => ?_⟩
  rw [← hA i hi, val]
  refine bitsVal_congr _ fun v hv => ?_
  have h : ∃ i, v ∈ pre st vars i := ⟨i, hv⟩
  simp only [h, dite_true]
  rw [pre_disjoint h0 h.choose_spec hv]

/-- Every consistent state has an assignment. -/
theorem exists_corr_asg (h0 : 0 < st) {n : Nat} (hc : Contig 0 vars n) {s : State} (hs : Consistent vars s) :
    ∃ α : Asg, Corr vars s (val st vars α) := by
  obtain ⟨σ, hσ⟩ := hs.exists_corr hc
  obtain ⟨α, hα⟩ := exists_asg (st := st) h0 (vars := vars) (σ := σ) (by
    intro i v hv
    have := (hσ i v.1 v.2 hv).1
    have := (hc.get (f := v.1) (l := v.2) hv).2.1
    simp only [domSize]
    split <;> omega)
  refine ⟨α, fun i f l hi => ?_⟩
  rw [hα i (List.getElem?_eq_some_iff.1 hi).1]
  exact hσ i f l hi

end Verif.Sym
