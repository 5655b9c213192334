import Verif.Invariants
import Verif.HtnLemmas

/-! # Model of the invariant synthesis (src/Invariants.cpp 191-510)

Candidates are kept in a list together with their entry of `toDelete`.  The lists `posInvarsPerPredicate[p]` and
`negInvarsPerPredicate[p]` contain the indices of the candidates with the literal `p` or `-p-1` in increasing order
(Invariants.cpp 218-226, 264-272); the loops over them are modelled as loops over all candidates that skip the others.
`addVectors` and `delVectors` are membership in the lists (src/Model.cpp 2056-2073). -/

namespace Verif.Inv

open Verif.Htn

/-- A candidate with its entry in `toDelete`. -/
abbrev Cand := (Int × Int) × Bool

/-- `compute_Rintanen_initial_invariants` (Invariants.cpp 191-238). -/
def initialCands (P : Problem) : List Cand :=
  (List.range P.numFacts).flatMap fun p1 =>
    (List.range' (p1 + 1) (P.numFacts - (p1 + 1))).flatMap fun p2 =>
      [false, true].flatMap fun b1 =>
        [false, true].flatMap fun b2 =>
          if b1 = decide (p1 ∈ P.s0) ∧ b2 = decide (p2 ∈ P.s0) then []
          else [((if b1 then -(p1 : Int) - 1 else p1, if b2 then -(p2 : Int) - 1 else p2), false)]

/-- `compute_Rintanen_reduce_invariants` (Invariants.cpp 240-285). -/
def reduceCands (cs : List Cand) : List Cand := cs.filter fun c => !c.2

/-- `posInferredPreconditions` and `negInferredPreconditions`. -/
structure Inf where
  pos : Nat → Bool
  neg : Nat → Bool

/-- Infer a literal (Invariants.cpp 314-320, 323-329); `none` if the action is inapplicable. -/
def inferLit (l : Int) (st : Inf) : Option Inf :=
  if l < 0 then
    if st.pos (-l - 1).toNat then none else some { st with neg := fun p => decide (p = (-l - 1).toNat) || st.neg p }
  else
    if st.neg l.toNat then none else some { st with pos := fun p => decide (p = l.toNat) || st.pos p }

/-- One candidate (Invariants.cpp 311-330). -/
def inferCand (pre : Nat) (st : Inf) (c : Cand) : Option Inf :=
  if c.2 then some st
  else
    (if c.1.1 < 0 ∧ (pre : Int) = -c.1.1 - 1 then inferLit c.1.2 st else some st).bind fun st =>
      if c.1.2 < 0 ∧ (pre : Int) = -c.1.2 - 1 then inferLit c.1.1 st else some st

/-- All candidates for a precondition (Invariants.cpp 310-331). -/
def inferCands (pre : Nat) : List Cand → Inf → Option Inf
  | [], st => some st
  | c :: cs, st => (inferCand pre st c).bind (inferCands pre cs)

/-- `compute_Rintanten_action_applicable` (Invariants.cpp 288-334); `none`: not applicable. -/
def inferPres (cs : List Cand) : List Nat → Inf → Option Inf
  | [], st => some st
  | p :: ps, st =>
    (inferCands p cs { st with pos := fun q => decide (q = p) || st.pos q }).bind (inferPres cs ps)

def actionInf (P : Problem) (a : Nat) (cs : List Cand) : Option Inf :=
  inferPres cs (P.prec a) ⟨fun _ => false, fun _ => false⟩

/-- `ensuresPosP`, `ensuresNegP` (Invariants.cpp 350-351) for a literal. -/
def ensures (P : Problem) (a : Nat) (inf : Inf) (l : Int) : Bool :=
  if 0 ≤ l then (inf.pos l.toNat && !decide (l.toNat ∈ P.del a)) || decide (l.toNat ∈ P.add a)
  else (inf.neg (-l - 1).toNat && !decide ((-l - 1).toNat ∈ P.add a)) || decide ((-l - 1).toNat ∈ P.del a)

/-- One candidate which contains the literal that becomes false (Invariants.cpp 361-386); `c` is the fact of `lit`. -/
def checkCand (P : Problem) (a : Nat) (inf : Inf) (c : Nat) (lit : Int) (cd : Cand) : Cand :=
  if cd.1.1 ≠ lit ∧ cd.1.2 ≠ lit then cd
  else if cd.2 then cd
  else if factOf cd.1.1 = c then (if ensures P a inf cd.1.2 then cd else (cd.1, true))
  else (if ensures P a inf cd.1.1 then cd else (cd.1, true))

/-- `compute_Rintanten_action_effect` (Invariants.cpp 338-391): first the deletes, then the adds. -/
def actionEffect (P : Problem) (a : Nat) (inf : Inf) (cs : List Cand) : List Cand :=
  let cs1 := (P.del a).foldl (fun cs c => cs.map (checkCand P a inf c c)) cs
  (P.add a).foldl (fun cs c => cs.map (checkCand P a inf c (-(c : Int) - 1))) cs1

/-- `removedInvariants` is not 0. -/
def removedSome (cs cs' : List Cand) : Bool := decide (cs.countP (·.2) < cs'.countP (·.2))

/-- State of the loop over the actions. -/
structure RSt where
  cs : List Cand
  nc : Nat
  last : Option Nat

/-- The loop over the actions (Invariants.cpp 425-442), `t` the next action and `n` the number of actions left.
`lastChangeAtAction` is `none` for -1, which the comparison with the unsigned `tIndex` turns into the largest number. -/
def actionLoop (P : Problem) : Nat → Nat → RSt → RSt
  | 0, _, st => st
  | n + 1, t, st =>
    if st.nc = 0 ∧ (match st.last with | none => false | some k => decide (k < t)) = true then st
    else
      match actionInf P t st.cs with
      | none => actionLoop P n (t + 1) st
      | some inf =>
        let cs' := actionEffect P t inf st.cs
        if removedSome st.cs cs' then actionLoop P n (t + 1) ⟨cs', st.nc + 1, some t⟩
        else actionLoop P n (t + 1) ⟨cs', st.nc, st.last⟩

/-- The rounds (Invariants.cpp 414-443). -/
def rounds (P : Problem) (nA : Nat) : Nat → List Cand → Option Nat → Option (List (Int × Int))
  | 0, _, _ => none
  | k + 1, cs, last =>
    let r := actionLoop P nA 0 ⟨cs, 0, last⟩
    if r.nc = 0 then some (r.cs.map (·.1)) else rounds P nA k (reduceCands r.cs) r.last

/-- `compute_Rintanen_Invariants` (Invariants.cpp 394-510) without the insertion into `binary_invariants`. -/
def rintanen (P : Problem) (nA fuel : Nat) : Option (List (Int × Int)) := rounds P nA fuel (initialCands P) none

/-! ## What the loops compute -/

/-- Clauses still alive. -/
def live (cs : List Cand) : List (Int × Int) := (reduceCands cs).map (·.1)

theorem mem_live {cs : List Cand} {c : Int × Int} : c ∈ live cs ↔ (c, false) ∈ cs := by
  simp [live, reduceCands]

theorem inferCands_live {pre : Nat} : ∀ (cs : List Cand) (st : Inf),
    inferCands pre cs st = inferCands pre ((live cs).map fun c => (c, false)) st := by
  intro cs
  induction cs with
  | nil => intro st; rfl
  | cons c cs ih =>
    intro st
    obtain ⟨c, d⟩ := c
    cases d with
    | true => simpa [inferCands, inferCand, live, reduceCands] using ih st
    | false =>
      have : live ((c, false) :: cs) = c :: live cs := by simp [live, reduceCands]
      rw [this, List.map_cons]
      simp only [inferCands]
      congr 1
      funext st'
      exact ih st'

theorem inferPres_live {cs : List Cand} : ∀ (ps : List Nat) (st : Inf),
    inferPres cs ps st = inferPres ((live cs).map fun c => (c, false)) ps st := by
  intro ps
  induction ps with
  | nil => intro st; rfl
  | cons p ps ih =>
    intro st
    simp only [inferPres]
    rw [inferCands_live]
    congr 1
    funext st'
    exact ih st'

theorem actionInf_live {P : Problem} {a : Nat} {cs cs' : List Cand} (h : live cs = live cs') :
    actionInf P a cs = actionInf P a cs' := by
  unfold actionInf
  rw [inferPres_live, h, ← inferPres_live]

/-- The action does not falsify the clauses, as far as the algorithm can tell. -/
def EffOK (P : Problem) (a : Nat) (inf : Inf) (cl : List (Int × Int)) : Prop :=
  ∀ c ∈ cl, (∀ f ∈ P.del a, checkCand P a inf f f (c, false) = (c, false)) ∧
    ∀ f ∈ P.add a, checkCand P a inf f (-(f : Int) - 1) (c, false) = (c, false)

def Stable (P : Problem) (a : Nat) (cl : List (Int × Int)) : Prop :=
  ∀ inf, actionInf P a (cl.map fun c => (c, false)) = some inf → EffOK P a inf cl

theorem live_map_false (cl : List (Int × Int)) : live (cl.map fun c => (c, false)) = cl := by
  induction cl with
  | nil => rfl
  | cons c cl ih => simp only [live, reduceCands] at ih ⊢; simp [ih]

theorem actionInf_eq {P : Problem} {a : Nat} (cs : List Cand) :
    actionInf P a cs = actionInf P a ((live cs).map fun c => (c, false)) :=
  actionInf_live (live_map_false _).symm

theorem checkCand_fst {P : Problem} {a : Nat} {inf : Inf} {c : Nat} {l : Int} {cd : Cand} :
    (checkCand P a inf c l cd).1 = cd.1 ∧ (cd.2 = true → checkCand P a inf c l cd = cd) := by
  unfold checkCand
  constructor
  · split_ifs <;> rfl
  · intro h
    rw [h]
    split_ifs <;> simp_all

/-- The whole effect on one candidate. -/
def effCand (P : Problem) (a : Nat) (inf : Inf) (cd : Cand) : Cand :=
  (P.add a).foldl (fun cd c => checkCand P a inf c (-(c : Int) - 1) cd)
    ((P.del a).foldl (fun cd c => checkCand P a inf c c cd) cd)

theorem foldl_map_comm {α β : Type} (f : β → α → α) : ∀ (bs : List β) (l : List α),
    bs.foldl (fun l b => l.map (f b)) l = l.map fun x => bs.foldl (fun x b => f b x) x := by
  intro bs
  induction bs with
  | nil => intro l; simp
  | cons b bs ih => intro l; rw [List.foldl_cons, ih, List.map_map]; rfl

theorem actionEffect_eq {P : Problem} {a : Nat} {inf : Inf} (cs : List Cand) :
    actionEffect P a inf cs = cs.map (effCand P a inf) := by
  unfold actionEffect
  simp only
  rw [foldl_map_comm (fun c cd => checkCand P a inf c c cd), foldl_map_comm (fun c cd => checkCand P a inf c (-(c : Int) - 1) cd),
    List.map_map]
  rfl

theorem foldl_check_true {P : Problem} {a : Nat} {inf : Inf} (g : Nat → Int) : ∀ (fs : List Nat) (cd : Cand), cd.2 = true →
    fs.foldl (fun cd c => checkCand P a inf c (g c) cd) cd = cd := by
  intro fs
  induction fs with
  | nil => intro cd _; rfl
  | cons f fs ih =>
    intro cd h
    rw [List.foldl_cons, checkCand_fst.2 h]
    exact ih cd h

theorem checkCand_ne {P : Problem} {a : Nat} {inf : Inf} {c : Nat} {l : Int} {cd : Cand}
    (h : checkCand P a inf c l cd ≠ cd) : checkCand P a inf c l cd = (cd.1, true) := by
  unfold checkCand at h ⊢
  split_ifs at h ⊢ <;> first | rfl | exact absurd rfl h

theorem foldl_check_id {P : Problem} {a : Nat} {inf : Inf} (g : Nat → Int) : ∀ (fs : List Nat) (cd : Cand),
    fs.foldl (fun cd c => checkCand P a inf c (g c) cd) cd = cd → ∀ f ∈ fs, checkCand P a inf f (g f) cd = cd := by
  intro fs
  induction fs with
  | nil => intro cd _ f hf; simp at hf
  | cons f fs ih =>
    intro cd h
    rw [List.foldl_cons] at h
    by_cases hc : checkCand P a inf f (g f) cd = cd
    · rw [hc] at h
      intro f' hf'
      rcases List.mem_cons.1 hf' with rfl | hf'
      · exact hc
      · exact ih cd h f' hf'
    · have h1 := checkCand_ne hc
      rw [h1, foldl_check_true g fs _ rfl] at h
      rw [h1] at hc
      exact absurd h hc

theorem foldl_check_id' {P : Problem} {a : Nat} {inf : Inf} (g : Nat → Int) : ∀ (fs : List Nat) (cd : Cand),
    (∀ f ∈ fs, checkCand P a inf f (g f) cd = cd) → fs.foldl (fun cd c => checkCand P a inf c (g c) cd) cd = cd := by
  intro fs
  induction fs with
  | nil => intro cd _; rfl
  | cons f fs ih =>
    intro cd h
    rw [List.foldl_cons, h f List.mem_cons_self]
    exact ih cd fun f' hf' => h f' (List.mem_cons_of_mem _ hf')

theorem foldl_check_cases {P : Problem} {a : Nat} {inf : Inf} (g : Nat → Int) (fs : List Nat) (cd : Cand) :
    fs.foldl (fun cd c => checkCand P a inf c (g c) cd) cd = cd ∨
    (cd.2 = false ∧ fs.foldl (fun cd c => checkCand P a inf c (g c) cd) cd = (cd.1, true)) := by
  induction fs generalizing cd with
  | nil => exact .inl rfl
  | cons f fs ih =>
    rw [List.foldl_cons]
    by_cases hc : checkCand P a inf f (g f) cd = cd
    · rw [hc]; exact ih cd
    · have h1 := checkCand_ne hc
      have h2 : cd.2 = false := by
        cases h : cd.2 with
        | false => rfl
        | true => exact absurd (checkCand_fst.2 h) hc
      rw [h1, foldl_check_true g fs _ rfl]
      exact .inr ⟨h2, rfl⟩

theorem effCand_cases {P : Problem} {a : Nat} {inf : Inf} (cd : Cand) :
    effCand P a inf cd = cd ∨ (cd.2 = false ∧ effCand P a inf cd = (cd.1, true)) := by
  unfold effCand
  rcases foldl_check_cases (P := P) (a := a) (inf := inf) (fun c => (c : Int)) (P.del a) cd with h | ⟨h, h'⟩
  · rw [h]
    exact foldl_check_cases (fun c => -(c : Int) - 1) (P.add a) cd
  · right
    rw [h']
    exact ⟨h, foldl_check_true (fun c => -(c : Int) - 1) _ _ rfl⟩

theorem effCand_false {P : Problem} {a : Nat} {inf : Inf} {c : Int × Int} (h : effCand P a inf (c, false) = (c, false)) :
    (∀ f ∈ P.del a, checkCand P a inf f f (c, false) = (c, false)) ∧
    ∀ f ∈ P.add a, checkCand P a inf f (-(f : Int) - 1) (c, false) = (c, false) := by
  unfold effCand at h
  rcases foldl_check_cases (P := P) (a := a) (inf := inf) (fun c => (c : Int)) (P.del a) (c, false) with h1 | ⟨-, h1⟩
  · rw [h1] at h
    exact ⟨foldl_check_id (fun c => (c : Int)) _ _ h1, foldl_check_id (fun c => -(c : Int) - 1) _ _ h⟩
  · rw [h1, foldl_check_true (fun c => -(c : Int) - 1) _ _ rfl] at h
    cases h

theorem countP_map_le {P : Problem} {a : Nat} {inf : Inf} : ∀ (cs : List Cand),
    cs.countP (·.2) ≤ (cs.map (effCand P a inf)).countP (·.2) ∧
    (cs.countP (·.2) = (cs.map (effCand P a inf)).countP (·.2) → cs.map (effCand P a inf) = cs) := by
  intro cs
  induction cs with
  | nil => simp
  | cons c cs ih =>
    rw [List.map_cons, List.countP_cons, List.countP_cons]
    rcases effCand_cases (P := P) (a := a) (inf := inf) c with h | ⟨h1, h2⟩
    · rw [h]
      exact ⟨by omega, fun e => by rw [ih.2 (by omega)]⟩
    · rw [h2, h1]
      simp only [Bool.false_eq_true, if_false, if_true, Nat.add_zero]
      exact ⟨by omega, fun e => by omega⟩

theorem live_sub_effect {P : Problem} {a : Nat} {inf : Inf} (cs : List Cand) :
    ∀ c ∈ live (actionEffect P a inf cs), c ∈ live cs := by
  intro c hc
  rw [mem_live, actionEffect_eq, List.mem_map] at hc
  obtain ⟨cd, hcd, h⟩ := hc
  rcases effCand_cases (P := P) (a := a) (inf := inf) cd with h1 | ⟨h1, h2⟩
  · rw [h1] at h; rw [mem_live, ← h]; exact hcd
  · rw [h2] at h; cases h

/-- No change means stable. -/
theorem effect_stable {P : Problem} {a : Nat} {inf : Inf} {cs : List Cand} (hi : actionInf P a cs = some inf)
    (h : removedSome cs (actionEffect P a inf cs) = false) : actionEffect P a inf cs = cs ∧ Stable P a (live cs) := by
  have hc := countP_map_le (P := P) (a := a) (inf := inf) cs
  rw [actionEffect_eq] at h ⊢
  simp only [removedSome, decide_eq_false_iff_not, Nat.not_lt] at h
  have he := hc.2 (by omega)
  refine ⟨he, fun inf' hi' c hc' => ?_⟩
  rw [← actionInf_eq, hi] at hi'
  cases hi'
  have hm := mem_live.1 hc'
  obtain ⟨i, hi, hget⟩ := List.getElem_of_mem hm
  have : effCand P a inf (c, false) = (c, false) := by
    have h1 : (cs.map (effCand P a inf))[i]'(by simpa using hi) = cs[i] := by simp only [he]
    rw [List.getElem_map, hget] at h1
    exact h1
  exact effCand_false this

theorem inapplicable_stable {P : Problem} {a : Nat} {cs : List Cand} (h : actionInf P a cs = none) :
    Stable P a (live cs) := by
  intro inf hi
  rw [← actionInf_eq, h] at hi
  cases hi

/-- What holds in the loop over the actions: `cs0`, `last0` are the values at the beginning of the round. -/
structure RInv (P : Problem) (cs0 : List Cand) (last0 : Option Nat) (t : Nat) (st : RSt) : Prop where
  same : st.nc = 0 → st.cs = cs0 ∧ st.last = last0 ∧ ∀ a < t, Stable P a (live cs0)
  changed : st.nc ≠ 0 → ∃ k < t, st.last = some k ∧ ∀ a, k < a → a < t → Stable P a (live st.cs)
  sub : ∀ c ∈ live st.cs, c ∈ live cs0
  flags : st.nc ≠ 0 → cs0.countP (·.2) < st.cs.countP (·.2)
  len : st.cs.map (·.1) = cs0.map (·.1)

theorem effect_fst {P : Problem} {a : Nat} {inf : Inf} (cs : List Cand) :
    (actionEffect P a inf cs).map (·.1) = cs.map (·.1) := by
  rw [actionEffect_eq, List.map_map]
  refine List.map_congr_left fun cd _ => ?_
  rcases effCand_cases (P := P) (a := a) (inf := inf) cd with h | ⟨-, h⟩ <;> simp [h]

theorem actionLoop_inv {P : Problem} {cs0 : List Cand} {last0 : Option Nat} : ∀ (n t : Nat) (st : RSt),
    (∀ k, last0 = some k → ∀ a, k < a → a < t + n → Stable P a (live cs0)) →
    RInv P cs0 last0 t st → RInv P cs0 last0 (t + n) (actionLoop P n t st) := by
  intro n
  induction n with
  | zero => intro t st _ h; exact h
  | succ n ih =>
    intro t st hl h
    have e : t + (n + 1) = (t + 1) + n := by omega
    unfold actionLoop
    by_cases hb : st.nc = 0 ∧ (match st.last with | none => false | some k => decide (k < t)) = true
    · rw [if_pos hb]
      obtain ⟨h1, h2, h3⟩ := h.same hb.1
      refine ⟨fun _ => ⟨h1, h2, fun a ha => ?_⟩, fun hn => absurd hb.1 hn, h.sub, h.flags, h.len⟩
      by_cases hat : a < t
      · exact h3 a hat
      · have hk := hb.2
        rw [h2] at hk
        cases hl0 : last0 with
        | none => rw [hl0] at hk; simp at hk
        | some k =>
          rw [hl0] at hk
          simp only [decide_eq_true_eq] at hk
          exact hl k hl0 a (by omega) ha
    · rw [if_neg hb]
      rw [e]
      have hl' : ∀ k, last0 = some k → ∀ a, k < a → a < t + 1 + n → Stable P a (live cs0) := by rw [← e]; exact hl
      cases hi : actionInf P t st.cs with
      | none =>
        have hst := inapplicable_stable hi
        refine ih (t + 1) st hl' ⟨fun h0 => ?_, fun h0 => ?_, h.sub, h.flags, h.len⟩
        · obtain ⟨h1, h2, h3⟩ := h.same h0
          refine ⟨h1, h2, fun a ha => ?_⟩
          by_cases hat : a < t
          · exact h3 a hat
          · have : a = t := by omega
            rw [this, ← h1]; exact hst
        · obtain ⟨k, hk, h1, h2⟩ := h.changed h0
          refine ⟨k, by omega, h1, fun a hka ha => ?_⟩
          by_cases hat : a < t
          · exact h2 a hka hat
          · have : a = t := by omega
            rw [this]; exact hst
      | some inf =>
        simp only
        cases hr : removedSome st.cs (actionEffect P t inf st.cs) with
        | true =>
          rw [if_pos rfl]
          refine ih (t + 1) _ hl' ⟨fun h0 => by simp at h0, fun _ => ⟨t, by omega, rfl, fun a h1 h2 => by omega⟩,
            fun c hc => h.sub c (live_sub_effect _ c hc), fun _ => ?_, (effect_fst _).trans h.len⟩
          simp only [removedSome, decide_eq_true_eq] at hr
          by_cases h0 : st.nc = 0
          · rw [← (h.same h0).1]; exact hr
          · exact (h.flags h0).trans hr
        | false =>
          rw [if_neg (by simp)]
          obtain ⟨he, hst⟩ := effect_stable hi hr
          rw [he]
          refine ih (t + 1) _ hl' ⟨fun h0 => ?_, fun h0 => ?_, h.sub, h.flags, h.len⟩
          · obtain ⟨h1, h2, h3⟩ := h.same h0
            refine ⟨h1, h2, fun a ha => ?_⟩
            by_cases hat : a < t
            · exact h3 a hat
            · have : a = t := by omega
              rw [this, ← h1]; exact hst
          · obtain ⟨k, hk, h1, h2⟩ := h.changed h0
            refine ⟨k, by omega, h1, fun a hka ha => ?_⟩
            by_cases hat : a < t
            · exact h2 a hka hat
            · have : a = t := by omega
              rw [this]; exact hst

theorem live_reduce (cs : List Cand) : live (reduceCands cs) = live cs := by
  simp [live, reduceCands]

theorem reduce_noflag (cs : List Cand) : (reduceCands cs).countP (·.2) = 0 := by
  rw [List.countP_eq_zero]
  intro c hc
  simp only [reduceCands, List.mem_filter] at hc
  simpa using hc.2

theorem live_noflag {cs : List Cand} (h : cs.countP (·.2) = 0) : live cs = cs.map (·.1) := by
  have : reduceCands cs = cs := List.filter_eq_self.2 fun c hc => by
    have := List.countP_eq_zero.1 h c hc
    simpa using this
  rw [live, this]

/-- The result is a set of candidates that is stable for every action. -/
theorem rounds_spec {P : Problem} {nA : Nat} : ∀ (k : Nat) (cs : List Cand) (last : Option Nat) {r : List (Int × Int)},
    rounds P nA k cs last = some r → cs.countP (·.2) = 0 →
    (∀ j, last = some j → ∀ a, j < a → a < nA → Stable P a (live cs)) →
    (∀ a < nA, Stable P a r) ∧ ∀ c ∈ r, c ∈ live cs := by
  intro k
  induction k with
  | zero => intro cs last r h; cases h
  | succ k ih =>
    intro cs last r h h0 hl
    unfold rounds at h
    simp only at h
    have hinv := actionLoop_inv (P := P) (cs0 := cs) (last0 := last) nA 0 ⟨cs, 0, last⟩ (by simpa using hl)
      ⟨fun _ => ⟨rfl, rfl, fun a ha => absurd ha (Nat.not_lt_zero _)⟩, fun h => absurd rfl h, fun c hc => hc,
        fun h => absurd rfl h, rfl⟩
    rw [Nat.zero_add] at hinv
    by_cases hnc : (actionLoop P nA 0 ⟨cs, 0, last⟩).nc = 0
    · rw [if_pos hnc] at h
      cases h
      obtain ⟨h1, -, h3⟩ := hinv.same hnc
      rw [h1, ← live_noflag h0]
      exact ⟨h3, fun c hc => hc⟩
    · rw [if_neg hnc] at h
      obtain ⟨h1, h2⟩ := ih _ _ h (reduce_noflag _) (fun j hj a ha ha' => by
        obtain ⟨k, -, e1, e2⟩ := hinv.changed hnc
        rw [e1] at hj
        cases hj
        rw [live_reduce]
        exact e2 a ha ha')
      exact ⟨h1, fun c hc => hinv.sub c (by rw [← live_reduce]; exact h2 c hc)⟩

theorem rounds_fuel {P : Problem} {nA : Nat} : ∀ (k : Nat) (cs : List Cand) (last : Option Nat),
    cs.length < k → cs.countP (·.2) = 0 → (∀ j, last = some j → ∀ a, j < a → a < nA → Stable P a (live cs)) →
    ∃ r, rounds P nA k cs last = some r := by
  intro k
  induction k with
  | zero => intro cs last h; omega
  | succ k ih =>
    intro cs last h h0 hl
    unfold rounds
    simp only
    have hinv := actionLoop_inv (P := P) (cs0 := cs) (last0 := last) nA 0 ⟨cs, 0, last⟩ (by simpa using hl)
      ⟨fun _ => ⟨rfl, rfl, fun a ha => absurd ha (Nat.not_lt_zero _)⟩, fun h => absurd rfl h, fun c hc => hc,
        fun h => absurd rfl h, rfl⟩
    rw [Nat.zero_add] at hinv
    by_cases hnc : (actionLoop P nA 0 ⟨cs, 0, last⟩).nc = 0
    · rw [if_pos hnc]; exact ⟨_, rfl⟩
    · rw [if_neg hnc]
      refine ih _ _ ?_ (reduce_noflag _) (fun j hj a ha ha' => by
        obtain ⟨k, -, e1, e2⟩ := hinv.changed hnc
        rw [e1] at hj
        cases hj
        rw [live_reduce]
        exact e2 a ha ha')
      have h1 := hinv.flags hnc
      have h2 : (actionLoop P nA 0 ⟨cs, 0, last⟩).cs.length = cs.length := by
        have := congrArg List.length hinv.len
        simpa using this
      have h3 : (reduceCands (actionLoop P nA 0 ⟨cs, 0, last⟩).cs).length + (actionLoop P nA 0 ⟨cs, 0, last⟩).cs.countP (·.2) =
          (actionLoop P nA 0 ⟨cs, 0, last⟩).cs.length := by
        have := List.length_eq_countP_add_countP (fun c : Cand => c.2) (l := (actionLoop P nA 0 ⟨cs, 0, last⟩).cs)
        rw [reduceCands, ← List.countP_eq_length_filter]
        have e : (List.countP (fun c : Cand => !c.2) (actionLoop P nA 0 ⟨cs, 0, last⟩).cs) =
            List.countP (fun c : Cand => decide ¬ c.2 = true) (actionLoop P nA 0 ⟨cs, 0, last⟩).cs := by
          congr 1; funext c; cases c.2 <;> rfl
        rw [e]; omega
      omega

/-! ## Meaning -/

/-- The inferred literals hold. -/
def InfOk (s : State) (inf : Inf) : Prop := (∀ p, inf.pos p = true → s p) ∧ ∀ p, inf.neg p = true → ¬ s p

theorem inferLit_ok {s : State} {l : Int} {st : Inf} (h : InfOk s st) (hl : holds s l) :
    ∃ st', inferLit l st = some st' ∧ InfOk s st' := by
  unfold inferLit
  by_cases h0 : l < 0
  · rw [if_pos h0]
    have hn : ¬ s (-l - 1).toNat := by
      unfold holds at hl
      rw [if_neg (by omega)] at hl
      exact hl
    have hp : st.pos (-l - 1).toNat = false := by
      cases hh : st.pos (-l - 1).toNat with
      | false => rfl
      | true => exact absurd (h.1 _ hh) hn
    rw [hp, if_neg (by simp)]
    refine ⟨_, rfl, h.1, fun p hpp => ?_⟩
    simp only [Bool.or_eq_true, decide_eq_true_eq] at hpp
    rcases hpp with rfl | hpp
    · exact hn
    · exact h.2 p hpp
  · rw [if_neg h0]
    have hn : s l.toNat := by
      unfold holds at hl
      rw [if_pos (by omega)] at hl
      exact hl
    have hp : st.neg l.toNat = false := by
      cases hh : st.neg l.toNat with
      | false => rfl
      | true => exact absurd hn (h.2 _ hh)
    rw [hp, if_neg (by simp)]
    refine ⟨_, rfl, fun p hpp => ?_, h.2⟩
    simp only [Bool.or_eq_true, decide_eq_true_eq] at hpp
    rcases hpp with rfl | hpp
    · exact hn
    · exact h.1 p hpp

/-- All clauses hold. -/
def ClHold (s : State) (cl : List (Int × Int)) : Prop := ∀ c ∈ cl, holds s c.1 ∨ holds s c.2

theorem not_holds_negNat {s : State} {l : Int} {pre : Nat} (hp : s pre) (h : l < 0 ∧ (pre : Int) = -l - 1) :
    ¬ holds s l := by
  have : l = -(pre : Int) - 1 := by omega
  rw [this, holds_negNat, not_not]
  exact hp

theorem inferCand_ok {s : State} {pre : Nat} (hp : s pre) {c : Int × Int} (hc : holds s c.1 ∨ holds s c.2) {st : Inf}
    (h : InfOk s st) : ∃ st', inferCand pre st (c, false) = some st' ∧ InfOk s st' := by
  have h1 : ∃ st', (if c.1 < 0 ∧ (pre : Int) = -c.1 - 1 then inferLit c.2 st else some st) = some st' ∧ InfOk s st' := by
    by_cases hx : c.1 < 0 ∧ (pre : Int) = -c.1 - 1
    · rw [if_pos hx]
      exact inferLit_ok h (hc.resolve_left (not_holds_negNat hp hx))
    · rw [if_neg hx]; exact ⟨st, rfl, h⟩
  obtain ⟨st1, e1, h1⟩ := h1
  have h2 : ∃ st', (if c.2 < 0 ∧ (pre : Int) = -c.2 - 1 then inferLit c.1 st1 else some st1) = some st' ∧ InfOk s st' := by
    by_cases hx : c.2 < 0 ∧ (pre : Int) = -c.2 - 1
    · rw [if_pos hx]
      exact inferLit_ok h1 (hc.resolve_right (not_holds_negNat hp hx))
    · rw [if_neg hx]; exact ⟨st1, rfl, h1⟩
  obtain ⟨st2, e2, h2⟩ := h2
  refine ⟨st2, ?_, h2⟩
  unfold inferCand
  rw [if_neg (by simp)]
  simp only
  rw [e1, Option.bind_some]
  exact e2

theorem inferCands_ok {s : State} {pre : Nat} (hp : s pre) : ∀ (cl : List (Int × Int)), ClHold s cl → ∀ {st : Inf},
    InfOk s st → ∃ st', inferCands pre (cl.map fun c => (c, false)) st = some st' ∧ InfOk s st' := by
  intro cl
  induction cl with
  | nil => intro _ st h; exact ⟨st, rfl, h⟩
  | cons c cl ih =>
    intro hc st h
    obtain ⟨st1, e1, h1⟩ := inferCand_ok hp (hc c List.mem_cons_self) h
    obtain ⟨st2, e2, h2⟩ := ih (fun d hd => hc d (List.mem_cons_of_mem _ hd)) h1
    refine ⟨st2, ?_, h2⟩
    rw [List.map_cons, inferCands, e1, Option.bind_some]
    exact e2

theorem inferPres_ok {s : State} {cl : List (Int × Int)} (hc : ClHold s cl) : ∀ (ps : List Nat), (∀ p ∈ ps, s p) →
    ∀ {st : Inf}, InfOk s st → ∃ st', inferPres (cl.map fun c => (c, false)) ps st = some st' ∧ InfOk s st' := by
  intro ps
  induction ps with
  | nil => intro _ st h; exact ⟨st, rfl, h⟩
  | cons p ps ih =>
    intro hp st h
    have hpp := hp p List.mem_cons_self
    obtain ⟨st1, e1, h1⟩ := inferCands_ok hpp cl hc
      (st := { st with pos := fun q => decide (q = p) || st.pos q }) ⟨fun q hq => by
        simp only [Bool.or_eq_true, decide_eq_true_eq] at hq
        rcases hq with rfl | hq
        · exact hpp
        · exact h.1 q hq, h.2⟩
    obtain ⟨st2, e2, h2⟩ := ih (fun q hq => hp q (List.mem_cons_of_mem _ hq)) h1
    refine ⟨st2, ?_, h2⟩
    rw [inferPres, e1, Option.bind_some]
    exact e2

theorem ensures_ok {P : Problem} {a : Nat} (hna : ∀ f ∈ P.add a, f ∉ P.del a) {s : State} {inf : Inf} (hi : InfOk s inf)
    {l : Int} (h : ensures P a inf l = true) : holds (P.result s a) l := by
  unfold ensures at h
  unfold holds
  by_cases h0 : 0 ≤ l
  · rw [if_pos h0] at h ⊢
    simp only [Bool.or_eq_true, Bool.and_eq_true, Bool.not_eq_true', decide_eq_false_iff_not, decide_eq_true_eq] at h
    rcases h with ⟨h1, h2⟩ | h
    · exact .inr ⟨hi.1 _ h1, h2⟩
    · exact .inl h
  · rw [if_neg h0] at h ⊢
    simp only [Bool.or_eq_true, Bool.and_eq_true, Bool.not_eq_true', decide_eq_false_iff_not, decide_eq_true_eq] at h
    rintro (hr | ⟨hr1, hr2⟩)
    · rcases h with ⟨-, h2⟩ | h
      · exact h2 hr
      · exact hna _ hr h
    · rcases h with ⟨h1, -⟩ | h
      · exact hi.2 _ h1 hr1
      · exact hr2 h

/-- The two literals of a clause are about different facts. -/
def Distinct (c : Int × Int) : Prop := factOf c.1 ≠ factOf c.2

theorem checkCand_ens {P : Problem} {a : Nat} {inf : Inf} {f : Nat} {l : Int} (hl : factOf l = f) {c : Int × Int}
    (hd : Distinct c) (h : checkCand P a inf f l (c, false) = (c, false)) :
    (c.1 = l → ensures P a inf c.2 = true) ∧ (c.2 = l → ensures P a inf c.1 = true) := by
  unfold checkCand at h
  simp only at h
  constructor
  · intro e
    rw [if_neg (by simp [e]), if_neg (by simp), if_pos (by rw [e]; exact hl)] at h
    cases he : ensures P a inf c.2 with
    | true => rfl
    | false => rw [he] at h; simp at h
  · intro e
    have : ¬ factOf c.1 = f := fun e' => hd (by rw [e', e, hl])
    rw [if_neg (by simp [e]), if_neg (by simp), if_neg this] at h
    cases he : ensures P a inf c.1 with
    | true => rfl
    | false => rw [he] at h; simp at h

theorem factOf_nat (f : Nat) : factOf (f : Int) = f := by unfold factOf; rw [if_neg (by omega)]

theorem factOf_negNat (f : Nat) : factOf (-(f : Int) - 1) = f := by unfold factOf; rw [if_pos (by omega)]; omega

/-- If a literal becomes false, its fact is deleted or added. -/
theorem lit_change {P : Problem} {a : Nat} {s : State} {l : Int} (h : holds s l) (h' : ¬ holds (P.result s a) l) :
    (∃ f ∈ P.del a, l = (f : Int)) ∨ ∃ f ∈ P.add a, l = -(f : Int) - 1 := by
  by_cases h0 : 0 ≤ l
  · obtain ⟨i, rfl⟩ := Int.eq_ofNat_of_zero_le h0
    have hs := (holds_nat s i).1 h
    have hs' : ¬ P.result s a i := fun hh => h' ((holds_nat _ i).2 hh)
    left
    refine ⟨i, ?_, rfl⟩
    by_contra hn
    exact hs' (.inr ⟨hs, hn⟩)
  · obtain ⟨i, rfl⟩ : ∃ i : Nat, l = -(i : Int) - 1 := ⟨(-l - 1).toNat, by omega⟩
    have hs := (holds_negNat s i).1 h
    have hs' : P.result s a i := by
      by_contra hn
      exact h' ((holds_negNat _ i).2 hn)
    right
    refine ⟨i, ?_, rfl⟩
    rcases hs' with h | h
    · exact h
    · exact absurd h.1 hs

theorem eff_step {P : Problem} {a : Nat} (hna : ∀ f ∈ P.add a, f ∉ P.del a) {cl : List (Int × Int)}
    (hd : ∀ c ∈ cl, Distinct c) {inf : Inf} (heff : EffOK P a inf cl) {s : State} (hio : InfOk s inf) (hs : ClHold s cl) :
    ClHold (P.result s a) cl := by
  intro c hc
  obtain ⟨e1, e2⟩ := heff c hc
  by_contra hn
  push Not at hn
  rcases hs c hc with h | h
  · rcases lit_change h hn.1 with ⟨f, hf, hl⟩ | ⟨f, hf, hl⟩
    · exact hn.2 (ensures_ok hna hio ((checkCand_ens (factOf_nat f) (hd c hc) (e1 f hf)).1 hl))
    · exact hn.2 (ensures_ok hna hio ((checkCand_ens (factOf_negNat f) (hd c hc) (e2 f hf)).1 hl))
  · rcases lit_change h hn.2 with ⟨f, hf, hl⟩ | ⟨f, hf, hl⟩
    · exact hn.1 (ensures_ok hna hio ((checkCand_ens (factOf_nat f) (hd c hc) (e1 f hf)).2 hl))
    · exact hn.1 (ensures_ok hna hio ((checkCand_ens (factOf_negNat f) (hd c hc) (e2 f hf)).2 hl))

theorem stable_step {P : Problem} {a : Nat} (hna : ∀ f ∈ P.add a, f ∉ P.del a) {cl : List (Int × Int)}
    (hd : ∀ c ∈ cl, Distinct c) (hst : Stable P a cl) {s : State} (hs : ClHold s cl) (happ : P.Applicable s a) :
    ClHold (P.result s a) cl := by
  obtain ⟨inf, hi, hio⟩ := inferPres_ok hs (P.prec a) happ (st := ⟨fun _ => false, fun _ => false⟩)
    ⟨by simp, by simp⟩
  exact eff_step hna hd (hst inf hi) hio hs

theorem initialCands_spec (P : Problem) :
    ∀ cd ∈ initialCands P, cd.2 = false ∧ Distinct cd.1 ∧ (holds P.initState cd.1.1 ∨ holds P.initState cd.1.2) ∧
      inRange P.numFacts cd.1.1 = true ∧ inRange P.numFacts cd.1.2 = true := by
  intro cd h
  simp only [initialCands, List.mem_flatMap, List.mem_range, List.mem_range'_1] at h
  obtain ⟨p1, hp1, p2, hp2, b1, -, b2, -, h⟩ := h
  by_cases hb : b1 = decide (p1 ∈ P.s0) ∧ b2 = decide (p2 ∈ P.s0)
  · rw [if_pos hb] at h; simp at h
  · rw [if_neg hb] at h
    simp only [List.mem_cons, List.not_mem_nil, or_false] at h
    subst h
    refine ⟨rfl, ?_, ?_, ?_⟩
    · unfold Distinct
      cases b1 <;> cases b2 <;> simp only [Bool.false_eq_true, if_false, if_true, factOf_nat, factOf_negNat] <;> omega
    · cases b1 <;> cases b2 <;> simp only [Bool.false_eq_true, if_false, if_true, holds_nat, holds_negNat,
        Problem.initState] <;> by_contra hn <;> apply hb <;> simp_all
    · cases b1 <;> cases b2 <;> simp only [Bool.false_eq_true, if_false, if_true, inRange_nat, inRange_negNat] <;> omega

theorem live_initial (P : Problem) : (initialCands P).countP (·.2) = 0 := by
  rw [List.countP_eq_zero]
  intro c hc
  simp [(initialCands_spec P c hc).1]

theorem rintanen_hold {P : Problem} {nA fuel : Nat} {r : List (Int × Int)}
    (h : rintanen P nA fuel = some r) {π : List Nat} {s s' : State} (hπ : ∀ a ∈ π, a < nA)
    (hna : ∀ a ∈ π, ∀ f ∈ P.add a, f ∉ P.del a) (hs : ClHold s r)
    (hex : Exec P s π s') : ClHold s' r := by
  obtain ⟨h1, h2⟩ := rounds_spec _ _ _ h (live_initial P) (by simp)
  have hd : ∀ c ∈ r, Distinct c := fun c hc => (initialCands_spec P _ (mem_live.1 (h2 c hc))).2.1
  induction hex with
  | nil => exact hs
  | cons ha hex ih =>
    have hlt := hπ _ List.mem_cons_self
    exact ih (fun b hb => hπ b (List.mem_cons_of_mem _ hb)) (fun b hb => hna b (List.mem_cons_of_mem _ hb))
      (stable_step (hna _ List.mem_cons_self) hd (h1 _ hlt) hs ha)

theorem rintanen_init {P : Problem} {nA fuel : Nat} {r : List (Int × Int)} (h : rintanen P nA fuel = some r) :
    ClHold P.initState r ∧ ∀ c ∈ r, inRange P.numFacts c.1 = true ∧ inRange P.numFacts c.2 = true := by
  obtain ⟨-, h2⟩ := rounds_spec _ _ _ h (live_initial P) (by simp)
  exact ⟨fun c hc => (initialCands_spec P _ (mem_live.1 (h2 c hc))).2.2.1,
    fun c hc => (initialCands_spec P _ (mem_live.1 (h2 c hc))).2.2.2⟩

end Verif.Inv
