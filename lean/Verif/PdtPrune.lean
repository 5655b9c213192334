import Verif.PdtTree

/-! # Model of the propagation of pruned tasks (`PDT::propagatePruning`, src/sat/pdt.cpp 705-858)

The pruning tables of all vertices are one set of flags.  A rule of the code yields the list of flags that it sets;
setting a flag that is set already changes nothing. -/

namespace Verif.Pdt

open Verif.Htn Verif.Sog

/-- An entry of the pruning tables: `prunedPrimitives`, `prunedAbstracts`, `prunedMethods`, `prunedCausesForPrimitive`,
`prunedCausesForAbstract` of the vertex at a path (src/sat/pdt.h 27-62). -/
inductive Flag
  | prim (p : Path) (i : Nat)
  | abs (p : Path) (a : Nat)
  | meth (p : Path) (a m : Nat)
  | causeP (p : Path) (i c : Nat)
  | causeA (p : Path) (a c : Nat)
deriving DecidableEq, Repr

/-- The pruning tables. -/
abbrev Flags := Flag → Bool

/-- Set flags. -/
def Flags.set (S : Flags) (l : List Flag) : Flags := fun f => S f || l.contains f

/-- The tables after `resetPruning` (pdt.cpp 40-81). -/
def Flags.empty : Flags := fun _ => false

/-- Flag of cause `c` of a task. -/
def causeFlag (b : Bool) (p : Path) (i c : Nat) : Flag := if b then .causeP p i c else .causeA p i c

/-- The entry of the mother that `pruneCause` sets (pdt.cpp 690-701). -/
def motherFlag (p : Path) : Cause → Flag
  | .meth a m => .meth p a m
  | .inh i => .prim p i

/-- First loop: abstract tasks whose methods are all pruned (pdt.cpp 714-731); without expansion always. -/
def ruleA (P : Problem) (p : Path) (d : ND) (expanded : Bool) (S : Flags) : List Flag :=
  (List.range d.abss.length).filterMap fun a =>
    if !expanded || (List.range (meths P (d.abss.getD a 0)).length).all (fun m => S (.meth p a m)) then some (.abs p a)
    else none

/-- Tasks whose causes are all pruned (pdt.cpp 733-761), not at the root. -/
def ruleB (p : Path) (d : ND) (S : Flags) : List Flag :=
  if p = [] then []
  else
    ((List.range d.prims.length).filterMap fun i =>
      if (List.range (d.causesP.getD i []).length).all (fun c => S (.causeP p i c)) then some (.prim p i) else none) ++
    ((List.range d.abss.length).filterMap fun a =>
      if (List.range (d.causesA.getD a []).length).all (fun c => S (.causeA p a c)) then some (.abs p a) else none)

/-- Methods of pruned abstract tasks (pdt.cpp 764-773). -/
def ruleC (P : Problem) (p : Path) (d : ND) (expanded : Bool) (S : Flags) : List Flag :=
  if expanded then
    (List.range d.abss.length).flatMap fun a =>
      if S (.abs p a) then (List.range (meths P (d.abss.getD a 0)).length).map fun m => .meth p a m else []
  else []

/-- The causes of pruned tasks (pdt.cpp 787-809), own entries. -/
def ruleD (p : Path) (d : ND) (S : Flags) : List Flag :=
  if p = [] then []
  else
    ((List.range d.prims.length).flatMap fun i =>
      if S (.prim p i) then (List.range (d.causesP.getD i []).length).map fun c => .causeP p i c else []) ++
    ((List.range d.abss.length).flatMap fun a =>
      if S (.abs p a) then (List.range (d.causesA.getD a []).length).map fun c => .causeA p a c else [])

/-- The causes of pruned tasks, entries of the mother. -/
def ruleM (p : Path) (d : ND) (S : Flags) : List Flag :=
  match p with
  | [] => []
  | _ :: q =>
    ((List.range d.prims.length).flatMap fun i =>
      if S (.prim p i) then (d.causesP.getD i []).map (motherFlag q) else []) ++
    ((List.range d.abss.length).flatMap fun a =>
      if S (.abs p a) then (d.causesA.getD a []).map (motherFlag q) else [])

/-- The causes in the children that come from pruned tasks and methods (pdt.cpp 812-846), with the child. -/
def ruleE (P : Problem) (p : Path) (d : ND) (e : EX) (S : Flags) : List (Nat × Flag) :=
  ((List.range d.prims.length).flatMap fun i =>
    if S (.prim p i) then (e.posP[i]?.toList).map fun x => (x.1, .causeP (x.1 :: p) x.2.1 x.2.2) else []) ++
  ((List.range d.abss.length).flatMap fun a =>
    (List.range (meths P (d.abss.getD a 0)).length).flatMap fun m =>
      if S (.meth p a m) then
        (List.range e.children.length).flatMap fun c =>
          ((e.ptr a m c).toList).map fun q => (c, causeFlag q.isPrim (c :: p) q.task q.cause)
      else [])

/-- The tables after the first part, which decides about the vertex itself. -/
def own (P : Problem) (p : Path) (d : ND) (expanded : Bool) (S : Flags) : Flags :=
  let S1 := S.set (ruleA P p d expanded S)
  let S2 := S1.set (ruleB p d S1)
  S2.set (ruleC P p d expanded S2)

/-- The children items; none if there are no children. -/
def items (P : Problem) (t : T) (p : Path) (d : ND) (S : Flags) : List (Nat × Flag) :=
  match t.ex p with
  | none => []
  | some e => if e.children = [] then [] else ruleE P p d e S

/-- The body of `propagatePruning` without the recursive calls: the new tables and the vertices to visit, children
first. -/
def body (P : Problem) (t : T) (p : Path) (d : ND) (S : Flags) : Flags × List Path :=
  let S3 := own P p d (t.ex p).isSome S
  let S4 := S3.set (ruleD p d S3)
  let changedMother := (ruleM p d S3).any fun f => !S3 f
  let S5 := S4.set (ruleM p d S3)
  let it := items P t p d S3
  let changed := (List.range (t.nc p)).filter fun c => it.any fun x => x.1 == c && !S3 x.2
  (S5.set (it.map (·.2)), changed.map (fun c => c :: p) ++ if changedMother then [p.tail] else [])

mutual
/-- `propagatePruning` (pdt.cpp 705-858); `none`: the recursion is deeper than the fuel. -/
def prop (P : Problem) (t : T) : Nat → Path → Flags → Option Flags
  | 0, _, _ => none
  | f + 1, p, S =>
    match t.nd p with
    | none => none
    | some d => propAll P t f (body P t p d S).2 (body P t p d S).1
/-- The recursive calls (lines 850-855). -/
def propAll (P : Problem) (t : T) : Nat → List Path → Flags → Option Flags
  | _, [], S => some S
  | f, p :: ps, S =>
    match prop P t f p S with
    | none => none
    | some S' => propAll P t f ps S'
end

/-! ## Closed tables -/

/-- Nothing more can be inferred at the vertex. -/
structure LocalOK (P : Problem) (t : T) (S : Flags) (p : Path) : Prop where
  unexp : ∀ d, t.nd p = some d → t.ex p = none → ∀ a < d.abss.length, S (.abs p a) = true
  meths : ∀ d x a, t.nd p = some d → d.abss[a]? = some x → t.ex p ≠ none →
    (∀ m < (meths P x).length, S (.meth p a m) = true) → S (.abs p a) = true
  absMeth : ∀ d x a m, t.nd p = some d → d.abss[a]? = some x → t.ex p ≠ none → S (.abs p a) = true →
    m < (Pdt.meths P x).length → S (.meth p a m) = true
  causesP : ∀ d i cs, t.nd p = some d → p ≠ [] → i < d.prims.length → d.causesP[i]? = some cs →
    (∀ k < cs.length, S (.causeP p i k) = true) → S (.prim p i) = true
  causesA : ∀ d a cs, t.nd p = some d → p ≠ [] → a < d.abss.length → d.causesA[a]? = some cs →
    (∀ k < cs.length, S (.causeA p a k) = true) → S (.abs p a) = true
  primCause : ∀ d i cs (k : Nat) x c q, t.nd p = some d → p = c :: q → i < d.prims.length → d.causesP[i]? = some cs → cs[k]? = some x →
    S (.prim p i) = true → S (.causeP p i k) = true ∧ S (motherFlag q x) = true
  absCause : ∀ d a cs (k : Nat) x c q, t.nd p = some d → p = c :: q → a < d.abss.length → d.causesA[a]? = some cs → cs[k]? = some x →
    S (.abs p a) = true → S (.causeA p a k) = true ∧ S (motherFlag q x) = true
  primChild : ∀ d e i c j k, t.nd p = some d → t.ex p = some e → i < d.prims.length → e.posP[i]? = some (c, j, k) →
    S (.prim p i) = true → S (.causeP (c :: p) j k) = true
  methChild : ∀ d e x a m c q, t.nd p = some d → t.ex p = some e → d.abss[a]? = some x → m < (Pdt.meths P x).length →
    e.ptr a m c = some q → S (.meth p a m) = true → S (causeFlag q.isPrim (c :: p) q.task q.cause) = true

/-- The part of `LocalOK` that does not speak about unexpanded vertices. -/
structure LocalW (P : Problem) (t : T) (S : Flags) (p : Path) : Prop where
  absMeth : ∀ d x a m, t.nd p = some d → d.abss[a]? = some x → t.ex p ≠ none → S (.abs p a) = true →
    m < (Pdt.meths P x).length → S (.meth p a m) = true
  causesP : ∀ d i cs, t.nd p = some d → p ≠ [] → i < d.prims.length → d.causesP[i]? = some cs →
    (∀ k < cs.length, S (.causeP p i k) = true) → S (.prim p i) = true
  causesA : ∀ d a cs, t.nd p = some d → p ≠ [] → a < d.abss.length → d.causesA[a]? = some cs →
    (∀ k < cs.length, S (.causeA p a k) = true) → S (.abs p a) = true
  primCause : ∀ d i cs (k : Nat) x c q, t.nd p = some d → p = c :: q → i < d.prims.length → d.causesP[i]? = some cs → cs[k]? = some x →
    S (.prim p i) = true → S (.causeP p i k) = true ∧ S (motherFlag q x) = true
  absCause : ∀ d a cs (k : Nat) x c q, t.nd p = some d → p = c :: q → a < d.abss.length → d.causesA[a]? = some cs → cs[k]? = some x →
    S (.abs p a) = true → S (.causeA p a k) = true ∧ S (motherFlag q x) = true
  primChild : ∀ d e i c j k, t.nd p = some d → t.ex p = some e → i < d.prims.length → e.posP[i]? = some (c, j, k) →
    S (.prim p i) = true → S (.causeP (c :: p) j k) = true
  methChild : ∀ d e x a m c q, t.nd p = some d → t.ex p = some e → d.abss[a]? = some x → m < (Pdt.meths P x).length →
    e.ptr a m c = some q → S (.meth p a m) = true → S (causeFlag q.isPrim (c :: p) q.task q.cause) = true

theorem LocalOK.weak {P : Problem} {t : T} {S : Flags} {p : Path} (h : LocalOK P t S p) : LocalW P t S p :=
  ⟨h.absMeth, h.causesP, h.causesA, h.primCause, h.absCause, h.primChild, h.methChild⟩

theorem set_true {S : Flags} {l : List Flag} {f : Flag} : S.set l f = true ↔ S f = true ∨ f ∈ l := by
  unfold Flags.set
  rw [Bool.or_eq_true, List.contains_iff_mem]

section
variable {P : Problem} {p : Path} {d : ND} {S : Flags}

theorem mem_ruleA {b : Bool} {f : Flag} : f ∈ ruleA P p d b S ↔ ∃ a < d.abss.length, f = .abs p a ∧
    (b = false ∨ ∀ m < (meths P (d.abss.getD a 0)).length, S (.meth p a m) = true) := by
  unfold ruleA
  rw [List.mem_filterMap]
  constructor
  · rintro ⟨a, ha, h⟩
    rw [List.mem_range] at ha
    by_cases hc : (!b || (List.range (meths P (d.abss.getD a 0)).length).all (fun m => S (.meth p a m))) = true
    · rw [if_pos hc, Option.some.injEq] at h
      refine ⟨a, ha, h.symm, ?_⟩
      rw [Bool.or_eq_true, Bool.not_eq_true', List.all_eq_true] at hc
      rcases hc with hc | hc
      · exact .inl hc
      · exact .inr fun m hm => hc m (List.mem_range.2 hm)
    · rw [if_neg hc] at h; exact absurd h (by simp)
  · rintro ⟨a, ha, rfl, h⟩
    refine ⟨a, List.mem_range.2 ha, ?_⟩
    rw [if_pos]
    rw [Bool.or_eq_true, Bool.not_eq_true', List.all_eq_true]
    rcases h with h | h
    · exact .inl h
    · exact .inr fun m hm => h m (List.mem_range.1 hm)

theorem mem_ruleB {f : Flag} : f ∈ ruleB p d S ↔ p ≠ [] ∧
    ((∃ i < d.prims.length, f = .prim p i ∧ ∀ c < (d.causesP.getD i []).length, S (.causeP p i c) = true) ∨
     ∃ a < d.abss.length, f = .abs p a ∧ ∀ c < (d.causesA.getD a []).length, S (.causeA p a c) = true) := by
  unfold ruleB
  by_cases hp : p = []
  · simp [hp]
  · rw [if_neg hp, List.mem_append, List.mem_filterMap, List.mem_filterMap]
    constructor
    · rintro (⟨i, hi, h⟩ | ⟨i, hi, h⟩)
      · rw [List.mem_range] at hi
        by_cases hc : (List.range (d.causesP.getD i []).length).all (fun c => S (.causeP p i c)) = true
        · rw [if_pos hc, Option.some.injEq] at h
          exact ⟨hp, .inl ⟨i, hi, h.symm, fun c hc' => List.all_eq_true.1 hc c (List.mem_range.2 hc')⟩⟩
        · rw [if_neg hc] at h; exact absurd h (by simp)
      · rw [List.mem_range] at hi
        by_cases hc : (List.range (d.causesA.getD i []).length).all (fun c => S (.causeA p i c)) = true
        · rw [if_pos hc, Option.some.injEq] at h
          exact ⟨hp, .inr ⟨i, hi, h.symm, fun c hc' => List.all_eq_true.1 hc c (List.mem_range.2 hc')⟩⟩
        · rw [if_neg hc] at h; exact absurd h (by simp)
    · rintro ⟨-, ⟨i, hi, rfl, h⟩ | ⟨i, hi, rfl, h⟩⟩
      · exact .inl ⟨i, List.mem_range.2 hi, by rw [if_pos (List.all_eq_true.2 fun c hc => h c (List.mem_range.1 hc))]⟩
      · exact .inr ⟨i, List.mem_range.2 hi, by rw [if_pos (List.all_eq_true.2 fun c hc => h c (List.mem_range.1 hc))]⟩

theorem mem_ruleC {b : Bool} {f : Flag} : f ∈ ruleC P p d b S ↔ b = true ∧ ∃ a < d.abss.length, S (.abs p a) = true ∧
    ∃ m < (meths P (d.abss.getD a 0)).length, f = .meth p a m := by
  unfold ruleC
  cases b with
  | false => simp
  | true =>
    rw [if_pos rfl, List.mem_flatMap]
    constructor
    · rintro ⟨a, ha, h⟩
      cases hs : S (.abs p a) with
      | false => rw [hs] at h; simp at h
      | true =>
        rw [hs, if_pos rfl, List.mem_map] at h
        obtain ⟨m, hm, rfl⟩ := h
        exact ⟨rfl, a, List.mem_range.1 ha, hs, m, List.mem_range.1 hm, rfl⟩
    · rintro ⟨-, a, ha, hs, m, hm, rfl⟩
      refine ⟨a, List.mem_range.2 ha, ?_⟩
      rw [hs, if_pos rfl, List.mem_map]
      exact ⟨m, List.mem_range.2 hm, rfl⟩

theorem mem_ruleD {f : Flag} : f ∈ ruleD p d S ↔ p ≠ [] ∧
    ((∃ i < d.prims.length, S (.prim p i) = true ∧ ∃ c < (d.causesP.getD i []).length, f = .causeP p i c) ∨
     ∃ a < d.abss.length, S (.abs p a) = true ∧ ∃ c < (d.causesA.getD a []).length, f = .causeA p a c) := by
  unfold ruleD
  by_cases hp : p = []
  · simp [hp]
  · rw [if_neg hp, List.mem_append, List.mem_flatMap, List.mem_flatMap]
    constructor
    · rintro (⟨i, hi, h⟩ | ⟨i, hi, h⟩)
      · cases hs : S (.prim p i) with
        | false => rw [hs] at h; simp at h
        | true =>
          rw [hs, if_pos rfl, List.mem_map] at h
          obtain ⟨c, hc, rfl⟩ := h
          exact ⟨hp, .inl ⟨i, List.mem_range.1 hi, hs, c, List.mem_range.1 hc, rfl⟩⟩
      · cases hs : S (.abs p i) with
        | false => rw [hs] at h; simp at h
        | true =>
          rw [hs, if_pos rfl, List.mem_map] at h
          obtain ⟨c, hc, rfl⟩ := h
          exact ⟨hp, .inr ⟨i, List.mem_range.1 hi, hs, c, List.mem_range.1 hc, rfl⟩⟩
    · rintro ⟨-, ⟨i, hi, hs, c, hc, rfl⟩ | ⟨i, hi, hs, c, hc, rfl⟩⟩
      · exact .inl ⟨i, List.mem_range.2 hi, by rw [hs, if_pos rfl, List.mem_map]; exact ⟨c, List.mem_range.2 hc, rfl⟩⟩
      · exact .inr ⟨i, List.mem_range.2 hi, by rw [hs, if_pos rfl, List.mem_map]; exact ⟨c, List.mem_range.2 hc, rfl⟩⟩

theorem mem_ruleM {f : Flag} : f ∈ ruleM p d S ↔ ∃ c q, p = c :: q ∧
    ((∃ i < d.prims.length, S (.prim p i) = true ∧ ∃ x ∈ d.causesP.getD i [], f = motherFlag q x) ∨
     ∃ a < d.abss.length, S (.abs p a) = true ∧ ∃ x ∈ d.causesA.getD a [], f = motherFlag q x) := by
  unfold ruleM
  cases p with
  | nil => simp
  | cons c q =>
    simp only
    rw [List.mem_append, List.mem_flatMap, List.mem_flatMap]
    constructor
    · rintro (⟨i, hi, h⟩ | ⟨i, hi, h⟩)
      · cases hs : S (.prim (c :: q) i) with
        | false => rw [hs] at h; simp at h
        | true =>
          rw [hs, if_pos rfl, List.mem_map] at h
          obtain ⟨x, hx, rfl⟩ := h
          exact ⟨c, q, rfl, .inl ⟨i, List.mem_range.1 hi, hs, x, hx, rfl⟩⟩
      · cases hs : S (.abs (c :: q) i) with
        | false => rw [hs] at h; simp at h
        | true =>
          rw [hs, if_pos rfl, List.mem_map] at h
          obtain ⟨x, hx, rfl⟩ := h
          exact ⟨c, q, rfl, .inr ⟨i, List.mem_range.1 hi, hs, x, hx, rfl⟩⟩
    · rintro ⟨c', q', heq, h⟩
      obtain ⟨rfl, rfl⟩ := List.cons.inj heq
      rcases h with ⟨i, hi, hs, x, hx, rfl⟩ | ⟨i, hi, hs, x, hx, rfl⟩
      · exact .inl ⟨i, List.mem_range.2 hi, by rw [hs, if_pos rfl, List.mem_map]; exact ⟨x, hx, rfl⟩⟩
      · exact .inr ⟨i, List.mem_range.2 hi, by rw [hs, if_pos rfl, List.mem_map]; exact ⟨x, hx, rfl⟩⟩

theorem mem_ruleE {e : EX} {y : Nat × Flag} : y ∈ ruleE P p d e S ↔
    (∃ i < d.prims.length, S (.prim p i) = true ∧ ∃ c j k, e.posP[i]? = some (c, j, k) ∧ y = (c, .causeP (c :: p) j k)) ∨
    ∃ a < d.abss.length, ∃ m < (meths P (d.abss.getD a 0)).length, S (.meth p a m) = true ∧ ∃ c < e.children.length, ∃ q,
      e.ptr a m c = some q ∧ y = (c, causeFlag q.isPrim (c :: p) q.task q.cause) := by
  unfold ruleE
  rw [List.mem_append, List.mem_flatMap, List.mem_flatMap]
  constructor
  · rintro (⟨i, hi, h⟩ | ⟨a, ha, h⟩)
    · cases hs : S (.prim p i) with
      | false => rw [hs] at h; simp at h
      | true =>
        rw [hs, if_pos rfl, List.mem_map] at h
        obtain ⟨⟨c, j, k⟩, hx, rfl⟩ := h
        rw [Option.mem_toList] at hx
        exact .inl ⟨i, List.mem_range.1 hi, hs, c, j, k, hx, rfl⟩
    · rw [List.mem_flatMap] at h
      obtain ⟨m, hm, h⟩ := h
      cases hs : S (.meth p a m) with
      | false => rw [hs] at h; simp at h
      | true =>
        rw [hs, if_pos rfl, List.mem_flatMap] at h
        obtain ⟨c, hc, h⟩ := h
        rw [List.mem_map] at h
        obtain ⟨q, hq, rfl⟩ := h
        rw [Option.mem_toList] at hq
        exact .inr ⟨a, List.mem_range.1 ha, m, List.mem_range.1 hm, hs, c, List.mem_range.1 hc, q, hq, rfl⟩
  · rintro (⟨i, hi, hs, c, j, k, hx, rfl⟩ | ⟨a, ha, m, hm, hs, c, hc, q, hq, rfl⟩)
    · refine .inl ⟨i, List.mem_range.2 hi, ?_⟩
      rw [hs, if_pos rfl, List.mem_map]
      exact ⟨(c, j, k), by rw [Option.mem_toList]; exact hx, rfl⟩
    · refine .inr ⟨a, List.mem_range.2 ha, ?_⟩
      rw [List.mem_flatMap]
      refine ⟨m, List.mem_range.2 hm, ?_⟩
      rw [hs, if_pos rfl, List.mem_flatMap]
      refine ⟨c, List.mem_range.2 hc, ?_⟩
      rw [List.mem_map]
      exact ⟨q, by rw [Option.mem_toList]; exact hq, rfl⟩

end

/-- The vertex an entry belongs to. -/
def Flag.path : Flag → Path
  | .prim p _ => p
  | .abs p _ => p
  | .meth p _ _ => p
  | .causeP p _ _ => p
  | .causeA p _ _ => p

section
variable {P : Problem} {tot : Nat → List Nat} {t : T} {p : Path} {d : ND} {S : Flags}

/-- All flags after the body. -/
theorem body_true {f : Flag} : (body P t p d S).1 f = true ↔ own P p d (t.ex p).isSome S f = true ∨
    f ∈ ruleD p d (own P p d (t.ex p).isSome S) ∨ f ∈ ruleM p d (own P p d (t.ex p).isSome S) ∨
    ∃ x ∈ items P t p d (own P p d (t.ex p).isSome S), x.2 = f := by
  simp only [body, set_true, List.mem_map]
  tauto

theorem own_true {b : Bool} {f : Flag} : own P p d b S f = true ↔ S f = true ∨ f ∈ ruleA P p d b S ∨
    f ∈ ruleB p d (S.set (ruleA P p d b S)) ∨
    f ∈ ruleC P p d b ((S.set (ruleA P p d b S)).set (ruleB p d (S.set (ruleA P p d b S)))) := by
  simp only [own, set_true]
  tauto

theorem own_path {b : Bool} {f : Flag} (h : own P p d b S f = true) : S f = true ∨ f.path = p := by
  rcases own_true.1 h with h | h | h | h
  · exact .inl h
  · obtain ⟨a, -, rfl, -⟩ := mem_ruleA.1 h; exact .inr rfl
  · obtain ⟨-, ⟨a, -, rfl, -⟩ | ⟨a, -, rfl, -⟩⟩ := mem_ruleB.1 h <;> exact .inr rfl
  · obtain ⟨-, a, -, -, m, -, rfl⟩ := mem_ruleC.1 h; exact .inr rfl

theorem motherFlag_path (q : Path) (x : Cause) : (motherFlag q x).path = q := by
  cases x <;> rfl

theorem causeFlag_path (b : Bool) (q : Path) (i c : Nat) : (causeFlag b q i c).path = q := by
  cases b <;> rfl

theorem ruleM_path {f : Flag} (h : f ∈ ruleM p d S) : ∃ c, p = c :: f.path := by
  obtain ⟨c, q, rfl, ⟨_, _, _, x, _, rfl⟩ | ⟨_, _, _, x, _, rfl⟩⟩ := mem_ruleM.1 h
  · exact ⟨c, by rw [motherFlag_path]⟩
  · exact ⟨c, by rw [motherFlag_path]⟩

theorem items_path {x : Nat × Flag} (h : x ∈ items P t p d S) : x.2.path = x.1 :: p := by
  unfold items at h
  cases he : t.ex p with
  | none => rw [he] at h; simp at h
  | some e =>
    rw [he] at h
    simp only at h
    by_cases h0 : e.children = []
    · rw [if_pos h0] at h; simp at h
    · rw [if_neg h0] at h
      rcases mem_ruleE.1 h with ⟨_, _, _, c, j, k, _, rfl⟩ | ⟨_, _, _, _, _, c, _, q, _, rfl⟩
      · rfl
      · exact causeFlag_path _ _ _ _

theorem body_mono {f : Flag} (h : S f = true) : (body P t p d S).1 f = true :=
  body_true.2 (.inl (own_true.2 (.inl h)))

theorem cons_ne_self (c : Nat) (q : Path) : c :: q ≠ q := by
  intro h
  have := congrArg List.length h
  simp at this

/-- Entries for tasks and methods of the vertex itself are settled in the first part. -/
theorem body_own {f : Flag} (hf : f.path = p) (hc : ∀ i c, f ≠ .causeP p i c) (hc' : ∀ i c, f ≠ .causeA p i c) :
    (body P t p d S).1 f = true ↔ own P p d (t.ex p).isSome S f = true := by
  rw [body_true]
  constructor
  · rintro (h | h | h | ⟨x, hx, rfl⟩)
    · exact h
    · obtain ⟨-, ⟨i, -, -, c, -, rfl⟩ | ⟨i, -, -, c, -, rfl⟩⟩ := mem_ruleD.1 h
      · exact absurd rfl (hc i c)
      · exact absurd rfl (hc' i c)
    · obtain ⟨c, h⟩ := ruleM_path h
      rw [hf] at h
      exact absurd h.symm (cons_ne_self c p)
    · rw [items_path hx] at hf
      exact absurd hf (cons_ne_self _ p)
  · exact fun h => .inl h

/-- Causes of the vertex itself. -/
theorem body_causeP {i c : Nat} (h : (body P t p d S).1 (.causeP p i c) = true) :
    S (.causeP p i c) = true ∨ own P p d (t.ex p).isSome S (.prim p i) = true := by
  rcases body_true.1 h with h | h | h | ⟨x, hx, he⟩
  · rcases own_true.1 h with h | h | h | h
    · exact .inl h
    · obtain ⟨a, -, h, -⟩ := mem_ruleA.1 h; exact absurd h (by simp)
    · obtain ⟨-, ⟨a, -, h, -⟩ | ⟨a, -, h, -⟩⟩ := mem_ruleB.1 h <;> exact absurd h (by simp)
    · obtain ⟨-, a, -, -, m, -, h⟩ := mem_ruleC.1 h; exact absurd h (by simp)
  · obtain ⟨-, ⟨i', -, hs, c, -, he⟩ | ⟨i', -, -, c, -, he⟩⟩ := mem_ruleD.1 h
    · obtain ⟨-, rfl, -⟩ := Flag.causeP.inj he
      exact .inr hs
    · exact absurd he (by simp)
  · obtain ⟨c, h⟩ := ruleM_path h
    exact absurd h.symm (cons_ne_self c p)
  · have := items_path hx
    rw [he] at this
    exact absurd this.symm (cons_ne_self _ p)

theorem body_causeA {i c : Nat} (h : (body P t p d S).1 (.causeA p i c) = true) :
    S (.causeA p i c) = true ∨ own P p d (t.ex p).isSome S (.abs p i) = true := by
  rcases body_true.1 h with h | h | h | ⟨x, hx, he⟩
  · rcases own_true.1 h with h | h | h | h
    · exact .inl h
    · obtain ⟨a, -, h, -⟩ := mem_ruleA.1 h; exact absurd h (by simp)
    · obtain ⟨-, ⟨a, -, h, -⟩ | ⟨a, -, h, -⟩⟩ := mem_ruleB.1 h <;> exact absurd h (by simp)
    · obtain ⟨-, a, -, -, m, -, h⟩ := mem_ruleC.1 h; exact absurd h (by simp)
  · obtain ⟨-, ⟨i', -, -, c, -, he⟩ | ⟨i', -, hs, c, -, he⟩⟩ := mem_ruleD.1 h
    · exact absurd he (by simp)
    · obtain ⟨-, rfl, -⟩ := Flag.causeA.inj he
      exact .inr hs
  · obtain ⟨c, h⟩ := ruleM_path h
    exact absurd h.symm (cons_ne_self c p)
  · have := items_path hx
    rw [he] at this
    exact absurd this.symm (cons_ne_self _ p)

theorem own_abs {b : Bool} {a : Nat} : own P p d b S (.abs p a) = true ↔
    ((S.set (ruleA P p d b S)).set (ruleB p d (S.set (ruleA P p d b S)))) (.abs p a) = true := by
  constructor
  · intro h
    rcases own_true.1 h with h | h | h | h
    · exact set_true.2 (Or.inl (set_true.2 (Or.inl h)))
    · exact set_true.2 (Or.inl (set_true.2 (Or.inr h)))
    · exact set_true.2 (Or.inr h)
    · obtain ⟨-, a, -, -, m, -, h⟩ := mem_ruleC.1 h; exact absurd h (by simp)
  · intro h
    rcases set_true.1 h with h | h
    · rcases set_true.1 h with h | h
      · exact own_true.2 (Or.inl h)
      · exact own_true.2 (Or.inr (Or.inl h))
    · exact own_true.2 (Or.inr (Or.inr (Or.inl h)))

theorem getD_of {α : Type} {l : List α} {i : Nat} {x y : α} (h : l[i]? = some x) : l.getD i y = x := by
  rw [List.getD_eq_getElem?_getD, h]; rfl

theorem mem_items {e : EX} (he : t.ex p = some e) (h0 : e.children ≠ []) : items P t p d S = ruleE P p d e S := by
  unfold items
  rw [he]
  simp only
  rw [if_neg h0]

/-- After its body nothing more can be inferred at the vertex. -/
theorem body_closed (ht : t.OK P tot) (hd : t.nd p = some d) : LocalOK P t (body P t p d S).1 p := by
  have hown : ∀ d', t.nd p = some d' → d' = d := fun d' h => by rw [hd] at h; exact (Option.some.inj h).symm
  have hne : ∀ {e : EX} {c : Nat} {ch : ND}, e.children[c]? = some ch → e.children ≠ [] := by
    intro e c ch h h0
    rw [h0] at h; simp at h
  refine ⟨?_, ?_, ?_, ?_, ?_, ?_, ?_, ?_, ?_⟩
  · intro d' h' he a ha
    obtain rfl := hown d' h'
    refine (body_own (p := p) (f := .abs p a) rfl (by simp) (by simp)).2 (own_true.2 (.inr (.inl ?_)))
    exact mem_ruleA.2 ⟨a, ha, rfl, .inl (by rw [he]; rfl)⟩
  · intro d' x a h' hx he hall
    obtain rfl := hown d' h'
    refine (body_own (p := p) (f := .abs p a) rfl (by simp) (by simp)).2 ?_
    by_contra hc
    rw [Bool.not_eq_true] at hc
    have hS : ∀ m < (meths P x).length, S (.meth p a m) = true := by
      intro m hm
      have h1 := (body_own (p := p) (f := .meth p a m) rfl (by simp) (by simp)).1 (hall m hm)
      rcases own_true.1 h1 with h | h | h | h
      · exact h
      · obtain ⟨_, -, h, -⟩ := mem_ruleA.1 h; exact absurd h (by simp)
      · obtain ⟨-, ⟨_, -, h, -⟩ | ⟨_, -, h, -⟩⟩ := mem_ruleB.1 h <;> exact absurd h (by simp)
      · obtain ⟨-, a', -, hs, m', -, heq⟩ := mem_ruleC.1 h
        obtain ⟨-, rfl, -⟩ := Flag.meth.inj heq
        rw [own_abs.2 hs] at hc
        exact absurd hc (by simp)
    have : own P p d' (t.ex p).isSome S (.abs p a) = true := by
      refine own_true.2 (.inr (.inl (mem_ruleA.2 ⟨a, (List.getElem?_eq_some_iff.1 hx).1, rfl, .inr ?_⟩)))
      rw [getD_of hx]
      exact hS
    rw [this] at hc
    exact absurd hc (by simp)
  · intro d' x a m h' hx he hs hm
    obtain rfl := hown d' h'
    have hs' := own_abs.1 ((body_own (p := p) (f := .abs p a) rfl (by simp) (by simp)).1 hs)
    refine (body_own (p := p) (f := .meth p a m) rfl (by simp) (by simp)).2 (own_true.2 (.inr (.inr (.inr (mem_ruleC.2 ⟨?_, a,
      (List.getElem?_eq_some_iff.1 hx).1, hs', m, ?_, rfl⟩)))))
    · cases hex : t.ex p with
      | none => exact absurd hex he
      | some _ => rfl
    · rw [getD_of hx]; exact hm
  · intro d' i cs h' hp hi hcs hall
    obtain rfl := hown d' h'
    refine (body_own (p := p) (f := .prim p i) rfl (by simp) (by simp)).2 ?_
    by_contra hc
    refine hc (own_true.2 (.inr (.inr (.inl (mem_ruleB.2 ⟨hp, .inl ⟨i, hi, rfl, fun k hk => ?_⟩⟩)))))
    rw [getD_of hcs] at hk
    rcases body_causeP (hall k hk) with h | h
    · exact set_true.2 (.inl h)
    · exact absurd h hc
  · intro d' i cs h' hp hi hcs hall
    obtain rfl := hown d' h'
    refine (body_own (p := p) (f := .abs p i) rfl (by simp) (by simp)).2 ?_
    by_contra hc
    refine hc (own_true.2 (.inr (.inr (.inl (mem_ruleB.2 ⟨hp, .inr ⟨i, hi, rfl, fun k hk => ?_⟩⟩)))))
    rw [getD_of hcs] at hk
    rcases body_causeA (hall k hk) with h | h
    · exact set_true.2 (.inl h)
    · exact absurd h hc
  · intro d' i cs k x c q h' hp hi hcs hk hs
    obtain rfl := hown d' h'
    have hs' := (body_own (p := p) (f := .prim p i) rfl (by simp) (by simp)).1 hs
    refine ⟨body_true.2 (.inr (.inl (mem_ruleD.2 ⟨by rw [hp]; simp, .inl ⟨i, hi, hs', k, ?_, rfl⟩⟩))),
      body_true.2 (.inr (.inr (.inl (mem_ruleM.2 ⟨c, q, hp, .inl ⟨i, hi, hs', x, ?_, rfl⟩⟩))))⟩
    · rw [getD_of hcs]; exact (List.getElem?_eq_some_iff.1 hk).1
    · rw [getD_of hcs]; exact List.mem_of_getElem? hk
  · intro d' i cs k x c q h' hp hi hcs hk hs
    obtain rfl := hown d' h'
    have hs' := (body_own (p := p) (f := .abs p i) rfl (by simp) (by simp)).1 hs
    refine ⟨body_true.2 (.inr (.inl (mem_ruleD.2 ⟨by rw [hp]; simp, .inr ⟨i, hi, hs', k, ?_, rfl⟩⟩))),
      body_true.2 (.inr (.inr (.inl (mem_ruleM.2 ⟨c, q, hp, .inr ⟨i, hi, hs', x, ?_, rfl⟩⟩))))⟩
    · rw [getD_of hcs]; exact (List.getElem?_eq_some_iff.1 hk).1
    · rw [getD_of hcs]; exact List.mem_of_getElem? hk
  · intro d' e i c j k h' he hi hpos hs
    obtain rfl := hown d' h'
    have hs' := (body_own (p := p) (f := .prim p i) rfl (by simp) (by simp)).1 hs
    obtain ⟨d', hd', -, -, hexp, -⟩ := ht.ex p e he
    obtain rfl := hown d' hd'
    obtain ⟨ch, hch, -⟩ := hexp.pos_inh i c j k hpos
    refine body_true.2 (.inr (.inr (.inr ⟨(c, .causeP (c :: p) j k), ?_, rfl⟩)))
    rw [mem_items he (hne hch)]
    exact mem_ruleE.2 (.inl ⟨i, hi, hs', c, j, k, hpos, rfl⟩)
  · intro d' e x a m c q h' he hx hm hq hs
    obtain rfl := hown d' h'
    have hs' := (body_own (p := p) (f := .meth p a m) rfl (by simp) (by simp)).1 hs
    obtain ⟨d', hd', -, -, hexp, -⟩ := ht.ex p e he
    obtain rfl := hown d' hd'
    obtain ⟨ch, hch, -⟩ := hexp.ptr_cause a m c q hq
    refine body_true.2 (.inr (.inr (.inr ⟨(c, causeFlag q.isPrim (c :: p) q.task q.cause), ?_, rfl⟩)))
    rw [mem_items he (hne hch)]
    exact mem_ruleE.2 (.inr ⟨a, (List.getElem?_eq_some_iff.1 hx).1, m, by rw [getD_of hx]; exact hm, hs', c,
      (List.getElem?_eq_some_iff.1 hch).1, q, hq, rfl⟩)

/-- Items concern children that exist. -/
theorem items_child (ht : t.OK P tot) (hd : t.nd p = some d) {x : Nat × Flag} (hx : x ∈ items P t p d S) : x.1 < t.nc p := by
  unfold items at hx
  cases he : t.ex p with
  | none => rw [he] at hx; simp at hx
  | some e =>
    obtain ⟨d', hd', -, -, hexp, -⟩ := ht.ex p e he
    rw [he] at hx
    simp only at hx
    unfold T.nc
    rw [he]
    simp only
    by_cases h0 : e.children = []
    · rw [if_pos h0] at hx; simp at hx
    · rw [if_neg h0] at hx
      rcases mem_ruleE.1 hx with ⟨i, _, _, c, j, k, hpos, rfl⟩ | ⟨_, _, _, _, _, c, hc, q, _, rfl⟩
      · obtain ⟨ch, hch, -⟩ := hexp.pos_inh i c j k hpos
        exact (List.getElem?_eq_some_iff.1 hch).1
      · exact hc

/-- The vertices whose entries changed are visited afterwards. -/
theorem body_todo (ht : t.OK P tot) (hd : t.nd p = some d) {f : Flag} (h : (body P t p d S).1 f = true) (hp : f.path ≠ p)
    (hq : f.path ∉ (body P t p d S).2) : S f = true := by
  have hown : own P p d (t.ex p).isSome S f = true → S f = true := fun h => (own_path h).resolve_right hp
  simp only [body, List.mem_append, List.mem_map, List.mem_filter, List.mem_range, not_or] at hq
  rcases body_true.1 h with h | h | h | ⟨x, hx, rfl⟩
  · exact hown h
  · obtain ⟨-, ⟨_, -, -, c, -, rfl⟩ | ⟨_, -, -, c, -, rfl⟩⟩ := mem_ruleD.1 h <;> exact absurd rfl hp
  · refine hown ?_
    by_contra hc
    obtain ⟨c, hpc⟩ := ruleM_path h
    refine hq.2 ?_
    rw [if_pos]
    · have : p.tail = f.path := by
        rw [hpc]; rfl
      simp [this]
    · rw [List.any_eq_true]
      exact ⟨f, h, by simpa using hc⟩
  · refine hown ?_
    by_contra hc
    refine hq.1 ⟨x.1, ⟨items_child ht hd hx, ?_⟩, (items_path hx).symm⟩
    rw [List.any_eq_true]
    exact ⟨x, hx, by simpa using hc⟩

/-- What was closed stays closed, unless the vertex is visited afterwards. -/
theorem body_other (ht : t.OK P tot) (hd : t.nd p = some d) {q : Path} (hp : q ≠ p) (hq : q ∉ (body P t p d S).2)
    (h : LocalOK P t S q) : LocalOK P t (body P t p d S).1 q := by
  have hb : ∀ f : Flag, f.path = q → (body P t p d S).1 f = true → S f = true := by
    rintro f rfl h'
    exact body_todo ht hd h' hp hq
  refine ⟨?_, ?_, ?_, ?_, ?_, ?_, ?_, ?_, ?_⟩
  · intro d' h1 h2 a ha
    exact body_mono (h.unexp d' h1 h2 a ha)
  · intro d' x a h1 h2 h3 h4
    exact body_mono (h.meths d' x a h1 h2 h3 fun m hm => hb _ rfl (h4 m hm))
  · intro d' x a m h1 h2 h3 h4 h5
    exact body_mono (h.absMeth d' x a m h1 h2 h3 (hb _ rfl h4) h5)
  · intro d' i cs h1 h2 h3 h4 h5
    exact body_mono (h.causesP d' i cs h1 h2 h3 h4 fun k hk => hb _ rfl (h5 k hk))
  · intro d' i cs h1 h2 h3 h4 h5
    exact body_mono (h.causesA d' i cs h1 h2 h3 h4 fun k hk => hb _ rfl (h5 k hk))
  · intro d' i cs k x c r h1 h2 h3 h4 h5 h6
    have := h.primCause d' i cs k x c r h1 h2 h3 h4 h5 (hb _ rfl h6)
    exact ⟨body_mono this.1, body_mono this.2⟩
  · intro d' i cs k x c r h1 h2 h3 h4 h5 h6
    have := h.absCause d' i cs k x c r h1 h2 h3 h4 h5 (hb _ rfl h6)
    exact ⟨body_mono this.1, body_mono this.2⟩
  · intro d' e i c j k h1 h2 h3 h4 h5
    exact body_mono (h.primChild d' e i c j k h1 h2 h3 h4 (hb _ rfl h5))
  · intro d' e x a m c r h1 h2 h3 h4 h5 h6
    exact body_mono (h.methChild d' e x a m c r h1 h2 h3 h4 h5 (hb _ rfl h6))

end

end Verif.Pdt
