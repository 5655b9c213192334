import Verif.MethodOrder
import Mathlib.Data.List.Sort

/-! # Model of the writing of a problem as HDDL (`Model::writeToPDDL`, src/Model.cpp 2781-2972)

The file is kept as a structure: of a method the facts of its precondition and its body, which is either the sequence
after `:ordered-subtasks` or the labelled tasks after `:subtasks` with the pairs after `:ordering`.  Names are kept as
numbers of tasks and facts; `cleanStr` below is the function by which they are written.  Costs and conditional effects
are not written by the code. -/

namespace Verif.WriteHddl

open Relation MethodOrder

/-- `StringUtil::cleanStr` (src/intDataStructures/StringUtil.cpp 30-51), as applied to one character. -/
def cleanChar (c : Char) : Char :=
  if c ∈ [',', ';', ']', '[', '|', '!', '(', ')', '?', '<', '>'] then '_'
  else if c = '+' then 'p' else if c = '-' then 'm' else c

/-- `StringUtil::cleanStr` (src/intDataStructures/StringUtil.cpp 30-51). -/
def cleanStr (s : List Char) : List Char :=
  match s.map cleanChar with
  | '_' :: l => 'x' :: '_' :: l
  | l => l

/-- `rfind("__method_precondition", 0) == 0` (src/Model.cpp 2804). -/
def isPreName (s : List Char) : Bool := "__method_precondition".toList.isPrefixOf s

/-- `rfind("__noop", 0) == 0` (src/Model.cpp 2860, 2878). -/
def isNoopName (s : List Char) : Bool := "__noop".toList.isPrefixOf s

/-- The loop for the candidate of a precondition (src/Model.cpp 2803-2812): `none` stands for both -1 and -2. -/
def preLoop (pre : Nat → Bool) : List Nat → Option Nat → Option Nat
  | [], r => r
  | j :: js, r => if pre j then (match r with | some _ => none | none => preLoop pre js (some j)) else preLoop pre js r

/-- `succs[c]` (src/Model.cpp 2816-2821). -/
def succs (ord : List (Nat × Nat)) (c : Nat) : List Nat := (ord.filter fun p => p.1 == c).map Prod.snd

/-- The loop over the stack (src/Model.cpp 2827-2833); the stack has its top in front, `vis` is `allSuccessors`.
`none`: more rounds than the fuel. -/
def closure (ord : List (Nat × Nat)) : Nat → List Nat → List Nat → Option (List Nat)
  | 0, _, _ => none
  | _ + 1, [], vis => some vis
  | f + 1, c :: st, vis =>
    closure ord f (((succs ord c).filter fun x => !((vis.insert c).contains x)).reverse ++ st) (vis.insert c)

/-- `possibleMethodPrecondition` after the check (src/Model.cpp 2802-2837) for a method with `n` subtasks.  That the
fuel is large enough is proved below. -/
def methodPre (pre : Nat → Bool) (n : Nat) (ord : List (Nat × Nat)) : Option (Option Nat) :=
  match preLoop pre (List.range n) none with
  | none => some none
  | some p => (closure ord (ord.length + 2) [p] []).map fun vis => if vis.length ≠ n then none else some p

/-- The body of a written method. -/
inductive Body where
  | seq (ts : List Nat)
  | net (tasks : List (Nat × Nat)) (ords : List (Nat × Nat))
deriving DecidableEq

/-- A written method: the facts of the precondition, if it has one, and the body. -/
structure Meth where
  precs : Option (List Nat)
  body : Body
deriving DecidableEq

/-- The writing of a method (src/Model.cpp 2801-2913): `names` has the names of tasks, `precLists` the preconditions,
`sub` and `ord` the subtasks and orderings of the method.  `adj` lists, in the order of the hash set, the successors
used by `isMethodTotallyOrdered`.  Labels: the first part of a pair in `net`. -/
def writeMethod (names : Nat → List Char) (precLists : Nat → List Nat) (sub : List Nat) (ord : List (Nat × Nat))
    (adj : Nat → List Nat) : Option Meth :=
  let task j := sub.getD j 0
  let noop j := isNoopName (names (task j))
  match methodPre (fun j => isPreName (names (task j))) sub.length ord, isMethodTotallyOrdered sub.length adj with
  | some p, some (tot, flag) =>
    let written j := some j != p && !noop j
    some ⟨p.map fun j => precLists (task j),
      if flag then .seq ((tot.filter written).map task)
      else
        let noopIDs := (List.range sub.length).filter fun j => some j != p && noop j
        .net (((List.range sub.length).filter written).map fun j => (j, task j))
          (ord.filter fun o => !(some o.1 == p || noopIDs.contains o.1 || noopIDs.contains (o.1 + 1)))⟩
  | _, _ => none

/-- The tasks of a body. -/
def Body.tasks : Body → List Nat
  | .seq ts => ts
  | .net ts _ => ts.map Prod.snd

/-- The actions written (`actionOccurs`, src/Model.cpp 2799, 2863, 2882, 2916-2917). -/
def writtenActions (numActions : Nat) (ms : List Meth) : List Nat :=
  (List.range numActions).filter fun a => ms.any fun m => m.body.tasks.contains a

/-- The domain written: abstract tasks (2793-2796), methods (2801-2913), actions (2916-2941). -/
structure Domain where
  tasks : List Nat
  methods : List (Nat × Meth)
  actions : List Nat

def writeDomain (names : Nat → List Char) (precLists : Nat → List Nat) (numActions numTasks : Nat)
    (ms : List (Nat × List Nat × List (Nat × Nat) × (Nat → List Nat))) : Option Domain :=
  (ms.mapM fun m => (writeMethod names precLists m.2.1 m.2.2.1 m.2.2.2).map fun w => (m.1, w)).map fun l =>
    ⟨List.range' numActions (numTasks - numActions), l, writtenActions numActions (l.map Prod.snd)⟩

/-! ## Meaning of a written method -/

/-- The sequences of tasks which a body allows: in HDDL the ordered subtasks, or the subtasks in an order which respects
all orderings, which must relate declared labels. -/
def Body.Allows : Body → List Nat → Prop
  | .seq ts, l => l = ts
  | .net tasks ords, l => (∀ o ∈ ords, o.1 ≠ o.2 ∧ o.1 ∈ tasks.map Prod.fst ∧ o.2 ∈ tasks.map Prod.fst) ∧
      ∃ ks : List (Nat × Nat), ks.Perm tasks ∧ ks.Pairwise (fun a b => (b.1, a.1) ∉ ords) ∧ l = ks.map Prod.snd

/-! ## The candidate for the precondition -/

theorem preLoop_some (pre : Nat → Bool) : ∀ (js : List Nat) (q : Nat), preLoop pre js (some q) =
    if js.any pre then none else some q
  | [], q => rfl
  | j :: js, q => by
    rw [preLoop, preLoop_some pre js q]
    cases h : pre j <;> simp [h]

theorem preLoop_none (pre : Nat → Bool) : ∀ (js : List Nat), js.Nodup → ∀ p, preLoop pre js none = some p ↔
    p ∈ js ∧ pre p = true ∧ ∀ j ∈ js, pre j = true → j = p
  | [], _, p => by simp [preLoop]
  | j :: js, hnd, p => by
    rw [List.nodup_cons] at hnd
    rw [preLoop]
    cases h : pre j
    · rw [if_neg (by simp), preLoop_none pre js hnd.2 p]
      refine ⟨fun ⟨h1, h2, h3⟩ => ⟨List.mem_cons_of_mem _ h1, h2, fun x hx hp => ?_⟩, fun ⟨h1, h2, h3⟩ => ⟨?_, h2, fun x hx hp =>
        h3 x (List.mem_cons_of_mem _ hx) hp⟩⟩
      · rcases List.mem_cons.1 hx with rfl | hx
        · rw [h] at hp; simp at hp
        · exact h3 x hx hp
      · rcases List.mem_cons.1 h1 with rfl | h1
        · rw [h] at h2; simp at h2
        · exact h1
    · simp only [if_true]
      rw [preLoop_some]
      by_cases ha : js.any pre = true
      · simp only [ha, if_true, reduceCtorEq, false_iff]
        rintro ⟨h1, h2, h3⟩
        obtain ⟨x, hx, hp⟩ := List.any_eq_true.1 ha
        have e1 := h3 x (List.mem_cons_of_mem _ hx) hp
        have e2 := h3 j List.mem_cons_self h
        subst e1; subst e2
        exact hnd.1 hx
      · rw [if_neg ha]
        refine ⟨fun he => ?_, fun ⟨h1, h2, h3⟩ => by rw [h3 j List.mem_cons_self h]⟩
        obtain rfl := Option.some.inj he
        refine ⟨List.mem_cons_self, h, fun x hx hp => ?_⟩
        rcases List.mem_cons.1 hx with rfl | hx
        · rfl
        · exact absurd (List.any_eq_true.2 ⟨x, hx, hp⟩) ha

/-! ## The successors -/

theorem mem_succs {ord : List (Nat × Nat)} {c x : Nat} : x ∈ succs ord c ↔ (c, x) ∈ ord := by
  simp only [succs, List.mem_map, List.mem_filter, beq_iff_eq]
  refine ⟨?_, fun h => ⟨_, ⟨h, rfl⟩, rfl⟩⟩
  rintro ⟨⟨a, b⟩, ⟨h, rfl⟩, rfl⟩
  exact h

/-- Invariant of the loop: visited subtasks on the stack have successors which are visited or further up. -/
structure CInv (ord : List (Nat × Nat)) (p : Nat) (st vis : List Nat) : Prop where
  nodup : vis.Nodup
  start : p ∈ vis ∨ p ∈ st
  reach : ∀ x, x ∈ vis ∨ x ∈ st → ReflTransGen (fun a b => (a, b) ∈ ord) p x
  closed : ∀ x ∈ vis, ∀ y, (x, y) ∈ ord → y ∈ vis ∨ y ∈ st
  above : ∀ l x r, st = l ++ x :: r → x ∈ vis → ∀ y, (x, y) ∈ ord → y ∈ vis ∨ y ∈ l

/-- Orderings whose first subtask is not visited. -/
def pending (ord : List (Nat × Nat)) (vis : List Nat) : Nat := ord.countP fun o => !vis.contains o.1

theorem succs_length {ord : List (Nat × Nat)} {c : Nat} {vis : List Nat} (h : c ∉ vis) :
    (succs ord c).length + pending ord (vis.insert c) = pending ord vis := by
  induction ord with
  | nil => rfl
  | cons o ord ih =>
    simp only [succs, pending, List.length_map, ← List.countP_eq_length_filter, List.countP_cons, beq_iff_eq] at ih ⊢
    by_cases hc : o.1 = c
    · simp [hc, h] at ih ⊢; omega
    · by_cases hv : o.1 ∈ vis <;> simp [hc, hv] at ih ⊢ <;> omega

theorem closure_spec {ord : List (Nat × Nat)} {p : Nat} : ∀ (f : Nat) (st vis : List Nat), CInv ord p st vis →
    st.length + pending ord vis < f → ∃ r, closure ord f st vis = some r ∧ r.Nodup ∧
      ∀ x, x ∈ r ↔ ReflTransGen (fun a b => (a, b) ∈ ord) p x
  | 0, _, _, _, hf => absurd hf (by omega)
  | f + 1, [], vis, hi, _ => by
    refine ⟨vis, rfl, hi.nodup, fun x => ⟨fun h => hi.reach x (.inl h), fun h => ?_⟩⟩
    induction h with
    | refl => simpa using hi.start
    | tail _ h ih => simpa using hi.closed _ ih _ h
  | f + 1, c :: st, vis, hi, hf => by
    rw [closure]
    by_cases hc : c ∈ vis
    · have hall : ∀ y, (c, y) ∈ ord → y ∈ vis := fun y hy => by simpa using hi.above [] c st rfl hc y hy
      have e1 : vis.insert c = vis := List.insert_of_mem hc
      have e2 : ((succs ord c).filter fun x => !((vis.insert c).contains x)) = [] := by
        rw [e1, List.filter_eq_nil_iff]
        intro x hx
        simpa using hall x (mem_succs.1 hx)
      rw [e2, e1]
      refine closure_spec f st vis ⟨hi.nodup, ?_, fun x hx => hi.reach x (hx.imp_right (List.mem_cons_of_mem _)),
        fun x hx y hy => ?_, fun l x r he hx y hy => ?_⟩ (by simp only [List.length_cons] at hf; omega)
      · rcases hi.start with h | h
        · exact .inl h
        · rcases List.mem_cons.1 h with rfl | h
          · exact .inl hc
          · exact .inr h
      · rcases hi.closed x hx y hy with h | h
        · exact .inl h
        · rcases List.mem_cons.1 h with rfl | h
          · exact .inl hc
          · exact .inr h
      · rcases hi.above (c :: l) x r (by rw [he]; rfl) hx y hy with h | h
        · exact .inl h
        · rcases List.mem_cons.1 h with rfl | h
          · exact .inl hc
          · exact .inr h
    · set new := ((succs ord c).filter fun x => !((vis.insert c).contains x)).reverse with hnew
      have hmn : ∀ x, x ∈ new ↔ (c, x) ∈ ord ∧ x ∉ vis.insert c := fun x => by
        rw [hnew, List.mem_reverse, List.mem_filter, mem_succs]; simp
      have hcov : ∀ y, (c, y) ∈ ord → y ∈ vis.insert c ∨ y ∈ new := fun y hy => by
        by_cases h : y ∈ vis.insert c
        · exact .inl h
        · exact .inr ((hmn y).2 ⟨hy, h⟩)
      have hlen : new.length + pending ord (vis.insert c) ≤ pending ord vis := by
        have h1 := succs_length (ord := ord) hc
        have h2 : new.length ≤ (succs ord c).length := by
          rw [hnew, List.length_reverse]; exact List.length_filter_le _ _
        omega
      refine closure_spec f (new ++ st) (vis.insert c) ⟨hi.nodup.insert, ?_, fun x hx => ?_, fun x hx y hy => ?_,
        fun l x r he hx y hy => ?_⟩ (by simp only [List.length_cons, List.length_append] at hf ⊢; omega)
      · rcases hi.start with h | h
        · exact .inl (List.mem_insert_of_mem h)
        · rcases List.mem_cons.1 h with rfl | h
          · exact .inl List.mem_insert_self
          · exact .inr (List.mem_append_right _ h)
      · rcases hx with hx | hx
        · rcases List.mem_insert_iff.1 hx with rfl | hx
          · exact hi.reach _ (.inr List.mem_cons_self)
          · exact hi.reach x (.inl hx)
        · rcases List.mem_append.1 hx with hx | hx
          · exact (hi.reach c (.inr List.mem_cons_self)).tail ((hmn x).1 hx).1
          · exact hi.reach x (.inr (List.mem_cons_of_mem _ hx))
      · rcases List.mem_insert_iff.1 hx with rfl | hx
        · exact (hcov y hy).imp_right (List.mem_append_left _)
        · rcases hi.closed x hx y hy with h | h
          · exact .inl (List.mem_insert_of_mem h)
          · rcases List.mem_cons.1 h with rfl | h
            · exact .inl List.mem_insert_self
            · exact .inr (List.mem_append_right _ h)
      · rcases List.append_eq_append_iff.1 he with ⟨m, h1, h2⟩ | ⟨m, h1, h2⟩
        · -- the element is below the new ones
          subst h1
          rcases List.mem_insert_iff.1 hx with rfl | hx
          · exact (hcov y hy).imp_right (List.mem_append_left _)
          · rcases hi.above (c :: m) x r (by rw [h2]; rfl) hx y hy with h | h
            · exact .inl (List.mem_insert_of_mem h)
            · rcases List.mem_cons.1 h with rfl | h
              · exact .inl List.mem_insert_self
              · exact .inr (List.mem_append_right _ h)
        · cases m with
          | nil =>
            simp only [List.append_nil, List.nil_append] at h1 h2
            rcases List.mem_insert_iff.1 hx with rfl | hx
            · rw [← h1]; exact hcov y hy
            · rcases hi.above [c] x r (by rw [← h2]; rfl) hx y hy with h | h
              · exact .inl (List.mem_insert_of_mem h)
              · rcases List.mem_cons.1 h with rfl | h
                · exact .inl List.mem_insert_self
                · simp at h
          | cons z m =>
            obtain ⟨rfl, -⟩ := List.cons.inj h2
            exact absurd hx ((hmn x).1 (by rw [h1]; simp)).2

/-- The subtasks reached. -/
theorem closure_start (ord : List (Nat × Nat)) (p : Nat) : ∃ r, closure ord (ord.length + 2) [p] [] = some r ∧ r.Nodup ∧
    ∀ x, x ∈ r ↔ ReflTransGen (fun a b => (a, b) ∈ ord) p x := by
  refine closure_spec _ _ _ ⟨List.nodup_nil, .inr (by simp), fun x hx => ?_, fun x hx => by simp at hx, fun l x r _ hx => by simp at hx⟩ ?_
  · obtain rfl : x = p := by simpa using hx
    exact .refl
  · have := List.countP_le_length (p := fun o : Nat × Nat => !([] : List Nat).contains o.1) (l := ord)
    simp only [pending, List.length_singleton]
    omega

/-- Subtask `p` is the only one with the name of a precondition and must be before all others. -/
def IsPre (pre : Nat → Bool) (n : Nat) (ord : List (Nat × Nat)) (p : Nat) : Prop :=
  p < n ∧ pre p = true ∧ (∀ j < n, pre j = true → j = p) ∧ ∀ j < n, j ≠ p → TransGen (fun a b => (a, b) ∈ ord) p j

theorem methodPre_spec {pre : Nat → Bool} {n : Nat} {ord : List (Nat × Nat)} (hb : ∀ o ∈ ord, o.1 < n ∧ o.2 < n) :
    ∃ r, methodPre pre n ord = some r ∧ ∀ p, r = some p ↔ IsPre pre n ord p := by
  have hp := preLoop_none pre (List.range n) List.nodup_range
  rw [methodPre]
  cases h : preLoop pre (List.range n) none with
  | none =>
    refine ⟨none, rfl, fun p => ⟨by simp, fun hq => ?_⟩⟩
    have := (hp p).2 ⟨List.mem_range.2 hq.1, hq.2.1, fun j hj => hq.2.2.1 j (List.mem_range.1 hj)⟩
    rw [h] at this; simp at this
  | some q =>
    obtain ⟨h1, h2, h3⟩ := (hp q).1 h
    rw [List.mem_range] at h1
    obtain ⟨r, hr, hnd, hmem⟩ := closure_start ord q
    simp only [hr, Option.map_some]
    have hsub : r ⊆ List.range n := fun x hx => by
      rw [List.mem_range]
      rcases ReflTransGen.cases_tail ((hmem x).1 hx) with rfl | ⟨y, -, hy⟩
      · exact h1
      · exact (hb _ hy).2
    have hlen : r.length = n ↔ ∀ j < n, j ≠ q → TransGen (fun a b => (a, b) ∈ ord) q j := by
      constructor
      · intro he j hj hne
        have hperm : r.Perm (List.range n) := (List.subperm_of_subset hnd hsub).perm_of_length_le (by simp [he])
        rcases Relation.reflTransGen_iff_eq_or_transGen.1 ((hmem j).1 (hperm.mem_iff.2 (List.mem_range.2 hj))) with h | h
        · exact absurd h hne
        · exact h
      · intro hall
        have h4 := (List.subperm_of_subset hnd hsub).length_le
        have h5 : List.range n ⊆ r := fun j hj => by
          rw [hmem]
          by_cases he : j = q
          · subst he; exact .refl
          · exact (hall j (List.mem_range.1 hj) he).to_reflTransGen
        have h6 := (List.subperm_of_subset List.nodup_range h5).length_le
        simp only [List.length_range] at h4 h6
        omega
    refine ⟨_, rfl, fun p => ?_⟩
    by_cases hl : r.length = n
    · rw [if_neg (by simpa using hl)]
      refine ⟨fun he => ?_, fun hq => by rw [hq.2.2.1 q h1 h2]⟩
      obtain rfl := Option.some.inj he
      exact ⟨h1, h2, fun j hj => h3 j (List.mem_range.2 hj), hlen.1 hl⟩
    · rw [if_pos hl]
      simp only [reduceCtorEq, false_iff]
      intro hq
      obtain rfl := hq.2.2.1 q h1 h2
      exact hl (hlen.2 hq.2.2.2)

/-! ## Linearisations -/

/-- In a list with all subtasks which respects the orderings, the order implied by them is respected. -/
theorem pairwise_transGen {R : Nat → Nat → Prop} {l : List Nat} (hin : ∀ a b, R a b → a ∈ l ∧ b ∈ l)
    (hirr : ∀ a, ¬ R a a) (h : l.Pairwise fun a b => ¬ R b a) (hnd : l.Nodup) : l.Pairwise fun a b => ¬ TransGen R b a := by
  have key : ∀ a b, TransGen R a b → ∀ i j (hi : i < l.length) (hj : j < l.length), l[i] = a → l[j] = b → i < j := by
    have step : ∀ a b, R a b → ∀ i j (hi : i < l.length) (hj : j < l.length), l[i] = a → l[j] = b → i < j := by
      intro a b hab i j hi hj ha hb
      rcases Nat.lt_trichotomy i j with hlt | rfl | hlt
      · exact hlt
      · rw [ha] at hb; subst hb; exact absurd hab (hirr _)
      · have := List.pairwise_iff_getElem.1 h j i hj hi hlt
        rw [ha, hb] at this
        exact absurd hab this
    intro a b hab
    induction hab with
    | single hab => exact step _ _ hab
    | tail h1 h2 ih =>
      intro i j hi hj ha hb
      obtain ⟨k, hk, hk'⟩ := List.mem_iff_getElem.1 (hin _ _ h2).1
      exact (ih i k hi hk ha hk').trans (step _ _ h2 k j hk hj hk' hb)
  rw [List.pairwise_iff_getElem]
  intro i j hi hj hij hc
  have := key _ _ hc j i hj hi rfl rfl
  omega

theorem ord_rank {ord : List (Nat × Nat)} {rank : Nat → Nat} (hr : ∀ o ∈ ord, rank o.1 < rank o.2) {a b : Nat}
    (h : TransGen (fun x y => (x, y) ∈ ord) a b) : rank a < rank b := by
  induction h with
  | single h => exact hr _ h
  | tail _ h ih => exact ih.trans (hr _ h)

/-- The computed order is a linearisation; the flag tells exactly whether all subtasks are ordered. -/
theorem total_spec {n : Nat} {ord : List (Nat × Nat)} {adj : Nat → List Nat} (hb : ∀ o ∈ ord, o.1 < n ∧ o.2 < n)
    (hadj : ∀ a b, b ∈ adj a ↔ (a, b) ∈ ord) {rank : Nat → Nat} (hr : ∀ o ∈ ord, rank o.1 < rank o.2) :
    ∃ tot flag, isMethodTotallyOrdered n adj = some (tot, flag) ∧ tot.Perm (List.range n) ∧
      tot.Pairwise (fun a b => (b, a) ∉ ord) ∧ (flag = true → tot.IsChain fun a b => (a, b) ∈ ord) ∧
      ((∀ a < n, ∀ b < n, a ≠ b → TransGen (fun x y => (x, y) ∈ ord) a b ∨ TransGen (fun x y => (x, y) ∈ ord) b a) → flag = true) := by
  obtain ⟨l, h1, h2, h3⟩ := methodOrder_spec (n := n) (adj := adj) (rank := rank) (fun a b h => hr (a, b) ((hadj a b).1 h))
    fun a b h => (hb (a, b) ((hadj a b).1 h)).2
  have h3' : l.Pairwise (fun a b => (b, a) ∉ ord) := h3.imp fun h h' => h ((hadj _ _).2 h')
  have hirr : ∀ a, (a, a) ∉ ord := fun a h => absurd (hr _ h) (lt_irrefl _)
  have hnd : l.Nodup := h2.nodup_iff.2 List.nodup_range
  have hin : ∀ a b, (a, b) ∈ ord → a ∈ l ∧ b ∈ l := fun a b h =>
    ⟨h2.mem_iff.2 (List.mem_range.2 (hb _ h).1), h2.mem_iff.2 (List.mem_range.2 (hb _ h).2)⟩
  have hpt := pairwise_transGen (R := fun a b => (a, b) ∈ ord) hin hirr h3' hnd
  refine ⟨l, consecutive adj l, by rw [isMethodTotallyOrdered, h1]; rfl, h2, h3', fun hc => ?_, fun hall => ?_⟩
  · exact (consecutive_iff.1 hc).imp fun _ _ h => (hadj _ _).1 h
  · rw [consecutive_iff, List.isChain_iff_getElem]
    intro i hi
    have hi0 : i < l.length := by omega
    have hlt : ∀ k (hk : k < l.length), l[k] < n := fun k hk => List.mem_range.1 (h2.mem_iff.1 (List.getElem_mem hk))
    have hne : l[i] ≠ l[i + 1] := fun he => by
      have := (List.Nodup.getElem_inj_iff hnd).1 he
      omega
    have hT : TransGen (fun x y => (x, y) ∈ ord) l[i] l[i + 1] := by
      rcases hall _ (hlt i hi0) _ (hlt (i + 1) hi) hne with h | h
      · exact h
      · exact absurd h (List.pairwise_iff_getElem.1 hpt i (i + 1) hi0 hi (by omega))
    rw [hadj]
    rcases TransGen.head'_iff.1 hT with ⟨c, hc1, hc2⟩
    rcases Relation.reflTransGen_iff_eq_or_transGen.1 hc2 with h | h
    · rw [h]; exact hc1
    · obtain ⟨k, hk, hk'⟩ := List.mem_iff_getElem.1 (hin _ _ hc1).2
      exfalso
      rcases Nat.lt_or_ge k (i + 1) with hlt' | hge
      · rcases Nat.lt_or_ge k i with hlt'' | hge'
        · have := List.pairwise_iff_getElem.1 hpt k i hk hi0 hlt''
          rw [hk'] at this
          exact this (.single hc1)
        · obtain rfl : k = i := by omega
          rw [← hk'] at hc1
          exact hirr _ hc1
      · rcases Nat.lt_or_ge (i + 1) k with hgt | hle
        · have := List.pairwise_iff_getElem.1 hpt (i + 1) k hi hk hgt
          rw [hk'] at this
          exact this h
        · obtain rfl : k = i + 1 := by omega
          rw [← hk'] at h
          exact absurd (ord_rank hr h) (lt_irrefl _)

/-- A chain has only one linearisation. -/
theorem chain_unique {n : Nat} {ord : List (Nat × Nat)} {tot l : List Nat} (hb : ∀ o ∈ ord, o.1 < n ∧ o.2 < n)
    {rank : Nat → Nat} (hr : ∀ o ∈ ord, rank o.1 < rank o.2) (ht : tot.Perm (List.range n)) (hc : tot.IsChain fun a b => (a, b) ∈ ord)
    (hl : l.Perm (List.range n)) (hp : l.Pairwise fun a b => (b, a) ∉ ord) : l = tot := by
  have hnd : l.Nodup := hl.nodup_iff.2 List.nodup_range
  have hin : ∀ a b, (a, b) ∈ ord → a ∈ l ∧ b ∈ l := fun a b h =>
    ⟨hl.mem_iff.2 (List.mem_range.2 (hb _ h).1), hl.mem_iff.2 (List.mem_range.2 (hb _ h).2)⟩
  have hpt := pairwise_transGen (R := fun a b => (a, b) ∈ ord) hin (fun a h => absurd (hr _ h) (lt_irrefl _)) hp hnd
  have htt : tot.Pairwise fun a b => TransGen (fun x y => (x, y) ∈ ord) a b := by
    have hch := hc.imp fun _ _ h => TransGen.single (r := fun x y => (x, y) ∈ ord) h
    haveI : IsTrans Nat (TransGen fun x y => (x, y) ∈ ord) := ⟨fun _ _ _ => TransGen.trans⟩
    exact hch.pairwise
  have hlt : l.Pairwise fun a b => TransGen (fun x y => (x, y) ∈ ord) a b := by
    rw [List.pairwise_iff_getElem] at hpt ⊢
    intro i j hi hj hij
    obtain ⟨i', hi', e1⟩ := List.mem_iff_getElem.1 (ht.mem_iff.2 (hl.mem_iff.1 (List.getElem_mem hi)))
    obtain ⟨j', hj', e2⟩ := List.mem_iff_getElem.1 (ht.mem_iff.2 (hl.mem_iff.1 (List.getElem_mem hj)))
    rw [List.pairwise_iff_getElem] at htt
    rcases Nat.lt_trichotomy i' j' with h | h | h
    · have := htt i' j' hi' hj' h
      rwa [e1, e2] at this
    · subst h
      rw [e1] at e2
      have := (List.Nodup.getElem_inj_iff hnd).1 e2
      omega
    · have := htt j' i' hj' hi' h
      rw [e1, e2] at this
      exact absurd this (hpt i j hi hj hij)
  refine List.Perm.eq_of_pairwise (fun a b ha hb h h' => ?_) hlt htt (hl.trans ht.symm)
  exfalso
  rw [List.pairwise_iff_getElem] at hpt hlt
  obtain ⟨i, hi, e1⟩ := List.mem_iff_getElem.1 ha
  obtain ⟨j, hj, e2⟩ := List.mem_iff_getElem.1 (hl.mem_iff.2 (ht.mem_iff.1 hb))
  rcases Nat.lt_trichotomy i j with hh | hh | hh
  · have := hpt i j hi hj hh; rw [e1, e2] at this; exact this h'
  · subst hh
    rw [e1] at e2; subst e2
    exact absurd (ord_rank hr h) (lt_irrefl _)
  · have := hpt j i hj hi hh; rw [e1, e2] at this; exact this h

end Verif.WriteHddl
