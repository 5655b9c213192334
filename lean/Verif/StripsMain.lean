import Verif.StripsNet
import Verif.PushSim

/-! # Plans of the translation without conditional effects and solutions -/

namespace Verif.Sas

open Verif.Htn Relation

/-! ## Methods -/

/-- `hasNoLastTask` of a method. -/
def mNl (P : Problem) (m : Nat) : Bool := noLastTask (P.sub m).length (revOrd (P.sub m).length (P.ord m))

/-- The cells of the subtasks, in the order after `reorderTasks`. -/
def stCells (nl : Bool) (j : Nat) (subs : List Nat) : List Nat := if nl then subs.map (skip j) else j :: subs.map (skip j)

/-- The cell of a subtask. -/
def cellG (cells : List Nat) (i : Nat) : Nat := cells[cells.length - 1 - i]?.getD 0

/-- The number of further cells that a method needs. -/
def mNum (P : Problem) (m : Nat) : Nat := if mNl P m then (P.sub m).length else (P.sub m).length - 1

/-- The operator of a method in cell `j` exists for the further cells `subs`. -/
structure MethOk (P : Problem) (B m j : Nat) (subs : List Nat) : Prop where
  lt : m < P.numMethods
  cell : j < B
  num : mNum P m + 1 ≤ B
  subs : Subs B (mNum P m) subs

/-- Its preconditions and effects. -/
def stMethD (P : Problem) (B m j : Nat) (subs : List Nat) : List (SV × Nat) × List (SV × Nat) :=
  let cells := stCells (mNl P m) j subs
  let es := (P.ord m).map fun o => (cellG cells o.1, cellG cells o.2)
  if (P.sub m).length ≤ 1 then (stPre B (P.head m + 2) j, [(.task j, 2 + (P.sub m).reverse[0]?.getD 0)])
  else if mNl P m then stDec B (P.head m + 2) j 1 subs (P.sub m).reverse (cells.map fun c => (c, j)) es
  else stDec B (P.head m + 2) j ((P.sub m).reverse[0]?.getD 0 + 2) subs (P.sub m).reverse.tail [] es

section

variable {P : Problem} {vars : List (Nat × Nat)} {nA nT B : Nat}

theorem mNl_small {m : Nat} (h : (P.sub m).length ≤ 1) : mNl P m = false := by rw [mNl, noLastTask, if_pos h]

theorem PushInput.len_pos (hin : PushInput P vars nA nT) {m : Nat} (hm : m < P.numMethods) : 0 < (P.sub m).length :=
  List.length_pos_iff.2 (hin.wf.sub_ne m hm)

theorem PushInput.ord_ok (hin : PushInput P vars nA nT) {m : Nat} (hm : m < P.numMethods) {a b : Nat} (h : (a, b) ∈ P.ord m) :
    a < b ∧ b < (P.sub m).length := by
  refine ⟨?_, (hin.wf.ord_lt m hm a b h).2⟩
  rcases hin.top m hm with h' | h'
  · rw [h'] at h
    cases h
  · exact h'.1 _ h

section cells

variable {m j : Nat} {subs : List Nat}

theorem stCells_length (hin : PushInput P vars nA nT) (h : MethOk P B m j subs) : (stCells (mNl P m) j subs).length = (P.sub m).length := by
  have h1 := h.subs.len
  have h2 := hin.len_pos h.lt
  rw [mNum] at h1
  rw [stCells]
  split_ifs at h1 ⊢ with e
  · simpa using h1
  · simp only [List.length_cons, List.length_map]
    omega

theorem stCells_nodup (h : MethOk P B m j subs) : (stCells (mNl P m) j subs).Nodup := by
  have h1 : (subs.map (skip j)).Nodup :=
    (List.nodup_map_iff fun a b => skip_inj).2 (h.subs.incr.imp fun h => Nat.ne_of_lt h)
  rw [stCells]
  split_ifs
  · exact h1
  · refine List.nodup_cons.2 ⟨fun hm => ?_, h1⟩
    obtain ⟨c, -, hc⟩ := List.mem_map.1 hm
    exact skip_ne j c hc

theorem stCells_lt (h : MethOk P B m j subs) : ∀ x ∈ stCells (mNl P m) j subs, x < B := by
  intro x hx
  rw [stCells] at hx
  split_ifs at hx
  · obtain ⟨c, hc, rfl⟩ := List.mem_map.1 hx
    exact skip_lt (h.subs.lt c hc)
  · rcases List.mem_cons.1 hx with rfl | hx
    · exact h.cell
    · obtain ⟨c, hc, rfl⟩ := List.mem_map.1 hx
      exact skip_lt (h.subs.lt c hc)

/-- Subtask `i` is at position `n - 1 - i`. -/
theorem cellG_get (hin : PushInput P vars nA nT) (h : MethOk P B m j subs) {i : Nat} (hi : i < (P.sub m).length) :
    (stCells (mNl P m) j subs)[(P.sub m).length - 1 - i]? = some (cellG (stCells (mNl P m) j subs) i) := by
  have h1 := stCells_length hin h
  rw [cellG, h1, List.getElem?_eq_getElem (by omega), Option.getD_some]

theorem cellG_mem (hin : PushInput P vars nA nT) (h : MethOk P B m j subs) {i : Nat} (hi : i < (P.sub m).length) :
    cellG (stCells (mNl P m) j subs) i ∈ stCells (mNl P m) j subs := List.mem_of_getElem? (cellG_get hin h hi)

theorem cellG_inj (hin : PushInput P vars nA nT) (h : MethOk P B m j subs) {i i' : Nat} (hi : i < (P.sub m).length)
    (hi' : i' < (P.sub m).length) (e : cellG (stCells (mNl P m) j subs) i = cellG (stCells (mNl P m) j subs) i') : i = i' := by
  have h1 := cellG_get hin h hi
  have h2 := cellG_get hin h hi'
  rw [← e] at h2
  obtain ⟨g1, g2⟩ := List.getElem?_eq_some_iff.1 h1
  obtain ⟨g1', g2'⟩ := List.getElem?_eq_some_iff.1 h2
  have := (List.Nodup.getElem_inj_iff (stCells_nodup h)).1 (g2.trans g2'.symm)
  omega

theorem cellG_last (hin : PushInput P vars nA nT) (h : MethOk P B m j subs) (hl : mNl P m = false) :
    cellG (stCells (mNl P m) j subs) ((P.sub m).length - 1) = j := by
  have h1 := cellG_get hin h (i := (P.sub m).length - 1) (by have := hin.len_pos h.lt; omega)
  rw [Nat.sub_self] at h1
  have h2 : (stCells (mNl P m) j subs)[0]? = some j := by rw [stCells, hl]; rfl
  rw [h2] at h1
  exact (Option.some.inj h1).symm

/-- The further cells. -/
def newCell (j : Nat) (subs : List Nat) (x : Nat) : Prop := ∃ c ∈ subs, skip j c = x

theorem mem_stCells {nl : Bool} {x : Nat} : x ∈ stCells nl j subs ↔ newCell j subs x ∨ nl = false ∧ x = j := by
  rw [stCells]
  cases nl with
  | true => simp [newCell]
  | false => simp [newCell, or_comm]

theorem stMethD_lit (hin : PushInput P vars nA nT) (h : MethOk P B m j subs) :
    (∀ x ∈ (stMethD P B m j subs).1, SLOk B nT x) ∧ ∀ x ∈ (stMethD P B m j subs).2, SLOk B nT x := by
  have hpos := hin.len_pos h.lt
  have hhead := hin.head_lt m h.lt
  have hsub : ∀ t ∈ (P.sub m).reverse, t < nT := fun t ht => hin.sub_lt m h.lt t (by simpa using ht)
  have h0 : (P.sub m).reverse[0]?.getD 0 < nT := by
    rw [List.getElem?_eq_getElem (by simpa using hpos), Option.getD_some]
    exact hsub _ (List.getElem_mem _)
  have hes : ∀ e ∈ (P.ord m).map (fun o => (cellG (stCells (mNl P m) j subs) o.1, cellG (stCells (mNl P m) j subs) o.2)),
      SOk B (.con e.1 e.2) := by
    intro e he
    obtain ⟨o, ho, rfl⟩ := List.mem_map.1 he
    obtain ⟨h1, h2⟩ := hin.ord_ok h.lt (a := o.1) (b := o.2) ho
    refine ⟨stCells_lt h _ (cellG_mem hin h (by omega)), stCells_lt h _ (cellG_mem hin h h2), fun e => ?_⟩
    have := cellG_inj hin h (by omega) h2 e
    omega
  rw [stMethD]
  split_ifs with h1 h2
  · refine ⟨stPre_ok h.cell (by omega), fun x hx => ?_⟩
    rw [List.mem_singleton] at hx
    subst hx
    exact ⟨h.cell, by simp only [sMax]; omega⟩
  · have hl := h.subs.len
    rw [mNum, if_pos h2] at hl
    refine stDec_ok h.cell h.subs (by rintro rfl; simp at hl; omega) (by omega) (by omega) hsub ?_
    rintro e (he | he)
    · obtain ⟨c, hc, rfl⟩ := List.mem_map.1 he
      have := mem_stCells.1 hc
      rw [h2] at this
      obtain ⟨x, hx, rfl⟩ := this.resolve_right (by simp)
      exact ⟨skip_lt (h.subs.lt x hx), h.cell, skip_ne j x⟩
    · exact hes e he
  · have hl := h.subs.len
    rw [mNum, if_neg h2] at hl
    refine stDec_ok h.cell h.subs (by rintro rfl; simp at hl; omega) (by omega) (by omega) (fun t ht => hsub t (List.mem_of_mem_tail ht)) ?_
    rintro e (he | he)
    · cases he
    · exact hes e he

theorem stMethD_ok (hin : PushInput P vars nA nT) (h : MethOk P B m j subs) (nV : Nat) : SOpOk nV B [] [] (stMethD P B m j subs) := by
  have h1 := stMethD_lit hin h
  have h2 : FunS (stMethD P B m j subs).1 ∧ FunS (stMethD P B m j subs).2 := by
    rw [stMethD]
    split_ifs
    · refine ⟨stPre_fun h.cell, fun x hx y hy _ => ?_⟩
      rw [List.mem_singleton] at hx hy
      rw [hx, hy]
    · exact stDec_fun h.cell h.subs
    · exact stDec_fun h.cell h.subs
  exact ⟨fun _ h => (by cases h), fun _ h => (by cases h), fun _ h => (by cases h), fun x hx => (h1.1 x hx).1, h2.1, fun x hx => (h1.2 x hx).1, h2.2⟩

/-- The preconditions of a method. -/
theorem stMethD_pre (h : MethOk P B m j subs) {x : SV × Nat} :
    x ∈ (stMethD P B m j subs).1 ↔ x ∈ stPre B (P.head m + 2) j ∨ 1 < (P.sub m).length ∧ ((∃ c ∈ subs, x = (.task (skip j c), 0)) ∨
      ∃ c < subs.getLast?.getD 0 + 1, x = (.occ (skip j c), if c ∈ subs then 0 else 1)) := by
  rw [stMethD]
  split_ifs with h1 h2
  · exact ⟨.inl, fun h => h.resolve_right fun h => by omega⟩
  · rw [mem_stDec_pre, and_iff_right (show 1 < (P.sub m).length by omega)]
  · rw [mem_stDec_pre, and_iff_right (show 1 < (P.sub m).length by omega)]

/-- The effects of a method. -/
theorem stMethD_add (hin : PushInput P vars nA nT) (h : MethOk P B m j subs) {x : SV × Nat} :
    x ∈ (stMethD P B m j subs).2 ↔ (mNl P m = true ∧ x = (.task j, 1)) ∨
      (∃ (i t : Nat), (P.sub m)[i]? = some t ∧ x = (.task (cellG (stCells (mNl P m) j subs) i), t + 2)) ∨
      (∃ k, newCell j subs k ∧ x = (.occ k, 1)) ∨
      (∃ k, mNl P m = true ∧ newCell j subs k ∧ x = (.con k j, 1)) ∨
      ∃ a b, (a, b) ∈ P.ord m ∧ x = (.con (cellG (stCells (mNl P m) j subs) a) (cellG (stCells (mNl P m) j subs) b), 1) := by
  have hpos := hin.len_pos h.lt
  have hrev : ∀ i < (P.sub m).length, (P.sub m).reverse[(P.sub m).length - 1 - i]? = (P.sub m)[i]? := by
    intro i hi
    rw [List.getElem?_reverse (by omega)]
    congr 1
    omega
  have hlen := stCells_length hin h
  have hes : ∀ (x : SV × Nat), (∃ e ∈ (P.ord m).map (fun o => (cellG (stCells (mNl P m) j subs) o.1, cellG (stCells (mNl P m) j subs) o.2)),
      x = (.con e.1 e.2, 1)) ↔
      ∃ a b, (a, b) ∈ P.ord m ∧ x = (.con (cellG (stCells (mNl P m) j subs) a) (cellG (stCells (mNl P m) j subs) b), 1) := by
    intro x
    constructor
    · rintro ⟨e, he, rfl⟩
      obtain ⟨o, ho, rfl⟩ := List.mem_map.1 he
      exact ⟨o.1, o.2, ho, rfl⟩
    · rintro ⟨a, b, hab, rfl⟩
      exact ⟨_, List.mem_map.2 ⟨(a, b), hab, rfl⟩, rfl⟩
  by_cases h1 : (P.sub m).length ≤ 1
  · have hnl := mNl_small h1
    have hsl := h.subs.len
    rw [mNum, hnl, if_neg (by simp), show (P.sub m).length - 1 = 0 by omega] at hsl
    have hs := List.length_eq_zero_iff.1 hsl
    subst hs
    rw [stMethD]
    rw [if_pos h1, List.mem_singleton]
    have hl1 : (P.sub m).length = 1 := by omega
    obtain ⟨t, ht⟩ := List.length_eq_one_iff.1 hl1
    have hc0 : cellG (stCells (mNl P m) j []) 0 = j := by
      have := cellG_last hin h hnl
      rwa [hl1] at this
    have hord : ∀ a b, (a, b) ∉ P.ord m := by
      intro a b hab
      have := hin.ord_ok h.lt hab
      omega
    have hnc : ∀ k, ¬ newCell j [] k := by
      rintro k ⟨c, hc, -⟩
      cases hc
    simp only [hnl, Bool.false_eq_true, false_and, false_or, hnc, exists_false, or_false, hord] at *
    rw [ht]
    simp only [List.reverse_singleton, List.getElem?_cons_zero, Option.getD_some]
    constructor
    · rintro rfl
      exact ⟨0, t, rfl, by rw [hc0, Nat.add_comm]⟩
    · rintro ⟨i, t', hi, rfl⟩
      cases i with
      | zero =>
        simp only [List.getElem?_cons_zero, Option.some.injEq] at hi
        rw [hc0, ← hi, Nat.add_comm]
      | succ i => simp at hi
  · rw [stMethD]
    rw [if_neg h1]
    cases hnl : mNl P m with
    | true =>
      rw [if_pos rfl, mem_stDec_add]
      have hsl := h.subs.len
      rw [mNum, hnl, if_pos rfl] at hsl
      have hcells : stCells (mNl P m) j subs = subs.map (skip j) := by rw [stCells, hnl, if_pos rfl]
      rw [hnl] at hcells hes
      refine or_congr (by simp) (or_congr ?_ (or_congr ?_ ?_))
      · constructor
        · rintro ⟨i, c, t, g1, g2, rfl⟩
          have hi : i < (P.sub m).length := by rw [← hsl]; exact (List.getElem?_eq_some_iff.1 g1).1
          refine ⟨(P.sub m).length - 1 - i, t, ?_, ?_⟩
          · rw [← hrev _ (by omega), show (P.sub m).length - 1 - ((P.sub m).length - 1 - i) = i by omega, g2]
          · have g3 := cellG_get hin h (i := (P.sub m).length - 1 - i) (by omega)
            rw [show (P.sub m).length - 1 - ((P.sub m).length - 1 - i) = i by omega, hnl] at g3
            rw [Nat.add_comm 2 t]
            congr 2
            conv at g3 => lhs; rw [hcells, List.getElem?_map, g1]
            exact Option.some.inj g3
        · rintro ⟨i, t, g1, rfl⟩
          have hi : i < (P.sub m).length := (List.getElem?_eq_some_iff.1 g1).1
          have g3 := cellG_get hin h hi
          rw [hnl] at g3
          have hp : (P.sub m).length - 1 - i < subs.length := by omega
          refine ⟨(P.sub m).length - 1 - i, subs[(P.sub m).length - 1 - i], t, List.getElem?_eq_getElem hp, ?_, ?_⟩
          · rw [hrev i hi, g1]
          · rw [Nat.add_comm t 2]
            congr 2
            conv at g3 => lhs; rw [hcells, List.getElem?_map, List.getElem?_eq_getElem hp]
            exact (Option.some.inj g3).symm
      · constructor
        · rintro ⟨c, hc, rfl⟩
          exact ⟨_, ⟨c, hc, rfl⟩, rfl⟩
        · rintro ⟨_, ⟨c, hc, rfl⟩, rfl⟩
          exact ⟨c, hc, rfl⟩
      · rw [← hes]
        constructor
        · rintro ⟨e, he | he, rfl⟩
          · obtain ⟨c, hc, rfl⟩ := List.mem_map.1 he
            have := mem_stCells.1 hc
            exact .inl ⟨c, rfl, this.resolve_right (by simp), rfl⟩
          · exact .inr ⟨e, he, rfl⟩
        · rintro (⟨k, -, hk, rfl⟩ | ⟨e, he, rfl⟩)
          · exact ⟨(k, j), .inl (List.mem_map.2 ⟨k, mem_stCells.2 (.inl hk), rfl⟩), rfl⟩
          · exact ⟨e, .inr he, rfl⟩
    | false =>
      rw [if_neg (by simp), mem_stDec_add]
      have hsl := h.subs.len
      rw [mNum, hnl, if_neg (by simp)] at hsl
      have hcells : stCells (mNl P m) j subs = j :: subs.map (skip j) := by rw [stCells, hnl, if_neg (by simp)]
      have hlst := cellG_last hin h hnl
      rw [hnl] at hcells hes hlst
      have hr0 := hrev ((P.sub m).length - 1) (by omega)
      rw [Nat.sub_self] at hr0
      simp only [Bool.false_eq_true, false_and, false_or, exists_false]
      rw [← hes]
      have htail : ∀ p, (P.sub m).reverse.tail[p]? = (P.sub m).reverse[p + 1]? := fun p => List.getElem?_tail
      constructor
      · rintro (rfl | ⟨p, c, t, g1, g2, rfl⟩ | ⟨c, hc, rfl⟩ | ⟨e, he | he, rfl⟩)
        · left
          refine ⟨(P.sub m).length - 1, _, List.getElem?_eq_getElem (by omega), ?_⟩
          rw [hlst, hr0, List.getElem?_eq_getElem (by omega), Option.getD_some]
        · left
          have hp : p < (P.sub m).length - 1 := by rw [← hsl]; exact (List.getElem?_eq_some_iff.1 g1).1
          refine ⟨(P.sub m).length - 1 - (p + 1), t, ?_, ?_⟩
          · rw [← hrev _ (by omega), show (P.sub m).length - 1 - ((P.sub m).length - 1 - (p + 1)) = p + 1 by omega, ← htail, g2]
          · have g3 := cellG_get hin h (i := (P.sub m).length - 1 - (p + 1)) (by omega)
            rw [show (P.sub m).length - 1 - ((P.sub m).length - 1 - (p + 1)) = p + 1 by omega, hnl] at g3
            rw [Nat.add_comm 2 t]
            congr 2
            conv at g3 => lhs; rw [hcells, List.getElem?_cons_succ, List.getElem?_map, g1]
            exact Option.some.inj g3
        · exact .inr (.inl ⟨_, ⟨c, hc, rfl⟩, rfl⟩)
        · cases he
        · exact .inr (.inr ⟨e, he, rfl⟩)
      · rintro (⟨i, t, g1, rfl⟩ | ⟨_, ⟨c, hc, rfl⟩, rfl⟩ | ⟨e, he, rfl⟩)
        · have hi : i < (P.sub m).length := (List.getElem?_eq_some_iff.1 g1).1
          by_cases e : i = (P.sub m).length - 1
          · left
            rw [e, hlst, hr0, ← e, g1, Option.getD_some]
          · right
            left
            have g3 := cellG_get hin h hi
            rw [hnl] at g3
            obtain ⟨p, hp⟩ : ∃ p, (P.sub m).length - 1 - i = p + 1 := ⟨(P.sub m).length - 1 - i - 1, by omega⟩
            have hp' : p < subs.length := by omega
            refine ⟨p, subs[p], t, List.getElem?_eq_getElem hp', ?_, ?_⟩
            · rw [htail, ← hp, hrev i hi, g1]
            · rw [Nat.add_comm t 2]
              congr 2
              conv at g3 => lhs; rw [hcells, hp, List.getElem?_cons_succ, List.getElem?_map, List.getElem?_eq_getElem hp']
              exact (Option.some.inj g3).symm
        · exact .inr (.inr (.inl ⟨c, hc, rfl⟩))
        · exact .inr (.inr (.inr ⟨e, .inr he, rfl⟩))

end cells

/-! ## Steps -/

/-- The values describe the state and the network. -/
structure SEnc (vars : List (Nat × Nat)) (B : Nat) (σ : Val) (s : State) (I : Finset Nat) (lab c : Nat → Nat) : Prop where
  corr : Corr vars s σ
  net : SNet B (sView vars.length B σ) I lab c

variable {σ : Val} {s : State} {I : Finset Nat} {lab c : Nat → Nat} {nV : Nat}

/-- Cell `j` has the value `t` and no predecessors. -/
theorem stPre_holds {t j : Nat} {τ : SV → Nat} (hj : j < B) :
    (∀ x ∈ stPre B t j, τ x.1 = x.2) ↔ τ (.task j) = t ∧ ∀ l < B, l ≠ j → τ (.con l j) = 0 := by
  constructor
  · intro h
    exact ⟨h _ ((mem_stPre hj).2 (.inl rfl)), fun l hl hne => h _ ((mem_stPre hj).2 (.inr ⟨l, hl, hne, rfl⟩))⟩
  · rintro ⟨h1, h2⟩ x hx
    rcases (mem_stPre hj).1 hx with rfl | ⟨l, hl, hne, rfl⟩
    · exact h1
    · exact h2 l hl hne

theorem clear_ok {t j : Nat} (hj : j < B) {bp ba : List (Nat × Nat)} (h1 : ∀ p ∈ bp, p.1 < nV)
    (h2 : ∀ x ∈ bp, ∀ y ∈ bp, x.1 = y.1 → x.2 = y.2) (h3 : ∀ p ∈ ba, p.1 < nV) : SOpOk nV B bp ba (stPre B t j, stClear B j) :=
  ⟨h1, h2, h3, fun x hx => (stPre_ok (nT := t) hj (by omega) x hx).1, stPre_fun hj, fun x hx => (stClear_ok (nT := 0) hj x hx).1, stClear_fun hj⟩

/-- The operators for actions and empty tasks clear a cell. -/
theorem clear_step {t j : Nat} (hj : j < B) {bp ba : List (Nat × Nat)} {cost : Nat} (ho : SOpOk nV B bp ba (stPre B t j, stClear B j))
    (hmin : ∀ l < B, l ≠ j → sView nV B σ (.con l j) = 0) :
    ClearStep B (sView nV B σ) (sView nV B ((sOp nV B bp ba (stPre B t j, stClear B j) cost).res σ)) j := by
  have hmem : ∀ q w, (q, w) ∈ stClear B j → sView nV B ((sOp nV B bp ba (stPre B t j, stClear B j) cost).res σ) q = w :=
    fun q w h => sRes_mem ho h
  have hnot : ∀ q, SOk B q → (∀ w, (q, w) ∉ stClear B j) →
      sView nV B ((sOp nV B bp ba (stPre B t j, stClear B j) cost).res σ) q = sView nV B σ q := fun q hq h => sRes_not ho hq h
  refine ⟨hj, hmin, hmem _ _ ((mem_stClear hj).2 (.inl rfl)), hmem _ _ ((mem_stClear hj).2 (.inr (.inl rfl))),
    fun l hl hne => hmem _ _ ((mem_stClear hj).2 (.inr (.inr ⟨l, hl, hne, rfl⟩))), fun k hk hne => hnot _ hk fun w hw => ?_,
    fun k hk hne => hnot _ hk fun w hw => ?_, fun k l hkl hne => hnot _ hkl fun w hw => ?_⟩
  · rcases (mem_stClear hj).1 hw with e | e | ⟨l, hl, h, e⟩ <;> simp at e
    exact hne e.1
  · rcases (mem_stClear hj).1 hw with e | e | ⟨l, hl, h, e⟩ <;> simp at e
    exact hne e.1
  · rcases (mem_stClear hj).1 hw with e | e | ⟨l', hl, h, e⟩ <;> simp at e
    exact hne e.1.1

/-- The task with no task before it. -/
theorem SNet.noPred {τ : SV → Nat} (hn : SNet B τ I lab c) {u : Nat} (h : ∀ l < B, l ≠ c u → τ (.con l (c u)) = 0) (v : Nat) :
    ¬ cellLt B τ c v u := fun hp =>
  path_into (Q := (· ≠ c u)) (fun a b hab e => by
    subst e
    exact hab.2 (h a hab.1.1 hab.1.2.2)) hp rfl

/-- If all subtasks of a method are after the first one, they are all before the last one. -/
def LastOk (P : Problem) : Prop := ∀ m < P.numMethods, mNl P m = false → ∀ i, i + 1 < (P.sub m).length →
  TransGen (P.OrdRel m) i ((P.sub m).length - 1)

/-- The operators of methods decompose. -/
theorem dec_step (hin : PushInput P vars nA nT) (hlast : LastOk P) {m j : Nat} {subs : List Nat} (h : MethOk P B m j subs) {cost : Nat}
    (happ : (sOp nV B [] [] (stMethD P B m j subs) cost).App σ) :
    DecStep P m B (sView nV B σ) (sView nV B ((sOp nV B [] [] (stMethD P B m j subs) cost).res σ)) j (!mNl P m) (newCell j subs)
      (cellG (stCells (mNl P m) j subs)) := by
  have ho := stMethD_ok hin h nV
  have hpre := ((sOp_app ho).1 happ).2
  obtain ⟨h1, h2⟩ := (stPre_holds h.cell).1 fun x hx => hpre x ((stMethD_pre h).2 (.inl hx))
  have hadd := fun x => stMethD_add hin h (x := x)
  have hmem : ∀ q w, (q, w) ∈ (stMethD P B m j subs).2 → sView nV B ((sOp nV B [] [] (stMethD P B m j subs) cost).res σ) q = w :=
    fun q w h => sRes_mem ho h
  have hnot : ∀ q, SOk B q → (∀ w, (q, w) ∉ (stMethD P B m j subs).2) →
      sView nV B ((sOp nV B [] [] (stMethD P B m j subs) cost).res σ) q = sView nV B σ q := fun q hq h => sRes_not ho hq h
  have himg : ∀ i < (P.sub m).length, newCell j subs (cellG (stCells (mNl P m) j subs) i) ∨
      (!mNl P m) = true ∧ cellG (stCells (mNl P m) j subs) i = j := by
    intro i hi
    rcases mem_stCells.1 (cellG_mem hin h hi) with h3 | ⟨h3, h4⟩
    · exact .inl h3
    · exact .inr ⟨by rw [h3]; rfl, h4⟩
  have hsurj : ∀ x, newCell j subs x → ∃ i < (P.sub m).length, cellG (stCells (mNl P m) j subs) i = x := by
    intro x hx
    obtain ⟨p, hp, e⟩ := List.getElem_of_mem (mem_stCells.2 (.inl hx) : x ∈ stCells (mNl P m) j subs)
    have hl := stCells_length hin h
    refine ⟨(P.sub m).length - 1 - p, by omega, ?_⟩
    rw [cellG, hl, show (P.sub m).length - 1 - ((P.sub m).length - 1 - p) = p by omega, List.getElem?_eq_getElem hp, e]
    rfl
  have hlen2 : ∀ x, newCell j subs x → 1 < (P.sub m).length := by
    rintro x ⟨c, hc, -⟩
    by_contra hle
    have hl := h.subs.len
    rw [mNum, mNl_small (by omega), if_neg (by simp)] at hl
    have := List.length_pos_of_mem hc
    omega
  refine ⟨h.cell, by rw [h1]; omega, h2, hin.len_pos h.lt, fun a b => hin.ord_ok h.lt, ?_, himg, hsurj,
    fun i hi i' hi' => cellG_inj hin h hi hi', ?_, ?_, ?_, ?_, ?_, ?_, ?_, ?_⟩
  · rintro x ⟨c, hc, rfl⟩
    exact ⟨skip_lt (h.subs.lt c hc), skip_ne j c, hpre _ ((stMethD_pre h).2 (.inr ⟨hlen2 _ ⟨c, hc, rfl⟩, .inl ⟨c, hc, rfl⟩⟩))⟩
  · intro hl
    have hl : mNl P m = false := by simpa using hl
    exact ⟨cellG_last hin h hl, hlast m h.lt hl⟩
  · intro i t hi
    exact hmem _ _ ((hadd _).2 (.inr (.inl ⟨i, t, hi, rfl⟩)))
  · intro hl
    exact hmem _ _ ((hadd _).2 (.inl ⟨by simpa using hl, rfl⟩))
  · intro x hx hxj hxK
    refine hnot _ hx fun w hw => ?_
    rcases (hadd _).1 hw with ⟨-, e⟩ | ⟨i, t, hi, e⟩ | ⟨k, hk, e⟩ | ⟨k, _, hk, e⟩ | ⟨a, b, hab, e⟩ <;> simp at e
    · exact hxj e.1
    · rcases himg i (List.getElem?_eq_some_iff.1 hi).1 with h3 | ⟨-, h3⟩
      · rw [← e.1] at h3
        exact hxK h3
      · rw [← e.1] at h3
        exact hxj h3
  · intro x hx
    exact hmem _ _ ((hadd _).2 (.inr (.inr (.inl ⟨x, hx, rfl⟩))))
  · intro x hx hxK
    refine hnot _ hx fun w hw => ?_
    rcases (hadd _).1 hw with ⟨-, e⟩ | ⟨i, t, hi, e⟩ | ⟨k, hk, e⟩ | ⟨k, _, hk, e⟩ | ⟨a, b, hab, e⟩ <;> simp at e
    rw [← e.1] at hk
    exact hxK hk
  · rintro k l - (⟨a, b, hab, rfl, rfl⟩ | ⟨hl, hk, rfl⟩)
    · exact hmem _ _ ((hadd _).2 (.inr (.inr (.inr (.inr ⟨a, b, hab, rfl⟩)))))
    · exact hmem _ _ ((hadd _).2 (.inr (.inr (.inr (.inl ⟨k, by simpa using hl, hk, rfl⟩)))))
  · intro k l hkl hne
    refine hnot _ hkl fun w hw => ?_
    rcases (hadd _).1 hw with ⟨-, e⟩ | ⟨i, t, hi, e⟩ | ⟨k', hk, e⟩ | ⟨k', hl, hk, e⟩ | ⟨a, b, hab, e⟩ <;> simp at e
    · exact hne (.inr ⟨by rw [hl]; rfl, by rw [e.1.1]; exact hk, e.1.2⟩)
    · exact hne (.inl ⟨a, b, hab, e.1.1, e.1.2⟩)

/-! ## Soundness -/

/-- What the translated problem consists of. -/
structure StTask (P : Problem) (vars : List (Nat × Nat)) (nA B : Nat) (T : STask SLab) : Prop where
  ops : ∀ x, x ∈ T.ops ↔ (∃ j < B, x = (.empty j, sOp vars.length B [] [] (stPre B 1 j, stClear B j) (emptyCost P nA))) ∨
    (∃ a j, a < nA ∧ j < B ∧
      x = (.prim a j, sOp vars.length B (precV vars P a) (addV vars P a) (stPre B (a + 2) j, stClear B j) (P.cost a))) ∨
    ∃ m j subs, MethOk P B m j subs ∧
      x = (.meth m j (stCells (mNl P m) j subs), sOp vars.length B [] [] (stMethD P B m j subs) 0)
  goal : ∀ σ, T.Goal σ ↔ Holds σ (P.goal.filterMap (conv vars)) ∧ ∀ j < B, sView vars.length B σ (.task j) = 0

variable {T : STask SLab}

theorem SEnc.cell (he : SEnc vars B σ s I lab c) {j : Nat} (hj : j < B) (h : 2 ≤ sView vars.length B σ (.task j)) : ∃ u ∈ I, c u = j := by
  by_contra hn
  push Not at hn
  rcases he.net.other j hj hn with h1 | h1 <;> omega

/-- The operator for an empty task. -/
theorem SEnc.empty_step (he : SEnc vars B σ s I lab c) {j : Nat} (hj : j < B) {cost : Nat}
    (happ : (sOp vars.length B [] [] (stPre B 1 j, stClear B j) cost).App σ) :
    SEnc vars B ((sOp vars.length B [] [] (stPre B 1 j, stClear B j) cost).res σ) s I lab c ∧
    ClearStep B (sView vars.length B σ) (sView vars.length B ((sOp vars.length B [] [] (stPre B 1 j, stClear B j) cost).res σ)) j ∧
    ∀ u ∈ I, ∀ v ∈ I, cellLt B (sView vars.length B ((sOp vars.length B [] [] (stPre B 1 j, stClear B j) cost).res σ)) c u v ↔
      cellLt B (sView vars.length B σ) c u v := by
  have ho : SOpOk vars.length B [] [] (stPre B 1 j, stClear B j) :=
    clear_ok hj (fun _ h => by cases h) (fun _ h => by cases h) (fun _ h => by cases h)
  obtain ⟨h1, h2⟩ := (stPre_holds hj).1 ((sOp_app ho).1 happ).2
  have hc := clear_step hj ho (cost := cost) h2
  have := he.net.clear hc (I' := I) (fun u => ⟨fun hu => ⟨hu, fun e => by
    have := he.net.task u hu
    rw [e, h1] at this
    omega⟩, And.left⟩)
  exact ⟨⟨corr_congr he.corr fun i hi => by rw [sRes_base hi]; rfl, this.1⟩, hc, this.2⟩

/-- The operator for an action. -/
theorem SEnc.act_step (hin : PushInput P vars nA nT) (he : SEnc vars B σ s I lab c) {u : Nat} (hu : u ∈ I) (hf : PrecFun vars P (lab u))
    (hr : Reach P s) (happ : P.Applicable s (lab u)) (hmin : ∀ l < B, l ≠ c u → sView vars.length B σ (.con l (c u)) = 0) {cost : Nat} :
    let σ' := (sOp vars.length B (precV vars P (lab u)) (addV vars P (lab u)) (stPre B (lab u + 2) (c u), stClear B (c u)) cost).res σ
    SEnc vars B σ' (P.result s (lab u)) (I.erase u) lab c ∧ ClearStep B (sView vars.length B σ) (sView vars.length B σ') (c u) ∧
    ∀ v ∈ I.erase u, ∀ w ∈ I.erase u, cellLt B (sView vars.length B σ') c v w ↔ cellLt B (sView vars.length B σ) c v w := by
  intro σ'
  have hj := he.net.lt u hu
  have ho : SOpOk vars.length B (precV vars P (lab u)) (addV vars P (lab u)) (stPre B (lab u + 2) (c u), stClear B (c u)) :=
    clear_ok hj (fun p hp => precV_lt hp) hf (fun p hp => addV_lt hp)
  have hc := clear_step hj ho (cost := cost) hmin
  have := he.net.clear hc (I' := I.erase u) (fun v => by
    rw [Finset.mem_erase, and_comm]
    exact and_congr_right fun hv => ⟨fun hne e => hne (he.net.inj v hv u hu e), fun hne e => hne (e ▸ rfl)⟩)
  obtain ⟨π, hπ⟩ := hr.step happ
  have hcorr := he.corr.result hin.wf hin.sas.contig hin.sas.noClash (hin.sas.inv π _ hπ)
  exact ⟨⟨corr_congr hcorr fun i hi => sRes_base hi, this.1⟩, hc, this.2⟩

/-- The plans of the translated problem are solutions. -/
theorem st_sound (hin : PushInput P vars nA nT) (hf : ∀ a < nA, PrecFun vars P a) (hlast : LastOk P) (hT : StTask P vars nA B T) {σ σ' : Val}
    {ρ : List (SLab × SOp)} (h : SRun T σ ρ σ') : ∀ {s : State} {I : Finset Nat} {lab c : Nat → Nat},
    SEnc vars B σ s I lab c → Reach P s → T.Goal σ' → ∃ k, SolvesN P I lab (cellLt B (sView vars.length B σ) c) s (stActs ρ) k := by
  induction h with
  | nil σ =>
    intro s I lab c he _ hg
    obtain ⟨h1, h2⟩ := (hT.goal _).1 hg
    have hI : I = ∅ := by
      refine Finset.eq_empty_of_forall_notMem fun u hu => ?_
      have := he.net.task u hu
      have := h2 (c u) (he.net.lt u hu)
      omega
    subst hI
    exact ⟨0, solvesN_empty.2 ⟨rfl, rfl, (he.corr.holds hin.sas.contig hin.wf.goal_lt).1 h1⟩⟩
  | @cons σ σ' x ρ hx happ _ ih =>
    intro s I lab c he hr hg
    rcases (hT.ops x).1 hx with ⟨j, hj, rfl⟩ | ⟨a, j, ha, hj, rfl⟩ | ⟨m, j, subs, hm, rfl⟩
    · obtain ⟨h1, -, h2⟩ := he.empty_step hj happ
      obtain ⟨k, hk⟩ := ih h1 hr hg
      exact ⟨k, hk.congr (fun _ _ => rfl) fun u hu v hv => (h2 u hu v hv).2⟩
    · have ho : SOpOk vars.length B (precV vars P a) (addV vars P a) (stPre B (a + 2) j, stClear B j) :=
        clear_ok hj (fun p hp => precV_lt hp) (hf a ha) (fun p hp => addV_lt hp)
      obtain ⟨g1, g2⟩ := (sOp_app ho).1 happ
      obtain ⟨g3, g4⟩ := (stPre_holds hj).1 g2
      obtain ⟨u, hu, rfl⟩ := he.cell hj (by omega)
      have hl := he.net.task u hu
      obtain rfl : lab u = a := by omega
      have hap := (he.corr.applicable hin.wf hin.sas.contig (lab u)).1 g1
      obtain ⟨k1, -, k2⟩ := he.act_step hin hu (hf _ ha) hr hap g4 (cost := P.cost (lab u))
      obtain ⟨k, hk⟩ := ih k1 (hr.step hap) hg
      refine ⟨k, ?_⟩
      have : stActs ((SLab.prim (lab u) (c u), sOp vars.length B (precV vars P (lab u)) (addV vars P (lab u))
        (stPre B (lab u + 2) (c u), stClear B (c u)) (P.cost (lab u))) :: ρ) = lab u :: stActs ρ := rfl
      rw [this]
      exact .progress hu (by rw [hin.prim]; simpa using ha) (fun v _ => he.net.noPred g4 v) hap
        (hk.congr (fun _ _ => rfl) fun v hv w hw => (k2 v hv w hw).2)
    · have hd := dec_step hin hlast hm happ
      have ho := stMethD_ok hin hm vars.length
      obtain ⟨g3, g4⟩ := (stPre_holds hm.cell).1 fun x hx => ((sOp_app ho).1 happ).2 x ((stMethD_pre hm).2 (.inl hx))
      obtain ⟨u, hu, hcu⟩ := he.cell hm.cell (by omega)
      have hl := he.net.task u hu
      rw [hcu] at hl
      obtain ⟨b, hb⟩ : ∃ b, ∀ v ∈ I, v < b := ⟨I.sup id + 1, fun v hv => Nat.lt_succ_of_le (Finset.le_sup (f := id) hv)⟩
      obtain ⟨I', lab', c', k1, k2, -⟩ := he.net.dec hd hu hcu hb
      obtain ⟨k, hk⟩ := ih ⟨corr_congr he.corr fun i hi => by rw [sRes_base hi]; rfl, k1⟩ hr hg
      exact ⟨k + 1, hk.of_subst hm.lt (by omega) hu (he.net.noPred (hcu ▸ g4) u) k2⟩

/-- The costs of a plan: those of its actions, and those written for the empty tasks. -/
theorem st_cost (hT : StTask P vars nA B T) {σ σ' : Val} {ρ : List (SLab × SOp)} (h : SRun T σ ρ σ') :
    planCost ρ = P.planCost (stActs ρ) + stEmpties ρ * emptyCost P nA := by
  induction h with
  | nil => simp [planCost, Problem.planCost, stActs, stEmpties]
  | @cons σ σ' x ρ hx _ _ ih =>
    have h1 : planCost (x :: ρ) = x.2.cost + planCost ρ := by simp [planCost]
    rw [h1, ih]
    rcases (hT.ops x).1 hx with ⟨j, hj, rfl⟩ | ⟨a, j, ha, hj, rfl⟩ | ⟨m, j, subs, hm, rfl⟩
    · have e1 : stEmpties ((SLab.empty j, sOp vars.length B [] [] (stPre B 1 j, stClear B j) (emptyCost P nA)) :: ρ) = stEmpties ρ + 1 :=
        List.countP_cons_of_pos rfl
      rw [e1, Nat.succ_mul]
      have e2 : stActs ((SLab.empty j, sOp vars.length B [] [] (stPre B 1 j, stClear B j) (emptyCost P nA)) :: ρ) = stActs ρ := rfl
      rw [e2]
      have e3 : (SLab.empty j, sOp vars.length B [] [] (stPre B 1 j, stClear B j) (emptyCost P nA)).2.cost = emptyCost P nA := rfl
      rw [e3]
      omega
    · generalize hop : sOp vars.length B (precV vars P a) (addV vars P a) (stPre B (a + 2) j, stClear B j) (P.cost a) = op
      have e1 : stEmpties ((SLab.prim a j, op) :: ρ) = stEmpties ρ := List.countP_cons_of_neg (by simp)
      have e2 : stActs ((SLab.prim a j, op) :: ρ) = a :: stActs ρ := rfl
      have e3 : op.cost = P.cost a := by rw [← hop]; rfl
      rw [e1, e2, e3, Problem.planCost, Problem.planCost, List.map_cons, List.sum_cons, Nat.add_assoc]
    · generalize hop : sOp vars.length B [] [] (stMethD P B m j subs) 0 = op
      have e1 : stEmpties ((SLab.meth m j (stCells (mNl P m) j subs), op) :: ρ) = stEmpties ρ := List.countP_cons_of_neg (by simp)
      have e2 : stActs ((SLab.meth m j (stCells (mNl P m) j subs), op) :: ρ) = stActs ρ := rfl
      have e3 : op.cost = 0 := by rw [← hop]; rfl
      rw [e1, e2, e3, Nat.zero_add]

end

end Verif.Sas
