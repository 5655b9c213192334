import Verif.Props.SatEncoder
import Verif.StateFormula

/-! # Sequences of clauses and at-most-one constraints

A formula that is generated step by step: clauses, and calls of `atMostOne`, which may take new variables. -/

namespace Verif.Sat

/-- A step of the generation: a clause or a call of `atMostOne`. -/
inductive Item
  | cl (c : Clause)
  | amo (is : List Int)

/-- The generated clauses and the new number of variables. -/
def emit (bits : Nat → Nat) : Nat → List Item → Nat × List Clause
  | n, [] => (n, [])
  | n, .cl c :: l => ((emit bits n l).1, c :: (emit bits n l).2)
  | n, .amo is :: l =>
    ((emit bits (atMostOne bits n is).1 l).1, (atMostOne bits n is).2 ++ (emit bits (atMostOne bits n is).1 l).2)

/-- The literals of a step exist. -/
def Item.OK (n : Nat) : Item → Prop
  | .cl c => LitsOK n c
  | .amo is => LitsOK n is

/-- What a step demands. -/
def Item.Holds (v : Assignment) : Item → Prop
  | .cl c => satClause v c
  | .amo is => is.countP (lit v) ≤ 1

/-- Clauses that only use variables up to `n`. -/
def ClausesOK (n : Nat) (cs : List Clause) : Prop := ∀ c ∈ cs, LitsOK n c

theorem satClause_agree {n : Nat} {v w : Assignment} (h : ∀ i ≤ n, w i = v i) {c : Clause} (hc : LitsOK n c) :
    satClause w c ↔ satClause v c := by
  unfold satClause
  constructor
  · rintro ⟨l, hl, h'⟩
    exact ⟨l, hl, by rw [← lit_agree h (hc l hl).2]; exact h'⟩
  · rintro ⟨l, hl, h'⟩
    exact ⟨l, hl, by rw [lit_agree h (hc l hl).2]; exact h'⟩

theorem satAll_agree {n : Nat} {v w : Assignment} (h : ∀ i ≤ n, w i = v i) {cs : List Clause} (hc : ClausesOK n cs) :
    satAll w cs ↔ satAll v cs := by
  unfold satAll
  constructor
  · exact fun h' c hcs => (satClause_agree h (hc c hcs)).1 (h' c hcs)
  · exact fun h' c hcs => (satClause_agree h (hc c hcs)).2 (h' c hcs)

theorem holds_agree {n : Nat} {v w : Assignment} (h : ∀ i ≤ n, w i = v i) {it : Item} (hc : it.OK n) :
    it.Holds w ↔ it.Holds v := by
  cases it with
  | cl c => exact satClause_agree h hc
  | amo is =>
    show is.countP (lit w) ≤ 1 ↔ is.countP (lit v) ≤ 1
    rw [List.countP_congr fun l hl => by rw [lit_agree h (hc l hl).2]]

theorem atMostOne_le (bits : Nat → Nat) (n : Nat) (is : List Int) : n ≤ (atMostOne bits n is).1 := by
  unfold atMostOne
  split_ifs
  · exact Nat.le_refl _
  · exact Nat.le_refl _
  · simp only; omega

theorem LitsOK.mono {n m : Nat} {c : List Int} (h : LitsOK n c) (hm : n ≤ m) : LitsOK m c :=
  fun l hl => ⟨(h l hl).1, (h l hl).2.trans hm⟩

theorem Item.OK.mono {n m : Nat} {it : Item} (h : it.OK n) (hm : n ≤ m) : it.OK m := by
  cases it with
  | cl c => exact LitsOK.mono h hm
  | amo is => exact LitsOK.mono h hm

theorem emit_le (bits : Nat → Nat) : ∀ (l : List Item) (n : Nat), n ≤ (emit bits n l).1 := by
  intro l
  induction l with
  | nil => intro n; exact Nat.le_refl _
  | cons it l ih =>
    intro n
    cases it with
    | cl c => exact ih n
    | amo is => exact (atMostOne_le bits n is).trans (ih _)

theorem emit_ok {bits : Nat → Nat} (hb : ∀ k, k ≤ 2 ^ bits k) : ∀ (l : List Item) (n : Nat), (∀ it ∈ l, it.OK n) →
    ClausesOK (emit bits n l).1 (emit bits n l).2 := by
  intro l
  induction l with
  | nil => intro n _ c hc; simp [emit] at hc
  | cons it l ih =>
    intro n h
    cases it with
    | cl c =>
      intro c' hc'
      rcases List.mem_cons.1 hc' with rfl | hc'
      · exact LitsOK.mono (h (.cl c') List.mem_cons_self) (emit_le bits l n)
      · exact ih n (fun it hit => h it (List.mem_cons_of_mem _ hit)) c' hc'
    | amo is =>
      intro c' hc'
      rcases List.mem_append.1 hc' with hc' | hc'
      · exact LitsOK.mono ((Props.C34_atMostOne bits n is (h (.amo is) List.mem_cons_self) (hb _) (fun _ => true)).2 c' hc')
          (emit_le bits l _)
      · exact ih _ (fun it hit => (h it (List.mem_cons_of_mem _ hit)).mono (atMostOne_le bits n is)) c' hc'

/-- The generated formula can be satisfied over an assignment iff the assignment meets all demands. -/
theorem emit_sat {bits : Nat → Nat} (hb : ∀ k, k ≤ 2 ^ bits k) : ∀ (l : List Item) (n : Nat), (∀ it ∈ l, it.OK n) →
    ∀ v : Assignment, (∃ w : Assignment, (∀ i ≤ n, w i = v i) ∧ satAll w (emit bits n l).2) ↔ ∀ it ∈ l, it.Holds v := by
  intro l
  induction l with
  | nil => intro n _ v; simp only [emit, satAll]; exact ⟨by simp, fun _ => ⟨v, by simp⟩⟩
  | cons it l ih =>
    intro n h v
    have hl : ∀ it ∈ l, it.OK n := fun it hit => h it (List.mem_cons_of_mem _ hit)
    have h0 := h it List.mem_cons_self
    cases it with
    | cl c =>
      constructor
      · rintro ⟨w, hw, hs⟩
        have hs1 : satClause w c := hs c List.mem_cons_self
        have hs2 : satAll w (emit bits n l).2 := fun c' hc' => hs c' (List.mem_cons_of_mem _ hc')
        rw [List.forall_mem_cons]
        exact ⟨(satClause_agree hw h0).1 hs1, (ih n hl v).1 ⟨w, hw, hs2⟩⟩
      · intro hv
        rw [List.forall_mem_cons] at hv
        obtain ⟨w, hw, hs⟩ := (ih n hl v).2 hv.2
        refine ⟨w, hw, fun c' hc' => ?_⟩
        rcases List.mem_cons.1 hc' with rfl | hc'
        · exact (satClause_agree hw h0).2 hv.1
        · exact hs c' hc'
    | amo is =>
      have hle := atMostOne_le bits n is
      have hl' : ∀ it ∈ l, it.OK (atMostOne bits n is).1 := fun it hit => (hl it hit).mono hle
      have h34 := Props.C34_atMostOne bits n is h0 (hb _)
      constructor
      · rintro ⟨w, hw, hs⟩
        obtain ⟨hs1, hs2⟩ := satAll_append.1 hs
        rw [List.forall_mem_cons]
        refine ⟨(h34 v).1.1 ⟨w, hw, hs1⟩, fun it hit => ?_⟩
        exact (holds_agree hw (hl it hit)).1 ((ih _ hl' w).1 ⟨w, fun _ _ => rfl, hs2⟩ it hit)
      · intro hv
        rw [List.forall_mem_cons] at hv
        obtain ⟨w1, hw1, hs1⟩ := (h34 v).1.2 hv.1
        obtain ⟨w, hw, hs⟩ := (ih _ hl' w1).2 fun it hit => (holds_agree hw1 (hl it hit)).2 (hv.2 it hit)
        refine ⟨w, fun i hi => (hw i (hi.trans hle)).trans (hw1 i hi), satAll_append.2 ⟨?_, hs⟩⟩
        exact (satAll_agree hw fun c hc => (h34 v).2 c hc).2 hs1

end Verif.Sat
