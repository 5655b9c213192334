import Verif.SatItems
import Verif.Invariants

/-! # Model of the formula for mutexes and invariants (src/sat/state_formula.cpp 126-231) -/

namespace Verif.Sat

open Verif.Htn Verif.Inv

/-- The literal of the formula for a literal over facts, if the variables of the state start at `b` (state_formula.cpp
185-188, 206-209). -/
def litAt (b : Nat) (l : Int) : Int := if l < 0 then -((b + (-l - 1).toNat : Nat) : Int) else ((b + l.toNat : Nat) : Int)

/-- The variables of some facts. -/
def factVars (b : Nat) (fs : List Nat) : List Int := fs.map fun f : Nat => ((b + f : Nat) : Int)

/-- The binary clauses of one literal (state_formula.cpp 201-212, 214-224). -/
def binItems (B : BinInv) (b : Nat) (a : Int) : List Item :=
  (B a).flatMap fun c => if factOf a > factOf c then [] else [.cl [litAt b a, litAt b c]]

/-- The constraints for one time step (state_formula.cpp 142-226). -/
def mutexItems (N : Nat) (G : Given) (B A : BinInv) (b : Nat) : List Item :=
  (G.groups.flatMap fun g => if g.1 = g.2 then [] else
    [.amo (factVars b (groupFacts g)), .cl (factVars b (groupFacts g))]) ++
  ((G.strict.flatMap fun m => if m.length = 2 then [] else [.amo (factVars b m), .cl (factVars b m)]) ++
  ((G.mutex.flatMap fun m => if m.length = 2 then [] else [.amo (factVars b m)]) ++
  ((G.invs.flatMap fun c => if c.length = 2 then [] else [.cl (c.map (litAt b))]) ++
  ((allLits N).flatMap fun a => binItems B b a ++ binItems A b a))))

/-- What is given only speaks about facts that exist. -/
structure GivenIn (N : Nat) (G : Given) : Prop where
  groups : ∀ g ∈ G.groups, g.1 ≤ g.2 ∧ g.2 < N
  strict : ∀ m ∈ G.strict, ∀ f ∈ m, f < N
  mutex : ∀ m ∈ G.mutex, ∀ f ∈ m, f < N
  invs : ∀ c ∈ G.invs, ∀ l ∈ c, inRange N l = true

/-- The binary clauses only speak about facts that exist. -/
def BinIn (N : Nat) (B : BinInv) : Prop := ∀ a, ∀ c ∈ B a, inRange N a = true ∧ inRange N c = true

theorem mem_allLits {N : Nat} {a : Int} : a ∈ allLits N ↔ inRange N a = true := by
  unfold allLits inRange
  simp only [List.mem_map, List.mem_range, Bool.and_eq_true, decide_eq_true_eq]
  constructor
  · rintro ⟨i, hi, rfl⟩; omega
  · intro h; exact ⟨(a + N).toNat, by omega, by omega⟩

theorem litAt_ok {N b n : Nat} {l : Int} (hl : inRange N l = true) (hb : 0 < b) (hn : b + N ≤ n + 1) :
    litAt b l ≠ 0 ∧ (litAt b l).natAbs ≤ n := by
  simp only [inRange, Bool.and_eq_true, decide_eq_true_eq] at hl
  unfold litAt
  split_ifs with h <;> omega

theorem lit_litAt {P : Problem} {w : Assignment} {b : Nat} {l : Int} (hl : inRange P.numFacts l = true) (hb : 0 < b) :
    lit w (litAt b l) = true ↔ holds (stOf P w b) l := by
  simp only [inRange, Bool.and_eq_true, decide_eq_true_eq] at hl
  unfold litAt holds stOf
  by_cases h : l < 0
  · rw [if_pos h, if_neg (by omega), lit_neg (by omega), lit_pos (by omega)]
    have : (-l - 1).toNat < P.numFacts := by omega
    generalize (-l - 1).toNat = k at this ⊢
    simp [this]
  · rw [if_neg h, if_pos (by omega), lit_pos (by omega)]
    have : l.toNat < P.numFacts := by omega
    simp [this]

theorem mem_groupFacts {g : Nat × Nat} {f : Nat} : f ∈ groupFacts g ↔ g.1 ≤ f ∧ f ≤ g.2 := by
  unfold groupFacts
  rw [List.mem_range'_1]
  omega

theorem factVars_ok {N b n : Nat} {fs : List Nat} (hf : ∀ f ∈ fs, f < N) (hn : b + N ≤ n + 1) (hb : 0 < b) :
    LitsOK n (factVars b fs) := by
  intro l hl
  obtain ⟨f, hm, rfl⟩ := List.mem_map.1 hl
  have := hf f hm
  constructor <;> omega

theorem mem_binItems {B : BinInv} {b : Nat} {a : Int} {it : Item} (h : it ∈ binItems B b a) :
    ∃ c ∈ B a, it = .cl [litAt b a, litAt b c] := by
  obtain ⟨c, hc, h⟩ := List.mem_flatMap.1 h
  split_ifs at h
  · simp at h
  · exact ⟨c, hc, by simpa using h⟩

/-- All constraints, one after the other. -/
theorem mem_mutexItems {N : Nat} {G : Given} {B A : BinInv} {b : Nat} {it : Item} (h : it ∈ mutexItems N G B A b) :
    (∃ g ∈ G.groups, g.1 ≠ g.2 ∧ (it = .amo (factVars b (groupFacts g)) ∨ it = .cl (factVars b (groupFacts g)))) ∨
    (∃ m ∈ G.strict, it = .amo (factVars b m) ∨ it = .cl (factVars b m)) ∨ (∃ m ∈ G.mutex, it = .amo (factVars b m)) ∨
    (∃ c ∈ G.invs, it = .cl (c.map (litAt b))) ∨ ∃ a c, (c ∈ B a ∨ c ∈ A a) ∧ it = .cl [litAt b a, litAt b c] := by
  unfold mutexItems at h
  rcases List.mem_append.1 h with h | h
  · obtain ⟨g, hg, h⟩ := List.mem_flatMap.1 h
    split_ifs at h with h0
    · simp at h
    · exact .inl ⟨g, hg, h0, by simpa using h⟩
  rcases List.mem_append.1 h with h | h
  · obtain ⟨g, hg, h⟩ := List.mem_flatMap.1 h
    split_ifs at h with h0
    · simp at h
    · exact .inr (.inl ⟨g, hg, by simpa using h⟩)
  rcases List.mem_append.1 h with h | h
  · obtain ⟨g, hg, h⟩ := List.mem_flatMap.1 h
    split_ifs at h with h0
    · simp at h
    · exact .inr (.inr (.inl ⟨g, hg, by simpa using h⟩))
  rcases List.mem_append.1 h with h | h
  · obtain ⟨g, hg, h⟩ := List.mem_flatMap.1 h
    split_ifs at h with h0
    · simp at h
    · exact .inr (.inr (.inr (.inl ⟨g, hg, by simpa using h⟩)))
  · obtain ⟨a, -, h⟩ := List.mem_flatMap.1 h
    rcases List.mem_append.1 h with h | h
    · obtain ⟨c, hc, rfl⟩ := mem_binItems h
      exact .inr (.inr (.inr (.inr ⟨a, c, .inl hc, rfl⟩)))
    · obtain ⟨c, hc, rfl⟩ := mem_binItems h
      exact .inr (.inr (.inr (.inr ⟨a, c, .inr hc, rfl⟩)))

/-- The literals of the constraints exist. -/
theorem mutexItems_ok {N : Nat} {G : Given} {B A : BinInv} (hG : GivenIn N G) (hB : BinIn N B) (hA : BinIn N A) {b n : Nat}
    (hb : 0 < b) (hn : b + N ≤ n + 1) : ∀ it ∈ mutexItems N G B A b, it.OK n := by
  intro it h
  have hgf : ∀ g ∈ G.groups, ∀ f ∈ groupFacts g, f < N := fun g hg f hf => by
    have := hG.groups g hg
    have := mem_groupFacts.1 hf
    omega
  rcases mem_mutexItems h with ⟨g, hg, -, rfl | rfl⟩ | ⟨m, hm, rfl | rfl⟩ | ⟨m, hm, rfl⟩ | ⟨c, hc, rfl⟩ | ⟨a, c, hac, rfl⟩
  · exact factVars_ok (hgf g hg) hn hb
  · exact factVars_ok (hgf g hg) hn hb
  · exact factVars_ok (hG.strict m hm) hn hb
  · exact factVars_ok (hG.strict m hm) hn hb
  · exact factVars_ok (hG.mutex m hm) hn hb
  · intro l hl
    obtain ⟨l', hl', rfl⟩ := List.mem_map.1 hl
    exact litAt_ok (hG.invs c hc l' hl') hb hn
  · have : inRange N a = true ∧ inRange N c = true := by
      rcases hac with h | h
      · exact hB a c h
      · exact hA a c h
    intro l hl
    simp only [List.mem_cons, List.not_mem_nil, or_false] at hl
    rcases hl with rfl | rfl
    · exact litAt_ok this.1 hb hn
    · exact litAt_ok this.2 hb hn

theorem factVars_lit {P : Problem} {w : Assignment} {b : Nat} (hb : 0 < b) {f : Nat} (hf : f < P.numFacts) :
    lit w ((b + f : Nat) : Int) = true ↔ stOf P w b f := by
  rw [lit_pos (by omega)]
  simp [stOf, hf]

/-- A state that respects what is given and the binary clauses meets all constraints. -/
theorem mutexItems_holds {P : Problem} {G : Given} {B A : BinInv} (hG : GivenIn P.numFacts G) (hB : BinIn P.numFacts B)
    (hA : BinIn P.numFacts A) {b : Nat} (hb : 0 < b) {w : Assignment} (hok : G.Ok (stOf P w b)) (hBh : AllHold (stOf P w b) B)
    (hAh : AllHold (stOf P w b) A) : ∀ it ∈ mutexItems P.numFacts G B A b, it.Holds w := by
  intro it h
  have hamo : ∀ fs : List Nat, (∀ f ∈ fs, f < P.numFacts) → (fs.Pairwise fun a b' => ¬ (stOf P w b a ∧ stOf P w b b')) →
      (Item.amo (factVars b fs)).Holds w := by
    intro fs hf hp
    show (factVars b fs).countP (lit w) ≤ 1
    rw [countP_le_one]
    unfold factVars
    rw [List.pairwise_map]
    refine hp.imp_of_mem fun {x y} hx hy hxy => ?_
    rwa [factVars_lit hb (hf x hx), factVars_lit hb (hf y hy)]
  have halo : ∀ fs : List Nat, (∃ f ∈ fs, stOf P w b f) → (Item.cl (factVars b fs)).Holds w := by
    rintro fs ⟨f, hf, hs⟩
    exact ⟨_, List.mem_map.2 ⟨f, hf, rfl⟩, (factVars_lit hb hs.1).2 hs⟩
  have hgf : ∀ g ∈ G.groups, ∀ f ∈ groupFacts g, f < P.numFacts := fun g hg f hf => by
    have := hG.groups g hg
    have := mem_groupFacts.1 hf
    omega
  rcases mem_mutexItems h with ⟨g, hg, hne, rfl | rfl⟩ | ⟨m, hm, rfl | rfl⟩ | ⟨m, hm, rfl⟩ | ⟨c, hc, rfl⟩ | ⟨a, c, hac, rfl⟩
  · refine hamo _ (hgf g hg) ?_
    have hpw : (groupFacts g).Pairwise (· < ·) := List.pairwise_lt_range'
    refine hpw.imp_of_mem fun {x y} hx hy hxy => ?_
    exact hok.amoGroup g hg x y (mem_groupFacts.1 hx).1 hxy (mem_groupFacts.1 hy).2
  · have := (hG.groups g hg).1
    obtain ⟨f, h1, h2, h3⟩ := hok.aloGroup g hg (by omega)
    exact halo _ ⟨f, mem_groupFacts.2 ⟨h1, h2⟩, h3⟩
  · exact hamo _ (hG.strict m hm) (hok.amoStrict m hm)
  · exact halo _ (hok.aloStrict m hm)
  · exact hamo _ (hG.mutex m hm) (hok.amoMutex m hm)
  · obtain ⟨l, hl, hs⟩ := hok.invs c hc
    exact ⟨_, List.mem_map.2 ⟨l, hl, rfl⟩, (lit_litAt (hG.invs c hc l hl) hb).2 hs⟩
  · have hr : inRange P.numFacts a = true ∧ inRange P.numFacts c = true := by
      rcases hac with h | h
      · exact hB a c h
      · exact hA a c h
    have hh : holds (stOf P w b) a ∨ holds (stOf P w b) c := by
      rcases hac with h | h
      · exact hBh a c h
      · exact hAh a c h
    rcases hh with h | h
    · exact ⟨_, by simp, (lit_litAt hr.1 hb).2 h⟩
    · exact ⟨litAt b c, by simp, (lit_litAt hr.2 hb).2 h⟩

end Verif.Sat
