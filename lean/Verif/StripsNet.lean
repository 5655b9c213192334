import Verif.StripsOps
import Verif.ProgSpec
import Mathlib.Data.Finset.Card

/-! # Cells with tasks and orders between them -/

namespace Verif.Sas

open Verif.Htn Relation

/-! ## Graphs -/

/-- The edges from a node without predecessors are removed. -/
theorem clear_path {C C' : Nat → Nat → Prop} {j : Nat} (hC : ∀ x y, C' x y ↔ C x y ∧ x ≠ j) (hj : ∀ x, ¬ C x j) {x y : Nat} (hx : x ≠ j) :
    TransGen C' x y ↔ TransGen C x y := by
  constructor
  · exact TransGen.mono (fun a b h => ((hC a b).1 h).1) x y
  · intro h
    induction h using TransGen.head_induction_on with
    | single h => exact .single ((hC _ _).2 ⟨h, hx⟩)
    | head h1 h2 ih => exact .head ((hC _ _).2 ⟨h1, hx⟩) (ih fun e => hj _ (e ▸ h1))

/-- New nodes `K` in front of a node `j` without predecessors. -/
structure Front (C N : Nat → Nat → Prop) (K : Nat → Prop) (j : Nat) : Prop where
  old : ∀ x y, C x y → ¬ K x ∧ ¬ K y
  min : ∀ x, ¬ C x j
  new : ∀ x y, N x y → K x ∧ (K y ∨ y = j)
  notK : ¬ K j

section

variable {C N C' : Nat → Nat → Prop} {K : Nat → Prop} {j : Nat}

theorem Front.path_old (hf : Front C N K j) (hC : ∀ x y, C' x y ↔ C x y ∨ N x y) {x y : Nat} (hx : ¬ K x) :
    TransGen C' x y ↔ TransGen C x y := by
  constructor
  · intro h
    induction h using TransGen.head_induction_on with
    | single h =>
      rcases (hC _ _).1 h with h | h
      · exact .single h
      · exact absurd (hf.new _ _ h).1 hx
    | head h1 h2 ih =>
      rcases (hC _ _).1 h1 with h | h
      · exact .head h (ih (hf.old _ _ h).2)
      · exact absurd (hf.new _ _ h).1 hx
  · exact TransGen.mono (fun a b h => (hC a b).2 (.inl h)) x y

theorem Front.path_new (hf : Front C N K j) (hC : ∀ x y, C' x y ↔ C x y ∨ N x y) {k y : Nat} (hk : K k) (hy : K y ∨ y = j) :
    TransGen C' k y ↔ TransGen N k y := by
  constructor
  · intro h
    induction h with
    | single h =>
      rcases (hC _ _).1 h with h | h
      · exact absurd hk (hf.old _ _ h).1
      · exact .single h
    | tail h1 h2 ih =>
      rcases (hC _ _).1 h2 with h | h
      · rcases hy with hy | rfl
        · exact absurd hy (hf.old _ _ h).2
        · exact absurd h (hf.min _)
      · exact .tail (ih (.inl (hf.new _ _ h).1)) h
  · exact TransGen.mono (fun a b h => (hC a b).2 (.inr h)) k y

theorem Front.path_out (hf : Front C N K j) (hC : ∀ x y, C' x y ↔ C x y ∨ N x y) {k y : Nat} (hk : K k) (hj : TransGen N k j)
    (hy : ¬ K y) (hyj : y ≠ j) : TransGen C' k y ↔ TransGen C j y := by
  constructor
  · intro h
    induction h with
    | single h =>
      rcases (hC _ _).1 h with h | h
      · exact absurd hk (hf.old _ _ h).1
      · rcases (hf.new _ _ h).2 with h | h
        · exact absurd h hy
        · exact absurd h hyj
    | @tail b c h1 h2 ih =>
      rcases (hC _ _).1 h2 with h | h
      · by_cases e : b = j
        · exact e ▸ .single h
        · exact .tail (ih (hf.old _ _ h).1 e) h
      · rcases (hf.new _ _ h).2 with h | h
        · exact absurd h hy
        · exact absurd h hyj
  · intro h
    exact (TransGen.mono (fun a b h => (hC a b).2 (.inr h)) _ _ hj).trans (TransGen.mono (fun a b h => (hC a b).2 (.inl h)) _ _ h)

theorem path_into {C : Nat → Nat → Prop} {Q : Nat → Prop} (h : ∀ x y, C x y → Q y) {x y : Nat} (hp : TransGen C x y) : Q y := by
  cases hp with
  | single h1 => exact h _ _ h1
  | tail _ h1 => exact h _ _ h1

theorem path_from {C : Nat → Nat → Prop} {Q : Nat → Prop} (h : ∀ x y, C x y → Q x) {x y : Nat} (hp : TransGen C x y) : Q x := by
  obtain ⟨z, h1, -⟩ := TransGen.head'_iff.1 hp
  exact h _ _ h1

/-- In a finite graph without cycles there is a node without predecessors before each node. -/
theorem exists_min {C : Nat → Nat → Prop} {B : Nat} (hlt : ∀ x y, C x y → x < B) (hac : ∀ x, ¬ TransGen C x x) (x : Nat) :
    ∃ y, ReflTransGen C y x ∧ ∀ z, ¬ C z y := by
  classical
  obtain ⟨n, hn⟩ : ∃ n, n = ((Finset.range B).filter fun z => TransGen C z x).card := ⟨_, rfl⟩
  induction n using Nat.strong_induction_on generalizing x with
  | _ n ih =>
    by_cases h : ∀ z, ¬ C z x
    · exact ⟨x, .refl, h⟩
    · push Not at h
      obtain ⟨z, hz⟩ := h
      obtain ⟨y, hy, hmin⟩ := ih _ (by
        rw [hn]
        apply Finset.card_lt_card
        refine ⟨fun w hw => ?_, fun hs => ?_⟩
        · simp only [Finset.mem_filter] at hw ⊢
          exact ⟨hw.1, hw.2.tail hz⟩
        · have : z ∈ (Finset.range B).filter fun w => TransGen C w x :=
            Finset.mem_filter.2 ⟨Finset.mem_range.2 (hlt _ _ hz), .single hz⟩
          exact hac z (Finset.mem_filter.1 (hs this)).2) z rfl
      exact ⟨y, hy.tail hz, hmin⟩

end

/-! ## Values of the new variables -/

/-- The task of cell `k` is directly before that of cell `l`. -/
def edge (B : Nat) (τ : SV → Nat) (k l : Nat) : Prop := SOk B (.con k l) ∧ τ (.con k l) ≠ 0

/-- The order between the tasks of a network in the cells `c`. -/
def cellLt (B : Nat) (τ : SV → Nat) (c : Nat → Nat) (u v : Nat) : Prop := TransGen (edge B τ) (c u) (c v)

/-- The new variables describe a network: `c` are the cells of the tasks, the other cells are empty or have the empty task. -/
structure SNet (B : Nat) (τ : SV → Nat) (I : Finset Nat) (lab c : Nat → Nat) : Prop where
  lt : ∀ u ∈ I, c u < B
  inj : ∀ u ∈ I, ∀ v ∈ I, c u = c v → u = v
  task : ∀ u ∈ I, τ (.task (c u)) = lab u + 2
  other : ∀ j < B, (∀ u ∈ I, c u ≠ j) → τ (.task j) = 0 ∨ τ (.task j) = 1
  occ : ∀ j < B, τ (.occ j) = if τ (.task j) = 0 then 0 else 1
  con : ∀ k l, edge B τ k l → τ (.task k) ≠ 0 ∧ τ (.task l) ≠ 0
  acyc : ∀ x, ¬ TransGen (edge B τ) x x

/-- Cell `j` is cleared. -/
structure ClearStep (B : Nat) (τ τ' : SV → Nat) (j : Nat) : Prop where
  lt : j < B
  min : ∀ l < B, l ≠ j → τ (.con l j) = 0
  task : τ' (.task j) = 0
  occ : τ' (.occ j) = 0
  row : ∀ l < B, l ≠ j → τ' (.con j l) = 0
  task' : ∀ k < B, k ≠ j → τ' (.task k) = τ (.task k)
  occ' : ∀ k < B, k ≠ j → τ' (.occ k) = τ (.occ k)
  con' : ∀ k l, SOk B (.con k l) → k ≠ j → τ' (.con k l) = τ (.con k l)

section

variable {B : Nat} {τ τ' : SV → Nat} {I : Finset Nat} {lab c : Nat → Nat} {j : Nat}

theorem ClearStep.edge (h : ClearStep B τ τ' j) (x y : Nat) : edge B τ' x y ↔ edge B τ x y ∧ x ≠ j := by
  constructor
  · rintro ⟨h1, h2⟩
    have hx : x ≠ j := by
      rintro rfl
      exact h2 (h.row y h1.2.1 h1.2.2.symm)
    exact ⟨⟨h1, by rw [← h.con' x y h1 hx]; exact h2⟩, hx⟩
  · rintro ⟨⟨h1, h2⟩, hx⟩
    exact ⟨h1, by rw [h.con' x y h1 hx]; exact h2⟩

theorem ClearStep.noPred (h : ClearStep B τ τ' j) (x : Nat) : ¬ Sas.edge B τ x j := fun ⟨h1, h2⟩ => h2 (h.min x h1.1 h1.2.2)

theorem ClearStep.path (h : ClearStep B τ τ' j) {x y : Nat} (hx : x ≠ j) : TransGen (Sas.edge B τ') x y ↔ TransGen (Sas.edge B τ) x y :=
  clear_path h.edge h.noPred hx

/-- The cell of a task or of the empty task is cleared. -/
theorem SNet.clear (hn : SNet B τ I lab c) (h : ClearStep B τ τ' j) {I' : Finset Nat} (hI : ∀ u, u ∈ I' ↔ u ∈ I ∧ c u ≠ j) :
    SNet B τ' I' lab c ∧ ∀ u ∈ I', ∀ v ∈ I', cellLt B τ' c u v ↔ cellLt B τ c u v := by
  refine ⟨⟨fun u hu => hn.lt u ((hI u).1 hu).1, fun u hu v hv => hn.inj u ((hI u).1 hu).1 v ((hI v).1 hv).1, fun u hu => ?_, fun k hk hf => ?_,
    fun k hk => ?_, fun k l hkl => ?_, fun x hx => ?_⟩, fun u hu v hv => h.path ((hI u).1 hu).2⟩
  · obtain ⟨h1, h2⟩ := (hI u).1 hu
    rw [h.task' _ (hn.lt u h1) h2, hn.task u h1]
  · by_cases e : k = j
    · exact .inl (e ▸ h.task)
    · rw [h.task' k hk e]
      exact hn.other k hk fun u hu e' => hf u ((hI u).2 ⟨hu, e' ▸ e⟩) e'
  · by_cases e : k = j
    · rw [e, h.task, h.occ, if_pos rfl]
    · rw [h.task' k hk e, h.occ' k hk e, hn.occ k hk]
  · obtain ⟨h1, h2⟩ := (h.edge k l).1 hkl
    have h3 : l ≠ j := by
      rintro rfl
      exact h.noPred k h1
    rw [h.task' k h1.1.1 h2, h.task' l h1.1.2.1 h3]
    exact hn.con k l h1
  · have hxj : x ≠ j := path_from (Q := (· ≠ j)) (fun a b hab => ((h.edge a b).1 hab).2) hx
    exact hn.acyc x ((h.path hxj).1 hx)

/-! ## Decomposition -/

/-- The task of cell `j` is decomposed with method `m`: subtask `i` is put into cell `g i`; `K` are the new cells; if there is no last
task, cell `j` gets the empty task. -/
structure DecStep (P : Problem) (m B : Nat) (τ τ' : SV → Nat) (j : Nat) (last : Bool) (K : Nat → Prop) (g : Nat → Nat) : Prop where
  lt : j < B
  occ0 : τ (.task j) ≠ 0
  min : ∀ l < B, l ≠ j → τ (.con l j) = 0
  pos : 0 < (P.sub m).length
  ord : ∀ a b, (a, b) ∈ P.ord m → a < b ∧ b < (P.sub m).length
  new : ∀ x, K x → x < B ∧ x ≠ j ∧ τ (.task x) = 0
  img : ∀ i < (P.sub m).length, K (g i) ∨ last = true ∧ g i = j
  surj : ∀ x, K x → ∃ i < (P.sub m).length, g i = x
  inj : ∀ i < (P.sub m).length, ∀ i' < (P.sub m).length, g i = g i' → i = i'
  lst : last = true → g ((P.sub m).length - 1) = j ∧ ∀ i, i + 1 < (P.sub m).length → TransGen (P.OrdRel m) i ((P.sub m).length - 1)
  task : ∀ (i t : Nat), (P.sub m)[i]? = some t → τ' (.task (g i)) = t + 2
  empty : last = false → τ' (.task j) = 1
  task' : ∀ x < B, x ≠ j → ¬ K x → τ' (.task x) = τ (.task x)
  occ : ∀ x, K x → τ' (.occ x) = 1
  occ' : ∀ x < B, ¬ K x → τ' (.occ x) = τ (.occ x)
  con : ∀ k l, SOk B (.con k l) → (∃ a b, (a, b) ∈ P.ord m ∧ k = g a ∧ l = g b) ∨ last = false ∧ K k ∧ l = j → τ' (.con k l) = 1
  con' : ∀ k l, SOk B (.con k l) → ¬ ((∃ a b, (a, b) ∈ P.ord m ∧ k = g a ∧ l = g b) ∨ last = false ∧ K k ∧ l = j) →
    τ' (.con k l) = τ (.con k l)

/-- The new orders. -/
def newEdge (P : Problem) (m j : Nat) (last : Bool) (K : Nat → Prop) (g : Nat → Nat) (k l : Nat) : Prop :=
  (∃ a b, (a, b) ∈ P.ord m ∧ k = g a ∧ l = g b) ∨ last = false ∧ K k ∧ l = j

variable {P : Problem} {m : Nat} {last : Bool} {K : Nat → Prop} {g : Nat → Nat}

theorem DecStep.g_lt (h : DecStep P m B τ τ' j last K g) {i : Nat} (hi : i < (P.sub m).length) : g i < B := by
  rcases h.img i hi with h1 | ⟨-, h1⟩
  · exact (h.new _ h1).1
  · rw [h1]
    exact h.lt

/-- Only the last subtask is in the old cell. -/
theorem DecStep.gK (h : DecStep P m B τ τ' j last K g) {i : Nat} (hi : i + 1 < (P.sub m).length) : K (g i) := by
  rcases h.img i (by omega) with h1 | ⟨hl, h1⟩
  · exact h1
  · have := h.inj i (by omega) _ (by omega) (h1.trans (h.lst hl).1.symm)
    omega

theorem DecStep.newEdge_ok (h : DecStep P m B τ τ' j last K g) {k l : Nat} (he : newEdge P m j last K g k l) : SOk B (.con k l) := by
  rcases he with ⟨a, b, hab, rfl, rfl⟩ | ⟨-, h1, rfl⟩
  · obtain ⟨h1, h2⟩ := h.ord a b hab
    refine ⟨h.g_lt (by omega), h.g_lt h2, fun e => ?_⟩
    have := h.inj a (by omega) b h2 e
    omega
  · exact ⟨(h.new k h1).1, h.lt, (h.new k h1).2.1⟩

theorem DecStep.edge (h : DecStep P m B τ τ' j last K g) (x y : Nat) :
    Sas.edge B τ' x y ↔ Sas.edge B τ x y ∨ newEdge P m j last K g x y := by
  constructor
  · rintro ⟨h1, h2⟩
    by_cases e : newEdge P m j last K g x y
    · exact .inr e
    · exact .inl ⟨h1, by rw [← h.con' x y h1 e]; exact h2⟩
  · intro he
    by_cases e : newEdge P m j last K g x y
    · refine ⟨h.newEdge_ok e, ?_⟩
      rw [h.con x y (h.newEdge_ok e) e]
      exact Nat.one_ne_zero
    · rcases he with ⟨h1, h2⟩ | he
      · exact ⟨h1, by rw [h.con' x y h1 e]; exact h2⟩
      · exact absurd he e

theorem DecStep.front (h : DecStep P m B τ τ' j last K g) (hn : SNet B τ I lab c) :
    Front (Sas.edge B τ) (newEdge P m j last K g) K j := by
  refine ⟨fun x y hxy => ?_, fun x hx => hx.2 (h.min x hx.1.1 hx.1.2.2), fun x y hxy => ?_, fun hj => (h.new j hj).2.1 rfl⟩
  · obtain ⟨h1, h2⟩ := hn.con x y hxy
    exact ⟨fun hk => h1 (h.new x hk).2.2, fun hk => h2 (h.new y hk).2.2⟩
  · rcases hxy with ⟨a, b, hab, rfl, rfl⟩ | ⟨-, h1, rfl⟩
    · obtain ⟨h1, h2⟩ := h.ord a b hab
      refine ⟨h.gK (by omega), ?_⟩
      rcases h.img b h2 with h3 | ⟨-, h3⟩
      · exact .inl h3
      · exact .inr h3
    · exact ⟨h1, .inr rfl⟩

theorem ord_path_lt (h : DecStep P m B τ τ' j last K g) {a b : Nat} (hp : TransGen (P.OrdRel m) a b) : a < b ∧ b < (P.sub m).length := by
  induction hp with
  | single h1 => exact h.ord _ _ h1
  | tail _ h1 ih =>
    have := h.ord _ _ h1
    omega

/-- The new orders between the subtasks are those of the method. -/
theorem DecStep.path_new (h : DecStep P m B τ τ' j last K g) {a b : Nat} (ha : a < (P.sub m).length) (hb : b < (P.sub m).length) :
    TransGen (newEdge P m j last K g) (g a) (g b) ↔ TransGen (P.OrdRel m) a b := by
  constructor
  · intro hp
    generalize hy : g b = y at hp
    induction hp generalizing b with
    | single h1 =>
      rcases h1 with ⟨a', b', hab, e1, e2⟩ | ⟨hl, -, h2⟩
      · have := h.ord a' b' hab
        rw [h.inj a ha a' (by omega) e1, h.inj b hb b' (by omega) (hy.trans e2)]
        exact .single hab
      · rcases h.img b hb with h3 | ⟨h3, -⟩
        · exact absurd (hy.trans h2) (h.new _ h3).2.1
        · rw [hl] at h3
          cases h3
    | tail h0 h1 ih =>
      rcases h1 with ⟨a', b', hab, e1, e2⟩ | ⟨hl, -, h2⟩
      · have := h.ord a' b' hab
        rw [h.inj b hb b' (by omega) (hy.trans e2)]
        exact .tail (ih (b := a') (by omega) e1.symm) hab
      · rcases h.img b hb with h3 | ⟨h3, -⟩
        · exact absurd (hy.trans h2) (h.new _ h3).2.1
        · rw [hl] at h3
          cases h3
  · intro hp
    clear ha hb
    induction hp with
    | single h1 => exact .single (.inl ⟨_, _, h1, rfl, rfl⟩)
    | tail _ h1 ih => exact .tail ih (.inl ⟨_, _, h1, rfl, rfl⟩)

theorem DecStep.path_j (h : DecStep P m B τ τ' j last K g) {k : Nat} (hk : K k) : TransGen (newEdge P m j last K g) k j := by
  cases hl : last with
  | false => exact .single (.inr ⟨rfl, hk, rfl⟩)
  | true =>
    obtain ⟨i, hi, rfl⟩ := h.surj k hk
    obtain ⟨h1, h2⟩ := h.lst hl
    have hi' : i + 1 < (P.sub m).length := by
      by_contra hc
      rw [show i = (P.sub m).length - 1 by omega, h1] at hk
      exact (h.new _ hk).2.1 rfl
    have := (h.path_new hi (by omega)).2 (h2 i hi')
    rw [h1, hl] at this
    exact this

theorem DecStep.path_j_new (h : DecStep P m B τ τ' j last K g) (hn : SNet B τ I lab c) {y : Nat} (hy : K y ∨ y = j) :
    ¬ TransGen (Sas.edge B τ) j y := by
  intro hp
  rcases hy with hy | rfl
  · exact path_into (Q := fun z => ¬ K z) (fun a b hab => ((h.front hn).old a b hab).2) hp hy
  · exact hn.acyc _ hp

/-- Decomposing a task. -/
theorem SNet.dec (hn : SNet B τ I lab c) (h : DecStep P m B τ τ' j last K g) {u b : Nat} (hu : u ∈ I) (hc : c u = j)
    (hb : ∀ v ∈ I, v < b) : ∃ I' lab' c', SNet B τ' I' lab' c' ∧ Subst P I lab (cellLt B τ c) u m b I' lab' (cellLt B τ' c') ∧
      (∀ v ∈ I, c' v = c v) ∧ ∀ i, c' (b + i) = g i := by
  classical
  let n := (P.sub m).length
  let I' := I.erase u ∪ (Finset.range n).image (b + ·)
  let lab' : Nat → Nat := fun v => if v < b then lab v else (P.sub m)[v - b]?.getD 0
  let c' : Nat → Nat := fun v => if v < b then c v else g (v - b)
  have hf := h.front hn
  have hmem : ∀ v, v ∈ I' ↔ (v ∈ I ∧ v ≠ u) ∨ ∃ i, i < (P.sub m).length ∧ v = b + i := by
    intro v
    simp only [I', Finset.mem_union, Finset.mem_erase, Finset.mem_image, Finset.mem_range]
    refine or_congr and_comm (exists_congr fun i => and_congr_right fun _ => eq_comm)
  have c_old : ∀ v ∈ I, c' v = c v := fun v hv => if_pos (hb v hv)
  have c_new : ∀ i, c' (b + i) = g i := fun i => by simp only [c']; rw [if_neg (by omega), Nat.add_sub_cancel_left]
  have l_old : ∀ v ∈ I, lab' v = lab v := fun v hv => if_pos (hb v hv)
  have l_new : ∀ i t, (P.sub m)[i]? = some t → lab' (b + i) = t := fun i t hi => by
    simp only [lab']; rw [if_neg (by omega), Nat.add_sub_cancel_left, hi, Option.getD_some]
  have oldK : ∀ v ∈ I, ¬ K (c v) := fun v hv hk => by
    have h1 := (h.new _ hk).2.2
    have h2 := hn.task v hv
    omega
  have oldj : ∀ v ∈ I, v ≠ u → c v ≠ j := fun v hv hvu e => hvu (hn.inj v hv u hu (e.trans hc.symm))
  have gnew : ∀ i < n, K (g i) ∨ g i = j := fun i hi => by
    rcases h.img i hi with h1 | ⟨-, h1⟩
    · exact .inl h1
    · exact .inr h1
  refine ⟨I', lab', c', ⟨fun v hv => ?_, fun v hv w hw e => ?_, fun v hv => ?_, fun k hk hfree => ?_, fun k hk => ?_, fun k l hkl => ?_,
    fun x hx => ?_⟩, ⟨hmem, hb, fun v hv _ => l_old v hv, l_new, fun v hv w hw hvu hwu => ?_, fun i i' hi hi' => ?_, fun i w hi hw hwu => ?_,
    fun v i hv hvu hi => ?_⟩, c_old, c_new⟩
  · rcases (hmem v).1 hv with ⟨hv, -⟩ | ⟨i, hi, rfl⟩
    · rw [c_old v hv]
      exact hn.lt v hv
    · rw [c_new]
      exact h.g_lt hi
  · rcases (hmem v).1 hv with ⟨hv, hvu⟩ | ⟨i, hi, rfl⟩ <;> rcases (hmem w).1 hw with ⟨hw, hwu⟩ | ⟨i', hi', rfl⟩
    · rw [c_old v hv, c_old w hw] at e
      exact hn.inj v hv w hw e
    · rw [c_old v hv, c_new] at e
      rcases gnew i' hi' with h1 | h1
      · exact absurd (e ▸ h1) (oldK v hv)
      · exact absurd (e.trans h1) (oldj v hv hvu)
    · rw [c_old w hw, c_new] at e
      rcases gnew i hi with h1 | h1
      · exact absurd (e ▸ h1) (oldK w hw)
      · exact absurd (e.symm.trans h1) (oldj w hw hwu)
    · rw [c_new, c_new] at e
      rw [h.inj i hi i' hi' e]
  · rcases (hmem v).1 hv with ⟨hv, hvu⟩ | ⟨i, hi, rfl⟩
    · rw [c_old v hv, l_old v hv, h.task' _ (hn.lt v hv) (oldj v hv hvu) (oldK v hv), hn.task v hv]
    · rw [c_new, l_new i _ (List.getElem?_eq_getElem hi)]
      exact h.task i _ (List.getElem?_eq_getElem hi)
  · have hK : ¬ K k := by
      intro hK
      obtain ⟨i, hi, rfl⟩ := h.surj k hK
      exact hfree (b + i) ((hmem _).2 (.inr ⟨i, hi, rfl⟩)) (c_new i)
    by_cases e : k = j
    · subst e
      cases hl : last with
      | false => exact .inr (h.empty hl)
      | true =>
        have hpos := h.pos
        exact absurd ((c_new _).trans (h.lst hl).1) (hfree (b + ((P.sub m).length - 1)) ((hmem _).2 (.inr ⟨_, by omega, rfl⟩)))
    · rw [h.task' k hk e hK]
      refine hn.other k hk fun v hv e' => ?_
      have hvu : v ≠ u := by
        rintro rfl
        exact e (e'.symm.trans hc)
      exact hfree v ((hmem v).2 (.inl ⟨hv, hvu⟩)) ((c_old v hv).trans e')
  · by_cases hK : K k
    · rw [h.occ k hK]
      obtain ⟨i, hi, rfl⟩ := h.surj k hK
      rw [h.task i _ (List.getElem?_eq_getElem hi), if_neg (by omega)]
    · rw [h.occ' k hk hK, hn.occ k hk]
      by_cases e : k = j
      · subst e
        have : τ' (.task k) ≠ 0 := by
          cases hl : last with
          | false => rw [h.empty hl]; exact Nat.one_ne_zero
          | true =>
            have hpos := h.pos
            have := h.task _ _ (List.getElem?_eq_getElem (show (P.sub m).length - 1 < (P.sub m).length by omega))
            rw [(h.lst hl).1] at this
            omega
        rw [if_neg this, if_neg h.occ0]
      · rw [h.task' k hk e hK]
  · have hj' : τ' (.task j) ≠ 0 := by
      cases hl : last with
      | false => rw [h.empty hl]; exact Nat.one_ne_zero
      | true =>
        have hpos := h.pos
        have := h.task _ _ (List.getElem?_eq_getElem (show (P.sub m).length - 1 < (P.sub m).length by omega))
        rw [(h.lst hl).1] at this
        omega
    have hK' : ∀ x, K x → τ' (.task x) ≠ 0 := by
      intro x hx
      obtain ⟨i, hi, rfl⟩ := h.surj x hx
      rw [h.task i _ (List.getElem?_eq_getElem hi)]
      omega
    rcases (h.edge k l).1 hkl with h1 | h1
    · obtain ⟨h2, h3⟩ := hn.con k l h1
      have key : ∀ x < B, τ (.task x) ≠ 0 → τ' (.task x) ≠ 0 := by
        intro x hx h0
        by_cases e : x = j
        · rw [e]
          exact hj'
        · rw [h.task' x hx e fun hk => h0 (h.new x hk).2.2]
          exact h0
      exact ⟨key k h1.1.1 h2, key l h1.1.2.1 h3⟩
    · obtain ⟨h2, h3⟩ := hf.new k l h1
      refine ⟨hK' k h2, ?_⟩
      rcases h3 with h3 | rfl
      · exact hK' l h3
      · exact hj'
  · by_cases hK : K x
    · have h1 := (hf.path_new h.edge hK (.inl hK)).1 hx
      obtain ⟨i, hi, rfl⟩ := h.surj x hK
      have := ord_path_lt h ((h.path_new hi hi).1 h1)
      omega
    · exact hn.acyc x ((hf.path_old h.edge hK).1 hx)
  · rw [cellLt, cellLt, c_old v hv, c_old w hw]
    exact hf.path_old h.edge (oldK v hv)
  · rw [cellLt, c_new, c_new]
    rcases gnew i hi with h1 | h1
    · rw [hf.path_new h.edge h1 (gnew i' hi'), h.path_new hi hi']
    · have h2 : ¬ TransGen (Sas.edge B τ') (g i) (g i') := by
        rw [h1, hf.path_old h.edge hf.notK]
        exact h.path_j_new hn (gnew i' hi')
      have h3 : ¬ TransGen (P.OrdRel m) i i' := by
        intro hp
        have h4 := ord_path_lt h hp
        have := h.gK (i := i) (by omega)
        rw [h1] at this
        exact hf.notK this
      exact iff_of_false h2 h3
  · rw [cellLt, cellLt, c_new, c_old w hw, hc]
    rcases gnew i hi with h1 | h1
    · exact hf.path_out h.edge h1 (h.path_j h1) (oldK w hw) (oldj w hw hwu)
    · rw [h1]
      exact hf.path_old h.edge hf.notK
  · rw [cellLt, cellLt, c_new, c_old v hv, hc, hf.path_old h.edge (oldK v hv)]
    have h2 : ∀ y, K y ∨ y = j → ¬ TransGen (Sas.edge B τ) (c v) y := by
      rintro y (hy | rfl) hp
      · exact path_into (Q := fun z => ¬ K z) (fun a b hab => (hf.old a b hab).2) hp hy
      · exact path_into (Q := fun z => z ≠ y) (fun a b hab e => hf.min a (e ▸ hab)) hp rfl
    exact iff_of_false (h2 _ (gnew i hi)) (h2 _ (.inr rfl))

end

end Verif.Sas
