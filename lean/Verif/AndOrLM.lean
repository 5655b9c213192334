import Verif.AndOrGraph
import Mathlib.Algebra.BigOperators.Group.Finset.Basic
import Mathlib.Algebra.Order.BigOperators.Group.Finset

/-! # Model of `LMsInAndOrGraphs::generateAndOrLMs` (src/heuristics/landmarks/lmExtraction/LMsInAndOrGraphs.cpp 156-282)

The heap is a list of pairs of key and node.  Which of them is popped is left open (`pick`), so what is proved holds for every
order, in particular for the one of the heap (C30). -/

namespace Verif.AO

/-- `fullSet`, `LMs`, `heap`. -/
structure LSt where
  full : Nat → Bool
  lms : Nat → Finset Nat
  q : List (Nat × Nat)

/-- The marks as sets. -/
def LSt.marks (s : LSt) : Marks := ⟨fun n => s.full n = true, fun n x => x ∈ s.lms n⟩

/-- The union for an AND node: (`tFullSet`, `temp`) (lines 195-208). -/
def unionLoop (s : LSt) : List Nat → Finset Nat → Bool × Finset Nat
  | [], t => (false, t)
  | p :: l, t => if s.full p then (true, t) else unionLoop s l (t ∪ s.lms p)

/-- The intersection for an OR node, with the flag `first`: (`tFullSet`, `temp`) (lines 209-247). -/
def interLoop (s : LSt) : List Nat → Bool → Bool → Finset Nat → Bool × Finset Nat
  | [], _, tf, t => (tf, t)
  | p :: l, true, tf, t =>
    if s.full p then interLoop s l false true t
    else interLoop s l false (if s.lms p = ∅ then tf else false) (t ∪ s.lms p)
  | p :: l, false, tf, t =>
    if s.full p then interLoop s l false tf t
    else if tf then interLoop s l false false (t ∪ s.lms p)
    else interLoop s l false false ((s.lms p).filter (· ∈ t))

/-- (`tFullSet`, `temp`) for a node (lines 192-252). -/
def newMark (G : Graph) (s : LSt) (n : Nat) : Bool × Finset Nat :=
  match G.kind n with
  | .and => unionLoop s (G.par n) ∅
  | .or => interLoop s (G.par n) true true ∅
  | .init => (false, ∅)

/-- One iteration for node `n` after it was popped (lines 188-281). -/
def process (G : Graph) (s : LSt) (n : Nat) : LSt :=
  let r := newMark G s n
  if r.1 then
    if s.full n = false then
      { s with full := Function.update s.full n true, q := (G.chi n).map (fun c => (G.num, c)) ++ s.q }
    else { s with full := Function.update s.full n true }
  else
    let t := insert n r.2
    if s.full n = true ∨ (s.lms n).card ≠ t.card ∨ ¬ t ⊆ s.lms n then
      { full := Function.update s.full n false
        lms := Function.update s.lms n t
        q := (G.chi n).map (fun c => (t.card, c)) ++ s.q }
    else s

/-- The main loop (lines 180-282). -/
def lmLoop (G : Graph) (pick : List (Nat × Nat) → Nat) : Nat → LSt → Option LSt
  | 0, _ => none
  | f + 1, s =>
    if s.q = [] then some s
    else
      let i := pick s.q % s.q.length
      lmLoop G pick f (process G { s with q := s.q.eraseIdx i } (s.q.getD i (0, 0)).2)

/-- A node that holds initially: a fact of the initial state or an action without preconditions (lines 165-186). -/
def seed (G : Graph) (s : LSt) (n : Nat) : LSt :=
  { full := Function.update s.full n false
    lms := Function.update s.lms n {n}
    q := (G.chi n).map (fun c => (1, c)) ++ s.q }

/-- The start of the loop (lines 162-186). -/
def lmStart (G : Graph) (seeds : List Nat) : LSt := seeds.foldl (seed G) ⟨fun _ => true, fun _ => ∅, []⟩

/-! ## Correctness of one iteration -/

variable {G : Graph}

theorem unionLoop_spec (s : LSt) : ∀ (l : List Nat) (t : Finset Nat),
    ((unionLoop s l t).1 = true ↔ ∃ p ∈ l, s.full p = true) ∧
      ((unionLoop s l t).1 = false → ∀ x, x ∈ (unionLoop s l t).2 ↔ x ∈ t ∨ ∃ p ∈ l, x ∈ s.lms p) := by
  intro l
  induction l with
  | nil => intro t; simp [unionLoop]
  | cons p l ih =>
    intro t
    rw [unionLoop]
    by_cases hp : s.full p = true
    · simp [hp]
    · rw [if_neg hp]
      obtain ⟨h1, h2⟩ := ih (t ∪ s.lms p)
      refine ⟨by rw [h1]; simp [hp], fun hf x => ?_⟩
      rw [h2 hf x]
      simp [or_assoc]

theorem interLoop_false (s : LSt) : ∀ (l : List Nat) (tf : Bool) (t : Finset Nat), (tf = true → t = ∅) →
    ((interLoop s l false tf t).1 = true ↔ tf = true ∧ ∀ p ∈ l, s.full p = true) ∧
      ((interLoop s l false tf t).1 = false → ∀ x, x ∈ (interLoop s l false tf t).2 ↔
        (tf = false → x ∈ t) ∧ ∀ p ∈ l, ¬ s.full p = true → x ∈ s.lms p) := by
  intro l
  induction l with
  | nil => intro tf t _; simp [interLoop]; grind
  | cons p l ih =>
    intro tf t ht
    rw [interLoop]
    by_cases hp : s.full p = true
    · rw [if_pos hp]
      obtain ⟨h1, h2⟩ := ih tf t ht
      refine ⟨by rw [h1]; simp [hp], fun hf x => ?_⟩
      rw [h2 hf x]
      simp [hp]
    · rw [if_neg hp]
      cases tf with
      | true =>
        rw [if_pos rfl]
        obtain ⟨h1, h2⟩ := ih false (t ∪ s.lms p) (by simp)
        refine ⟨by rw [h1]; simp [hp], fun hf x => ?_⟩
        rw [h2 hf x, ht rfl]
        simp [hp]
      | false =>
        rw [if_neg (by simp)]
        obtain ⟨h1, h2⟩ := ih false ((s.lms p).filter (· ∈ t)) (by simp)
        refine ⟨by rw [h1]; simp, fun hf x => ?_⟩
        rw [h2 hf x]
        simp [hp]
        tauto

theorem interLoop_true (s : LSt) (hs : ∀ p, ¬ s.full p = true → p ∈ s.lms p) (l : List Nat) :
    ((interLoop s l true true ∅).1 = true ↔ ∀ p ∈ l, s.full p = true) ∧
      ((interLoop s l true true ∅).1 = false → ∀ x, x ∈ (interLoop s l true true ∅).2 ↔ ∀ p ∈ l, ¬ s.full p = true → x ∈ s.lms p) := by
  cases l with
  | nil => simp [interLoop]
  | cons p l =>
    rw [interLoop]
    by_cases hp : s.full p = true
    · rw [if_pos hp]
      obtain ⟨h1, h2⟩ := interLoop_false s l true ∅ (by simp)
      refine ⟨by rw [h1]; simp [hp], fun hf x => ?_⟩
      rw [h2 hf x]
      simp [hp]
    · have hne : s.lms p ≠ ∅ := fun h => by simpa [h] using hs p hp
      rw [if_neg hp, if_neg hne]
      obtain ⟨h1, h2⟩ := interLoop_false s l false (∅ ∪ s.lms p) (by simp)
      refine ⟨by rw [h1]; simp [hp], fun hf x => ?_⟩
      rw [h2 hf x]
      simp [hp]

theorem newMark_spec (s : LSt) (hs : ∀ p, ¬ s.full p = true → p ∈ s.lms p) (n : Nat) :
    ((newMark G s n).1 = true ↔ FFull G s.marks n) ∧
      ((newMark G s n).1 = false → ∀ x, x ∈ insert n (newMark G s n).2 ↔ FMem G s.marks n x) := by
  unfold newMark FFull FMem
  cases hk : G.kind n with
  | init => simp
  | and =>
    obtain ⟨h1, h2⟩ := unionLoop_spec s (G.par n) ∅
    exact ⟨h1, fun hf x => by rw [Finset.mem_insert, h2 hf x]; simp [LSt.marks]⟩
  | or =>
    obtain ⟨h1, h2⟩ := interLoop_true s hs (G.par n)
    exact ⟨h1, fun hf x => by rw [Finset.mem_insert, h2 hf x]; rfl⟩

/-- The nodes in the heap. -/
def LSt.Q (s : LSt) (n : Nat) : Prop := ∃ k, (k, n) ∈ s.q

/-- Weight of the marks; smaller marks weigh less. -/
def LSt.weight (G : Graph) (s : LSt) : Nat := ∑ n ∈ Finset.range G.num, if s.full n = true then G.num + 1 else (s.lms n).card

/-- Invariant of the loop. -/
structure LInv (G : Graph) (s : LSt) (Q : Nat → Prop) : Prop where
  inv : PInv G s.marks Q
  lt : ∀ n, ¬ s.full n = true → n < G.num
  qlt : ∀ x ∈ s.q, x.2 < G.num
  emp : ∀ n, s.full n = true → s.lms n = ∅

theorem LInv.card {s : LSt} {Q : Nat → Prop} (h : LInv G s Q) {n : Nat} (hn : ¬ s.full n = true) : s.lms n ⊆ Finset.range G.num :=
  fun x hx => Finset.mem_range.2 (h.lt x (h.inv.closed n x hn hx))

theorem process_inv {s : LSt} {n : Nat} {Q : Nat → Prop} (hG : G.OK) (h : LInv G s Q) (hn : n < G.num) (hQ : ∀ m, m ≠ n → Q m → s.Q m) :
    LInv G (process G s n) (process G s n).Q ∧
      ((process G s n).weight G < s.weight G ∨ (process G s n).weight G = s.weight G ∧ (process G s n).q = s.q) := by
  obtain ⟨h1, h2⟩ := newMark_spec (G := G) s h.inv.self n
  have hcq : ∀ k : Nat, ∀ x ∈ (G.chi n).map (fun c => (k, c)) ++ s.q, x.2 < G.num := by
    intro k x hx
    rcases List.mem_append.1 hx with hx | hx
    · obtain ⟨c, hc, rfl⟩ := List.mem_map.1 hx
      exact hG.chi_lt n c hc
    · exact h.qlt x hx
  unfold process
  simp only
  cases hr : (newMark G s n).1 with
  | true =>
    rw [if_pos rfl]
    have hF := h1.1 hr
    have hfull : s.full n = true := by
      by_contra hf
      exact h.inv.le_full n hf hF
    rw [if_neg (by rw [hfull]; simp)]
    have e : Function.update s.full n true = s.full := by
      rw [← hfull]
      exact Function.update_eq_self n s.full
    rw [e]
    refine ⟨⟨h.inv.step hG ⟨fun _ _ => Iff.rfl, fun _ _ _ => Iff.rfl, ⟨fun _ => hF, fun _ => hfull⟩, fun hf => absurd hfull hf⟩ (fun m hm hq => ?_)
      (.inl ⟨Iff.rfl, fun _ _ => Iff.rfl⟩), h.lt, h.qlt, h.emp⟩, .inr ⟨rfl, rfl⟩⟩
    exact hQ m hm hq
  | false =>
    rw [if_neg (by simp)]
    have hm := h2 hr
    have hF : ¬ FFull G s.marks n := fun hF => by rw [h1.2 hF] at hr; simp at hr
    set t := insert n (newMark G s n).2 with ht
    split_ifs with hc
    · have hU : Upd G s.marks (LSt.marks ⟨Function.update s.full n false, Function.update s.lms n t, (G.chi n).map (fun c => (t.card, c)) ++ s.q⟩) n := by
        refine ⟨fun m hmn => ?_, fun m hmn x => ?_, ?_, fun _ x => ?_⟩
        · simp only [LSt.marks]; rw [Function.update_of_ne hmn]
        · simp only [LSt.marks]; rw [Function.update_of_ne hmn]
        · show Function.update s.full n false n = true ↔ _
          rw [Function.update_self]
          simp [hF]
        · simp only [LSt.marks]; rw [Function.update_self]; exact hm x
      have hinv := h.inv.step (Q' := LSt.Q ⟨Function.update s.full n false, Function.update s.lms n t, (G.chi n).map (fun c => (t.card, c)) ++ s.q⟩) hG hU
        (fun m hmn hq => by
          obtain ⟨k, hk⟩ := hQ m hmn hq
          exact ⟨k, List.mem_append_right _ hk⟩)
        (.inr fun m hmc => ⟨t.card, List.mem_append_left _ (List.mem_map.2 ⟨m, hmc, rfl⟩)⟩)
      have hL : LInv G ⟨Function.update s.full n false, Function.update s.lms n t, (G.chi n).map (fun c => (t.card, c)) ++ s.q⟩
          (LSt.Q ⟨Function.update s.full n false, Function.update s.lms n t, (G.chi n).map (fun c => (t.card, c)) ++ s.q⟩) := by
        refine ⟨hinv, fun m hmf => ?_, hcq _, fun m hmf => ?_⟩
        · by_cases hmn : m = n
          · exact hmn ▸ hn
          · simp only at hmf
            rw [Function.update_of_ne hmn] at hmf
            exact h.lt m hmf
        · by_cases hmn : m = n
          · subst hmn
            simp at hmf
          · simp only at hmf ⊢
            rw [Function.update_of_ne hmn] at hmf ⊢
            exact h.emp m hmf
      refine ⟨hL, .inl ?_⟩
      unfold LSt.weight
      refine Finset.sum_lt_sum (fun m _ => ?_) ⟨n, Finset.mem_range.2 hn, ?_⟩
      · by_cases hmn : m = n
        · subst hmn
          simp only [Function.update_self]
          rw [if_neg (by simp)]
          by_cases hf : s.full m = true
          · rw [if_pos hf]
            have := Finset.card_le_card (hL.card (n := m) (by simp))
            simp only [Function.update_self, Finset.card_range] at this
            omega
          · rw [if_neg hf]
            exact Finset.card_le_card fun x hx => h.inv.le_mem m x hf ((hm x).1 hx)
        · simp only
          rw [Function.update_of_ne hmn, Function.update_of_ne hmn]
      · simp only [Function.update_self]
        rw [if_neg (by simp)]
        by_cases hf : s.full n = true
        · rw [if_pos hf]
          have := Finset.card_le_card (hL.card (n := n) (by simp))
          simp only [Function.update_self, Finset.card_range] at this
          omega
        · rw [if_neg hf]
          have hsub : t ⊆ s.lms n := fun x hx => h.inv.le_mem n x hf ((hm x).1 hx)
          have hne : (s.lms n).card ≠ t.card := by
            rcases hc with hc | hc | hc
            · exact absurd hc hf
            · exact hc
            · exact absurd hsub hc
          have := Finset.card_le_card hsub
          omega
    · push Not at hc
      obtain ⟨c1, c2, c3⟩ := hc
      have heq : t = s.lms n := Finset.eq_of_subset_of_card_le c3 (by omega)
      refine ⟨⟨h.inv.step hG ⟨fun _ _ => Iff.rfl, fun _ _ _ => Iff.rfl, ⟨fun hf => absurd hf c1, fun hF' => absurd hF' hF⟩, fun _ x => ?_⟩ hQ
        (.inl ⟨Iff.rfl, fun _ _ => Iff.rfl⟩), h.lt, h.qlt, h.emp⟩, .inr ⟨by first | rfl | trivial, rfl⟩⟩
      show x ∈ s.lms n ↔ _
      rw [← heq]
      exact hm x

/-! ## The loop -/

theorem pop_spec {s : LSt} {pick : List (Nat × Nat) → Nat} (hq : s.q ≠ []) :
    s.q.getD (pick s.q % s.q.length) (0, 0) ∈ s.q ∧
      (s.q.eraseIdx (pick s.q % s.q.length)).length + 1 = s.q.length ∧
      ∀ m, m ≠ (s.q.getD (pick s.q % s.q.length) (0, 0)).2 → s.Q m → ∃ k, (k, m) ∈ s.q.eraseIdx (pick s.q % s.q.length) := by
  have hpos : 0 < s.q.length := List.length_pos_iff.2 hq
  have hi : pick s.q % s.q.length < s.q.length := Nat.mod_lt _ hpos
  set i := pick s.q % s.q.length
  have hg : s.q.getD i (0, 0) = s.q[i] := by simp [hi]
  refine ⟨by rw [hg]; exact List.getElem_mem hi, by rw [List.length_eraseIdx]; simp [hi]; omega, ?_⟩
  rintro m hm ⟨k, hk⟩
  rw [hg] at hm
  obtain ⟨j, hj, he⟩ := List.getElem_of_mem hk
  refine ⟨k, List.mem_eraseIdx_iff_getElem.2 ⟨j, hj, ?_, he⟩⟩
  rintro rfl
  exact hm (by rw [he])

theorem lmLoop_inv {pick : List (Nat × Nat) → Nat} (hG : G.OK) : ∀ (f : Nat) (s r : LSt), LInv G s s.Q → lmLoop G pick f s = some r →
    LInv G r r.Q ∧ r.q = [] := by
  intro f
  induction f with
  | zero => intro s r _ h; simp [lmLoop] at h
  | succ f ih =>
    intro s r hI h
    rw [lmLoop] at h
    split_ifs at h with hq
    · rw [Option.some.injEq] at h
      subst h
      exact ⟨hI, hq⟩
    · obtain ⟨h1, -, h3⟩ := pop_spec (pick := pick) hq
      exact ih _ r (process_inv hG (s := { s with q := s.q.eraseIdx _ }) ⟨hI.inv, hI.lt, fun x hx => hI.qlt x (List.mem_of_mem_eraseIdx hx), hI.emp⟩
        (hI.qlt _ h1) h3).1 h

theorem lmLoop_term {pick : List (Nat × Nat) → Nat} (hG : G.OK) : ∀ (W L : Nat) (s : LSt), LInv G s s.Q → s.weight G = W → s.q.length = L →
    ∃ f r, lmLoop G pick f s = some r := by
  intro W
  induction W using Nat.strong_induction_on with
  | _ W ihW =>
    intro L
    induction L using Nat.strong_induction_on with
    | _ L ihL =>
      intro s hI hW hL
      by_cases hq : s.q = []
      · exact ⟨1, s, by rw [lmLoop, if_pos hq]⟩
      · obtain ⟨h1, h2, h3⟩ := pop_spec (pick := pick) hq
        obtain ⟨k1, k2⟩ := process_inv hG (s := { s with q := s.q.eraseIdx (pick s.q % s.q.length) })
          ⟨hI.inv, hI.lt, fun x hx => hI.qlt x (List.mem_of_mem_eraseIdx hx), hI.emp⟩ (hI.qlt _ h1) h3
        rcases k2 with k2 | ⟨k2, k3⟩
        · obtain ⟨f, r, hr⟩ := ihW _ (hW ▸ k2) _ _ k1 rfl rfl
          exact ⟨f + 1, r, by rw [lmLoop, if_neg hq]; exact hr⟩
        · obtain ⟨f, r, hr⟩ := ihL _ (by rw [k3]; show (s.q.eraseIdx _).length < L; omega) _ k1 (k2.trans hW) rfl
          exact ⟨f + 1, r, by rw [lmLoop, if_neg hq]; exact hr⟩

/-- What is needed of the nodes that hold initially. -/
structure Seeds (G : Graph) (seeds : List Nat) : Prop where
  ok : ∀ n ∈ seeds, n < G.num ∧ (G.kind n = .init ∨ G.kind n = .and ∧ G.par n = [])
  init : ∀ n, G.kind n = .init → n ∈ seeds
  and : ∀ n, G.kind n = .and → G.par n = [] → n ∈ seeds

theorem lmStart_spec (G : Graph) : ∀ (seeds : List Nat),
    (∀ n, (lmStart G seeds).full n = true ↔ n ∉ seeds) ∧ (∀ n ∈ seeds, (lmStart G seeds).lms n = {n}) ∧
      (∀ x, x ∈ (lmStart G seeds).q ↔ ∃ n ∈ seeds, x.1 = 1 ∧ x.2 ∈ G.chi n) ∧ ∀ n, n ∉ seeds → (lmStart G seeds).lms n = ∅ := by
  intro seeds
  unfold lmStart
  induction seeds using List.reverseRecOn with
  | nil => simp
  | append_singleton l n ih =>
    obtain ⟨h1, h2, h3, h4⟩ := ih
    rw [List.foldl_append]
    simp only [List.foldl_cons, List.foldl_nil]
    refine ⟨fun m => ?_, fun m hm => ?_, fun x => ?_, fun m hm => ?_⟩
    · simp only [seed]
      by_cases hmn : m = n
      · subst hmn; simp
      · rw [Function.update_of_ne hmn, h1]
        simp [hmn]
    · simp only [seed]
      by_cases hmn : m = n
      · subst hmn; simp
      · rw [Function.update_of_ne hmn]
        exact h2 m (by simpa [hmn] using hm)
    · simp only [seed, List.mem_append, h3, List.mem_map, List.mem_singleton]
      constructor
      · rintro (⟨c, hc, rfl⟩ | ⟨m, hm, h⟩)
        · exact ⟨n, .inr rfl, rfl, hc⟩
        · exact ⟨m, .inl hm, h⟩
      · rintro ⟨m, hm | rfl, h1, h2⟩
        · exact .inr ⟨m, hm, h1, h2⟩
        · exact .inl ⟨x.2, h2, by rw [← h1]⟩
    · simp only [List.mem_append, List.mem_singleton, not_or] at hm
      simp only [seed]
      rw [Function.update_of_ne hm.2]
      exact h4 m hm.1

theorem lmStart_inv (hG : G.OK) {seeds : List Nat} (hS : Seeds G seeds) : LInv G (lmStart G seeds) (lmStart G seeds).Q := by
  obtain ⟨h1, h2, h3, h4⟩ := lmStart_spec G seeds
  have hfull : ∀ n, (lmStart G seeds).marks.full n ↔ n ∉ seeds := h1
  have hseed : ∀ n, ¬ (lmStart G seeds).marks.full n ↔ n ∈ seeds := fun n => by rw [hfull, not_not]
  have hmem : ∀ n ∈ seeds, ∀ x, (lmStart G seeds).marks.mem n x ↔ x = n := by
    intro n hn x
    show x ∈ (lmStart G seeds).lms n ↔ _
    rw [h2 n hn, Finset.mem_singleton]
  have hF : ∀ n ∈ seeds, ¬ FFull G (lmStart G seeds).marks n ∧ ∀ x, FMem G (lmStart G seeds).marks n x ↔ x = n := by
    intro n hn
    unfold FFull FMem
    rcases (hS.ok n hn).2 with hk | ⟨hk, hp⟩
    · rw [hk]; simp
    · rw [hk, hp]; simp
  refine ⟨⟨fun n hn => (hmem n ((hseed n).1 hn) n).2 rfl, fun n hn => (hF n ((hseed n).1 hn)).1, fun n x hn hx => ?_, fun n => ?_, fun n x hn hx => ?_,
    fun n hn => ?_, fun n x hn hx => ?_⟩, fun n hn => ?_, fun x hx => ?_, fun n hn => h4 n ((h1 n).1 hn)⟩
  · rw [hseed] at hn
    exact (hmem n hn x).2 (((hF n hn).2 x).1 hx)
  · by_cases hn : n ∈ seeds
    · right
      refine ⟨⟨fun hf => absurd hn ((hfull n).1 hf), fun hf => absurd hf (hF n hn).1⟩, fun _ x => ?_⟩
      rw [hmem n hn x, (hF n hn).2 x]
    · by_cases hFn : FFull G (lmStart G seeds).marks n
      · right
        exact ⟨⟨fun _ => hFn, fun _ => (hfull n).2 hn⟩, fun hf => absurd ((hfull n).2 hn) hf⟩
      · left
        have hq : ∀ p ∈ G.par n, G.kind n ≠ .init → p ∈ seeds → (lmStart G seeds).Q n :=
          fun p hp hk hps => ⟨1, (h3 _).2 ⟨p, hps, rfl, hG.chi_of_par n p hp hk⟩⟩
        unfold FFull at hFn
        cases hk : G.kind n with
        | init => exact absurd (hS.init n hk) hn
        | and =>
          rw [hk] at hFn
          simp only at hFn
          push Not at hFn
          obtain ⟨p, hp⟩ := List.exists_mem_of_ne_nil _ (fun h => hn (hS.and n hk h))
          exact hq p hp (by rw [hk]; decide) ((hseed p).1 (hFn p hp))
        | or =>
          rw [hk] at hFn
          simp only at hFn
          push Not at hFn
          obtain ⟨p, hp, hf⟩ := hFn
          exact hq p hp (by rw [hk]; decide) ((hseed p).1 hf)
  · rw [hseed] at hn
    rw [(hmem n hn x).1 hx, hseed]
    exact hn
  · rw [hseed] at hn
    rcases (hS.ok n hn).2 with hk | ⟨hk, hp⟩
    · exact .init hk id
    · exact .and hk id (by rw [hp]; simp)
  · rw [hseed] at hn
    rw [hmem n hn]
    by_contra hxn
    refine hx ?_
    rcases (hS.ok n hn).2 with hk | ⟨hk, hp⟩
    · exact .init hk fun e => hxn e.symm
    · exact .and hk (fun e => hxn e.symm) (by rw [hp]; simp)
  · exact (hS.ok n ((hseed n).1 hn)).1
  · obtain ⟨n, -, -, hc⟩ := (h3 x).1 hx
    exact hG.chi_lt n _ hc

/-- The propagation terminates for every order. -/
theorem lm_term {pick : List (Nat × Nat) → Nat} (hG : G.OK) {seeds : List Nat} (hS : Seeds G seeds) :
    ∃ f r, lmLoop G pick f (lmStart G seeds) = some r := lmLoop_term hG _ _ _ (lmStart_inv hG hS) rfl rfl

/-- The propagation is exact for every order. -/
theorem lm_exact {pick : List (Nat × Nat) → Nat} (hG : G.OK) {seeds : List Nat} (hS : Seeds G seeds) {f : Nat} {r : LSt}
    (h : lmLoop G pick f (lmStart G seeds) = some r) (n : Nat) :
    (r.full n = false ↔ Der G (fun _ => False) n) ∧ (r.full n = false → ∀ x, x ∈ r.lms n ↔ ¬ Der G (· = x) n) ∧
      (r.full n = true → r.lms n = ∅) := by
  obtain ⟨h1, h2⟩ := lmLoop_inv hG f _ r (lmStart_inv hG hS) h
  have := h1.inv.exact (fun m ⟨k, hk⟩ => by rw [h2] at hk; simp at hk) n
  simp only [LSt.marks, Bool.not_eq_true] at this
  exact ⟨this.1, this.2, h1.emp n⟩

end Verif.AO
