import Mathlib.Data.Finset.Basic
import Mathlib.Data.List.Basic
import Mathlib.Tactic.Tauto
import Mathlib.Tactic.Push

/-! # AND/OR graphs and the sets of nodes that all derivations of a node contain

The landmark generators (src/heuristics/landmarks/lmExtraction) propagate sets of nodes through an AND/OR graph until nothing
changes.  This file has what both generators share: the graph, derivations in it, and the invariant of the propagation, for any
order in which nodes are processed. -/

namespace Verif.AO

/-- `andOrNodeType` (LmAoNode.h 10). -/
inductive Kind
  | init
  | and
  | or
deriving DecidableEq, Repr

/-- An AND/OR graph; `par`: the nodes that a node depends on (`Ninv`, `affectedBy`), `chi`: the nodes that depend on it (`N`,
`affectedNodes`). -/
structure Graph where
  num : Nat
  kind : Nat → Kind
  par : Nat → List Nat
  chi : Nat → List Nat

/-- A node depends only on nodes that list it. -/
structure Graph.OK (G : Graph) : Prop where
  chi_of_par : ∀ n p, p ∈ G.par n → G.kind n ≠ .init → n ∈ G.chi p
  par_lt : ∀ n p, p ∈ G.par n → p < G.num
  chi_lt : ∀ n p, p ∈ G.chi n → p < G.num

/-- `Der G A n`: node `n` has a derivation that contains no node of `A`. -/
inductive Der (G : Graph) (A : Nat → Prop) : Nat → Prop
  | init {n : Nat} : G.kind n = .init → ¬ A n → Der G A n
  | and {n : Nat} : G.kind n = .and → ¬ A n → (∀ p ∈ G.par n, Der G A p) → Der G A n
  | or {n p : Nat} : G.kind n = .or → ¬ A n → p ∈ G.par n → Der G A p → Der G A n

variable {G : Graph}

theorem Der.anti {A B : Nat → Prop} (h : ∀ n, B n → A n) {n : Nat} (hd : Der G A n) : Der G B n := by
  induction hd with
  | init h1 h2 => exact .init h1 fun hb => h2 (h _ hb)
  | and h1 h2 _ ih => exact .and h1 (fun hb => h2 (h _ hb)) ih
  | or h1 h2 h3 _ ih => exact .or h1 (fun hb => h2 (h _ hb)) h3 ih

/-- Marks of the nodes: `full` (the set of all nodes) and, where it is false, the members of the set. -/
structure Marks where
  full : Nat → Prop
  mem : Nat → Nat → Prop

/-- The mark that the nodes it depends on give to a node: full or not. -/
def FFull (G : Graph) (s : Marks) (n : Nat) : Prop :=
  match G.kind n with
  | .init => False
  | .and => ∃ p ∈ G.par n, s.full p
  | .or => ∀ p ∈ G.par n, s.full p

/-- The mark that the nodes it depends on give to a node: members. -/
def FMem (G : Graph) (s : Marks) (n x : Nat) : Prop :=
  x = n ∨ match G.kind n with
    | .init => False
    | .and => ∃ p ∈ G.par n, s.mem p x
    | .or => ∀ p ∈ G.par n, ¬ s.full p → s.mem p x

/-- The mark of the node agrees with those of the nodes it depends on. -/
def Cons (G : Graph) (s : Marks) (n : Nat) : Prop :=
  (s.full n ↔ FFull G s n) ∧ (¬ s.full n → ∀ x, s.mem n x ↔ FMem G s n x)

/-- Invariant of the propagation; `Q`: the nodes that are to be processed. -/
structure PInv (G : Graph) (s : Marks) (Q : Nat → Prop) : Prop where
  self : ∀ n, ¬ s.full n → s.mem n n
  le_full : ∀ n, ¬ s.full n → ¬ FFull G s n
  le_mem : ∀ n x, ¬ s.full n → FMem G s n x → s.mem n x
  pending : ∀ n, Q n ∨ Cons G s n
  closed : ∀ n x, ¬ s.full n → s.mem n x → ¬ s.full x
  der : ∀ n, ¬ s.full n → Der G (fun _ => False) n
  avoid : ∀ n x, ¬ s.full n → ¬ Der G (· = x) n → s.mem n x

/-- The marks at `n` are replaced. -/
structure Upd (G : Graph) (s s' : Marks) (n : Nat) : Prop where
  full_ne : ∀ m, m ≠ n → (s'.full m ↔ s.full m)
  mem_ne : ∀ m, m ≠ n → ∀ x, s'.mem m x ↔ s.mem m x
  full_eq : s'.full n ↔ FFull G s n
  mem_eq : ¬ s'.full n → ∀ x, s'.mem n x ↔ FMem G s n x

/-- No change at `n`. -/
def Same (s s' : Marks) (n : Nat) : Prop := (s'.full n ↔ s.full n) ∧ (¬ s.full n → ∀ x, s'.mem n x ↔ s.mem n x)

theorem FFull.mono {s s' : Marks} (h : ∀ p, ¬ s.full p → ¬ s'.full p) {n : Nat} (hn : ¬ FFull G s n) : ¬ FFull G s' n := by
  unfold FFull at hn ⊢
  cases hk : G.kind n with
  | init => simp
  | and =>
    rw [hk] at hn
    simp only at hn ⊢
    rintro ⟨p, hp, hf⟩
    exact h p (fun hf' => hn ⟨p, hp, hf'⟩) hf
  | or =>
    rw [hk] at hn
    simp only at hn ⊢
    intro h'
    push Not at hn
    obtain ⟨p, hp, hf⟩ := hn
    exact h p hf (h' p hp)

theorem FMem.mono {s s' : Marks} (h : ∀ p, ¬ s.full p → ¬ s'.full p) (h2 : ∀ p x, ¬ s.full p → s'.mem p x → s.mem p x) {n x : Nat}
    (hn : ¬ FFull G s n) (hm : FMem G s' n x) : FMem G s n x := by
  unfold FMem FFull at *
  rcases hm with hm | hm
  · exact .inl hm
  right
  cases hk : G.kind n with
  | init => rw [hk] at hm; exact hm
  | and =>
    rw [hk] at hm hn
    simp only at hm hn ⊢
    obtain ⟨p, hp, hx⟩ := hm
    exact ⟨p, hp, h2 p x (fun hf => hn ⟨p, hp, hf⟩) hx⟩
  | or =>
    rw [hk] at hm
    simp only at hm ⊢
    exact fun p hp hf => h2 p x hf (hm p hp (h p hf))

theorem Upd.lower {s s' : Marks} {Q : Nat → Prop} {n : Nat} (hI : PInv G s Q) (hU : Upd G s s' n) :
    (∀ p, ¬ s.full p → ¬ s'.full p) ∧ ∀ p x, ¬ s.full p → s'.mem p x → s.mem p x := by
  constructor
  · intro p hp
    by_cases h : p = n
    · subst h
      rw [hU.full_eq]
      exact hI.le_full p hp
    · rw [hU.full_ne p h]
      exact hp
  · intro p x hp hx
    by_cases h : p = n
    · subst h
      refine hI.le_mem p x hp ((hU.mem_eq ?_ x).1 hx)
      rw [hU.full_eq]
      exact hI.le_full p hp
    · exact (hU.mem_ne p h x).1 hx

/-- Processing a node keeps the invariant, if the nodes that depend on it are to be processed after a change. -/
theorem PInv.step {s s' : Marks} {Q Q' : Nat → Prop} {n : Nat} (hG : G.OK) (hI : PInv G s Q) (hU : Upd G s s' n)
    (hQ : ∀ m, m ≠ n → Q m → Q' m) (hC : Same s s' n ∨ ∀ m ∈ G.chi n, Q' m) : PInv G s' Q' := by
  obtain ⟨hl1, hl2⟩ := Upd.lower hI hU
  have hnf : ∀ m, ¬ s'.full m → ¬ FFull G s m ∨ (m ≠ n ∧ ¬ s.full m) := by
    intro m hm
    by_cases h : m = n
    · subst h
      exact .inl fun hf => hm (hU.full_eq.2 hf)
    · exact .inr ⟨h, fun hf => hm ((hU.full_ne m h).2 hf)⟩
  have hle : ∀ m, ¬ s'.full m → ¬ FFull G s m := fun m hm => (hnf m hm).elim id fun h => hI.le_full m h.2
  refine ⟨fun m hm => ?_, fun m hm => FFull.mono hl1 (hle m hm), fun m x hm hx => ?_, fun m => ?_, fun m x hm hx => ?_, fun m hm => ?_, fun m x hm hx => ?_⟩
  · by_cases h : m = n
    · subst h
      exact (hU.mem_eq hm m).2 (.inl rfl)
    · exact (hU.mem_ne m h m).2 (hI.self m fun hf => hm ((hU.full_ne m h).2 hf))
  · have hx' := FMem.mono hl1 hl2 (hle m hm) hx
    by_cases h : m = n
    · subst h
      exact (hU.mem_eq hm x).2 hx'
    · exact (hU.mem_ne m h x).2 (hI.le_mem m x (fun hf => hm ((hU.full_ne m h).2 hf)) hx')
  · -- pending
    have key : ¬ (n ∈ G.par m ∧ G.kind m ≠ .init) ∨ Same s s' n → (FFull G s' m ↔ FFull G s m) ∧ (¬ FFull G s m → ∀ x, FMem G s' m x ↔ FMem G s m x) := by
      intro hcase
      have h1 : ∀ p ∈ G.par m, G.kind m ≠ .init → ((s'.full p ↔ s.full p) ∧ (¬ s.full p → ∀ x, s'.mem p x ↔ s.mem p x)) := by
        intro p hp hk
        by_cases hpn : p = n
        · subst hpn
          rcases hcase with hcase | hcase
          · exact absurd ⟨hp, hk⟩ hcase
          · exact hcase
        · exact ⟨hU.full_ne p hpn, fun _ => hU.mem_ne p hpn⟩
      unfold FFull FMem
      cases hk : G.kind m with
      | init => simp
      | and =>
        have h1' := fun p hp => h1 p hp (by rw [hk]; decide)
        simp only
        refine ⟨⟨fun ⟨p, hp, hf⟩ => ⟨p, hp, (h1' p hp).1.1 hf⟩, fun ⟨p, hp, hf⟩ => ⟨p, hp, (h1' p hp).1.2 hf⟩⟩, fun hnf x => or_congr Iff.rfl ?_⟩
        constructor
        · rintro ⟨p, hp, hx⟩
          exact ⟨p, hp, ((h1' p hp).2 (fun hf => hnf ⟨p, hp, hf⟩) x).1 hx⟩
        · rintro ⟨p, hp, hx⟩
          exact ⟨p, hp, ((h1' p hp).2 (fun hf => hnf ⟨p, hp, hf⟩) x).2 hx⟩
      | or =>
        have h1' := fun p hp => h1 p hp (by rw [hk]; decide)
        simp only
        refine ⟨⟨fun h p hp => (h1' p hp).1.1 (h p hp), fun h p hp => (h1' p hp).1.2 (h p hp)⟩, fun _ x => or_congr Iff.rfl ?_⟩
        constructor
        · intro h p hp hf
          exact ((h1' p hp).2 hf x).1 (h p hp fun hf' => hf ((h1' p hp).1.1 hf'))
        · intro h p hp hf
          have hf' : ¬ s.full p := fun hf' => hf ((h1' p hp).1.2 hf')
          exact ((h1' p hp).2 hf' x).2 (h p hp hf')
    by_cases hq : Q' m
    · exact .inl hq
    right
    have hcase : ¬ (n ∈ G.par m ∧ G.kind m ≠ .init) ∨ Same s s' n := by
      rcases hC with hC | hC
      · exact .inr hC
      · exact .inl fun h => hq (hC m (hG.chi_of_par m n h.1 h.2))
    obtain ⟨k1, k2⟩ := key hcase
    by_cases h : m = n
    · subst h
      refine ⟨by rw [k1]; exact hU.full_eq, fun hf x => ?_⟩
      rw [k2 (fun hF => hf (hU.full_eq.2 hF)) x]
      exact hU.mem_eq hf x
    · have hc := (hI.pending m).resolve_left fun hQm => hq (hQ m h hQm)
      refine ⟨by rw [k1, hU.full_ne m h]; exact hc.1, fun hf x => ?_⟩
      have hf' : ¬ s.full m := fun hf' => hf ((hU.full_ne m h).2 hf')
      rw [k2 (fun hF => hf' (hc.1.2 hF)) x, hU.mem_ne m h x]
      exact hc.2 hf' x
  · -- closed
    by_cases h : m = n
    · subst h
      rw [hU.mem_eq hm] at hx
      have hnF : ¬ FFull G s m := fun hF => hm (hU.full_eq.2 hF)
      rcases hx with rfl | hx
      · exact hm
      · unfold FFull at hnF
        cases hk : G.kind m with
        | init => rw [hk] at hx; exact absurd hx (by simp)
        | and =>
          rw [hk] at hx hnF
          simp only at hx hnF
          obtain ⟨p, hp, hx⟩ := hx
          exact hl1 x (hI.closed p x (fun hf => hnF ⟨p, hp, hf⟩) hx)
        | or =>
          rw [hk] at hx hnF
          simp only at hx hnF
          push Not at hnF
          obtain ⟨p, hp, hf⟩ := hnF
          exact hl1 x (hI.closed p x hf (hx p hp hf))
    · exact hl1 x (hI.closed m x (fun hf => hm ((hU.full_ne m h).2 hf)) ((hU.mem_ne m h x).1 hx))
  · by_cases h : m = n
    · subst h
      have hnF : ¬ FFull G s m := fun hF => hm (hU.full_eq.2 hF)
      unfold FFull at hnF
      cases hk : G.kind m with
      | init => exact .init hk id
      | and =>
        rw [hk] at hnF
        simp only at hnF
        exact .and hk id fun p hp => hI.der p fun hf => hnF ⟨p, hp, hf⟩
      | or =>
        rw [hk] at hnF
        simp only at hnF
        push Not at hnF
        obtain ⟨p, hp, hf⟩ := hnF
        exact .or hk id hp (hI.der p hf)
    · exact hI.der m fun hf => hm ((hU.full_ne m h).2 hf)
  · by_cases h : m = n
    · subst h
      have hnF : ¬ FFull G s m := fun hF => hm (hU.full_eq.2 hF)
      rw [hU.mem_eq hm]
      unfold FMem
      by_cases hxm : x = m
      · exact .inl hxm
      right
      unfold FFull at hnF
      cases hk : G.kind m with
      | init => exact hx (.init hk fun e => hxm e.symm)
      | and =>
        rw [hk] at hnF
        simp only at hnF ⊢
        by_contra hno
        push Not at hno
        refine hx (.and hk (fun e => hxm e.symm) fun p hp => ?_)
        by_contra hd
        exact hno p hp (hI.avoid p x (fun hf => hnF ⟨p, hp, hf⟩) hd)
      | or =>
        simp only
        intro p hp hf
        refine hI.avoid p x hf fun hd => hx (.or hk (fun e => hxm e.symm) hp hd)
    · exact (hU.mem_ne m h x).2 (hI.avoid m x (fun hf => hm ((hU.full_ne m h).2 hf)) hx)

/-- **Exactness.**  When nothing is left to be processed, a node is not full iff it can be derived, and its set consists of the
nodes that are in all its derivations. -/
theorem PInv.exact {s : Marks} {Q : Nat → Prop} (hI : PInv G s Q) (hQ : ∀ n, ¬ Q n) (n : Nat) :
    (¬ s.full n ↔ Der G (fun _ => False) n) ∧ (¬ s.full n → ∀ x, s.mem n x ↔ ¬ Der G (· = x) n) := by
  have hc : ∀ n, Cons G s n := fun n => (hI.pending n).resolve_left (hQ n)
  have h1 : ∀ (A : Nat → Prop) n, Der G A n → ¬ s.full n ∧ ∀ x, A x → ¬ s.mem n x := by
    intro A n hd
    induction hd with
    | @init n hk hA =>
      have hf : ¬ s.full n := by
        rw [(hc n).1]
        unfold FFull
        rw [hk]
        exact id
      refine ⟨hf, fun x hx hm => ?_⟩
      rw [(hc n).2 hf, FMem, hk] at hm
      rcases hm with rfl | hm
      · exact hA hx
      · exact hm
    | @and n hk hA _ ih =>
      have hf : ¬ s.full n := by
        rw [(hc n).1]
        unfold FFull
        rw [hk]
        rintro ⟨p, hp, hf⟩
        exact (ih p hp).1 hf
      refine ⟨hf, fun x hx hm => ?_⟩
      rw [(hc n).2 hf, FMem, hk] at hm
      rcases hm with rfl | ⟨p, hp, hm⟩
      · exact hA hx
      · exact (ih p hp).2 x hx hm
    | @or n p hk hA hp _ ih =>
      have hf : ¬ s.full n := by
        rw [(hc n).1]
        unfold FFull
        rw [hk]
        intro h
        exact ih.1 (h p hp)
      refine ⟨hf, fun x hx hm => ?_⟩
      rw [(hc n).2 hf, FMem, hk] at hm
      rcases hm with rfl | hm
      · exact hA hx
      · exact ih.2 x hx (hm p hp ih.1)
  exact ⟨⟨hI.der n, fun hd => (h1 _ n hd).1⟩, fun hf x => ⟨fun hm hd => (h1 _ n hd).2 x rfl hm, hI.avoid n x hf⟩⟩

end Verif.AO
