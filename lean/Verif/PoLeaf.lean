import Verif.PdtFilter

/-! # Model of the ordered graph of the leaves (src/sat/pdt.cpp 441-453, src/sat/sog.cpp 577-735)

In partially ordered problems the graphs of the vertices of the decomposition tree are put together to a graph of the
leaves.  The vertices of this graph are named by the paths of the leaves here; the code numbers them in the order of the
list. -/

namespace Verif.Pdt

open Verif.Htn Verif.Sog Relation

/-- The edges of the graph of an expanded vertex with `nv` children.  The optimiser for totally ordered methods orders all
vertices by their numbers (sog.cpp 176-236). -/
def sogAdj (P : Problem) (cfg : Cfg) (d : ND) (nv : Nat) : List (Nat × Nat) :=
  let ms := (cfg.sortM (applicable P d)).map (·.1)
  if usesPO cfg ms then (poAll P cfg.tot cfg.clo cfg.compact ms).1.adj
  else (List.range nv).flatMap fun j => (List.range j).map fun i => (i, j)

/-- The edges of the graph of a vertex of the tree. -/
def adjAt (P : Problem) (cfg : Cfg) (t : T) (p : Path) : List (Nat × Nat) :=
  match t.nd p with
  | none => []
  | some d => sogAdj P cfg d (t.nc p)

/-- `removeTransitiveOrderings` (sog.cpp 592-614): an edge is removed if there is a way of two edges; all tests are done
before the first removal. -/
def reduceEdges (vs : List Path) (raw : List (Path × Path)) : List (Path × Path) :=
  raw.filter fun e => !vs.any fun k => raw.contains (e.1, k) && raw.contains (k, e.2)

/-- `getLeafSOG` (pdt.cpp 441-453) with `generateSOGForLeaf` and `expandSOG` (sog.cpp 664-735): the leaves and the edges
between them; `A` are the edges at the vertices.  A vertex that was expanded but has no children has an empty graph. -/
def leafSog (t : T) (A : Path → List (Nat × Nat)) : Nat → Path → List Path × List (Path × Path)
  | 0, p => ([p], [])
  | f + 1, p =>
    if t.nc p = 0 then (if (t.ex p).isSome then ([], []) else ([p], []))
    else
      let vs := (List.range (t.nc p)).flatMap fun c => (leafSog t A f (c :: p)).1
      (vs, reduceEdges vs
        (((List.range (t.nc p)).flatMap fun c => (leafSog t A f (c :: p)).2) ++
          (A p).flatMap fun e => (leafSog t A f (e.1 :: p)).1.flatMap fun x => (leafSog t A f (e.2 :: p)).1.map fun y => (x, y)))

/-! ## What the graph means -/

/-- The order of the leaves that the graphs of the vertices describe: the order of the children below their common
ancestor. -/
def LeafLt (t : T) (A : Path → List (Nat × Nat)) : Nat → Path → Path → Path → Prop
  | 0, _, _, _ => False
  | f + 1, p, x, y => ∃ c < t.nc p, ∃ c' < t.nc p, x ∈ t.leavesFrom f (c :: p) ∧ y ∈ t.leavesFrom f (c' :: p) ∧
      ((c = c' ∧ LeafLt t A f (c :: p) x y) ∨ TransGen (fun i j => (i, j) ∈ A p) c c')

section
variable {t : T} {A : Path → List (Nat × Nat)}

theorem leavesFrom_disj {f c c' : Nat} {p x : Path} (h : x ∈ t.leavesFrom f (c :: p)) (h' : x ∈ t.leavesFrom f (c' :: p)) : c = c' := by
  obtain ⟨r, hr⟩ := leavesFrom_suffix f _ _ h
  obtain ⟨r', hr'⟩ := leavesFrom_suffix f _ _ h'
  rw [hr] at hr'
  have h2 := List.append_inj_right' hr' rfl
  simpa using h2

theorem leavesFrom_succ {f : Nat} {p x : Path} (h0 : t.nc p ≠ 0) :
    x ∈ t.leavesFrom (f + 1) p ↔ ∃ c < t.nc p, x ∈ t.leavesFrom f (c :: p) := by
  rw [T.leavesFrom, if_neg h0, List.mem_flatMap]
  simp only [List.mem_range]

theorem leavesFrom_ne : ∀ (f : Nat) (q : Path), ∃ x, x ∈ t.leavesFrom f q := by
  intro f
  induction f with
  | zero => intro q; exact ⟨q, by simp [T.leavesFrom]⟩
  | succ f ih =>
    intro q
    by_cases h0 : t.nc q = 0
    · exact ⟨q, by simp [T.leavesFrom, h0]⟩
    · obtain ⟨x, hx⟩ := ih (0 :: q)
      exact ⟨x, (leavesFrom_succ h0).2 ⟨0, by omega, hx⟩⟩

theorem LeafLt.mem : ∀ {f : Nat} {p x y : Path}, LeafLt t A f p x y → x ∈ t.leavesFrom f p ∧ y ∈ t.leavesFrom f p := by
  intro f p x y h
  cases f with
  | zero => exact h.elim
  | succ f =>
    obtain ⟨c, hc, c', hc', hx, hy, -⟩ := h
    have h0 : t.nc p ≠ 0 := by omega
    exact ⟨(leavesFrom_succ h0).2 ⟨c, hc, hx⟩, (leavesFrom_succ h0).2 ⟨c', hc', hy⟩⟩

theorem LeafLt.trans : ∀ {f : Nat} {p x y z : Path}, LeafLt t A f p x y → LeafLt t A f p y z → LeafLt t A f p x z := by
  intro f
  induction f with
  | zero => intro p x y z h; exact h.elim
  | succ f ih =>
    rintro p x y z ⟨c, hc, c', hc', hx, hy, h⟩ ⟨d, hd, d', hd', hy2, hz, h'⟩
    obtain rfl := leavesFrom_disj hy hy2
    refine ⟨c, hc, d', hd', hx, hz, ?_⟩
    rcases h with ⟨rfl, h⟩ | h <;> rcases h' with ⟨rfl, h'⟩ | h'
    · exact .inl ⟨rfl, ih h h'⟩
    · exact .inr h'
    · exact .inr h
    · exact .inr (h.trans h')

/-- The graphs of the vertices have no cycles. -/
def Acyclic (A : Path → List (Nat × Nat)) (t : T) : Prop :=
  ∀ p, t.nc p ≠ 0 → ∃ rank : Nat → Nat, ∀ i j, (i, j) ∈ A p → rank i < rank j

theorem tg_mono {α : Type} {r r' : α → α → Prop} (h : ∀ a b, r a b → r' a b) {i j : α} (hij : TransGen r i j) : TransGen r' i j := by
  induction hij with
  | single h1 => exact .single (h _ _ h1)
  | tail _ h1 ih => exact ih.tail (h _ _ h1)

theorem transGen_rank {α : Type} {r : α → α → Prop} {rank : α → Nat} (h : ∀ i j, r i j → rank i < rank j) :
    ∀ {i j}, TransGen r i j → rank i < rank j := by
  intro i j h'
  induction h' with
  | single h1 => exact h _ _ h1
  | tail _ h1 ih => exact ih.trans (h _ _ h1)

theorem LeafLt.irrefl (hA : Acyclic A t) : ∀ {f : Nat} {p x : Path}, ¬ LeafLt t A f p x x := by
  intro f
  induction f with
  | zero => intro p x h; exact h
  | succ f ih =>
    rintro p x ⟨c, hc, c', hc', hx, hy, h⟩
    obtain rfl := leavesFrom_disj hx hy
    rcases h with ⟨-, h⟩ | h
    · exact ih h
    · obtain ⟨rank, hr⟩ := hA p (by omega)
      exact absurd (transGen_rank hr h) (Nat.lt_irrefl _)

theorem mem_reduce {vs : List Path} {raw : List (Path × Path)} {e : Path × Path} :
    e ∈ reduceEdges vs raw ↔ e ∈ raw ∧ ¬ ∃ k ∈ vs, (e.1, k) ∈ raw ∧ (k, e.2) ∈ raw := by
  unfold reduceEdges
  rw [List.mem_filter]
  simp

theorem filter_length_lt {α : Type} (l : List α) (p q : α → Bool) (h : ∀ x ∈ l, p x = true → q x = true)
    {k : α} (hk : k ∈ l) (h1 : q k = true) (h2 : p k = false) : (l.filter p).length < (l.filter q).length := by
  induction l with
  | nil => simp at hk
  | cons a l ih =>
    have hle : ∀ l' : List α, (∀ x ∈ l', p x = true → q x = true) → (l'.filter p).length ≤ (l'.filter q).length := by
      intro l' h'
      rw [← List.countP_eq_length_filter, ← List.countP_eq_length_filter]
      exact List.countP_mono_left h'
    rw [List.filter_cons, List.filter_cons]
    rcases List.mem_cons.1 hk with rfl | hk
    · have := hle l fun x hx => h x (List.mem_cons_of_mem _ hx)
      simp only [h1, h2, if_true, Bool.false_eq_true, if_false, List.length_cons]
      omega
    · have := ih (fun x hx => h x (List.mem_cons_of_mem _ hx)) hk
      cases hp : p a with
      | true => simp only [h a List.mem_cons_self hp, if_true, List.length_cons]; omega
      | false =>
        cases hq : q a with
        | true => simp only [if_true, Bool.false_eq_true, if_false, List.length_cons]; omega
        | false => simpa using this

/-- Removing the edges that are bridged by two edges does not change the order, if there are no cycles. -/
theorem reduce_trans {vs : List Path} {raw : List (Path × Path)} (hv : ∀ e ∈ raw, e.1 ∈ vs ∧ e.2 ∈ vs)
    (hir : ∀ x, ¬ TransGen (fun a b => (a, b) ∈ raw) x x) :
    ∀ {x y}, TransGen (fun a b => (a, b) ∈ raw) x y → TransGen (fun a b => (a, b) ∈ reduceEdges vs raw) x y := by
  classical
  have key : ∀ (n : Nat) x y, (x, y) ∈ raw →
      (vs.filter fun z => decide (TransGen (fun a b => (a, b) ∈ raw) x z ∧ TransGen (fun a b => (a, b) ∈ raw) z y)).length ≤ n →
      TransGen (fun a b => (a, b) ∈ reduceEdges vs raw) x y := by
    intro n
    induction n with
    | zero =>
      intro x y h hn
      refine .single (mem_reduce.2 ⟨h, ?_⟩)
      rintro ⟨k, hk, h1, h2⟩
      have : k ∈ vs.filter fun z => decide (TransGen (fun a b => (a, b) ∈ raw) x z ∧ TransGen (fun a b => (a, b) ∈ raw) z y) := by
        rw [List.mem_filter]
        exact ⟨hk, by simpa using ⟨.single h1, .single h2⟩⟩
      have := List.length_pos_of_mem this
      omega
    | succ n ih =>
      intro x y h hn
      by_cases hk : ∃ k ∈ vs, (x, k) ∈ raw ∧ (k, y) ∈ raw
      · obtain ⟨k, hk, h1, h2⟩ := hk
        refine TransGen.trans (ih x k h1 ?_) (ih k y h2 ?_)
        · have := filter_length_lt vs
            (fun z => decide (TransGen (fun a b => (a, b) ∈ raw) x z ∧ TransGen (fun a b => (a, b) ∈ raw) z k))
            (fun z => decide (TransGen (fun a b => (a, b) ∈ raw) x z ∧ TransGen (fun a b => (a, b) ∈ raw) z y))
            (fun z _ hz => by
              simp only [decide_eq_true_eq] at hz ⊢
              exact ⟨hz.1, hz.2.tail h2⟩) hk (by simpa using ⟨.single h1, .single h2⟩)
            (by simp only [decide_eq_false_iff_not]; exact fun hh => hir k hh.2)
          omega
        · have := filter_length_lt vs
            (fun z => decide (TransGen (fun a b => (a, b) ∈ raw) k z ∧ TransGen (fun a b => (a, b) ∈ raw) z y))
            (fun z => decide (TransGen (fun a b => (a, b) ∈ raw) x z ∧ TransGen (fun a b => (a, b) ∈ raw) z y))
            (fun z _ hz => by
              simp only [decide_eq_true_eq] at hz ⊢
              exact ⟨.head h1 hz.1, hz.2⟩) hk (by simpa using ⟨.single h1, .single h2⟩)
            (by simp only [decide_eq_false_iff_not]; exact fun hh => hir k hh.1)
          omega
      · exact .single (mem_reduce.2 ⟨h, hk⟩)
  intro x y h
  induction h with
  | single h => exact key _ _ _ h (Nat.le_refl _)
  | tail _ h ih => exact ih.trans (key _ _ _ h (Nat.le_refl _))

variable (hne : ∀ p e, t.ex p = some e → e.children ≠ [])
include hne

theorem leafSog_fst : ∀ (f : Nat) (p : Path), (leafSog t A f p).1 = t.leavesFrom f p := by
  intro f
  induction f with
  | zero => intro p; rfl
  | succ f ih =>
    intro p
    rw [leafSog, T.leavesFrom]
    by_cases h0 : t.nc p = 0
    · rw [if_pos h0, if_pos h0]
      cases he : t.ex p with
      | none => rfl
      | some e =>
        exfalso
        have := hne p e he
        unfold T.nc at h0
        rw [he] at h0
        exact this (List.length_eq_zero_iff.1 h0)
    · rw [if_neg h0, if_neg h0]
      exact List.flatMap_congr fun c _ => ih (c :: p)

theorem mem_leafSog {f : Nat} {p : Path} (h0 : t.nc p ≠ 0) {e : Path × Path} :
    e ∈ (leafSog t A (f + 1) p).2 ↔ e ∈ reduceEdges (t.leavesFrom (f + 1) p)
      (((List.range (t.nc p)).flatMap fun c => (leafSog t A f (c :: p)).2) ++
          (A p).flatMap fun e => (t.leavesFrom f (e.1 :: p)).flatMap fun x => (t.leavesFrom f (e.2 :: p)).map fun y => (x, y)) := by
  have h1 : (leafSog t A (f + 1) p).1 = t.leavesFrom (f + 1) p := leafSog_fst hne _ _
  rw [leafSog, if_neg h0] at h1 ⊢
  simp only at h1 ⊢
  rw [h1]
  simp only [leafSog_fst hne]

theorem mem_rawEdges {f : Nat} {p x y : Path} :
    (x, y) ∈ (((List.range (t.nc p)).flatMap fun c => (leafSog t A f (c :: p)).2) ++
      (A p).flatMap fun e => (t.leavesFrom f (e.1 :: p)).flatMap fun x => (t.leavesFrom f (e.2 :: p)).map fun y => (x, y)) ↔
      (∃ c < t.nc p, (x, y) ∈ (leafSog t A f (c :: p)).2) ∨
      ∃ c c', (c, c') ∈ A p ∧ x ∈ t.leavesFrom f (c :: p) ∧ y ∈ t.leavesFrom f (c' :: p) := by
  rw [List.mem_append]
  simp only [List.mem_flatMap, List.mem_range, List.mem_map, Prod.mk.injEq, Prod.exists]
  constructor
  · rintro (h | ⟨c, c', h, x', hx, y', hy, rfl, rfl⟩)
    · exact .inl h
    · exact .inr ⟨c, c', h, hx, hy⟩
  · rintro (h | ⟨c, c', h, hx, hy⟩)
    · exact .inl h
    · exact .inr ⟨c, c', h, x, hx, y, hy, rfl, rfl⟩

variable (hin : ∀ p, t.nc p ≠ 0 → EdgesIn (A p) (t.nc p))
include hin

/-- Every edge of the graph is in the order. -/
theorem leafSog_lt : ∀ {f : Nat} {p x y : Path}, (x, y) ∈ (leafSog t A f p).2 → LeafLt t A f p x y := by
  intro f
  induction f with
  | zero => intro p x y h; simp [leafSog] at h
  | succ f ih =>
    intro p x y h
    by_cases h0 : t.nc p = 0
    · rw [leafSog, if_pos h0] at h
      split_ifs at h <;> simp at h
    · have h := (mem_reduce.1 ((mem_leafSog hne h0).1 h)).1
      rcases (mem_rawEdges hne).1 h with ⟨c, hc, h⟩ | ⟨c, c', h, hx, hy⟩
      · have h := ih h
        exact ⟨c, hc, c, hc, h.mem.1, h.mem.2, .inl ⟨rfl, h⟩⟩
      · have := hin p h0 _ h
        exact ⟨c, this.1, c', this.2, hx, hy, .inr (.single h)⟩

theorem leafSog_trans_lt {f : Nat} {p x y : Path} (h : TransGen (fun a b => (a, b) ∈ (leafSog t A f p).2) x y) :
    LeafLt t A f p x y := by
  induction h with
  | single h => exact leafSog_lt hne hin h
  | tail _ h ih => exact ih.trans (leafSog_lt hne hin h)

/-- Without cycles the graph describes the order. -/
theorem leafSog_complete (hA : Acyclic A t) : ∀ {f : Nat} {p x y : Path}, LeafLt t A f p x y →
    TransGen (fun a b => (a, b) ∈ (leafSog t A f p).2) x y := by
  intro f
  induction f with
  | zero => intro p x y h; exact h.elim
  | succ f ih =>
    intro p x y h
    have hmem := h.mem
    obtain ⟨c, hc, c', hc', hx, hy, h⟩ := h
    have h0 : t.nc p ≠ 0 := by omega
    suffices key : TransGen (fun a b => (a, b) ∈ (((List.range (t.nc p)).flatMap fun c => (leafSog t A f (c :: p)).2) ++
      (A p).flatMap fun e => (t.leavesFrom f (e.1 :: p)).flatMap fun x => (t.leavesFrom f (e.2 :: p)).map fun y => (x, y))) x y by
      have hlt : ∀ a b, (a, b) ∈ (((List.range (t.nc p)).flatMap fun c => (leafSog t A f (c :: p)).2) ++
          (A p).flatMap fun e => (t.leavesFrom f (e.1 :: p)).flatMap fun x => (t.leavesFrom f (e.2 :: p)).map fun y => (x, y)) →
          LeafLt t A (f + 1) p a b := by
        intro a b h
        rcases (mem_rawEdges hne).1 h with ⟨c, hc, h⟩ | ⟨c, c', h, hx, hy⟩
        · have h := leafSog_lt hne hin h
          exact ⟨c, hc, c, hc, h.mem.1, h.mem.2, .inl ⟨rfl, h⟩⟩
        · have := hin p h0 _ h
          exact ⟨c, this.1, c', this.2, hx, hy, .inr (.single h)⟩
      have hlt' : ∀ a b, TransGen (fun a b => (a, b) ∈ (((List.range (t.nc p)).flatMap fun c => (leafSog t A f (c :: p)).2) ++
          (A p).flatMap fun e => (t.leavesFrom f (e.1 :: p)).flatMap fun x => (t.leavesFrom f (e.2 :: p)).map fun y => (x, y))) a b →
          LeafLt t A (f + 1) p a b := by
        intro a b h
        induction h with
        | single h => exact hlt _ _ h
        | tail _ h ih => exact ih.trans (hlt _ _ h)
      have := reduce_trans (vs := t.leavesFrom (f + 1) p) (fun e he => (hlt e.1 e.2 he).mem)
        (fun z hz => LeafLt.irrefl hA (hlt' z z hz)) key
      refine tg_mono (fun a b h => ?_) this
      exact (mem_leafSog hne h0).2 h
    rcases h with ⟨rfl, h⟩ | h
    · exact tg_mono (fun a b h => (mem_rawEdges hne).2 (.inl ⟨c, hc, h⟩)) (ih h)
    · clear hmem
      induction h generalizing y with
      | single h => exact .single ((mem_rawEdges hne).2 (.inr ⟨_, _, h, hx, hy⟩))
      | @tail b c' _ h ih' =>
        obtain ⟨z, hz⟩ := leavesFrom_ne (t := t) f (b :: p)
        exact (ih' (hin p h0 _ h).1 hz).tail ((mem_rawEdges hne).2 (.inr ⟨_, _, h, hz, hy⟩))

end

end Verif.Pdt
