import Verif.PdtSat

/-! # The variables of the tree -/

namespace Verif.Pdt

open Verif.Htn Verif.Sog Verif.Sat

/-- Different entries have different variables between 1 and `n`. -/
structure VarsOK (n : Nat) (V : VM) : Prop where
  inj : ∀ a b x, V a = some x → V b = some x → a = b
  rng : ∀ a x, V a = some x → 1 ≤ x ∧ x ≤ n

/-- What giving variables to a list of entries does. -/
structure Given (n : Nat) (V : VM) (l : List Atom) (n' : Nat) (V' : VM) : Prop where
  ok : VarsOK n' V'
  le : n ≤ n'
  keep : ∀ a x, V a = some x → V' a = some x
  iff : ∀ a, V' a ≠ none ↔ V a ≠ none ∨ a ∈ l

theorem giveVar_spec {n : Nat} {V : VM} (h : VarsOK n V) (a : Atom) :
    Given n V [a] (giveVar (n, V) a).1 (giveVar (n, V) a).2 := by
  unfold giveVar
  cases ha : V a with
  | some y =>
    simp only [ha]
    refine ⟨h, Nat.le_refl _, fun _ _ h => h, fun b => ?_⟩
    constructor
    · exact .inl
    · rintro (hb | hb)
      · exact hb
      · rw [List.mem_singleton] at hb; subst hb; rw [ha]; simp
  | none =>
    simp only [ha]
    refine ⟨⟨fun b c x hb hc => ?_, fun b x hb => ?_⟩, by omega, fun b x hb => ?_, fun b => ?_⟩
    · by_cases h1 : b = a
      · by_cases h2 : c = a
        · rw [h1, h2]
        · rw [if_pos h1] at hb; rw [if_neg h2] at hc
          have := (h.rng c x hc).2
          have := Option.some.inj hb
          omega
      · by_cases h2 : c = a
        · rw [if_neg h1] at hb; rw [if_pos h2] at hc
          have := (h.rng b x hb).2
          have := Option.some.inj hc
          omega
        · rw [if_neg h1] at hb; rw [if_neg h2] at hc
          exact h.inj b c x hb hc
    · by_cases h1 : b = a
      · rw [if_pos h1] at hb
        have := Option.some.inj hb
        omega
      · rw [if_neg h1] at hb
        have := h.rng b x hb
        omega
    · have h1 : b ≠ a := fun e => by rw [e, ha] at hb; exact absurd hb (by simp)
      rw [if_neg h1]; exact hb
    · by_cases h1 : b = a
      · rw [if_pos h1]; simp [h1]
      · rw [if_neg h1]; simp [h1]

theorem giveVars_spec : ∀ (l : List Atom) {n : Nat} {V : VM}, VarsOK n V →
    Given n V l (l.foldl giveVar (n, V)).1 (l.foldl giveVar (n, V)).2 := by
  intro l
  induction l with
  | nil => intro n V h; exact ⟨h, Nat.le_refl _, fun _ _ h => h, fun a => by simp⟩
  | cons a l ih =>
    intro n V h
    have h1 := giveVar_spec h a
    have h2 := ih h1.ok
    rw [List.foldl_cons]
    refine ⟨h2.ok, h1.le.trans h2.le, fun b x hb => h2.keep b x (h1.keep b x hb), fun b => ?_⟩
    have e := h2.iff b
    rw [h1.iff b, List.mem_singleton] at e
    refine e.trans ?_
    rw [List.mem_cons, or_assoc]

/-- Some task of the vertex has a variable. -/
def HasTask (V : VM) (p : Path) : Prop := (∃ i, V (.prim p i) ≠ none) ∨ ∃ a, V (.abs p a) ≠ none

/-- The tables of variables while no formula is generated. -/
structure VMInv (t : T) (n : Nat) (V : VM) : Prop where
  vars : VarsOK n V
  prim : ∀ p i, V (.prim p i) ≠ none → ∃ d, t.nd p = some d ∧ i < d.prims.length
  abs : ∀ p a, V (.abs p a) ≠ none → ∃ d, t.nd p = some d ∧ a < d.abss.length
  cover : ∀ c p, HasTask V (c :: p) → HasTask V p

/-- The tables during the generation of the formula. -/
structure VMFull (P : Problem) (t : T) (S : Flags) (n : Nat) (V : VM) : Prop extends VMInv t n V where
  has : ∀ p, ∀ a ∈ nodeAtoms P t S p, V a ≠ none
  meth : ∀ p a m, V (.meth p a m) ≠ none → .meth p a m ∈ nodeAtoms P t S p

section
variable {P : Problem} {tot : Nat → List Nat} {t : T} {S : Flags}

theorem mem_taskAtoms {p : Path} {d : ND} {x : Atom} : x ∈ taskAtoms p d ↔
    (∃ i < d.prims.length, x = .prim p i) ∨ ∃ a < d.abss.length, x = .abs p a := by
  unfold taskAtoms
  simp only [List.mem_append, List.mem_map, List.mem_range]
  constructor
  · rintro (⟨i, h, rfl⟩ | ⟨i, h, rfl⟩)
    · exact .inl ⟨i, h, rfl⟩
    · exact .inr ⟨i, h, rfl⟩
  · rintro (⟨i, h, rfl⟩ | ⟨i, h, rfl⟩)
    · exact .inl ⟨i, h, rfl⟩
    · exact .inr ⟨i, h, rfl⟩

theorem mem_methAtoms {p : Path} {d : ND} {f : Nat → Bool} {x : Atom} : x ∈ methAtoms P p d f ↔
    ∃ a m y, d.abss[a]? = some y ∧ m < (meths P y).length ∧ f a = true ∧ x = .meth p a m := by
  unfold methAtoms
  simp only [List.mem_flatMap, List.mem_filter, List.mem_map, List.mem_range]
  constructor
  · rintro ⟨a, ⟨ha, hf⟩, m, hm, rfl⟩
    rw [List.getD_eq_getElem _ _ ha] at hm
    exact ⟨a, m, _, List.getElem?_eq_getElem ha, hm, hf, rfl⟩
  · rintro ⟨a, m, y, hy, hm, hf, rfl⟩
    refine ⟨a, ⟨(List.getElem?_eq_some_iff.1 hy).1, hf⟩, m, ?_, rfl⟩
    rw [getD_of hy]
    exact hm

/-- The entries of a vertex. -/
theorem mem_nodeAtoms {p : Path} {x : Atom} : x ∈ nodeAtoms P t S p ↔ ∃ d, t.nd p = some d ∧
    (x = .none p ∨ (∃ i < d.prims.length, x = .prim p i ∧ S (.prim p i) = false) ∨
      (∃ a < d.abss.length, x = .abs p a ∧ S (.abs p a) = false) ∨
      ∃ e a m y, t.ex p = some e ∧ d.abss[a]? = some y ∧ m < (meths P y).length ∧ x = .meth p a m ∧ S (.meth p a m) = false) := by
  unfold nodeAtoms
  cases hd : t.nd p with
  | none => simp
  | some d =>
    simp only [Option.some.injEq, exists_eq_left']
    rw [List.mem_cons, List.mem_filter, List.mem_append, mem_taskAtoms]
    refine or_congr Iff.rfl ?_
    constructor
    · rintro ⟨(⟨i, hi, rfl⟩ | ⟨a, ha, rfl⟩) | hm, hs⟩
      · exact .inl ⟨i, hi, rfl, by simpa [Atom.pruned] using hs⟩
      · exact .inr (.inl ⟨a, ha, rfl, by simpa [Atom.pruned] using hs⟩)
      · cases he : t.ex p with
        | none => rw [he] at hm; simp at hm
        | some e =>
          rw [he] at hm
          simp only [Option.isSome_some, if_true] at hm
          obtain ⟨a, m, y, hy, hlt, -, rfl⟩ := mem_methAtoms.1 hm
          exact .inr (.inr ⟨e, a, m, y, rfl, hy, hlt, rfl, by simpa [Atom.pruned] using hs⟩)
    · rintro (⟨i, hi, rfl, hs⟩ | ⟨a, ha, rfl, hs⟩ | ⟨e, a, m, y, he, hy, hlt, rfl, hs⟩)
      · exact ⟨.inl (.inl ⟨i, hi, rfl⟩), by simpa [Atom.pruned] using hs⟩
      · exact ⟨.inl (.inr ⟨a, ha, rfl⟩), by simpa [Atom.pruned] using hs⟩
      · refine ⟨.inr ?_, by simpa [Atom.pruned] using hs⟩
        rw [he]
        exact mem_methAtoms.2 ⟨a, m, y, hy, hlt, rfl, rfl⟩

theorem nodeAtoms_path {p q : Path} {x : Atom} (h : x ∈ nodeAtoms P t S p) :
    (x = .none q ∨ (∃ i, x = .prim q i) ∨ (∃ a, x = .abs q a) ∨ ∃ a m, x = .meth q a m) → p = q := by
  obtain ⟨d, -, h⟩ := mem_nodeAtoms.1 h
  intro h'
  rcases h with rfl | ⟨i, -, rfl, -⟩ | ⟨i, -, rfl, -⟩ | ⟨e, a, m, y, -, -, -, rfl, -⟩ <;> simpa using h'

/-- A task that is not pruned has a cause that is not pruned. -/
theorem cause_open (ht : t.OK P tot) (hS : ∀ q, LocalW P t S q) {c : Nat} {p : Path} {ch : ND} (hch : t.nd (c :: p) = some ch)
    {b : Bool} {j : Nat} (hj : j < (ch.tasks b).length) (hs : S (if b then .prim (c :: p) j else .abs (c :: p) j) = false) :
    ∃ (cs : List Cause) (k : Nat) (x : Cause), (ch.causes b)[j]? = some cs ∧ cs[k]? = some x ∧
      S (causeFlag b (c :: p) j k) = false := by
  obtain ⟨e, he, hc⟩ := (ht.child c p ch).1 hch
  obtain ⟨d, hd, -, -, hexp, -⟩ := ht.ex p e he
  have hlen : (ch.causes b).length = (ch.tasks b).length := by
    cases b with
    | true => exact hexp.lenP c ch hc
    | false => exact hexp.lenA c ch hc
  have hcs : (ch.causes b)[j]? = some (ch.causes b)[j] := List.getElem?_eq_getElem (by omega)
  by_contra hno
  push Not at hno
  have hall : ∀ k < ((ch.causes b)[j]).length, S (causeFlag b (c :: p) j k) = true := by
    intro k hk
    have := hno _ k _ hcs (List.getElem?_eq_getElem hk)
    simpa using this
  cases b with
  | true =>
    have := (hS (c :: p)).causesP ch j _ hch (by simp) hj hcs hall
    rw [if_pos rfl, this] at hs
    exact absurd hs (by simp)
  | false =>
    have := (hS (c :: p)).causesA ch j _ hch (by simp) hj hcs hall
    rw [if_neg (by simp), this] at hs
    exact absurd hs (by simp)

/-- A cause that is not flagged belongs to a method or task that is not pruned. -/
theorem cause_mother (ht : t.OK P tot) (hS : ∀ q, LocalW P t S q) {c : Nat} {p : Path} {ch : ND} {e : EX} {d : ND}
    (he : t.ex p = some e) (hd : t.nd p = some d) (hc : e.children[c]? = some ch) {b : Bool} {j k : Nat} {cs : List Cause}
    {x : Cause} (hcs : (ch.causes b)[j]? = some cs) (hx : cs[k]? = some x) (hs : S (causeFlag b (c :: p) j k) = false) :
    motherAtom p x ∈ nodeAtoms P t S p := by
  obtain ⟨d', hd', -, -, hexp, -⟩ := ht.ex p e he
  rw [hd] at hd'
  obtain rfl := Option.some.inj hd'
  cases x with
  | meth a m =>
    obtain ⟨hptr, m', y, hy, hm⟩ := hexp.cause_ptr c ch b j cs k a m hc hcs hx
    have hm' := (List.getElem?_eq_some_iff.1 hm).1
    refine mem_nodeAtoms.2 ⟨d, hd, .inr (.inr (.inr ⟨e, a, m, y, he, hy, hm', rfl, ?_⟩))⟩
    by_contra hf
    have hf : S (.meth p a m) = true := by simpa using hf
    have := (hS p).methChild d e y a m c _ hd he hy hm' hptr hf
    rw [hs] at this
    exact absurd this (by simp)
  | inh i =>
    obtain ⟨rfl, hpos⟩ := hexp.inh_pos c ch b j cs k i hc hcs hx
    have hne : e.children ≠ [] := fun h0 => by rw [h0] at hc; exact absurd hc (by simp)
    have hi : i < d.prims.length := by
      rw [← hexp.lenPos hne]; exact (List.getElem?_eq_some_iff.1 hpos).1
    refine mem_nodeAtoms.2 ⟨d, hd, .inr (.inl ⟨i, hi, rfl, ?_⟩)⟩
    by_contra hf
    have hf : S (.prim p i) = true := by simpa using hf
    have := (hS p).primChild d e i c j k hd he hi hpos hf
    rw [show S (.causeP (c :: p) j k) = false from hs] at this
    exact absurd this (by simp)

/-- The assignment of variables. -/
theorem assignVars_spec (ht : t.OK P tot) (hS : ∀ q, LocalW P t S q) {n : Nat} {V : VM} (hV : VMInv t n V) :
    VMFull P t S (assignVars P t S n V).1 (assignVars P t S n V).2 ∧ n ≤ (assignVars P t S n V).1 ∧
    ∀ a x, a.isMeth = false → V a = some x → (assignVars P t S n V).2 a = some x := by
  have h0 : VarsOK n (fun a => if a.isMeth then none else V a) := by
    have hk : ∀ a x, (if a.isMeth then none else V a) = some x → V a = some x := by
      intro a x h
      cases hm : a.isMeth with
      | true => rw [hm, if_pos rfl] at h; exact absurd h (by simp)
      | false => rw [hm, if_neg (by simp)] at h; exact h
    exact ⟨fun a b x ha hb => hV.vars.inj a b x (hk a x ha) (hk b x hb), fun a x ha => hV.vars.rng a x (hk a x ha)⟩
  have h := giveVars_spec (t.nodes.flatMap (nodeAtoms P t S)) h0
  change Given n _ _ (assignVars P t S n V).1 (assignVars P t S n V).2 at h
  generalize (assignVars P t S n V).1 = n' at *
  generalize (assignVars P t S n V).2 = V' at *
  have hkeep : ∀ a x, a.isMeth = false → V a = some x → V' a = some x := by
    intro a x hm hx
    refine h.keep a x ?_
    show (if a.isMeth then none else V a) = some x
    rw [hm, if_neg (by simp)]; exact hx
  have hmem : ∀ p a, a ∈ nodeAtoms P t S p → V' a ≠ none := by
    intro p a ha
    obtain ⟨d, hd, -⟩ := mem_nodeAtoms.1 ha
    exact (h.iff a).2 (.inr (List.mem_flatMap.2 ⟨p, mem_nodes ht p d hd, ha⟩))
  have hinv : ∀ a, V' a ≠ none → (a.isMeth = false ∧ V a ≠ none) ∨ ∃ p, a ∈ nodeAtoms P t S p := by
    intro a ha
    rcases (h.iff a).1 ha with h' | h'
    · left
      cases hm : a.isMeth with
      | true => exact absurd (show (if a.isMeth then none else V a) = none by rw [hm, if_pos rfl]) h'
      | false => exact ⟨rfl, fun e => h' (by show (if a.isMeth then none else V a) = none; rw [hm, if_neg (by simp), e])⟩
    · obtain ⟨p, -, hp⟩ := List.mem_flatMap.1 h'
      exact .inr ⟨p, hp⟩
  refine ⟨⟨⟨h.ok, fun p i hi => ?_, fun p a ha => ?_, fun c p hc => ?_⟩, hmem, fun p a m hm => ?_⟩, h.le, hkeep⟩
  · rcases hinv _ hi with ⟨-, h'⟩ | ⟨q, h'⟩
    · exact hV.prim p i h'
    · obtain rfl := nodeAtoms_path (q := p) h' (.inr (.inl ⟨i, rfl⟩))
      obtain ⟨d, hd, h'⟩ := mem_nodeAtoms.1 h'
      simp only [reduceCtorEq, Atom.prim.injEq, true_and, false_and, and_false, exists_false, or_false, false_or] at h'
      obtain ⟨j, hj, rfl, -⟩ := h'
      exact ⟨d, hd, hj⟩
  · rcases hinv _ ha with ⟨-, h'⟩ | ⟨q, h'⟩
    · exact hV.abs p a h'
    · obtain rfl := nodeAtoms_path (q := p) h' (.inr (.inr (.inl ⟨a, rfl⟩)))
      obtain ⟨d, hd, h'⟩ := mem_nodeAtoms.1 h'
      simp only [reduceCtorEq, Atom.abs.injEq, true_and, false_and, and_false, exists_false, or_false, false_or] at h'
      obtain ⟨j, hj, rfl, -⟩ := h'
      exact ⟨d, hd, hj⟩
  · -- an open task of the child has an open cause
    have key : ∀ ch b j, t.nd (c :: p) = some ch → j < (ch.tasks b).length →
        S (if b then .prim (c :: p) j else .abs (c :: p) j) = false → HasTask V' p := by
      intro ch b j hch hj hs
      obtain ⟨cs, k, x, hcs, hx, hf⟩ := cause_open ht hS hch hj hs
      obtain ⟨e, he, hce⟩ := (ht.child c p ch).1 hch
      obtain ⟨d, hd, -⟩ := ht.ex p e he
      have hm := cause_mother ht hS he hd hce hcs hx hf
      cases x with
      | inh i => exact .inl ⟨i, hmem p _ hm⟩
      | meth a m =>
        obtain ⟨d', hd', hm⟩ := mem_nodeAtoms.1 hm
        simp only [motherAtom, reduceCtorEq, Atom.meth.injEq, true_and, false_and, and_false, exists_false, false_or] at hm
        obtain ⟨e', a', m', y, he', hy, hlt, ⟨rfl, rfl⟩, hs'⟩ := hm
        refine .inr ⟨a, hmem p _ (mem_nodeAtoms.2 ⟨d', hd', .inr (.inr (.inl ⟨a, (List.getElem?_eq_some_iff.1 hy).1, rfl, ?_⟩))⟩)⟩
        by_contra hf
        have hf : S (.abs p a) = true := by simpa using hf
        have := (hS p).absMeth d' y a m hd' hy (by rw [he]; simp) hf hlt
        rw [hs'] at this
        exact absurd this (by simp)
    have hold : HasTask V p → HasTask V' p := by
      rintro (⟨i, hi⟩ | ⟨i, hi⟩)
      · obtain ⟨x, hx⟩ := Option.ne_none_iff_exists'.1 hi
        exact .inl ⟨i, by rw [hkeep _ x rfl hx]; simp⟩
      · obtain ⟨x, hx⟩ := Option.ne_none_iff_exists'.1 hi
        exact .inr ⟨i, by rw [hkeep _ x rfl hx]; simp⟩
    rcases hc with ⟨i, hi⟩ | ⟨i, hi⟩
    · rcases hinv _ hi with ⟨-, h'⟩ | ⟨q, h'⟩
      · exact hold (hV.cover c p (.inl ⟨i, h'⟩))
      · obtain rfl := nodeAtoms_path (q := c :: p) h' (.inr (.inl ⟨i, rfl⟩))
        obtain ⟨ch, hch, h'⟩ := mem_nodeAtoms.1 h'
        simp only [reduceCtorEq, Atom.prim.injEq, true_and, false_and, and_false, exists_false, or_false, false_or] at h'
        obtain ⟨j, hj, rfl, hs⟩ := h'
        exact key ch true i hch hj hs
    · rcases hinv _ hi with ⟨-, h'⟩ | ⟨q, h'⟩
      · exact hold (hV.cover c p (.inr ⟨i, h'⟩))
      · obtain rfl := nodeAtoms_path (q := c :: p) h' (.inr (.inr (.inl ⟨i, rfl⟩)))
        obtain ⟨ch, hch, h'⟩ := mem_nodeAtoms.1 h'
        simp only [reduceCtorEq, Atom.abs.injEq, true_and, false_and, and_false, exists_false, or_false, false_or] at h'
        obtain ⟨j, hj, rfl, hs⟩ := h'
        exact key ch false i hch hj hs
  · rcases hinv _ hm with ⟨h', -⟩ | ⟨q, h'⟩
    · exact absurd h' (by simp [Atom.isMeth])
    · obtain rfl := nodeAtoms_path (q := p) h' (.inr (.inr (.inr ⟨a, m, rfl⟩)))
      exact h'

end

end Verif.Pdt
