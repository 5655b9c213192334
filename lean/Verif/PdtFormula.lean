import Verif.PdtVars
import Mathlib.Data.List.Nodup
import Mathlib.Data.List.Pairwise

/-! # What the decomposition clauses say -/

namespace Verif.Pdt

open Verif.Htn Verif.Sog Verif.Sat

/-- The entry has a variable and it is true. -/
def tv (V : VM) (v : Assignment) (a : Atom) : Prop := ∃ x, V a = some x ∧ v x = true

/-- The literal of the entry is true. -/
def lt' (V : VM) (v : Assignment) (a : Atom) : Prop := lit v (lv V a) = true

section
variable {P : Problem} {tot : Nat → List Nat} {t : T} {S : Flags} {n : Nat} {V : VM} {v : Assignment}

theorem lit_var (hV : VarsOK n V) {a : Atom} {x : Nat} (h : V a = some x) : lit v (x : Int) = v x :=
  lit_pos (by have := (hV.rng a x h).1; omega)

theorem lit_nvar (hV : VarsOK n V) {a : Atom} {x : Nat} (h : V a = some x) : lit v (-(x : Int)) = !v x := by
  have := (hV.rng a x h).1
  rw [lit_neg (by omega), lit_var hV h]

theorem lv_some {a : Atom} {x : Nat} (h : V a = some x) : lv V a = (x : Int) := by unfold lv; rw [h]

theorem lt'_iff (hV : VarsOK n V) {a : Atom} (h : V a ≠ none) : lt' V v a ↔ tv V v a := by
  obtain ⟨x, hx⟩ := Option.ne_none_iff_exists'.1 h
  unfold lt' tv
  rw [lv_some hx, lit_var hV hx]
  constructor
  · exact fun h => ⟨x, hx, h⟩
  · rintro ⟨y, hy, h⟩
    rw [hx] at hy
    obtain rfl := Option.some.inj hy
    exact h

theorem tv_some {a : Atom} {x : Nat} (h : V a = some x) : tv V v a ↔ v x = true := by
  unfold tv
  rw [h]
  simp

theorem tv_ne {a : Atom} (h : tv V v a) : V a ≠ none := by
  obtain ⟨x, hx, -⟩ := h
  rw [hx]; simp

theorem sat_imp (hV : VarsOK n V) {a : Atom} {x : Nat} (h : V a = some x) (l : Int) :
    satClause v (implies x l) ↔ (tv V v a → lit v l = true) := by
  unfold satClause implies
  rw [tv_some h]
  simp only [List.mem_cons, List.not_mem_nil, or_false, exists_eq_or_imp, exists_eq_left]
  rw [lit_nvar hV h]
  cases v x <;> simp

theorem mem_varsOf {l : List Atom} {y : Int} : y ∈ varsOf V l ↔ ∃ a ∈ l, ∃ x, V a = some x ∧ y = (x : Int) := by
  unfold varsOf
  simp only [List.mem_map, List.mem_filterMap]
  constructor
  · rintro ⟨x, ⟨a, ha, hx⟩, rfl⟩; exact ⟨a, ha, x, hx, rfl⟩
  · rintro ⟨a, ha, x, hx, rfl⟩; exact ⟨x, ⟨a, ha, hx⟩, rfl⟩

theorem varsOf_nil {l : List Atom} : varsOf V l = [] ↔ ∀ a ∈ l, V a = none := by
  unfold varsOf
  rw [List.map_eq_nil_iff, List.filterMap_eq_nil_iff]

theorem sat_impOr (hV : VarsOK n V) {a : Atom} {x : Nat} (h : V a = some x) (l : List Int) :
    satClause v (impliesOr x l) ↔ (tv V v a → ∃ y ∈ l, lit v y = true) := by
  unfold satClause impliesOr
  rw [tv_some h]
  simp only [List.mem_cons, exists_eq_or_imp]
  rw [lit_nvar hV h]
  cases v x <;> simp

theorem sat_varsOf (hV : VarsOK n V) (l : List Atom) : (∃ y ∈ varsOf V l, lit v y = true) ↔ ∃ a ∈ l, tv V v a := by
  constructor
  · rintro ⟨y, hy, h⟩
    obtain ⟨a, ha, x, hx, rfl⟩ := mem_varsOf.1 hy
    rw [lit_var hV hx] at h
    exact ⟨a, ha, x, hx, h⟩
  · rintro ⟨a, ha, x, hx, h⟩
    exact ⟨x, mem_varsOf.2 ⟨a, ha, x, hx, rfl⟩, by rw [lit_var hV hx]; exact h⟩

theorem holds_amo (hV : VarsOK n V) {l : List Atom} (hl : l.Nodup) : (Item.amo (varsOf V l)).Holds v ↔
    ∀ a ∈ l, ∀ b ∈ l, tv V v a → tv V v b → a = b := by
  show (varsOf V l).countP (lit v) ≤ 1 ↔ _
  rw [countP_le_one]
  unfold varsOf
  rw [List.pairwise_map, List.pairwise_filterMap]
  constructor
  · intro h a ha b hb h1 h2
    by_contra hne
    obtain ⟨x, hx, hvx⟩ := h1
    obtain ⟨y, hy, hvy⟩ := h2
    haveI : Std.Symm fun a a' => ∀ b, V a = some b → ∀ b', V a' = some b' → ¬(lit v (b : Int) = true ∧ lit v (b' : Int) = true) :=
      ⟨fun a b h x hx y hy hc => h y hy x hx ⟨hc.2, hc.1⟩⟩
    have := h.forall ha hb hne x hx y hy
    rw [lit_var hV hx, lit_var hV hy] at this
    exact this ⟨hvx, hvy⟩
  · intro h
    refine hl.pairwise_of_forall_ne ?_
    intro a ha b hb hne x hx y hy hc
    rw [lit_var hV hx, lit_var hV hy] at hc
    exact hne (h a ha b hb ⟨x, hx, hc.1⟩ ⟨y, hy, hc.2⟩)

theorem sat_allNot (hV : VarsOK n V) {a : Atom} (ha : V a ≠ none) (l : List Atom) :
    (∀ c ∈ impliesAllNot (lv V a) (varsOf V l), satClause v c) ↔ (tv V v a → ∀ b ∈ l, ¬ tv V v b) := by
  obtain ⟨x, hx⟩ := Option.ne_none_iff_exists'.1 ha
  rw [lv_some hx]
  unfold impliesAllNot
  simp only [List.forall_mem_map]
  constructor
  · rintro h h1 b hb ⟨y, hy, hvy⟩
    obtain ⟨l', hl', h'⟩ := h y (mem_varsOf.2 ⟨b, hb, y, hy, rfl⟩)
    rw [tv_some hx] at h1
    simp only [List.mem_cons, List.not_mem_nil, or_false] at hl'
    rcases hl' with rfl | rfl
    · rw [lit_nvar hV hx, h1] at h'; exact absurd h' (by simp)
    · rw [lit_nvar hV hy, hvy] at h'; exact absurd h' (by simp)
  · intro h y hy
    obtain ⟨b, hb, z, hz, rfl⟩ := mem_varsOf.1 hy
    by_cases h1 : tv V v a
    · have := h h1 b hb
      rw [tv_some hz] at this
      exact ⟨_, List.mem_cons_of_mem _ List.mem_cons_self, by rw [lit_nvar hV hz]; simpa using this⟩
    · rw [tv_some hx] at h1
      exact ⟨_, List.mem_cons_self, by rw [lit_nvar hV hx]; simpa using h1⟩

theorem taskAtoms_nodup (p : Path) (d : ND) : (taskAtoms p d).Nodup := by
  unfold taskAtoms
  rw [List.nodup_append]
  refine ⟨?_, ?_, ?_⟩
  · exact List.nodup_range.map fun a b h => by simpa using h
  · exact List.nodup_range.map fun a b h => by simpa using h
  · intro a ha b hb
    simp only [List.mem_map] at ha hb
    obtain ⟨_, -, rfl⟩ := ha
    obtain ⟨_, -, rfl⟩ := hb
    simp

theorem methAtoms_nodup (p : Path) (d : ND) (f : Nat → Bool) : (methAtoms P p d f).Nodup := by
  unfold methAtoms
  rw [List.nodup_flatMap]
  refine ⟨fun a _ => List.nodup_range.map fun x y h => by simpa using h, ?_⟩
  refine (List.nodup_range.filter _).imp ?_
  intro a b hab x hx hy
  simp only [List.mem_map] at hx hy
  obtain ⟨_, -, rfl⟩ := hx
  obtain ⟨_, -, h⟩ := hy
  simp only [Atom.meth.injEq, true_and] at h
  exact hab h.1.symm

/-- What the clauses of a vertex say. -/
structure NodeSem (P : Problem) (V : VM) (S : Flags) (v : Assignment) (p : Path) (d : ND) (e : EX) : Prop where
  amoT : ∀ a ∈ taskAtoms p d, ∀ b ∈ taskAtoms p d, tv V v a → tv V v b → a = b
  amoM : ∀ a ∈ methAtoms P p d (fun a => !S (.abs p a)), ∀ b ∈ methAtoms P p d (fun a => !S (.abs p a)), tv V v a → tv V v b → a = b
  prim : ∀ i < d.prims.length, tv V v (.prim p i) → ∀ c j k, e.posP[i]? = some (c, j, k) → lt' V v (.prim (c :: p) j) ∧
    ∀ c' < e.children.length, c' ≠ c → lt' V v (.none (c' :: p))
  meth : ∀ (a y : Nat), d.abss[a]? = some y → V (.abs p a) ≠ none → ∀ m < (meths P y).length, tv V v (.meth p a m) →
    tv V v (.abs p a) ∧ ∀ c < e.children.length, lt' V v (ptrAtom e p a m c)
  abs : ∀ (a y : Nat), d.abss[a]? = some y → tv V v (.abs p a) → ∃ m < (meths P y).length, tv V v (.meth p a m)
  cause : ∀ (c : Nat) (ch : ND), e.children[c]? = some ch → ∀ b, ∀ j < (ch.tasks b).length, tv V v (taskAtom b (c :: p) j) →
    ∃ (k : Nat) (x : Cause), ((ch.causes b).getD j [])[k]? = some x ∧ S (causeFlag b (c :: p) j k) = false ∧ lt' V v (motherAtom p x)
  none : tv V v (.none p) → (∀ a ∈ taskAtoms p d, ¬ tv V v a) ∧ ∀ c < e.children.length, lt' V v (.none (c :: p))

theorem sem_prim (hV : VarsOK n V) {p : Path} {d : ND} {e : EX} : (∀ c ∈ primClauses V p d e, satClause v c) ↔
    ∀ i < d.prims.length, tv V v (.prim p i) → ∀ c j k, e.posP[i]? = some (c, j, k) → lt' V v (.prim (c :: p) j) ∧
      ∀ c' < e.children.length, c' ≠ c → lt' V v (.none (c' :: p)) := by
  unfold primClauses
  simp only [List.forall_mem_flatMap, List.mem_range]
  refine forall_congr' fun i => forall_congr' fun hi => ?_
  cases hx : V (.prim p i) with
  | none => exact ⟨fun _ h => absurd hx (tv_ne h), fun _ => by simp⟩
  | some x =>
    cases hpos : e.posP[i]? with
    | none => simp
    | some r =>
      obtain ⟨c, j, k⟩ := r
      simp only [List.forall_mem_cons, List.forall_mem_map, List.mem_filter, List.mem_range, sat_imp hV hx]
      constructor
      · rintro ⟨h1, h2⟩ ht c' j' k' h'
        obtain ⟨rfl, rfl, rfl⟩ : c = c' ∧ j = j' ∧ k = k' := by simpa using h'
        exact ⟨h1 ht, fun c' hc hne => h2 c' ⟨hc, by simpa using hne⟩ ht⟩
      · intro h
        exact ⟨fun ht => (h ht c j k rfl).1, fun c' hc ht => (h ht c j k rfl).2 c' hc.1 (by simpa using hc.2)⟩

theorem sem_meth (hV : VarsOK n V) {p : Path} {e : EX} {a m av mv : Nat} (ha : V (.abs p a) = some av)
    (hm : V (.meth p a m) = some mv) : (∀ c ∈ methClauses V p e a m av mv, satClause v c) ↔
    (tv V v (.meth p a m) → tv V v (.abs p a) ∧ ∀ c < e.children.length, lt' V v (ptrAtom e p a m c)) := by
  unfold methClauses
  simp only [List.forall_mem_cons, List.forall_mem_map, List.mem_range, sat_imp hV hm]
  simp only [lit_var hV ha, ← tv_some (v := v) ha]
  constructor
  · rintro ⟨h1, h2⟩ h
    exact ⟨h1 h, fun c hc => h2 c hc h⟩
  · intro h
    exact ⟨fun h' => (h h').1, fun c hc h' => (h h').2 c hc⟩

theorem sem_abs (hV : VarsOK n V) {p : Path} {d : ND} {e : EX} : (∀ c ∈ absClauses P V p d e, satClause v c) ↔
    (∀ (a y : Nat), d.abss[a]? = some y → V (.abs p a) ≠ none → ∀ m < (meths P y).length, tv V v (.meth p a m) →
      tv V v (.abs p a) ∧ ∀ c < e.children.length, lt' V v (ptrAtom e p a m c)) ∧
    ∀ (a y : Nat), d.abss[a]? = some y → tv V v (.abs p a) → ∃ m < (meths P y).length, tv V v (.meth p a m) := by
  rw [← forall_and]
  unfold absClauses
  simp only [List.forall_mem_flatMap, List.mem_range, List.forall_mem_append]
  constructor
  · intro h a
    refine ⟨fun y hy hne m hm hmv => ?_, fun y hy ht => ?_⟩
    · have := h a (List.getElem?_eq_some_iff.1 hy).1
      rw [getD_of hy] at this
      obtain ⟨av, hav⟩ := Option.ne_none_iff_exists'.1 hne
      rw [hav] at this
      simp only [List.forall_mem_append, List.forall_mem_flatMap, List.mem_range] at this
      obtain ⟨mv, hmv'⟩ := Option.ne_none_iff_exists'.1 (tv_ne hmv)
      have := this.1 m hm
      rw [hmv'] at this
      exact (sem_meth hV hav hmv').1 this hmv
    · have := h a (List.getElem?_eq_some_iff.1 hy).1
      rw [getD_of hy] at this
      obtain ⟨av, hav⟩ := Option.ne_none_iff_exists'.1 (tv_ne ht)
      rw [hav] at this
      simp only [List.forall_mem_append, List.forall_mem_singleton] at this
      obtain ⟨x, hx, hx'⟩ := (sat_varsOf hV _).1 ((sat_impOr hV hav _).1 this.2 ht)
      obtain ⟨m, hm, rfl⟩ := List.mem_map.1 hx
      exact ⟨m, List.mem_range.1 hm, hx'⟩
  · intro h a ha
    have hy : d.abss[a]? = some d.abss[a] := List.getElem?_eq_getElem ha
    rw [getD_of hy]
    cases hav : V (.abs p a) with
    | none => simp
    | some av =>
      simp only [List.forall_mem_append, List.forall_mem_flatMap, List.mem_range, List.forall_mem_singleton]
      refine ⟨fun m hm => ?_, (sat_impOr hV hav _).2 fun ht => (sat_varsOf hV _).2 ?_⟩
      · cases hmv : V (.meth p a m) with
        | none => simp
        | some mv =>
          simp only
          exact (sem_meth hV hav hmv).2 ((h a).1 _ hy (by rw [hav]; simp) m hm)
      · obtain ⟨m, hm, h'⟩ := (h a).2 _ hy ht
        exact ⟨_, List.mem_map.2 ⟨m, List.mem_range.2 hm, rfl⟩, h'⟩

theorem sem_cause (hV : VarsOK n V) {p : Path} {c : Nat} {ch : ND} {b : Bool} :
    (∀ x ∈ causeClauses V S p c ch b, satClause v x) ↔ ∀ j < (ch.tasks b).length, tv V v (taskAtom b (c :: p) j) →
      ∃ (k : Nat) (x : Cause), ((ch.causes b).getD j [])[k]? = some x ∧ S (causeFlag b (c :: p) j k) = false ∧
        lt' V v (motherAtom p x) := by
  unfold causeClauses
  simp only [List.forall_mem_flatMap, List.mem_range]
  refine forall_congr' fun j => forall_congr' fun hj => ?_
  cases hx : V (taskAtom b (c :: p) j) with
  | none => exact ⟨fun _ h => absurd hx (tv_ne h), fun _ => by simp⟩
  | some x =>
    simp only [List.forall_mem_singleton]
    rw [sat_impOr hV hx]
    refine imp_congr Iff.rfl ?_
    simp only [List.mem_map, List.mem_filter]
    constructor
    · rintro ⟨_, ⟨⟨y, k⟩, ⟨hy, hs⟩, rfl⟩, h⟩
      exact ⟨k, y, List.mk_mem_zipIdx_iff_getElem?.1 hy, by simpa using hs, h⟩
    · rintro ⟨k, y, hy, hs, h⟩
      exact ⟨_, ⟨(y, k), ⟨List.mk_mem_zipIdx_iff_getElem?.2 hy, by simpa using hs⟩, rfl⟩, h⟩

/-- The clauses of a vertex say what `NodeSem` says. -/
theorem node_holds (hV : VarsOK n V) {p : Path} {d : ND} {e : EX} (hn : V (.none p) ≠ none) :
    (∀ it ∈ nodeItems P V S p d e, it.Holds v) ↔ NodeSem P V S v p d e := by
  obtain ⟨nv, hnv⟩ := Option.ne_none_iff_exists'.1 hn
  have hamoM : (∀ it ∈ (if varsOf V (methAtoms P p d fun a => !S (.abs p a)) = [] then []
      else [Item.amo (varsOf V (methAtoms P p d fun a => !S (.abs p a)))]), it.Holds v) ↔
      (Item.amo (varsOf V (methAtoms P p d fun a => !S (.abs p a)))).Holds v := by
    by_cases h : varsOf V (methAtoms P p d fun a => !S (.abs p a)) = []
    · rw [if_pos h, h]; simp [Item.Holds]
    · rw [if_neg h, List.forall_mem_singleton]
  have hcl : ∀ c : Clause, (Item.cl c).Holds v ↔ satClause v c := fun c => Iff.rfl
  unfold nodeItems
  simp only [List.forall_mem_append, List.forall_mem_singleton, hamoM, hcl, holds_amo hV (taskAtoms_nodup p d),
    holds_amo hV (methAtoms_nodup p d _), sem_prim hV, sem_abs hV, List.forall_mem_flatMap, sem_cause hV, sat_allNot hV hn,
    List.forall_mem_map, List.mem_range]
  simp only [lv_some hnv, sat_imp hV hnv]
  constructor
  · rintro ⟨⟨h1, h2⟩, ⟨⟨⟨⟨h3, h4, h5⟩, h6⟩, h7⟩, h8⟩, h9⟩
    refine ⟨h1, h2, h3, h4, h5, fun c ch hc b j hj ht => ?_, fun ht => ⟨fun a ha => ?_, fun c hc => h9 c hc ht⟩⟩
    · have := h6 c (List.getElem?_eq_some_iff.1 hc).1
      rw [getD_of hc] at this
      cases b with
      | false => exact this.1 j hj ht
      | true => exact this.2 j hj ht
    · rcases mem_taskAtoms.1 ha with ⟨i, hi, rfl⟩ | ⟨i, hi, rfl⟩
      · exact h7 ht i hi
      · exact h8 ht i hi
  · intro h
    refine ⟨⟨h.amoT, h.amoM⟩, ⟨⟨⟨⟨h.prim, h.meth, h.abs⟩, fun c hc => ?_⟩, fun ht a ha => ?_⟩, fun ht a ha => ?_⟩, fun c hc ht => ?_⟩
    · have hch : e.children[c]? = some e.children[c] := List.getElem?_eq_getElem hc
      rw [getD_of hch]
      exact ⟨h.cause c _ hch false, h.cause c _ hch true⟩
    · exact (h.none ht).1 _ (mem_taskAtoms.2 (.inl ⟨a, ha, rfl⟩))
    · exact (h.none ht).1 _ (mem_taskAtoms.2 (.inr ⟨a, ha, rfl⟩))
    · exact (h.none ht).2 c hc

end

end Verif.Pdt
