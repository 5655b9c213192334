import Verif.ReadTables
import Verif.Props.Ordering
import Verif.Props.Parse
import Mathlib.Data.List.Perm.Subperm

/-! # C74: reading a problem file -/

namespace Verif.Props

open Verif.Parse Verif.Ordering Verif.TaskCounter Verif.IntUtil Verif.ReadFile Verif.Htn Relation

/-! ## What is to be read -/

/-- A table of ascending lists: the list for `f` contains the `a` with `R f a`. -/
structure Table (t : List (List Nat)) (n : Nat) (R : Nat → Nat → Prop) : Prop where
  size : t.length = n
  sorted : ∀ l ∈ t, l.Pairwise (· < ·)
  mem : ∀ (f : Nat) (l : List Nat), t[f]? = some l → ∀ a, a ∈ l ↔ R f a

/-- The classical part agrees with the description. -/
structure MatchesC (D : Desc) (c : Classical) : Prop where
  facts : c.facts = D.facts
  vars : c.vars.length = D.vars.length
  var : ∀ (i : Nat) (v : VarD), D.vars[i]? = some v → c.vars[i]? = some (VarM.mk v.first v.last v.name)
  /-- the last variable that contains the fact -/
  varOf : ∀ (f i : Nat), c.varOf f = some i ↔ (∃ v : VarD, D.vars[i]? = some v ∧ v.first ≤ f ∧ f ≤ v.last) ∧ ∀ (j : Nat) (v : VarD), i < j → D.vars[j]? = some v → ¬ (v.first ≤ f ∧ f ≤ v.last)
  strict : c.strict = D.strict
  mutex : c.mutex = D.mutex
  invs : c.invs = D.invs
  acts : c.acts.length = D.acts.length
  act : ∀ (i : Nat) (a : ActD), D.acts[i]? = some a → ∃ b : ActM, c.acts[i]? = some b ∧ b.cost = a.cost ∧ b.prec.Nodup ∧ (∀ f, f ∈ b.prec ↔ f ∈ a.prec) ∧
    (∀ f, f ∈ b.add ↔ ([], f) ∈ a.add) ∧ (∀ f, f ∈ b.del ↔ ([], f) ∈ a.del) ∧
    (∀ x, x ∈ b.addC ↔ ∃ (C : List Nat) (f : Nat), (C, f) ∈ a.add ∧ C ≠ [] ∧ x = (C.map fun (n : Nat) => (n : Int), (f : Int))) ∧
    (∀ x, x ∈ b.delC ↔ ∃ (C : List Nat) (f : Nat), (C, f) ∈ a.del ∧ C ≠ [] ∧ x = (C.map fun (n : Nat) => (n : Int), (f : Int))) ∧
    b.addC.length + b.add.length = a.add.length ∧ b.delC.length + b.del.length = a.del.length
  precLess : c.precLess.Pairwise (· < ·) ∧ ∀ i : Nat, i ∈ c.precLess ↔ ∃ a : ActD, D.acts[i]? = some a ∧ a.prec = []
  precToAction : Table c.precToAction D.facts.length fun f i => ∃ a : ActD, D.acts[i]? = some a ∧ f ∈ a.prec
  addToAction : Table c.addToAction D.facts.length fun f i => ∃ a : ActD, D.acts[i]? = some a ∧ ([], f) ∈ a.add
  delToAction : Table c.delToAction D.facts.length fun f i => ∃ a : ActD, D.acts[i]? = some a ∧ ([], f) ∈ a.del
  s0 : c.s0 = D.s0
  goal : c.goal = D.goal
  tasks : c.tasks.length = D.tasks.length
  task : ∀ (i : Nat) (b : Bool) (n : List Char), D.tasks[i]? = some (b, n) → c.tasks[i]? = some (!b, n)

/-- The tables of the hierarchy agree with its methods; `prim`: which tasks are primitive. -/
structure Tables (H : Hier) (nT : Nat) (prim : Nat → Bool) : Prop where
  stToMethod : Table H.stToMethod nT fun t i => ∃ m : MethM, H.methods[i]? = some m ∧ t ∈ m.sub
  taskToMethods : Table H.taskToMethods nT fun t i => ∃ m : MethM, H.methods[i]? = some m ∧ m.head = t
  firsts : Table H.firsts H.methods.length fun i p => ∃ m : MethM, H.methods[i]? = some m ∧ p < m.sub.length ∧ ∀ q, (q, p) ∉ m.ord
  lasts : Table H.lasts H.methods.length fun i p => ∃ m : MethM, H.methods[i]? = some m ∧ p < m.sub.length ∧ ∀ q, (p, q) ∉ m.ord
  /-- the distinct subtasks, ascending, with how often they occur -/
  distinct : H.distinct.length = H.methods.length ∧ ∀ (i : Nat) (c : Counter) (m : MethM), H.distinct[i]? = some c → H.methods[i]? = some m → Ok c ∧ ∀ t, cnt c t = m.sub.count t
  /-- the number of successors -/
  succNum : H.succNum.length = H.methods.length ∧ ∀ (i : Nat) (l : List Nat) (m : MethM), H.succNum[i]? = some l → H.methods[i]? = some m →
    l.length = m.sub.length ∧ ∀ p n : Nat, l[p]? = some n → n = (m.ord.filter fun o => o.1 == p).length
  /-- the numbers of primitive and abstract first subtasks -/
  firstPrim : H.numFirstPrim.length = H.methods.length ∧ ∀ (i n : Nat) (l : List Nat) (m : MethM), H.numFirstPrim[i]? = some n → H.firsts[i]? = some l → H.methods[i]? = some m →
    n = (l.filter fun p => prim (m.sub[p]?.getD 0)).length
  firstAbs : H.numFirstAbs.length = H.methods.length ∧ ∀ (i n : Nat) (l : List Nat) (m : MethM), H.numFirstAbs[i]? = some n → H.firsts[i]? = some l → H.methods[i]? = some m →
    n = (l.filter fun p => !prim (m.sub[p]?.getD 0)).length

/-- The hierarchy agrees with the description. -/
structure MatchesH (D : Desc) (h : HierD) (H : Hier) : Prop where
  init : H.init = h.init
  methods : H.methods.length = h.methods.length
  method : ∀ (i : Nat) (m : MethD), h.methods[i]? = some m → ∃ m' : MethM, H.methods[i]? = some m' ∧ m'.name = m.name ∧ m'.head = m.head ∧ m'.sub = m.sub ∧ m'.ord.Nodup ∧
    (∀ x y, (x, y) ∈ m'.ord ↔ TransGen (Rel m.ord) x y ∧ ∀ z, ¬ (TransGen (Rel m.ord) x z ∧ TransGen (Rel m.ord) z y)) ∧
    (∀ o ∈ m'.ord, o.1 < m.sub.length ∧ o.2 < m.sub.length) ∧
    (Acyclic m.ord → (∀ x y, TransGen (Rel m'.ord) x y ↔ TransGen (Rel m.ord) x y) ∧
      ∀ p ∈ m'.ord, ¬ TransGen (fun x y => (x, y) ∈ m'.ord ∧ (x, y) ≠ p) p.1 p.2)
  total : (∀ m ∈ h.methods, Acyclic m.ord) → (H.flags.totallyOrdered = true ↔
    ∀ m ∈ h.methods, ∀ x y, x < m.sub.length → y < m.sub.length → x ≠ y → TransGen (Rel m.ord) x y ∨ TransGen (Rel m.ord) y x)
  tables : Tables H D.tasks.length fun t => (D.tasks[t]?).any fun x => !x.1

/-! ## The classical part -/

theorem mem_plain {es : List (List Nat × Nat)} {f : Nat} : f ∈ plain es ↔ ([], f) ∈ es := by
  simp only [plain, List.mem_map, List.mem_filter, List.isEmpty_iff, Prod.exists]
  constructor
  · rintro ⟨c, f', ⟨h, rfl⟩, rfl⟩
    exact h
  · intro h
    exact ⟨[], f, ⟨h, rfl⟩, rfl⟩

theorem mem_guarded {es : List (List Nat × Nat)} {x : List Int × Int} :
    x ∈ guarded es ↔ ∃ (C : List Nat) (f : Nat), (C, f) ∈ es ∧ C ≠ [] ∧ x = (C.map fun (n : Nat) => (n : Int), (f : Int)) := by
  simp only [guarded, List.mem_map, List.mem_filter, Prod.exists]
  constructor
  · rintro ⟨c, f, ⟨h, hc⟩, rfl⟩
    exact ⟨c, f, h, by simpa using hc, rfl⟩
  · rintro ⟨c, f, h, hc, rfl⟩
    exact ⟨c, f, ⟨h, by simpa using hc⟩, rfl⟩

theorem length_effects (es : List (List Nat × Nat)) : (guarded es).length + (plain es).length = es.length := by
  rw [guarded, plain, List.length_map, List.length_map, Nat.add_comm]
  induction es with
  | nil => rfl
  | cons e es ih =>
    obtain ⟨c, f⟩ := e
    cases c <;> simp [List.filter_cons] at * <;> omega

theorem mem_setOf {n : Nat} {l : List Nat} (h : ∀ f ∈ l, f < n) {f : Nat} : f ∈ setOf n l ↔ f ∈ l := by
  simp only [ReadFile.setOf, List.mem_filter, List.mem_range, List.contains_iff_mem]
  exact ⟨fun h => h.2, fun h' => ⟨h f h', h'⟩⟩

theorem range_filter_sorted (n : Nat) (p : Nat → Bool) : ((List.range n).filter p).Pairwise (· < ·) := List.pairwise_lt_range.filter _

theorem dedup_spec {n : Nat} {l : List Nat} (h : ∀ f ∈ l, f < n) : (dedupPrec n l).Nodup ∧ ∀ f, f ∈ dedupPrec n l ↔ f ∈ l := by
  have hnd : (ReadFile.setOf n l).Nodup := (range_filter_sorted n _).imp Nat.ne_of_lt
  rw [dedupPrec]
  split_ifs with hlt
  · exact ⟨hnd, fun f => mem_setOf h⟩
  · refine ⟨?_, fun f => Iff.rfl⟩
    have : (ReadFile.setOf n l).Perm l := (hnd.subperm fun f hf => (mem_setOf h).1 hf).perm_of_length_le (by omega)
    exact this.nodup_iff.1 hnd

theorem inverse_table {n : Nat} (ls : List (List Nat)) : Table (inverse n ls) n fun f a => ∃ l, ls[a]? = some l ∧ f ∈ l := by
  refine ⟨by simp [inverse], ?_, ?_⟩
  · intro l hl
    obtain ⟨f, -, rfl⟩ := List.mem_map.1 hl
    exact range_filter_sorted _ _
  · intro f l hl a
    simp only [inverse, List.getElem?_map, Option.map_eq_some_iff] at hl
    obtain ⟨f', hf', rfl⟩ := hl
    obtain ⟨hlt, rfl⟩ := List.getElem?_eq_some_iff.1 hf'
    simp only [List.getElem_range, List.mem_filter, List.mem_range, List.contains_iff_mem]
    constructor
    · rintro ⟨ha, hm⟩
      exact ⟨ls[a], List.getElem?_eq_getElem ha, by simpa [List.getElem?_eq_getElem ha] using hm⟩
    · rintro ⟨l, hl, hm⟩
      obtain ⟨ha, -⟩ := List.getElem?_eq_some_iff.1 hl
      exact ⟨ha, by rw [hl]; exact hm⟩

theorem Table.congr {t : List (List Nat)} {n : Nat} {R R' : Nat → Nat → Prop} (h : Table t n R) (hR : ∀ f < n, ∀ a, R f a ↔ R' f a) : Table t n R' :=
  ⟨h.size, h.sorted, fun f l hl a => (h.mem f l hl a).trans (hR f (h.size ▸ (List.getElem?_eq_some_iff.1 hl).1) a)⟩

theorem varOfBit_spec (f : Nat) : ∀ (vs : List VarM) (k : Nat) (t : Nat → Option Nat) (i : Nat), (∀ j, t f = some j → j < k) →
    (varOfBit k vs t f = some i ↔ (∃ j v, i = k + j ∧ vs[j]? = some v ∧ (v.first ≤ f ∧ f ≤ v.last) ∧ ∀ (j' : Nat) (v : VarM), j < j' → vs[j']? = some v → ¬ (v.first ≤ f ∧ f ≤ v.last)) ∨
      (t f = some i ∧ ∀ (j : Nat) (v : VarM), vs[j]? = some v → ¬ (v.first ≤ f ∧ f ≤ v.last)))
  | [], k, t, i, _ => by simp [varOfBit]
  | w :: vs, k, t, i, ht => by
    rw [varOfBit, varOfBit_spec f vs (k + 1) _ i (by
      intro j hj
      split_ifs at hj
      · cases hj; omega
      · have := ht j hj; omega)]
    constructor
    · rintro (⟨j, v, rfl, h1, h2, h3⟩ | ⟨h1, h2⟩)
      · refine .inl ⟨j + 1, v, by omega, by simpa using h1, h2, fun j' v' hj' hv' => ?_⟩
        obtain ⟨j', rfl⟩ : ∃ x, j' = x + 1 := ⟨j' - 1, by omega⟩
        exact h3 j' v' (by omega) (by simpa using hv')
      · split_ifs at h1 with hw
        · cases h1
          refine .inl ⟨0, w, rfl, rfl, hw, fun j' v' hj' hv' => ?_⟩
          obtain ⟨j', rfl⟩ : ∃ x, j' = x + 1 := ⟨j' - 1, by omega⟩
          exact h2 j' v' (by simpa using hv')
        · refine .inr ⟨h1, fun j v hv => ?_⟩
          rcases j with _ | j
          · simp only [List.getElem?_cons_zero, Option.some.injEq] at hv
            exact hv ▸ hw
          · exact h2 j v (by simpa using hv)
    · rintro (⟨j, v, rfl, h1, h2, h3⟩ | ⟨h1, h2⟩)
      · rcases j with _ | j
        · simp only [List.getElem?_cons_zero, Option.some.injEq] at h1
          subst h1
          exact .inr ⟨by rw [if_pos h2]; rfl, fun j v hv => h3 (j + 1) v (by omega) (by simpa using hv)⟩
        · exact .inl ⟨j, v, by omega, by simpa using h1, h2, fun j' v' hj' hv' => h3 (j' + 1) v' (by omega) (by simpa using hv')⟩
      · exact .inr ⟨by rw [if_neg (h2 0 w rfl)]; exact h1, fun j v hv => h2 (j + 1) v (by simpa using hv)⟩

theorem matchesC {D : Desc} (hD : D.OK) : MatchesC D D.classical where
  facts := rfl
  vars := by simp [Desc.classical]
  var i v h := by simp [Desc.classical, h]
  varOf f i := by
    have := varOfBit_spec f (D.vars.map fun v => ⟨v.first, v.last, v.name⟩) 0 (fun _ => none) i (by simp)
    refine this.trans ?_
    simp only [reduceCtorEq, false_and, or_false, Nat.zero_add, List.getElem?_map, Option.map_eq_some_iff]
    constructor
    · rintro ⟨j, _, rfl, ⟨v, hv, rfl⟩, h2, h3⟩
      exact ⟨⟨v, hv, h2⟩, fun j' v' hj hv' => h3 j' _ hj ⟨v', hv', rfl⟩⟩
    · rintro ⟨⟨v, hv, h2⟩, h3⟩
      exact ⟨i, _, rfl, ⟨v, hv, rfl⟩, h2, fun j' _ hj hv' => by
        obtain ⟨v', hv', rfl⟩ := hv'
        exact h3 j' v' hj hv'⟩
  strict := rfl
  mutex := rfl
  invs := rfl
  acts := by simp [Desc.classical]
  act i a h := by
    obtain ⟨h1, h2⟩ := dedup_spec (hD.prec a (List.mem_of_getElem? h))
    exact ⟨{ a.toM with prec := dedupPrec D.facts.length a.prec }, by simp [Desc.classical, h], rfl, h1, h2, fun f => mem_plain, fun f => mem_plain,
      fun x => mem_guarded, fun x => mem_guarded, length_effects _, length_effects _⟩
  precLess := by
    refine ⟨range_filter_sorted _ _, fun i => ?_⟩
    simp only [Desc.classical, List.mem_filter, List.mem_range, List.isEmpty_iff]
    constructor
    · rintro ⟨hi, h⟩
      rw [List.getElem?_eq_getElem hi] at h
      exact ⟨_, List.getElem?_eq_getElem hi, h⟩
    · rintro ⟨a, ha, h⟩
      exact ⟨(List.getElem?_eq_some_iff.1 ha).1, by simp [ha, h]⟩
  precToAction := (inverse_table _).congr fun f hf a => by
    simp only [List.getElem?_map, Option.map_eq_some_iff]
    constructor
    · rintro ⟨_, ⟨b, hb, rfl⟩, h⟩
      exact ⟨b, hb, ((dedup_spec (hD.prec b (List.mem_of_getElem? hb))).2 f).1 h⟩
    · rintro ⟨b, hb, h⟩
      exact ⟨_, ⟨b, hb, rfl⟩, ((dedup_spec (hD.prec b (List.mem_of_getElem? hb))).2 f).2 h⟩
  addToAction := (inverse_table _).congr fun f hf a => by
    simp only [List.getElem?_map, Option.map_eq_some_iff]
    constructor
    · rintro ⟨_, ⟨b, hb, rfl⟩, h⟩
      exact ⟨b, hb, mem_plain.1 h⟩
    · rintro ⟨b, hb, h⟩
      exact ⟨_, ⟨b, hb, rfl⟩, mem_plain.2 h⟩
  delToAction := (inverse_table _).congr fun f hf a => by
    simp only [List.getElem?_map, Option.map_eq_some_iff]
    constructor
    · rintro ⟨_, ⟨b, hb, rfl⟩, h⟩
      exact ⟨b, hb, mem_plain.1 h⟩
    · rintro ⟨b, hb, h⟩
      exact ⟨_, ⟨b, hb, rfl⟩, mem_plain.2 h⟩
  s0 := rfl
  goal := rfl
  tasks := by simp [Desc.classical]
  task i b n h := by simp [Desc.classical, h]

/-! ## The hierarchy -/

theorem range_map_table {n : Nat} {g : Nat → List Nat} (hs : ∀ t, (g t).Pairwise (· < ·)) : Table ((List.range n).map g) n fun t i => i ∈ g t := by
  refine ⟨by simp, fun l hl => ?_, fun f l hl a => ?_⟩
  · obtain ⟨f, -, rfl⟩ := List.mem_map.1 hl
    exact hs f
  · simp only [List.getElem?_map, Option.map_eq_some_iff] at hl
    obtain ⟨f', hf', rfl⟩ := hl
    obtain ⟨hlt, rfl⟩ := List.getElem?_eq_some_iff.1 hf'
    simp

theorem map_table {ms : List MethM} {g : MethM → List Nat} (hs : ∀ m, (g m).Pairwise (· < ·)) :
    Table (ms.map g) ms.length fun i p => ∃ m, ms[i]? = some m ∧ p ∈ g m := by
  refine ⟨by simp, fun l hl => ?_, fun f l hl a => ?_⟩
  · obtain ⟨f, -, rfl⟩ := List.mem_map.1 hl
    exact hs f
  · simp only [List.getElem?_map, Option.map_eq_some_iff] at hl
    obtain ⟨m, hm, rfl⟩ := hl
    constructor
    · intro h
      exact ⟨m, hm, h⟩
    · rintro ⟨m', hm', h⟩
      rw [hm] at hm'
      cases hm'
      exact h

/-- The tables that are computed for methods. -/
theorem C74_tables {tasks : List (Bool × List Char)} {init : Nat} {ms : List MethM} {F : Flags} {H : Hier} (h : mkHier tasks init ms F = .ok H) :
    H.init = init ∧ H.methods = ms ∧ H.flags = F ∧ Tables H tasks.length fun t => (tasks[t]?).any fun x => x.1 := by
  obtain ⟨tab, num, e, hspec⟩ := stToMethod_spec (ms.map (·.sub))
  have hprim : ∀ t : Nat, ((tasks[t]?).map Prod.fst).getD false = (tasks[t]?).any fun x => x.1 := by
    intro t
    cases tasks[t]? <;> rfl
  simp only [mkHier, e, hprim] at h
  split_ifs at h
  cases h
  refine ⟨rfl, rfl, rfl, ?_, ?_, ?_, ?_, ?_, ?_, ?_, ?_⟩
  · have : (fun t => (tab t).take (num t).toNat) = fun t => occIn t 0 (ms.map (·.sub)) := by
      funext t
      rw [(hspec t).2, Int.toNat_natCast, List.take_length, (hspec t).1]
    simp only [this]
    refine (range_map_table fun t => occIn_sorted).congr fun t _ i => ?_
    rw [mem_occIn]
    simp only [Nat.zero_add, List.getElem?_map, Option.map_eq_some_iff]
    constructor
    · rintro ⟨_, rfl, _, ⟨m, hm, rfl⟩, ht⟩
      exact ⟨m, hm, ht⟩
    · rintro ⟨m, hm, ht⟩
      exact ⟨i, rfl, _, ⟨m, hm, rfl⟩, ht⟩
  · have : pushMethods 0 ms (fun _ => []) = fun t => methFrom t 0 ms := by
      funext t
      rw [pushMethods_spec]
      simp
    simp only [this]
    refine (range_map_table fun t => methFrom_sorted).congr fun t _ i => ?_
    rw [mem_methFrom]
    simp
  · refine (map_table fun m => range_filter_sorted _ _).congr fun i _ p => ?_
    simp only [List.mem_filter, List.mem_range, markFirsts_iff]
  · refine (map_table fun m => range_filter_sorted _ _).congr fun i _ p => ?_
    simp only [List.mem_filter, List.mem_range, markLasts_iff]
  · refine ⟨by simp, fun i c m hc hm => ?_⟩
    simp only [List.getElem?_map, hm, Option.map_some, Option.some.injEq] at hc
    subst hc
    obtain ⟨h1, h2⟩ := compress_spec (m.sub.insertionSort (· ≤ ·)) (List.pairwise_insertionSort (· ≤ ·) m.sub)
    exact ⟨h1, fun t => by rw [h2, (List.perm_insertionSort (· ≤ ·) m.sub).count_eq]⟩
  · refine ⟨by simp, fun i l m hl hm => ?_⟩
    simp only [List.getElem?_map, hm, Option.map_some, Option.some.injEq] at hl
    subst hl
    refine ⟨by simp, fun p n hn => ?_⟩
    simp only [List.getElem?_map, Option.map_eq_some_iff] at hn
    obtain ⟨p', hp', rfl⟩ := hn
    obtain ⟨hlt, rfl⟩ := List.getElem?_eq_some_iff.1 hp'
    rw [List.getElem_range, countSucc_eq]
  · refine ⟨by simp, fun i n l m hn hl hm => ?_⟩
    simp only [List.getElem?_map, hm, Option.map_some, Option.some.injEq] at hn hl
    subst hn hl
    rw [List.filter_filter]
    congr 2
    funext p
    exact Bool.and_comm _ _
  · refine ⟨by simp, fun i n l m hn hl hm => ?_⟩
    simp only [List.getElem?_map, hm, Option.map_some, Option.some.injEq] at hn hl
    subst hn hl
    rw [List.filter_filter]
    congr 2
    funext p
    exact Bool.and_comm _ _

theorem mkHier_defined {tasks : List (Bool × List Char)} (init : Nat) {ms : List MethM} (F : Flags)
    (h : ∀ m ∈ ms, ∃ nm, tasks[m.head]? = some (false, nm)) : ∃ H, mkHier tasks init ms F = .ok H := by
  obtain ⟨tab, num, e, -⟩ := stToMethod_spec (ms.map (·.sub))
  simp only [mkHier, e]
  rw [if_neg]
  · exact ⟨_, rfl⟩
  · rw [List.any_eq_true]
    rintro ⟨t, -, ht⟩
    simp only [pushMethods_spec, List.nil_append, Bool.and_eq_true, Bool.not_eq_true', List.isEmpty_eq_false_iff] at ht
    obtain ⟨i, hi⟩ := List.exists_mem_of_ne_nil _ ht.1
    obtain ⟨j, -, m, hm, rfl⟩ := mem_methFrom.1 hi
    obtain ⟨nm, hnm⟩ := h m (List.mem_of_getElem? hm)
    rw [hnm] at ht
    exact absurd ht.2 (by simp)

theorem readAll_length : ∀ {ms : List MethodIn} {F os F'}, readAll ms F = some (os, F') → os.length = ms.length
  | [], F, os, F', h => by cases h; rfl
  | (n, o, b) :: ms, F, os, F', h => by
    simp only [readAll] at h
    split at h
    · cases h
    · split at h
      · cases h
      · rename_i e2
        cases h
        simp [readAll_length e2]

theorem readAll_get : ∀ {ms : List MethodIn} {F os F'}, readAll ms F = some (os, F') → ∀ (i : Nat) (m : MethodIn), ms[i]? = some m →
    ∃ o F1 F2, os[i]? = some o ∧ transitiveChange false m.1 m.2.1 m.2.2 F1 = some (o, F2)
  | [], F, os, F', h, i, m, hm => by simp at hm
  | (n, o, b) :: ms, F, os, F', h, i, m, hm => by
    simp only [readAll] at h
    split at h
    · cases h
    · rename_i e1
      split at h
      · cases h
      · rename_i e2
        cases h
        rcases i with _ | i
        · simp only [List.getElem?_cons_zero, Option.some.injEq] at hm
          subst hm
          exact ⟨_, _, _, rfl, e1⟩
        · simpa using readAll_get e2 i m (by simpa using hm)

theorem matchesH {D : Desc} (hD : D.OK) {h : HierD} (hh : D.hier = some h) {os : List (List (Nat × Nat))} {F : Flags} {H : Hier}
    (ho : readAll (h.methods.map fun m => (m.sub.length, m.ord, m.head == h.init)) ⟨true, true, true⟩ = some (os, F))
    (hH : mkHier (D.tasks.map fun t => (!t.1, t.2)) h.init (withOrd h.methods os) F = .ok H) : MatchesH D h H := by
  obtain ⟨e1, e2, e3, e4⟩ := C74_tables hH
  have hlen := readAll_length ho
  rw [List.length_map] at hlen
  refine ⟨e1, by rw [e2, withOrd]; simp [hlen], fun i m hm => ?_, fun hac => ?_, ?_⟩
  · obtain ⟨o, F1, F2, ho', ht⟩ := readAll_get ho i (m.sub.length, m.ord, m.head == h.init) (by simp [hm])
    have hb := hD.ord h hh m (List.mem_of_getElem? hm)
    obtain ⟨-, hnd, hmem, -⟩ := reduction_out ht
    refine ⟨⟨m.name, m.head, m.sub, o⟩, by rw [e2, withOrd]; simp [List.getElem?_zipWith, hm, ho'], rfl, rfl, rfl, hnd, hmem, ?_, fun hac => ?_⟩
    · rintro ⟨x, y⟩ hxy
      have := ((hmem x y).1 hxy).1
      exact ⟨(TransGen.head'_iff.1 this).elim fun b h => (hb (x, b) h.1).1, (TransGen.tail'_iff.1 this).elim fun b h => (hb (b, y) h.2).2⟩
    · obtain ⟨o', F', ht', -, h2, h3⟩ := C09_transitive_reduction (isInit := m.head == h.init) (F := F1) hb hac
      rw [ht] at ht'
      cases ht'
      exact ⟨h2, h3⟩
  · rw [e3, C10_totally_ordered_exact (fun m hm => ?_) ho]
    · simp only [List.forall_mem_map, IsTotal]
    · obtain ⟨m', hm', rfl⟩ := List.mem_map.1 hm
      exact ⟨hD.ord h hh m' hm', hac m' hm'⟩
  · rw [List.length_map] at e4
    have : (fun t : Nat => ((D.tasks.map fun t => (!t.1, t.2))[t]?).any fun x => x.1) = fun t : Nat => (D.tasks[t]?).any fun x => !x.1 := by
      funext t
      rw [List.getElem?_map]
      cases D.tasks[t]? <;> rfl
    rw [this] at e4
    exact e4

/-! ## The file -/

theorem exists_bound {α : Type} (f : α → Nat) : ∀ l : List α, ∃ n, ∀ a ∈ l, f a < n
  | [] => ⟨0, by simp⟩
  | a :: l => by
    obtain ⟨n, hn⟩ := exists_bound f l
    refine ⟨n + f a + 1, fun b hb => ?_⟩
    rcases List.mem_cons.1 hb with rfl | hb
    · omega
    · have := hn b hb
      omega

theorem exists_short (D : Desc) : ∃ n, ∀ fuel, n ≤ fuel → D.Short fuel := by
  obtain ⟨n1, h1⟩ := exists_bound List.length D.strict
  obtain ⟨n2, h2⟩ := exists_bound List.length D.mutex
  obtain ⟨n3, h3⟩ := exists_bound List.length D.invs
  obtain ⟨n4, h4⟩ := exists_bound (fun a : ActD => a.prec.length) D.acts
  obtain ⟨n5, h5⟩ := exists_bound (fun a : ActD => a.add.length) D.acts
  obtain ⟨n6, h6⟩ := exists_bound (fun a : ActD => a.del.length) D.acts
  obtain ⟨n7, h7⟩ : ∃ n, ∀ h ∈ D.hier, ∀ m ∈ h.methods, m.sub.length < n := by
    cases D.hier with
    | none => exact ⟨0, by simp⟩
    | some h => simpa using exists_bound (fun m : MethD => m.sub.length) h.methods
  obtain ⟨n8, h8⟩ : ∃ n, ∀ h ∈ D.hier, ∀ m ∈ h.methods, 2 * m.ord.length < n := by
    cases D.hier with
    | none => exact ⟨0, by simp⟩
    | some h => simpa using exists_bound (fun m : MethD => 2 * m.ord.length) h.methods
  refine ⟨n1 + n2 + n3 + n4 + n5 + n6 + n7 + n8 + D.s0.length + D.goal.length + 1, fun fuel hf => ?_⟩
  exact ⟨fun g hg => (h1 g hg).trans_le (by omega), fun g hg => (h2 g hg).trans_le (by omega), fun g hg => (h3 g hg).trans_le (by omega),
    fun a ha => (h4 a ha).trans_le (by omega), fun a ha => (h5 a ha).trans_le (by omega), fun a ha => (h6 a ha).trans_le (by omega), by omega, by omega,
    fun h hh m hm => (h7 h hh m hm).trans_le (by omega), fun h hh m hm => (h8 h hh m hm).trans_le (by omega)⟩

/-- The lines before the hierarchy. -/
theorem read_head {D : Desc} (hD : D.OK) {fuel : Nat} (hf : D.Short fuel) {l1 l2 : Ls} (hl1 : Any 1 l1) (hnl1 : ∀ l ∈ l1, '\n' ∉ l) (hl2 : ClassicalF D l2)
    (hnl2 : ∀ l ∈ l2, '\n' ∉ l) (rest : List Char) : ∃ line, read fuel ⟨unlines l1 ++ (unlines l2 ++ rest), false, false, []⟩ =
      (readHierarchical fuel (D.tasks.map fun t => (!t.1, t.2)) >>= fun h => (pure ⟨D.classical, h⟩ : Rd Model)) ⟨rest, false, false, line⟩ := by
  have hc := readClassical_ok hD hf l2 hl2 hnl2
  obtain ⟨f, rfl⟩ : ∃ f, l1 = [f] := List.length_eq_one_iff.1 hl1
  obtain ⟨ln1, e1⟩ := nextLine_reads (hnl1 f (by simp)) (unlines l2 ++ rest) []
  obtain ⟨ln2, e2⟩ := hc rest ln1
  refine ⟨ln2, ?_⟩
  have e0 : newLine ⟨unlines [f] ++ (unlines l2 ++ rest), false, false, []⟩ = .ok ((), ⟨unlines [f] ++ (unlines l2 ++ rest), false, false, []⟩) := rfl
  rw [ReadFile.read, bind_ok e0, bind_ok e1, bind_ok e2]
  rfl

theorem bind_exit {α β : Type} {x : Rd α} {f : α → Rd β} {s : St} (h : x s = .exit) : (x >>= f) s = .exit := by
  show (match x s with | .ok (a, s') => f a s' | .exit => .exit | .ub => .ub | .fuel => .fuel) = _
  rw [h]

/-- More task lines than announced: the planner exits with a message. -/
theorem C74_excess_task {D : Desc} (hD : D.OK) {l1 l2 : Ls} (hl1 : Any 1 l1) (hnl1 : ∀ l ∈ l1, '\n' ∉ l) (hl2 : ClassicalF D l2) (hnl2 : ∀ l ∈ l2, '\n' ∉ l)
    {c : Char} (hc : c ≠ '\n') (rest : List Char) : ∃ n, ∀ fuel, n ≤ fuel → readFile fuel (unlines l1 ++ (unlines l2 ++ c :: rest)) = .exit := by
  obtain ⟨n, hn⟩ := exists_short D
  refine ⟨n, fun fuel hf => ?_⟩
  obtain ⟨line, e⟩ := read_head hD (hn fuel hf) hl1 hnl1 hl2 hnl2 (c :: rest)
  have hg : (getline ⟨c :: rest, false, false, []⟩).line ≠ [] := by
    have : (c != '\n') = true := by simpa using hc
    simp only [getline, Bool.or_self, Bool.false_eq_true, if_false, List.takeWhile_cons, this, if_true]
    split <;> simp
  have : readHierarchical fuel (D.tasks.map fun t => (!t.1, t.2)) ⟨c :: rest, false, false, line⟩ = .exit := by
    have e0 : newLine ⟨c :: rest, false, false, line⟩ = .ok ((), ⟨c :: rest, false, false, []⟩) := rfl
    have e1 : nextLine ⟨c :: rest, false, false, []⟩ = .ok ((getline ⟨c :: rest, false, false, []⟩).line, getline ⟨c :: rest, false, false, []⟩) := rfl
    rw [readHierarchical, bind_ok e0, bind_ok e1, if_pos hg]
    rfl
  have e' : (readHierarchical fuel (D.tasks.map fun t => (!t.1, t.2)) >>= fun h => (pure ⟨D.classical, h⟩ : Rd Model)) ⟨c :: rest, false, false, line⟩ = .exit := by
    exact bind_exit this
  rw [readFile, e, e']

/-- A file with a hierarchy, or without: the text ends after the tasks. -/
theorem C74_read {D : Desc} (hD : D.OK) {txt : List Char} (ht : FileText D txt) :
    ∃ n M, (∀ fuel, n ≤ fuel → readFile fuel txt = .ok M) ∧ MatchesC D M.cl ∧
      match D.hier with
      | none => M.hier = none
      | some h => ∃ H, M.hier = some H ∧ MatchesH D h H := by
  obtain ⟨n, hn⟩ := exists_short D
  obtain ⟨ls, rfl, hnl, l1, ls, rfl, hl1, l2, l3, rfl, hl2, hl3⟩ := ht
  have hnl1 : ∀ l ∈ l1, '\n' ∉ l := fun l hl => hnl l (by simp [hl])
  have hnl2 : ∀ l ∈ l2, '\n' ∉ l := fun l hl => hnl l (by simp [hl])
  have hnl3 : ∀ l ∈ l3, '\n' ∉ l := fun l hl => hnl l (by simp [hl])
  have hun : ∀ a b : Ls, unlines (a ++ b) = unlines a ++ unlines b := fun a b => by simp [unlines]
  have key := fun fuel hf => read_head hD (hn fuel hf) hl1 hnl1 hl2 hnl2 (unlines l3)
  cases hh : D.hier with
  | none =>
    rw [hh] at hl3
    obtain rfl : l3 = [] := List.length_eq_zero_iff.1 hl3
    refine ⟨n, ⟨D.classical, none⟩, fun fuel hf => ?_, matchesC hD, rfl⟩
    obtain ⟨line, e⟩ := key fuel hf
    rw [readFile, hun, hun, e]
    rfl
  | some h =>
    rw [hh] at hl3
    have hm : ∀ fuel, n ≤ fuel → ∀ m ∈ h.methods, m.OK (D.tasks.map fun t => (!t.1, t.2)).length fuel := fun fuel hf m hm => by
      rw [List.length_map]
      obtain ⟨nm, hnm⟩ := hD.head h hh m hm
      exact ⟨(List.getElem?_eq_some_iff.1 hnm).1, hD.sub_ne h hh m hm, hD.sub h hh m hm, hD.ord h hh m hm, (hn fuel hf).sub h hh m hm, (hn fuel hf).ord h hh m hm⟩
    obtain ⟨os, F, ho⟩ := readAll_defined (ms := h.methods.map fun m => (m.sub.length, m.ord, m.head == h.init)) (F := ⟨true, true, true⟩) (by
      intro m hm
      obtain ⟨m', hm', rfl⟩ := List.mem_map.1 hm
      exact hD.ord h hh m' hm')
    obtain ⟨H, hH⟩ := mkHier_defined (tasks := D.tasks.map fun t => (!t.1, t.2)) h.init (ms := withOrd h.methods os) F (by
      intro m hm
      obtain ⟨i, hi⟩ := List.mem_iff_getElem?.1 hm
      simp only [withOrd, List.getElem?_zipWith] at hi
      split at hi
      · rename_i m' o hm' ho'
        cases hi
        obtain ⟨nm, hnm⟩ := hD.head h hh m' (List.mem_of_getElem? hm')
        exact ⟨nm, by simp [hnm]⟩
      · cases hi)
    refine ⟨n, ⟨D.classical, some H⟩, fun fuel hf => ?_, matchesC hD, H, rfl, matchesH hD hh ho hH⟩
    obtain ⟨line, e⟩ := key fuel hf
    obtain ⟨line', e'⟩ := readHierarchical_ok (by rw [List.length_map]; exact hD.init h hh) (hm fuel hf) ho hH l3 hl3 hnl3 [] line
    rw [List.append_nil] at e'
    rw [readFile, hun, hun, e, bind_ok e']
    rfl

/-! ## Solutions -/

/-- The problem that a description describes, if no effect is conditional. -/
def problemOf (D : Desc) (h : HierD) : Problem where
  numFacts := D.facts.length
  prim t := (D.tasks[t]?).any fun x => !x.1
  prec a := ((D.acts[a]?).map ActD.prec).getD []
  add a := ((D.acts[a]?).map fun a => a.add.map Prod.snd).getD []
  del a := ((D.acts[a]?).map fun a => a.del.map Prod.snd).getD []
  cost a := ((D.acts[a]?).map ActD.cost).getD 0
  numMethods := h.methods.length
  head m := ((h.methods[m]?).map MethD.head).getD 0
  sub m := ((h.methods[m]?).map MethD.sub).getD []
  ord m := ((h.methods[m]?).map MethD.ord).getD []
  init := h.init
  s0 := D.s0
  goal := D.goal

theorem sol_of_effects {P : Problem} {p a d p' a' d' : Nat → List Nat} {c c' : Nat → Nat} {n n' : Nat} (hp : ∀ x f, f ∈ p x ↔ f ∈ p' x) (ha : ∀ x f, f ∈ a x ↔ f ∈ a' x)
    (hd : ∀ x f, f ∈ d x ↔ f ∈ d' x) {π : List Nat} {k : Nat}
    (h : IsSolutionN { P with prec := p, add := a, del := d, cost := c, numFacts := n } π k) :
    IsSolutionN { P with prec := p', add := a', del := d', cost := c', numFacts := n' } π k := by
  obtain ⟨tr, hv, hk, ⟨occ, hl⟩, s', he, hg⟩ := h
  have hval : ∀ {t tr}, Valid { P with prec := p, add := a, del := d, cost := c, numFacts := n } t tr →
      Valid { P with prec := p', add := a', del := d', cost := c', numFacts := n' } t tr := by
    intro t tr hv
    induction hv with
    | leaf h => exact .leaf h
    | node hm _ ih => exact Valid.node (P := { P with prec := p', add := a', del := d', cost := c', numFacts := n' }) hm ih
  have hleaf : ∀ {tr q x} {p a d p' a' d' : Nat → List Nat} {c c' : Nat → Nat} {n n' : Nat},
      LeafAt { P with prec := p, add := a, del := d, cost := c, numFacts := n } tr q x →
      LeafAt { P with prec := p', add := a', del := d', cost := c', numFacts := n' } tr q x := by
    intro tr q x p a d p' a' d' c c' n n' hv
    induction hv with
    | here => exact .here
    | child hm _ ih => exact LeafAt.child (P := { P with prec := p', add := a', del := d', cost := c', numFacts := n' }) hm ih
  have hbef : ∀ {tr q r}, Before { P with prec := p', add := a', del := d', cost := c', numFacts := n' } tr q r →
      Before { P with prec := p, add := a, del := d, cost := c, numFacts := n } tr q r := by
    intro tr q r hb
    induction hb with
    | same _ ih => exact .same ih
    | diff h => exact Before.diff (P := { P with prec := p, add := a, del := d, cost := c, numFacts := n }) h
  have hinner : ∀ (tr : Tree), tr.inner { P with prec := p', add := a', del := d', cost := c', numFacts := n' } =
      tr.inner { P with prec := p, add := a, del := d, cost := c, numFacts := n } := by
    intro tr
    induction tr with
    | leaf a => rfl
    | node m cs ih =>
      simp only [Tree.inner]
      rw [Finset.sum_congr rfl fun i _ => ih i]
  have hexec : ∀ {s π s'}, Exec { P with prec := p, add := a, del := d, cost := c, numFacts := n } s π s' →
      Exec { P with prec := p', add := a', del := d', cost := c', numFacts := n' } s π s' := by
    intro s π s' he
    induction he with
    | nil s => exact .nil s
    | @cons s s' x π h _ ih =>
      refine .cons (P := { P with prec := p', add := a', del := d', cost := c', numFacts := n' }) (fun f hf => h f ((hp x f).2 hf)) ?_
      have : Problem.result { P with prec := p', add := a', del := d', cost := c', numFacts := n' } s x =
          Problem.result { P with prec := p, add := a, del := d, cost := c, numFacts := n } s x := by
        funext f
        simp only [Problem.result, ha x f, hd x f]
      rw [this]
      exact ih
  refine ⟨tr, hval hv, by rw [← hk]; exact hinner _, ⟨occ, hl.nodup, fun q => ?_, hl.order.imp fun hn hb => hn (hbef hb), hl.labels.imp fun _ _ h => hleaf h⟩,
    s', hexec he, hg⟩
  rw [hl.all q]
  exact ⟨fun ⟨a, h⟩ => ⟨a, hleaf h⟩, fun ⟨a, h⟩ => ⟨a, hleaf h⟩⟩

/-- The problem that search works on has the solutions of the described problem, with the same costs; it is well-formed. -/
theorem C74_same_solutions {D : Desc} (hD : D.OK) {txt : List Char} (ht : FileText D txt) {h : HierD} (hh : D.hier = some h)
    (hac : ∀ m ∈ h.methods, Acyclic m.ord) (hnc : ∀ a ∈ D.acts, ∀ e ∈ a.add ++ a.del, e.1 = []) :
    ∃ n M H, (∀ fuel, n ≤ fuel → readFile fuel txt = .ok M) ∧ M.hier = some H ∧ MatchesC D M.cl ∧ MatchesH D h H ∧
      (∀ π k, IsSolutionN (Model.problem M.cl H) π k ↔ IsSolutionN (problemOf D h) π k) ∧
      (∀ π, (Model.problem M.cl H).planCost π = (problemOf D h).planCost π) ∧
      ((problemOf D h).prim h.init = false → (Model.problem M.cl H).WF) := by
  obtain ⟨n, M, hr, hc, hM⟩ := C74_read hD ht
  rw [hh] at hM
  obtain ⟨H, hH, hm⟩ := hM
  set P := Model.problem M.cl H with hP
  set Q := problemOf D h with hQ
  have get_meth : ∀ i : Nat, (∃ m m', h.methods[i]? = some m ∧ H.methods[i]? = some m' ∧ m'.head = m.head ∧ m'.sub = m.sub ∧
      (∀ o ∈ m'.ord, o.1 < m.sub.length ∧ o.2 < m.sub.length) ∧ (∀ x y, TransGen (Rel m'.ord) x y ↔ TransGen (Rel m.ord) x y)) ∨
      (h.methods[i]? = none ∧ H.methods[i]? = none) := by
    intro i
    cases e : h.methods[i]? with
    | none => exact .inr ⟨rfl, List.getElem?_eq_none (hm.methods ▸ List.getElem?_eq_none_iff.1 e)⟩
    | some m =>
      obtain ⟨m', e', -, h1, h2, -, -, h3, h4⟩ := hm.method i m e
      exact .inl ⟨m, m', rfl, e', h1, h2, h3, (h4 (hac m (List.mem_of_getElem? e))).1⟩
  have get_act : ∀ i : Nat, (∃ (a : ActD) (b : ActM), D.acts[i]? = some a ∧ M.cl.acts[i]? = some b ∧ b.cost = a.cost ∧ (∀ f, f ∈ b.prec ↔ f ∈ a.prec) ∧
      (∀ f, f ∈ b.add ↔ ([], f) ∈ a.add) ∧ (∀ f, f ∈ b.del ↔ ([], f) ∈ a.del)) ∨ (D.acts[i]? = none ∧ M.cl.acts[i]? = none) := by
    intro i
    cases e : D.acts[i]? with
    | none => exact .inr ⟨rfl, List.getElem?_eq_none (hc.acts ▸ List.getElem?_eq_none_iff.1 e)⟩
    | some a =>
      obtain ⟨b, e', h1, -, h2, h3, h4, -⟩ := hc.act i a e
      exact .inl ⟨a, b, rfl, e', h1, h2, h3, h4⟩
  have plain_mem : ∀ {es : List (List Nat × Nat)}, (∀ e ∈ es, e.1 = []) → ∀ f, ([], f) ∈ es ↔ f ∈ es.map Prod.snd := by
    intro es hes f
    rw [List.mem_map]
    constructor
    · intro hf
      exact ⟨_, hf, rfl⟩
    · rintro ⟨⟨C, f'⟩, he, rfl⟩
      have := hes _ he
      simp only at this
      exact this ▸ he
  have e_prim : P.prim = Q.prim := by
    funext t
    show ((M.cl.tasks[t]?).map Prod.fst).getD false = (D.tasks[t]?).any fun x => !x.1
    cases e : D.tasks[t]? with
    | none => rw [List.getElem?_eq_none (hc.tasks ▸ List.getElem?_eq_none_iff.1 e)]; rfl
    | some x => rw [hc.task t x.1 x.2 e]; rfl
  have e_head : P.head = Q.head := by
    funext i
    show ((H.methods[i]?).map MethM.head).getD 0 = ((h.methods[i]?).map MethD.head).getD 0
    rcases get_meth i with ⟨m, m', e1, e2, h1, h2, -⟩ | ⟨e1, e2⟩
    · simp [e1, e2, h1]
    · simp [e1, e2]
  have e_sub : P.sub = Q.sub := by
    funext i
    show ((H.methods[i]?).map MethM.sub).getD [] = ((h.methods[i]?).map MethD.sub).getD []
    rcases get_meth i with ⟨m, m', e1, e2, h1, h2, -⟩ | ⟨e1, e2⟩
    · simp [e1, e2, h2]
    · simp [e1, e2]
  have e_ord : ∀ i x y, TransGen (Rel (P.ord i)) x y ↔ TransGen (Rel (Q.ord i)) x y := by
    intro i x y
    show TransGen (Rel (((H.methods[i]?).map MethM.ord).getD [])) x y ↔ TransGen (Rel (((h.methods[i]?).map MethD.ord).getD [])) x y
    rcases get_meth i with ⟨m, m', e1, e2, -, -, -, h3⟩ | ⟨e1, e2⟩
    · simpa [e1, e2] using h3 x y
    · simp [e1, e2]
  have e_prec : ∀ x f, f ∈ P.prec x ↔ f ∈ Q.prec x := by
    intro x f
    show f ∈ ((M.cl.acts[x]?).map ActM.prec).getD [] ↔ f ∈ ((D.acts[x]?).map ActD.prec).getD []
    rcases get_act x with ⟨a, b, e1, e2, -, h1, -⟩ | ⟨e1, e2⟩
    · simpa [e1, e2] using h1 f
    · simp [e1, e2]
  have e_add : ∀ x f, f ∈ P.add x ↔ f ∈ Q.add x := by
    intro x f
    show f ∈ ((M.cl.acts[x]?).map ActM.add).getD [] ↔ f ∈ ((D.acts[x]?).map fun a => a.add.map Prod.snd).getD []
    rcases get_act x with ⟨a, b, e1, e2, -, -, h1, -⟩ | ⟨e1, e2⟩
    · rw [e1, e2]
      exact (h1 f).trans (plain_mem (fun e he => hnc a (List.mem_of_getElem? e1) e (List.mem_append_left _ he)) f)
    · simp [e1, e2]
  have e_del : ∀ x f, f ∈ P.del x ↔ f ∈ Q.del x := by
    intro x f
    show f ∈ ((M.cl.acts[x]?).map ActM.del).getD [] ↔ f ∈ ((D.acts[x]?).map fun a => a.del.map Prod.snd).getD []
    rcases get_act x with ⟨a, b, e1, e2, -, -, -, h1⟩ | ⟨e1, e2⟩
    · rw [e1, e2]
      exact (h1 f).trans (plain_mem (fun e he => hnc a (List.mem_of_getElem? e1) e (List.mem_append_right _ he)) f)
    · simp [e1, e2]
  have e_cost : P.cost = Q.cost := by
    funext x
    show ((M.cl.acts[x]?).map fun a => a.cost.toNat).getD 0 = ((D.acts[x]?).map ActD.cost).getD 0
    rcases get_act x with ⟨a, b, e1, e2, h1, -⟩ | ⟨e1, e2⟩
    · simp [e1, e2, h1]
    · simp [e1, e2]
  have e_num : P.numMethods = Q.numMethods := hm.methods
  have e_init : P.init = Q.init := hm.init
  have e_s0 : P.s0 = Q.s0 := hc.s0
  have e_goal : P.goal = Q.goal := hc.goal
  have e_facts : P.numFacts = Q.numFacts := by show M.cl.facts.length = D.facts.length; rw [hc.facts]
  have e_all : P = { { Q with ord := P.ord } with prec := P.prec, add := P.add, del := P.del, cost := P.cost, numFacts := P.numFacts } := by
    rw [← e_prim, ← e_head, ← e_sub, ← e_num, ← e_init, ← e_s0, ← e_goal]
  have rel_TG : ∀ {o : List (Nat × Nat)} {x y}, (x, y) ∈ o → TransGen (Rel o) x y := fun h => .single h
  refine ⟨n, M, H, hr, hH, hc, hm, fun π k => ?_, fun π => ?_, fun hi => ?_⟩
  · have h1 := C09_same_solutions (P := Q) (Q := { Q with ord := P.ord }) rfl (fun m _ => e_ord m) π k
    rw [← h1]
    refine (iff_of_eq (congrArg (fun X => IsSolutionN X π k) e_all)).trans ?_
    constructor
    · exact fun h => sol_of_effects (P := { Q with ord := P.ord }) (c' := Q.cost) (n' := Q.numFacts) e_prec e_add e_del h
    · exact fun h => sol_of_effects (P := { Q with ord := P.ord }) (c := Q.cost) (n := Q.numFacts) (fun x f => (e_prec x f).symm) (fun x f => (e_add x f).symm)
        (fun x f => (e_del x f).symm) h
  · rw [Problem.planCost, Problem.planCost, e_cost]
  · have act_of : ∀ {x f : Nat} {g : ActD → List Nat}, f ∈ ((D.acts[x]?).map g).getD [] → ∃ a ∈ D.acts, f ∈ g a := by
      intro x f g hf
      cases e : D.acts[x]? with
      | none => rw [e] at hf; simp at hf
      | some a => rw [e] at hf; exact ⟨a, List.mem_of_getElem? e, hf⟩
    refine ⟨?_, ?_, ?_, ?_, by rw [e_prim, e_init]; exact hi, ?_, ?_, ?_, ?_, ?_⟩
    · intro i hi x y hxy
      rw [e_sub]
      change (x, y) ∈ ((H.methods[i]?).map MethM.ord).getD [] at hxy
      show x < (((h.methods[i]?).map MethD.sub).getD []).length ∧ y < (((h.methods[i]?).map MethD.sub).getD []).length
      rcases get_meth i with ⟨m, m', e1, e2, -, -, h3, -⟩ | ⟨e1, e2⟩
      · rw [e2] at hxy
        rw [e1]
        exact h3 _ hxy
      · simp [e2] at hxy
    · intro i hi
      have hlt : i < h.methods.length := by rw [e_num] at hi; exact hi
      have hacI : Acyclic (P.ord i) := by
        intro x hx
        rw [e_ord] at hx
        change TransGen (Rel (((h.methods[i]?).map MethD.ord).getD [])) x x at hx
        rw [List.getElem?_eq_getElem hlt] at hx
        exact hac _ (List.getElem_mem hlt) x hx
      classical
      refine ⟨fun x => ((P.ord i).map Prod.fst).toFinset.filter (fun y => TransGen (Rel (P.ord i)) y x) |>.card, fun x y hxy => ?_⟩
      refine Finset.card_lt_card ⟨fun z hz => ?_, fun hsub => ?_⟩
      · rw [Finset.mem_filter] at hz ⊢
        exact ⟨hz.1, hz.2.tail hxy⟩
      · have : x ∈ (((P.ord i).map Prod.fst).toFinset.filter fun z => TransGen (Rel (P.ord i)) z y) := by
          rw [Finset.mem_filter, List.mem_toFinset]
          exact ⟨List.mem_map.2 ⟨_, hxy, rfl⟩, .single hxy⟩
        exact hacI x (Finset.mem_filter.1 (hsub this)).2
    · intro i hi
      rw [e_sub]
      have hlt : i < h.methods.length := by rw [e_num] at hi; exact hi
      show ((h.methods[i]?).map MethD.sub).getD [] ≠ []
      rw [List.getElem?_eq_getElem hlt]
      exact hD.sub_ne h hh _ (List.getElem_mem hlt)
    · intro i hi
      rw [e_head, e_prim]
      have hlt : i < h.methods.length := by rw [e_num] at hi; exact hi
      show (D.tasks[((h.methods[i]?).map MethD.head).getD 0]?).any _ = false
      rw [List.getElem?_eq_getElem hlt]
      obtain ⟨nm, hnm⟩ := hD.head h hh _ (List.getElem_mem hlt)
      simp [hnm]
    · intro x f hf
      rw [e_prec] at hf
      obtain ⟨a, ha, hf⟩ := act_of (g := ActD.prec) hf
      rw [e_facts]
      exact hD.prec a ha f hf
    · intro x f hf
      rw [e_add] at hf
      obtain ⟨a, ha, hf⟩ := act_of (g := fun a => a.add.map Prod.snd) hf
      obtain ⟨e, he, rfl⟩ := List.mem_map.1 hf
      rw [e_facts]
      exact hD.add a ha e he
    · intro x f hf
      rw [e_del] at hf
      obtain ⟨a, ha, hf⟩ := act_of (g := fun a => a.del.map Prod.snd) hf
      obtain ⟨e, he, rfl⟩ := List.mem_map.1 hf
      rw [e_facts]
      exact hD.del a ha e he
    · rw [e_s0, e_facts]
      exact hD.s0
    · rw [e_goal, e_facts]
      exact hD.goal

/-! ## Texts exist -/

def Has (p : Ls → Prop) : Prop := ∃ ls, p ls ∧ ∀ l ∈ ls, '\n' ∉ l

theorem Has.seq {p q : Ls → Prop} (hp : Has p) (hq : Has q) : Has (p ⨟ q) := by
  obtain ⟨a, ha, ha'⟩ := hp
  obtain ⟨b, hb, hb'⟩ := hq
  refine ⟨a ++ b, ⟨a, b, rfl, ha, hb⟩, fun l hl => ?_⟩
  rcases List.mem_append.1 hl with h | h
  · exact ha' l h
  · exact hb' l h

theorem Has.one {p : List Char → Prop} {l : List Char} (h : p l) (hl : '\n' ∉ l) : Has (One p) := ⟨[l], ⟨l, rfl, h⟩, by simpa using hl⟩

theorem Has.each {α : Type} {f : α → Ls → Prop} : ∀ {xs : List α}, (∀ x ∈ xs, Has (f x)) → Has (Each f xs)
  | [], _ => ⟨[], rfl, by simp⟩
  | x :: xs, h => Has.seq (h x (by simp)) (Has.each fun y hy => h y (by simp [hy]))

theorem Has.any (n : Nat) : Has (Any n) := ⟨List.replicate n [], by simp [Any], fun l hl => by rw [List.eq_of_mem_replicate hl]; simp⟩

theorem numeral_nl {cs : List Char} {z : Int} (h : Numeral cs z) : '\n' ∉ cs := by
  obtain ⟨ds, -, hds, h⟩ := h.shape
  have : '\n' ∉ ds := fun hn => absurd (hds _ hn) (by decide)
  rcases h with ⟨rfl, -⟩ | ⟨rfl, -⟩
  · exact this
  · simpa using this

theorem line_exists {r : List Char} (hr : r = [] ∨ ∃ c t, r = c :: t ∧ isWs c = true) (hn : '\n' ∉ r) : ∀ l : List Int, (∀ x ∈ l, intMin ≤ x ∧ x ≤ intMax) →
    ∃ line, Line r line l ∧ '\n' ∉ line ∧ (line = [] ∨ ∃ c t, line = c :: t ∧ isWs c = true)
  | [], _ => ⟨r, .nil hr, hn, hr⟩
  | x :: l, h => by
    obtain ⟨t, ht, ht1, ht2⟩ := line_exists hr hn l fun y hy => h y (List.mem_cons_of_mem _ hy)
    obtain ⟨cs, hcs⟩ := exists_numeral (h x (by simp)).1 (h x (by simp)).2
    refine ⟨[' '] ++ cs ++ t, .cons (by decide) hcs ht ht2, ?_, .inr ⟨' ', cs ++ t, rfl, by decide⟩⟩
    simp only [List.mem_append, not_or]
    exact ⟨⟨by decide, numeral_nl hcs⟩, ht1⟩

theorem Has.num {z : Int} (h : intMin ≤ z ∧ z ≤ intMax) : Has (One (NumL z)) := by
  obtain ⟨l, h1, h2, -⟩ := line_exists (r := []) (.inl rfl) (by simp) [z] (by simpa using h)
  exact Has.one ⟨[], h1⟩ h2

theorem Has.ints {zs : List Int} (h : ∀ z ∈ zs, intMin < z ∧ z ≤ intMax) : Has (One (IntsL zs)) := by
  obtain ⟨l, h1, h2, -⟩ := line_exists (r := []) (.inl rfl) (by simp) (zs.map enc ++ [-1] ++ []) (by
    intro x hx
    simp only [List.append_nil, List.mem_append, List.mem_map, List.mem_singleton] at hx
    rcases hx with ⟨z, hz, rfl⟩ | rfl
    · have := h z hz
      rw [enc]
      split_ifs <;> omega
    · decide)
  exact Has.one ⟨[], h1⟩ h2

theorem Has.nats {ns : List Nat} (h : ∀ n ∈ ns, (n : Int) ≤ intMax) : Has (One (NatsL ns)) := by
  refine Has.ints fun z hz => ?_
  obtain ⟨n, hn, rfl⟩ := List.mem_map.1 hz
  exact ⟨by have : intMin < 0 := by decide
            omega, h n hn⟩

theorem Has.effs {es : List (List Nat × Nat)} (h : ∀ e ∈ es, (e.1.length : Int) ≤ intMax ∧ (e.2 : Int) ≤ intMax ∧ ∀ n ∈ e.1, (n : Int) ≤ intMax) :
    Has (One (EffsL es)) := by
  have hlo : intMin ≤ 0 := by decide
  obtain ⟨l, h1, h2, -⟩ := line_exists (r := []) (.inl rfl) (by simp)
    ((es.map fun e => (e.1.map fun (n : Nat) => (n : Int), (e.2 : Int))).flatMap encCond ++ [-1] ++ []) (by
    intro x hx
    simp only [List.append_nil, List.mem_append, List.mem_flatMap, List.mem_map, List.mem_singleton] at hx
    rcases hx with ⟨_, ⟨e, he, rfl⟩, hx⟩ | rfl
    · obtain ⟨h1, h2, h3⟩ := h e he
      simp only [encCond, List.length_map, List.mem_cons, List.mem_append, List.mem_map, List.not_mem_nil, or_false] at hx
      rcases hx with rfl | ⟨n, hn, rfl⟩ | rfl
      · exact ⟨by omega, h1⟩
      · exact ⟨by omega, h3 n hn⟩
      · exact ⟨by omega, h2⟩
    · decide)
  exact Has.one ⟨-1, [], by decide, h1⟩ h2

/-- Names that can be written. -/
def NameOK (n : List Char) : Prop := n ≠ [] ∧ ∀ c ∈ n, isWs c = false

theorem named_exists {n : List Char} (hn : NameOK n) {l : List Int} (hl : ∀ x ∈ l, intMin ≤ x ∧ x ≤ intMax) :
    ∃ r line, NameR n r ∧ Line r line l ∧ '\n' ∉ line := by
  have hnl : '\n' ∉ (' ' :: n) := by
    simp only [List.mem_cons, not_or]
    exact ⟨by decide, fun h => absurd (hn.2 _ h) (by decide)⟩
  obtain ⟨line, h1, h2, -⟩ := line_exists (r := ' ' :: n) (.inr ⟨' ', n, rfl, by decide⟩) hnl l hl
  exact ⟨' ' :: n, line, ⟨[' '], [], by simp, by decide, hn.1, hn.2, .inl rfl⟩, h1, h2⟩

/-- Numbers fit into `int`, names can be written. -/
structure Printable (D : Desc) : Prop where
  sizes : (D.facts.length : Int) ≤ intMax ∧ (D.vars.length : Int) ≤ intMax ∧ (D.strict.length : Int) ≤ intMax ∧ (D.mutex.length : Int) ≤ intMax ∧
    (D.invs.length : Int) ≤ intMax ∧ (D.acts.length : Int) ≤ intMax ∧ (D.tasks.length : Int) ≤ intMax
  groups : ∀ g ∈ D.strict ++ D.mutex ++ D.invs, ∀ z ∈ g, intMin < z ∧ z ≤ intMax
  fact : ∀ f ∈ D.facts, '\n' ∉ f
  var : ∀ v ∈ D.vars, NameOK v.name
  task : ∀ t ∈ D.tasks, NameOK t.2
  cost : ∀ a ∈ D.acts, (a.cost : Int) ≤ intMax
  conds : ∀ a ∈ D.acts, ∀ e ∈ a.add ++ a.del, (e.1.length : Int) ≤ intMax ∧ ∀ n ∈ e.1, (n : Int) ≤ intMax
  methods : ∀ h ∈ D.hier, (h.methods.length : Int) ≤ intMax ∧ ∀ m ∈ h.methods, '\n' ∉ m.name ∧ (m.sub.length : Int) ≤ intMax

/-- Every description has a text. -/
theorem C74_texts_exist {D : Desc} (hD : D.OK) (hp : Printable D) : ∃ txt, FileText D txt := by
  suffices h : Has (FileF D) by
    obtain ⟨ls, h1, h2⟩ := h
    exact ⟨_, ls, rfl, h2, h1⟩
  obtain ⟨s1, s2, s3, s4, s5, s6, s7⟩ := hp.sizes
  have hlo : intMin ≤ 0 := by decide
  have num : ∀ {n : Nat}, (n : Int) ≤ intMax → Has (One (NumL n)) := fun {n} h => Has.num ⟨by omega, h⟩
  have fact : ∀ {n : Nat}, n < D.facts.length → (n : Int) ≤ intMax := fun h => by omega
  have task : ∀ {n : Nat}, n < D.tasks.length → (n : Int) ≤ intMax := fun h => by omega
  have group : ∀ {gs : List (List Int)}, (gs.length : Int) ≤ intMax → (∀ g ∈ gs, ∀ z ∈ g, intMin < z ∧ z ≤ intMax) → Has (GroupF gs) :=
    fun h1 h2 => (num h1).seq ((Has.each fun g hg => Has.ints (h2 g hg)).seq (Has.any 2))
  refine (Has.any 1).seq (Has.seq ?_ ?_)
  · refine (num s1).seq ((Has.each fun f hf => Has.one (l := f) (p := (· = f)) rfl (hp.fact f hf)).seq ((Has.any 2).seq ?_))
    refine (num s2).seq ((Has.each fun v hv => ?_).seq ((Has.any 2).seq ?_))
    · obtain ⟨r, l, h1, h2, h3⟩ := named_exists (hp.var v hv) (l := [(v.first : Int), (v.last : Int)]) (by
        have h1 := fact (hD.var v hv).1
        have h2 := fact (hD.var v hv).2
        intro x hx
        rcases List.mem_cons.1 hx with rfl | hx
        · exact ⟨by omega, h1⟩
        · rw [List.mem_singleton] at hx
          exact hx ▸ ⟨by omega, h2⟩)
      exact Has.one ⟨r, h1, h2⟩ h3
    refine (group s3 fun g hg => hp.groups g (by simp [hg])).seq ((group s4 fun g hg => hp.groups g (by simp [hg])).seq ((group s5 fun g hg => hp.groups g (by simp [hg])).seq ?_))
    refine (num s6).seq ((Has.each fun a ha => ?_).seq ((Has.any 2).seq ?_))
    · have he : ∀ es, (∀ e ∈ es, e ∈ a.add ++ a.del ∧ e.2 < D.facts.length) → Has (One (EffsL es)) := fun es hes =>
        Has.effs fun e he => ⟨(hp.conds a ha e (hes e he).1).1, fact (hes e he).2, (hp.conds a ha e (hes e he).1).2⟩
      exact (num (hp.cost a ha)).seq ((Has.nats fun f hf => fact (hD.prec a ha f hf)).seq
        ((he a.add fun e h => ⟨List.mem_append_left _ h, hD.add a ha e h⟩).seq (he a.del fun e h => ⟨List.mem_append_right _ h, hD.del a ha e h⟩)))
    refine (Has.nats fun f hf => fact (hD.s0 f hf)).seq ((Has.any 2).seq ((Has.nats fun f hf => fact (hD.goal f hf)).seq ((Has.any 2).seq ?_)))
    refine (num s7).seq (Has.each fun t ht => ?_)
    obtain ⟨r, l, h1, h2, h3⟩ := named_exists (hp.task t ht) (l := [if t.1 then 1 else 0]) (by
      intro x hx
      rw [List.mem_singleton] at hx
      subst hx
      split_ifs <;> decide)
    exact Has.one ⟨r, h1, h2⟩ h3
  · cases hh : D.hier with
    | none => exact Has.any 0
    | some h =>
      obtain ⟨hm1, hm2⟩ := hp.methods h hh
      refine (Has.one (l := []) (p := (· = [])) rfl (by simp)).seq ((Has.any 1).seq ((num (task (hD.init h hh))).seq ((Has.any 2).seq ((num hm1).seq (Has.each fun m hm => ?_)))))
      obtain ⟨nm, hnm⟩ := hD.head h hh m hm
      refine (Has.one (l := m.name) (p := (· = m.name)) rfl (hm2 m hm).1).seq ((num (task (List.getElem?_eq_some_iff.1 hnm).1)).seq ((Has.nats fun t ht => task (hD.sub h hh m hm t ht)).seq (Has.nats fun i hi => ?_)))
      have := flat_lt (hD.ord h hh m hm) i hi
      have := (hm2 m hm).2
      omega

/-! ## An example, and what goes wrong -/

/-- Two actions (the first one with a double precondition), an abstract task, and a method with two subtasks. -/
def exDesc (ord : List (Nat × Nat)) : Desc where
  facts := ["p".toList, "q".toList]
  vars := [⟨0, 1, "v".toList⟩]
  strict := []
  mutex := [[0, -2]]
  invs := [[0, -1]]
  acts := [⟨1, [0, 0], [([], 1)], []⟩, ⟨2, [], [], [([], 1)]⟩]
  s0 := [0]
  goal := []
  tasks := [(false, "a".toList), (false, "b".toList), (true, "t".toList)]
  hier := some ⟨2, [⟨"m".toList, 2, [0, 1], ord⟩]⟩

theorem exDesc_ok {ord : List (Nat × Nat)} (h : ∀ o ∈ ord, o.1 < 2 ∧ o.2 < 2) : (exDesc ord).OK where
  var := by simp [exDesc]
  prec := by simp [exDesc]
  add := by simp [exDesc]
  del := by simp [exDesc]
  s0 := by simp [exDesc]
  goal := by simp [exDesc]
  init := by simp [exDesc]
  head := by simp [exDesc]
  sub_ne := by simp [exDesc]
  sub := by simp [exDesc]
  ord := by simpa [exDesc] using h

theorem exDesc_printable (ord : List (Nat × Nat)) : Printable (exDesc ord) where
  sizes := by simp [exDesc, intMax]
  groups := by simp [exDesc, intMax, intMin]
  fact := by simp [exDesc]
  var := by simp [exDesc, NameOK, isWs]
  task := by simp [exDesc, NameOK, isWs]
  cost := by simp [exDesc, intMax]
  conds := by simp [exDesc, intMax]
  methods := by simp [exDesc, intMax]

/-- The hypotheses of the theorems can be met. -/
example : ∃ (D : Desc) (txt : List Char) (h : HierD), D.OK ∧ FileText D txt ∧ D.hier = some h ∧ h.methods ≠ [] ∧ (∀ m ∈ h.methods, m.ord ≠ [] ∧ Acyclic m.ord) ∧
    (∀ a ∈ D.acts, ∀ e ∈ a.add ++ a.del, e.1 = []) ∧ (problemOf D h).prim h.init = false := by
  have hok : (exDesc [(0, 1)]).OK := exDesc_ok (by simp)
  obtain ⟨txt, ht⟩ := C74_texts_exist hok (exDesc_printable _)
  refine ⟨_, txt, _, hok, ht, rfl, by simp, ?_, by simp [exDesc], by simp [problemOf, exDesc]⟩
  intro m hm
  rw [List.mem_singleton] at hm
  subst hm
  refine ⟨by simp, fun x hx => ?_⟩
  have key : ∀ y, TransGen (Rel [(0, 1)]) x y → x = 0 ∧ y = 1 := by
    intro y hy
    induction hy with
    | single h => simpa [Rel] using h
    | tail _ h ih =>
      simp only [Rel, List.mem_singleton, Prod.mk.injEq] at h
      omega
  have := key x hx
  omega

/-- A method whose subtasks are each ordered before the other cannot be used; but the file is read without a message, the ordering is
dropped, and search works on a problem with a solution. -/
theorem C74_cyclic_violated : ∃ (D : Desc) (txt : List Char) (h : HierD) (n : Nat) (M : Model) (H : Hier), D.OK ∧ FileText D txt ∧ D.hier = some h ∧
    (∀ fuel, n ≤ fuel → readFile fuel txt = .ok M) ∧ M.hier = some H ∧ (∃ π, IsSolution (Model.problem M.cl H) π) ∧ ¬ ∃ π, IsSolution (problemOf D h) π := by
  have hok : (exDesc [(0, 1), (1, 0)]).OK := exDesc_ok (by simp)
  obtain ⟨txt, ht⟩ := C74_texts_exist hok (exDesc_printable _)
  obtain ⟨n, M, hr, hc, H, hH, hm⟩ := C74_read hok ht
  refine ⟨_, txt, _, n, M, H, hok, ht, rfl, hr, hH, ?_, ?_⟩
  · obtain ⟨m', e', -, h1, h2, -, h3, -, -⟩ := hm.method 0 _ rfl
    have hord : m'.ord = [] := by
      have hcyc : ∀ x, x = 0 ∨ x = 1 → TransGen (Rel [(0, 1), (1, 0)]) x x := by
        rintro x (rfl | rfl)
        · exact .tail (.single (by simp [Rel] : Rel [(0, 1), (1, 0)] 0 1)) (by simp [Rel])
        · exact .tail (.single (by simp [Rel] : Rel [(0, 1), (1, 0)] 1 0)) (by simp [Rel])
      refine List.eq_nil_iff_forall_not_mem.2 ?_
      rintro ⟨x, y⟩ hxy
      obtain ⟨q1, q2⟩ := (h3 x y).1 hxy
      obtain ⟨z, hz, -⟩ := TransGen.head'_iff.1 q1
      have hx : x = 0 ∨ x = 1 := by
        change (x, z) ∈ [(0, 1), (1, 0)] at hz
        simp only [List.mem_cons, Prod.mk.injEq, List.not_mem_nil, or_false] at hz
        omega
      exact q2 x ⟨hcyc x hx, q1⟩
    obtain ⟨a0, f0, -, -, hp0, -⟩ := hc.act 0 _ rfl
    obtain ⟨a1, f1, -, -, hp1, -⟩ := hc.act 1 _ rfl
    have t0 := hc.task 0 _ _ rfl
    have t1 := hc.task 1 _ _ rfl
    set P := Model.problem M.cl H with hP
    have e_sub : P.sub 0 = [0, 1] := by
      show ((H.methods[0]?).map MethM.sub).getD [] = _
      rw [e']
      exact h2
    have e_head : P.head 0 = 2 := by
      show ((H.methods[0]?).map MethM.head).getD 0 = _
      rw [e']
      exact h1
    have e_ord : P.ord 0 = [] := by
      show ((H.methods[0]?).map MethM.ord).getD [] = _
      rw [e']
      exact hord
    have e_prim : ∀ i, i = 0 ∨ i = 1 → P.prim i = true := by
      rintro i (rfl | rfl)
      · show ((M.cl.tasks[0]?).map Prod.fst).getD false = true
        rw [t0]
        rfl
      · show ((M.cl.tasks[1]?).map Prod.fst).getD false = true
        rw [t1]
        rfl
    have e_prec0 : ∀ f ∈ P.prec 0, f = 0 := by
      intro f hf
      change f ∈ ((M.cl.acts[0]?).map ActM.prec).getD [] at hf
      rw [f0] at hf
      simpa [exDesc] using (hp0 f).1 hf
    have e_prec1 : ∀ f ∈ P.prec 1, False := by
      intro f hf
      change f ∈ ((M.cl.acts[1]?).map ActM.prec).getD [] at hf
      rw [f1] at hf
      simpa [exDesc] using (hp1 f).1 hf
    have e_leaf : ∀ {p a}, LeafAt P (.node 0 .leaf) p a ↔ (p = [0] ∧ a = 0) ∨ (p = [1] ∧ a = 1) := by
      intro p a
      constructor
      · intro h
        cases h with
        | @child _ _ i p _ hi h =>
        rw [e_sub] at hi
        cases h
        have : a = 0 ∨ a = 1 := by simp at hi; omega
        rcases this with rfl | rfl <;> simp
      · rintro (⟨rfl, rfl⟩ | ⟨rfl, rfl⟩)
        · exact .child (by rw [e_sub]; decide) .here
        · exact .child (by rw [e_sub]; decide) .here
    refine ⟨[0, 1], 1, .node 0 .leaf, ?_, ?_, ⟨[[0], [1]], by decide, fun p => ?_, ?_, ?_⟩, ?_⟩
    · have hi : P.init = P.head 0 := hm.init.trans e_head.symm
      rw [hi]
      refine .node (by show 0 < H.methods.length; rw [hm.methods]; decide) fun i t ht => ?_
      rw [e_sub] at ht
      have : i = t ∧ (i = 0 ∨ i = 1) := by
        rcases i with _ | _ | i
        · simp at ht; omega
        · simp at ht; omega
        · simp at ht
      obtain ⟨rfl, hi⟩ := this
      exact .leaf (e_prim i hi)
    · simp [Tree.inner]
    · simp only [e_leaf]
      constructor
      · intro hp
        rcases List.mem_cons.1 hp with rfl | hp
        · exact ⟨0, .inl ⟨rfl, rfl⟩⟩
        · exact ⟨1, .inr ⟨List.mem_singleton.1 hp, rfl⟩⟩
      · rintro ⟨a, ⟨rfl, -⟩ | ⟨rfl, -⟩⟩ <;> decide
    · refine List.pairwise_cons.2 ⟨fun q hq hb => ?_, by simp⟩
      obtain rfl := List.mem_singleton.1 hq
      cases hb with
      | diff h =>
      obtain ⟨z, hz, -⟩ := TransGen.head'_iff.1 h
      change (1, z) ∈ P.ord 0 at hz
      rw [e_ord] at hz
      cases hz
    · exact .cons (e_leaf.2 (.inl ⟨rfl, rfl⟩)) (.cons (e_leaf.2 (.inr ⟨rfl, rfl⟩)) .nil)
    · refine ⟨_, .cons (fun f hf => ?_) (.cons (fun f hf => (e_prec1 f hf).elim) (.nil _)), fun f hf => ?_⟩
      · rw [e_prec0 f hf]
        show 0 ∈ M.cl.s0
        rw [hc.s0]
        decide
      · change f ∈ M.cl.goal at hf
        rw [hc.goal] at hf
        cases hf
  · rintro ⟨π, k, tr, hv, -, ⟨occ, hl⟩, -⟩
    have hprim : ∀ i, (i = 0 ∨ i = 1) → ∀ {tr}, Valid (problemOf (exDesc [(0, 1), (1, 0)]) ⟨2, [⟨"m".toList, 2, [0, 1], [(0, 1), (1, 0)]⟩]⟩) i tr → tr = .leaf i := by
      intro i hi tr hv
      generalize hj : i = j at hv
      cases hv with
      | leaf h => rfl
      | @node m cs hm _ =>
        have : m = 0 := by have : m < 1 := hm; omega
        subst this
        have : i = 2 := hj
        omega
    generalize hj : (problemOf (exDesc [(0, 1), (1, 0)]) ⟨2, [⟨"m".toList, 2, [0, 1], [(0, 1), (1, 0)]⟩]⟩).init = j at hv
    have hj2 : j = 2 := hj.symm
    cases hv with
    | leaf h =>
      subst hj2
      exact absurd h (by decide)
    | @node m cs hm hcs =>
      have : m = 0 := by have : m < 1 := hm; omega
      subst this
      have c0 := hprim 0 (.inl rfl) (hcs 0 0 rfl)
      have c1 := hprim 1 (.inr rfl) (hcs 1 1 rfl)
      have m0 : [0] ∈ occ := (hl.all _).2 ⟨0, .child (by decide) (c0 ▸ .here)⟩
      have m1 : [1] ∈ occ := (hl.all _).2 ⟨1, .child (by decide) (c1 ▸ .here)⟩
      obtain ⟨i0, l0, g0⟩ := List.mem_iff_getElem.1 m0
      obtain ⟨i1, l1, g1⟩ := List.mem_iff_getElem.1 m1
      have hord := List.pairwise_iff_getElem.1 hl.order
      rcases lt_trichotomy i0 i1 with hlt | rfl | hlt
      · refine hord i0 i1 l0 l1 hlt ?_
        rw [g0, g1]
        exact .diff (.single (by decide : (1, 0) ∈ [(0, 1), (1, 0)]))
      · rw [g0] at g1
        cases g1
      · refine hord i1 i0 l1 l0 hlt ?_
        rw [g0, g1]
        exact .diff (.single (by decide : (0, 1) ∈ [(0, 1), (1, 0)]))

/-- A file that ends within the list of tasks, after an incomplete line: the last task is repeated, without a message. -/
theorem C74_truncated_violated : (match readFile 5 "\n0\n\n\n0\n\n\n0\n\n\n0\n\n\n0\n\n\n0\n\n\n-1\n\n\n-1\n\n\n3\n0 a\n0 b".toList with
    | .ok M => M.hier.isNone && M.cl.tasks == [(true, ['a']), (true, ['b']), (true, ['b'])]
    | _ => false) = true := by decide +kernel

end Verif.Props
