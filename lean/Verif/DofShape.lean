import Verif.Dof
import Verif.DofTree

/-! # The sets over which the linear program iterates, and values of expressions -/

namespace Verif.Dof

open Verif.Htn Verif.Prog Verif.TaskCounter Verif.Scc Verif.PG Verif.IntUtil Verif.Props Verif.Rc Verif.Strips

variable {P : Problem} {nA nT U : Nat} {pq : PQ} {s ri : Nat → Bool}

/-! ## Shape of the sets -/

/-- The sets have no duplicates, the actions have been inserted before all other tasks. -/
structure Shape (nA : Nat) (r : PgRes) : Prop where
  tnd : r.tasks.Nodup
  mnd : r.methods.Nodup
  und : r.useful.Nodup
  split : ∃ abs as, r.tasks = abs ++ as ∧ (∀ t ∈ abs, nA ≤ t) ∧ ∀ t ∈ as, t < nA

theorem foldl_ins_all {p : Nat → Prop} {l : List Nat} (hl : ∀ x ∈ l, p x) {r : List Nat} (hr : ∀ x ∈ r, p x) : ∀ x ∈ l.foldl ins r, p x := by
  intro x hx
  rcases mem_foldl_ins.1 hx with h | h
  · exact hr x h
  · exact hl x h

/-- Invariant of the first loop. -/
def A1 (nA : Nat) (x : PSt pq) : Prop := x.rt.Nodup ∧ (∀ a ∈ x.rt, a < nA) ∧ x.useful.Nodup

theorem setAll_keeps (l : List (Nat × Nat)) : ∀ x : PSt pq, (setAll pq l x).rt = x.rt ∧ (setAll pq l x).useful = x.useful := by
  induction l with
  | nil => intro x; exact ⟨rfl, rfl⟩
  | cons e l ih =>
    intro x
    rw [setAll]
    obtain ⟨h1, h2⟩ := ih { x with hP := Function.update x.hP e.2 e.1, q := pq.add x.q e.1 e.2 }
    exact ⟨h1, h2⟩

theorem pgStart_A1 : A1 nA (pgStart P nA pq U s ri) := by
  unfold pgStart
  rw [startFold]
  refine ⟨?_, ?_, ?_⟩
  · exact foldl_ins_nodup _ _ (by simp)
  · exact foldl_ins_all (fun x hx => List.mem_range.1 (List.mem_filter.1 hx).1) (by simp)
  · show (setAll pq _ _).useful.Nodup
    rw [(setAll_keeps _ _).2]
    exact foldl_ins_nodup _ _ (by simp)

theorem pgAdds_keeps (v : Nat) (l : List Nat) : ∀ x : PSt pq, (pgAdds pq v l x).rt = x.rt ∧ (pgAdds pq v l x).useful = x.useful := by
  induction l with
  | nil => intro x; exact ⟨rfl, rfl⟩
  | cons f l ih =>
    intro x
    rw [pgAdds]
    split
    · exact ⟨(ih _).1, (ih _).2⟩
    · exact ih x

theorem pgOp_A1 {k o : Nat} {x y : PSt pq} (ho : o < nA) (h : A1 nA x) (e : pgOp P pq U s ri k o x = some y) : A1 nA y := by
  unfold pgOp at e
  simp only at e
  split_ifs at e with h1 h2
  · cases e
    refine ⟨?_, ?_, ?_⟩
    · rw [(pgAdds_keeps _ _ _).1]
      exact ins_nodup h.1 _
    · rw [(pgAdds_keeps _ _ _).1]
      intro a ha
      rcases mem_ins.1 ha with ha | rfl
      · exact h.2.1 a ha
      · exact ho
    · rw [(pgAdds_keeps _ _ _).2]
      exact foldl_ins_nodup _ _ h.2.2
  · cases e
    exact h

theorem pgOps_A1 {k : Nat} : ∀ {l : List Nat} {x y : PSt pq}, (∀ o ∈ l, o < nA) → A1 nA x → pgOps P pq U s ri k l x = some y → A1 nA y := by
  intro l
  induction l with
  | nil => intro x y _ h e; cases e; exact h
  | cons o l ih =>
    intro x y hl h e
    rw [pgOps] at e
    split at e
    · cases e
    · rename_i z hz
      exact ih (fun o ho => hl o (List.mem_cons_of_mem _ ho)) (pgOp_A1 (hl o List.mem_cons_self) h hz) e

theorem pgLoop_A1 : ∀ {f : Nat} {x y : PSt pq}, A1 nA x → pgLoop P nA pq U s ri f x = .done y → A1 nA y := by
  intro f
  induction f with
  | zero => intro x y _ e; cases e
  | succ f ih =>
    intro x y h e
    rw [pgLoop] at e
    split at e
    · cases e; exact h
    · rename_i k p q hq
      split_ifs at e
      · exact ih (x := { x with q := q }) h e
      · split at e
        · cases e
        · rename_i z hz
          refine ih (pgOps_A1 (x := { x with q := q }) (fun o ho => ?_) h hz) e
          exact List.mem_range.1 (List.mem_filter.1 ho).1

/-- Invariant of the second loop. -/
def A2 (nA : Nat) (x : MSt) : Prop :=
  x.rt.Nodup ∧ x.rm.Nodup ∧ ∃ abs as, x.rt = abs ++ as ∧ (∀ t ∈ abs, nA ≤ t) ∧ ∀ t ∈ as, t < nA

theorem mOp_A2 {m : Nat} {x y : MSt} (hm : nA ≤ P.head m) (h : A2 nA x) (e : mOp P nT ri m x = some y) : A2 nA y := by
  unfold mOp at e
  simp only at e
  obtain ⟨h1, h2, abs, as, h3, h4, h5⟩ := h
  split_ifs at e with k1 k2 k3
  · cases e
    exact ⟨h1, ins_nodup h2 _, abs, as, h3, h4, h5⟩
  · cases e
    refine ⟨List.nodup_cons.2 ⟨k2, h1⟩, ins_nodup h2 _, P.head m :: abs, as, by simp [h3], ?_, h5⟩
    intro t ht
    rcases List.mem_cons.1 ht with rfl | ht
    · exact hm
    · exact h4 t ht
  · cases e
    exact ⟨h1, h2, abs, as, h3, h4, h5⟩

theorem mOps_A2 : ∀ {l : List Nat} {x y : MSt}, (∀ m ∈ l, nA ≤ P.head m) → A2 nA x → mOps P nT ri l x = some y → A2 nA y := by
  intro l
  induction l with
  | nil => intro x y _ h e; cases e; exact h
  | cons o l ih =>
    intro x y hl h e
    rw [PG.mOps] at e
    split at e
    · cases e
    · rename_i z hz
      exact ih (fun o ho => hl o (List.mem_cons_of_mem _ ho)) (mOp_A2 (hl o List.mem_cons_self) h hz) e

theorem mLoop_A2 (hh : ∀ m < P.numMethods, nA ≤ P.head m) : ∀ {f : Nat} {x y : MSt}, A2 nA x → mLoop P nT ri f x = .done y → A2 nA y := by
  intro f
  induction f with
  | zero => intro x y _ e; cases e
  | succ f ih =>
    intro x y h e
    rw [mLoop] at e
    split at e
    · cases e; exact h
    · rename_i t st _
      split at e
      · cases e
      · rename_i z hz
        exact ih (mOps_A2 (x := { x with st := st }) (fun m hm => hh m (List.mem_range.1 (List.mem_filter.1 hm).1)) h hz) e

theorem head_ge (hP : P.WF) (hR : RcOK P nA nT) : ∀ m < P.numMethods, nA ≤ P.head m := by
  intro m hm
  have h := hP.head_abs m hm
  rw [hR.prim _ (hR.head_lt m hm)] at h
  simpa using h

theorem pgCalc_shape (hP : P.WF) (hR : RcOK P nA nT) {fuel : Nat} {r : PgRes} (h : pgCalc P nA nT pq U s ri fuel = .done r) : Shape nA r := by
  unfold pgCalc at h
  split at h
  · cases h
  · cases h
  · cases h
  · rename_i x hx
    have h1 := pgLoop_A1 pgStart_A1 hx
    split_ifs at h
    split at h
    · cases h
    · cases h
    · cases h
    · rename_i y hy
      cases h
      obtain ⟨k1, k2, k3⟩ := mLoop_A2 (x := mStart P x.rt) (head_ge hP hR) ⟨h1.1, by simp [mStart], [], x.rt, rfl, by simp, h1.2.1⟩ hy
      exact ⟨k1, k2, h1.2.2, k3⟩

variable {r : PgRes}

theorem Shape.acts_eq (h : Shape nA r) : ∃ as abs, acts nA r = as ∧ tasks r = as ++ abs ∧ (∀ t ∈ abs, nA ≤ t) ∧ ∀ t ∈ as, t < nA := by
  obtain ⟨abs, as, h1, h2, h3⟩ := h.split
  refine ⟨as.reverse, abs.reverse, ?_, by simp [tasks, h1], by simpa using h2, by simpa using h3⟩
  unfold acts tasks
  rw [h1, List.reverse_append, List.takeWhile_append_of_pos (by simpa using h3)]
  cases e : abs.reverse with
  | nil => simp
  | cons t l =>
    have : t ∈ abs := List.mem_reverse.1 (e ▸ List.mem_cons_self)
    rw [List.takeWhile_cons_of_neg (by simpa using h2 t this)]
    simp

/-- The loops over actions visit exactly the actions of the set. -/
theorem Shape.mem_acts (h : Shape nA r) {a : Nat} : a ∈ acts nA r ↔ a ∈ r.tasks ∧ a < nA := by
  obtain ⟨as, abs, h1, h2, h3, h4⟩ := h.acts_eq
  have : ∀ t, t ∈ r.tasks ↔ t ∈ as ++ abs := fun t => by rw [← h2]; simp [tasks]
  rw [h1, this, List.mem_append]
  constructor
  · exact fun h => ⟨.inl h, h4 a h⟩
  · rintro ⟨h | h, hlt⟩
    · exact h
    · have := h3 a h
      omega

theorem Shape.acts_nodup (h : Shape nA r) : (acts nA r).Nodup := by
  obtain ⟨as, abs, h1, h2, -, -⟩ := h.acts_eq
  have : (tasks r).Nodup := by simpa [Dof.tasks] using h.tnd
  rw [h2] at this
  rw [h1]
  exact (List.nodup_append.1 this).1

@[simp] theorem mem_tasks' {t : Nat} : t ∈ tasks r ↔ t ∈ r.tasks := by simp [tasks]
@[simp] theorem mem_meths {m : Nat} : m ∈ meths r ↔ m ∈ r.methods := by simp [meths]
@[simp] theorem mem_useful' {f : Nat} : f ∈ useful r ↔ f ∈ r.useful := by simp [useful]

/-! ## Values of expressions -/

variable (x : Var → ℚ)

@[simp] theorem eval_append (l l' : Lin) : eval x (l ++ l') = eval x l + eval x l' := by simp [eval]
@[simp] theorem eval_V (v : Var) : eval x (V v) = x v := by simp [eval, V]
@[simp] theorem eval_K (c : Int) : eval x (K c) = c := by simp [eval, K]
@[simp] theorem eval_cV (c : Int) (v : Var) : eval x (cV c v) = c * x v := by simp [eval, cV]
@[simp] theorem eval_nil : eval x [] = 0 := rfl
theorem eval_sumV (l : List Var) : eval x (sumV l) = (l.map x).sum := by simp [eval, sumV, Function.comp_def]
theorem eval_map {α : Type} (l : List α) (c : α → Int) (v : α → Var) :
    eval x (l.map fun a => (c a, some (v a))) = (l.map fun a => (c a : ℚ) * x (v a)).sum := by simp [eval, Function.comp_def]

/-! ## The number of tasks in the network -/

/-- Binary search in a range of the array is defined, and what it finds is there. -/
theorem indexOf_sound (a : List Nat) (v : Nat) : ∀ (low high : Int), 0 ≤ low → high < a.length →
    ∃ r, indexOf a low high v = some r ∧ (0 ≤ r → a[r.toNat]? = some v) := by
  intro low high
  induction hk : (high - low + 1).toNat using Nat.strongRecOn generalizing low high with
  | _ k ih =>
  intro h0 h1
  rw [indexOf]
  split
  · rename_i hle
    have hm0 : ¬ low + (high - low) / 2 < 0 := by omega
    have hmn : (low + (high - low) / 2).toNat < a.length := by omega
    simp only [hm0, if_false, List.getElem?_eq_getElem hmn]
    split
    · rename_i hx
      exact ⟨_, rfl, fun _ => by rw [List.getElem?_eq_getElem hmn, hx]⟩
    · split
      · exact ih _ (by omega) low _ rfl h0 (by omega)
      · exact ih _ (by omega) _ high rfl (by omega) h1
  · exact ⟨-1, rfl, fun h => by omega⟩

theorem containsInt_sound (a : List Nat) (v : Nat) : ∃ b, containsInt a 0 (a.length - 1) v = some b ∧ (b = true → v ∈ a) := by
  obtain ⟨r, h1, h2⟩ := indexOf_sound a v 0 (a.length - 1) (by omega) (by omega)
  refine ⟨decide (0 ≤ r), by simp [containsInt, h1], fun h => ?_⟩
  exact List.mem_of_getElem? (h2 (of_decide_eq_true h))

theorem cnt_of_nodup : ∀ {c : Counter} {e : Nat × Nat}, (keys c).Nodup → e ∈ c → cnt c e.1 = e.2 := by
  intro c
  induction c with
  | nil => simp
  | cons d c ih =>
    intro e hn he
    have hn' : d.1 ∉ keys c ∧ (keys c).Nodup := by
      unfold keys at hn ⊢
      simpa using hn
    rw [cnt_cons]
    rcases List.mem_cons.1 he with rfl | he
    · rw [if_pos rfl]
      have : cnt c e.1 = 0 := by
        by_contra h
        have h0 : ∀ {c : Counter} {t : Nat}, cnt c t ≠ 0 → t ∈ keys c := by
          intro c t h
          induction c with
          | nil => simp at h
          | cons d c ih =>
            rw [cnt_cons] at h
            by_cases e : d.1 = t
            · simp [keys, e]
            · rw [if_neg e, Nat.zero_add] at h
              have := ih h
              unfold keys at this ⊢
              simp only [List.map_cons, List.mem_cons]
              exact .inr this
        exact hn'.1 (h0 h)
      omega
    · rw [if_neg, ih hn'.2 he, Nat.zero_add]
      intro e'
      refine hn'.1 ?_
      rw [e']
      exact List.mem_map_of_mem he

/-- The search in the sorted list of contained tasks gives the number of the tasks in the network. -/
theorem tnCount_eq {h : Heap} {n : Node} (hc : CounterOK h n) (t : Nat) : tnCount n t = ((live h n).filter fun u => taskOf h u = t).card := by
  rw [← hc.2]
  obtain ⟨hok, -⟩ := hc
  have hn : (keys n.contained).Nodup := hok.sorted.imp fun h => Nat.ne_of_lt h
  obtain ⟨r, h1, h2⟩ := indexOf_spec (keys n.contained) (hok.sorted.imp fun h => Nat.le_of_lt h) t 0 ((keys n.contained).length - 1)
    (by omega) (by omega)
  unfold tnCount
  rw [h1]
  simp only
  rcases h2 with ⟨rfl, h3⟩ | ⟨h3, h4, h5⟩
  · rw [if_neg (by omega)]
    have : t ∉ keys n.contained := by
      intro hm
      obtain ⟨i, hi, e⟩ := List.mem_iff_getElem.1 hm
      exact h3 i (by omega) (by omega) (by rw [List.getElem?_eq_getElem hi, e])
    rw [mem_keys_iff hok] at this
    omega
  · rw [if_pos h3]
    unfold keys at h5
    rw [List.getElem?_map] at h5
    cases e : n.contained[r.toNat]? with
    | none => rw [e] at h5; simp at h5
    | some d =>
      rw [e] at h5
      simp only [Option.map_some, Option.some.injEq] at h5
      simp only [Option.map_some, Option.getD_some]
      rw [← h5, cnt_of_nodup hn (List.mem_of_getElem? e)]

end Verif.Dof
