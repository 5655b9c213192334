import Verif.HMax

/-! # The additive and the FF heuristic

Model of `hsAddFF` (src/heuristics/rcHeuristics/hsAddFF.cpp). -/

namespace Verif.Strips

/-- The arrays of `hsAddFF`; `rb` is `reachedBy` (`none` is `NOACTION`; the array is not initialised, so its
initial content is arbitrary). -/
structure AF (Q : Type) where
  hOp : Nat → Nat
  hProp : Nat → Nat
  rb : Nat → Option Nat
  unsat : Nat → Int
  q : Q

/-- How the exploration ends: queue empty, all goals popped, or an operator value above `INT_MAX`. -/
inductive AFEnd (Q : Type)
  | empty (st : AF Q)
  | goals (st : AF Q)
  | overflow

/-- Outcome of the marking in `getFF`. -/
inductive FFR
  | fuel
  | ub
  | ok (mF mO : List Nat)
  deriving DecidableEq

/-- Outcome of `getHeuristicValue`: `UNREACHABLE`; the overflow of an operator value (detected by the code, which
returns `INT_MAX - 2`); another value; undefined behaviour (a sum above `INT_MAX`, or a write behind the
end of the stack). -/
inductive AFOut
  | unreachable
  | overflow
  | val (n : Nat)
  | ub
  deriving DecidableEq

section model

variable (M : Strips) (pq : PQ) (U : Nat) (ff : Bool)

/-- One iteration of the loop over the state facts (hsAddFF.cpp 122-126). -/
def afState (st : AF pq.Q) (f : Nat) : AF pq.Q :=
  { st with hProp := Function.update st.hProp f 0, rb := Function.update st.rb f none, q := pq.add st.q 0 f }

/-- One iteration of the loop over the effects of an action without preconditions (hsAddFF.cpp 130-135). -/
def afPrecLess (o : Nat) (st : AF pq.Q) (f : Nat) : AF pq.Q :=
  { st with hProp := Function.update st.hProp f (M.cost o), rb := Function.update st.rb f (some o),
            q := pq.add st.q (M.cost o) f }

/-- The state before the main loop (hsAddFF.cpp 112-136). -/
def afStart (rb0 : Nat → Option Nat) (s : List Nat) : AF pq.Q :=
  let st := s.foldl (afState pq)
    { hOp := M.cost, hProp := fun _ => U, rb := rb0, unsat := fun o => (M.prec o).length, q := pq.empty }
  M.precLess.foldl (fun st o => (M.add o).foldl (afPrecLess M pq o) st) st

/-- One iteration of the loop over the add effects (hsAddFF.cpp 184-191). -/
def afAdd (o v : Nat) (st : AF pq.Q) (f : Nat) : AF pq.Q :=
  if v < st.hProp f then
    { st with hProp := Function.update st.hProp f v, rb := Function.update st.rb f (some o), q := pq.add st.q v f }
  else st

/-- The new operator value (hsAddFF.cpp 161-166). -/
def afNew (k : Nat) (st : AF pq.Q) (o : Nat) : Nat :=
  if ff then max (st.hOp o) (M.cost o + k) else st.hOp o + k

/-- One iteration of the loop over the actions (hsAddFF.cpp 158-193); `none`: the value is above
`INT_MAX`. -/
def afOp (k : Nat) (st : AF pq.Q) (o : Nat) : Option (AF pq.Q) :=
  let v := afNew M pq ff k st o
  if U < v then none
  else
    let st := { st with hOp := Function.update st.hOp o v, unsat := Function.update st.unsat o (st.unsat o - 1) }
    some (if st.unsat o = 0 then (M.add o).foldl (afAdd pq o v) st else st)

/-- The loop over the actions (hsAddFF.cpp 158-193). -/
def afOps (k : Nat) : List Nat → AF pq.Q → Option (AF pq.Q)
  | [], st => some st
  | o :: os, st =>
    match afOp M pq U ff k st o with
    | none => none
    | some st => afOps k os st

/-- The main loop (hsAddFF.cpp 137-194); `n` is `numGoals`. -/
def afLoop (g : List Nat) : Nat → Int → AF pq.Q → Option (AFEnd pq.Q)
  | 0, _, _ => none
  | fuel + 1, n, st =>
    match pq.pop st.q with
    | none => some (.empty st)
    | some ((k, p), q) =>
      if st.hProp p < k then afLoop g fuel n { st with q := q }
      else if p ∈ g ∧ n - 1 = 0 then some (.goals { st with q := q })
      else
        match afOps M pq U ff k (M.precToAction p) { st with q := q } with
        | none => some .overflow
        | some st => afLoop g fuel (if p ∈ g then n - 1 else n) st

/-- Pushing facts on the stack `needToMark`; `none`: the capacity `cap` is exceeded (`IntStack::push`,
src/intDataStructures/IntStack.cpp, does not check it). -/
def pushAll (cap : Nat) : List Nat → List Nat → Option (List Nat)
  | [], st => some st
  | p :: ps, st => if st.length < cap then pushAll cap ps (p :: st) else none

/-- The marking loop of `getFF` (hsAddFF.cpp 79-94). -/
def ffLoop (cap : Nat) (rb : Nat → Option Nat) : Nat → List Nat → List Nat → List Nat → FFR
  | 0, _, _, _ => .fuel
  | _ + 1, [], mF, mO => .ok mF mO
  | fuel + 1, f :: st, mF, mO =>
    if f ∈ mF then ffLoop cap rb fuel st mF mO
    else
      match rb f with
      | none => ffLoop cap rb fuel st (f :: mF) mO
      | some o =>
        match pushAll cap (M.prec o) st with
        | none => .ub
        | some st => ffLoop cap rb fuel st (f :: mF) (if o ∈ mO then mO else o :: mO)

/-- The loop of `getFF` over the goals (hsAddFF.cpp 76-95). -/
def ffGoals (cap : Nat) (rb : Nat → Option Nat) (fuel : Nat) : List Nat → List Nat → List Nat → FFR
  | [], mF, mO => .ok mF mO
  | f :: g, mF, mO =>
    if 0 < cap then
      match ffLoop M cap rb fuel [f] mF mO with
      | .ok mF mO => ffGoals cap rb fuel g mF mO
      | r => r
    else .ub

/-- The value of the marked actions (hsAddFF.cpp 96-104). -/
def ffVal (mO : List Nat) : Nat :=
  if (List.range M.numOps).all (fun o => M.cost o = 1) then mO.length else (mO.map M.cost).sum

/-- `getHeuristicValue` (hsAddFF.cpp 107-210); `cap` is the capacity of `needToMark` (`numStateBits`,
line 33). -/
def addFF (cap : Nat) (rb0 : Nat → Option Nat) (fuel : Nat) (s g : List Nat) : Option AFOut :=
  let fin (n : Nat) : AFOut := if n = U then .unreachable else if U < n then .ub else .val n
  if g.isEmpty then some (.val 0)
  else
    match afLoop M pq U ff g fuel g.length (afStart M pq U rb0 s) with
    | none => none
    | some (.empty _) => some .unreachable
    | some .overflow => some .overflow
    | some (.goals st) =>
      if ff then
        match ffGoals M cap st.rb fuel g [] [] with
        | .fuel => none
        | .ub => some .ub
        | .ok _ mO => some (fin (ffVal M mO))
      else some (fin ((g.map st.hProp).sum))

end model

/-! ## The values -/

/-- Combination of the values of several facts: maximum (FF) or sum. -/
def comb (ff : Bool) (l : List Nat) : Nat := l.foldr (fun a b => if ff then max a b else a + b) 0

/-- `VLe M ff s f k`: the value of `f` is at most `k`, where the value of a state fact is 0, and that of another
fact is the minimum over its producers of the cost plus the combined values of the preconditions. -/
inductive VLe (M : Strips) (ff : Bool) (s : Nat → Prop) : Nat → Nat → Prop
  | init {f k : Nat} : s f → VLe M ff s f k
  | op {o f k : Nat} (v : Nat → Nat) : o < M.numOps → f ∈ M.add o → (∀ p ∈ M.prec o, VLe M ff s p (v p)) →
      M.cost o + comb ff ((M.prec o).map v) ≤ k → VLe M ff s f k

variable {M : Strips} {pq : PQ} {U : Nat} {ff : Bool} {s : List Nat}

theorem comb_cons (a : Nat) (l : List Nat) : comb ff (a :: l) = if ff then max a (comb ff l) else a + comb ff l := rfl

theorem comb_perm {l l' : List Nat} (h : l.Perm l') : comb ff l = comb ff l' := by
  induction h with
  | nil => rfl
  | cons x _ ih => rw [comb_cons, comb_cons, ih]
  | swap x y l => simp only [comb_cons]; cases ff <;> simp <;> omega
  | trans _ _ ih1 ih2 => rw [ih1, ih2]

theorem comb_mono {l : List Nat} {v w : Nat → Nat} (h : ∀ p ∈ l, v p ≤ w p) :
    comb ff (l.map v) ≤ comb ff (l.map w) := by
  induction l with
  | nil => exact Nat.le_refl _
  | cons a l ih =>
    have h1 := h a List.mem_cons_self
    have h2 := ih fun p hp => h p (List.mem_cons_of_mem _ hp)
    simp only [List.map_cons, comb_cons]
    cases ff <;> simp <;> omega

theorem le_comb {l : List Nat} {v : Nat → Nat} : ∀ p ∈ l, v p ≤ comb ff (l.map v) := by
  induction l with
  | nil => simp
  | cons a l ih =>
    intro p hp
    simp only [List.map_cons, comb_cons]
    rcases List.mem_cons.1 hp with rfl | hp
    · cases ff <;> simp
    · have := ih p hp
      cases ff <;> simp <;> omega

theorem comb_le {l : List Nat} {v : Nat → Nat} {k : Nat} (h : ∀ p ∈ l, v p ≤ k) : comb true (l.map v) ≤ k := by
  induction l with
  | nil => exact Nat.zero_le _
  | cons a l ih =>
    have h1 := h a List.mem_cons_self
    have h2 := ih fun p hp => h p (List.mem_cons_of_mem _ hp)
    simp only [List.map_cons, comb_cons, if_true]
    omega

theorem VLe.mono {s : Nat → Prop} {f k k' : Nat} (h : VLe M ff s f k) (hk : k ≤ k') : VLe M ff s f k' := by
  cases h with
  | init h => exact .init h
  | op v h1 h2 h3 h4 => exact .op v h1 h2 h3 (Nat.le_trans h4 hk)

theorem VLe.reach {s : Nat → Prop} {f k : Nat} (h : VLe M ff s f k) : Reach M s f := by
  induction h with
  | init h => exact .init h
  | op v h1 h2 _ _ ih => exact .op h1 h2 ih

theorem Reach.vle {s : Nat → Prop} {f : Nat} (h : Reach M s f) : ∃ k, VLe M ff s f k := by
  induction h with
  | init h => exact ⟨0, .init h⟩
  | @op o f ho hf _ ih =>
    choose! v hv using ih
    exact ⟨_, .op v ho hf hv (Nat.le_refl _)⟩

/-- For FF the values are the h-max values. -/
theorem vle_iff_hle {s : Nat → Prop} {f k : Nat} : VLe M true s f k ↔ HLe M M.cost s f k := by
  constructor
  · intro h
    induction h with
    | init h => exact .init h
    | @op o f k v ho hf hp hk ih =>
      refine .op (k := comb true ((M.prec o).map v)) ho hf (fun p hpm => (ih p hpm).mono (le_comb p hpm)) ?_
      omega
  · intro h
    induction h with
    | init h => exact .init h
    | @op o f k k' ho hf hp hk ih =>
      refine .op (fun _ => k) ho hf ih ?_
      have : comb true ((M.prec o).map fun _ => k) ≤ k := comb_le fun _ _ => Nat.le_refl _
      omega

/-! ## The invariant -/

/-- Facts in reverse order of their processing, each supported by earlier ones. -/
inductive Just (M : Strips) (s : List Nat) (rb : Nat → Option Nat) : List Nat → Prop
  | nil : Just M s rb []
  | cons {p : Nat} {l : List Nat} : Just M s rb l →
      (p ∈ s ∧ rb p = none ∨ ∃ o < M.numOps, rb p = some o ∧ p ∈ M.add o ∧ ∀ x ∈ M.prec o, x ∈ l) →
      Just M s rb (p :: l)

/-- The invariant of the main loop: `ord` are the processed facts, latest first, `D o` the ones already known to
action `o`, `b` a lower bound of the keys. -/
structure AInv (M : Strips) (pq : PQ) (U : Nat) (ff : Bool) (s : List Nat) (st : AF pq.Q)
    (ord : List Nat) (D : Nat → Finset Nat) (b : Nat) : Prop where
  nodup : (pq.items st.q).Nodup
  ent : ∀ x ∈ pq.items st.q, st.hProp x.2 ≤ x.1 ∧ x.1 < U ∧ b ≤ x.1
  pend : ∀ f, f ∉ ord → st.hProp f ≠ U → (st.hProp f, f) ∈ pq.items st.q
  stale : ∀ f ∈ ord, ∀ x ∈ pq.items st.q, x.2 = f → st.hProp f < x.1
  dle : ∀ f ∈ ord, st.hProp f ≤ b ∧ st.hProp f < U
  sub : ∀ o, ∀ p ∈ D o, p ∈ ord
  unsat : ∀ o < M.numOps, st.unsat o = (M.prec o).length - ((M.prec o).filter (fun p => p ∈ D o)).length
  hOp : ∀ o < M.numOps, st.hOp o = M.cost o + comb ff (((M.prec o).filter (fun p => p ∈ D o)).map st.hProp)
  fired : ∀ o < M.numOps, (∀ p ∈ M.prec o, p ∈ D o) → ∀ f ∈ M.add o, st.hProp f ≤ st.hOp o
  vle : ∀ f, st.hProp f ≠ U → VLe M ff (· ∈ s) f (st.hProp f)
  s0 : ∀ f ∈ s, st.hProp f = 0
  bound : ff = true → ∀ f, st.hProp f ≠ U → st.hProp f ≤ firedCost M M.cost D
  leU : ∀ f, st.hProp f ≤ U
  onodup : ord.Nodup
  just : Just M s st.rb ord
  supp : ∀ f, f ∉ ord → st.hProp f ≠ U → f ∈ s ∧ st.rb f = none ∨
    ∃ o < M.numOps, st.rb f = some o ∧ f ∈ M.add o ∧ ∀ x ∈ M.prec o, x ∈ ord

theorem Just.congr {rb rb' : Nat → Option Nat} {l : List Nat} (h : Just M s rb l) (he : ∀ p ∈ l, rb' p = rb p) :
    Just M s rb' l := by
  induction h with
  | nil => exact .nil
  | @cons p l _ hp ih =>
    refine .cons (ih fun x hx => he x (List.mem_cons_of_mem _ hx)) ?_
    rw [he p List.mem_cons_self]
    exact hp

theorem afAdd_fold (o v : Nat) : ∀ (l : List Nat) (st : AF pq.Q),
    let st' := l.foldl (afAdd pq o v) st
    st'.hOp = st.hOp ∧ st'.unsat = st.unsat ∧
    (∀ x, st'.hProp x = if x ∈ l then min (st.hProp x) v else st.hProp x) ∧
    (∀ x, st'.rb x = if x ∈ l ∧ v < st.hProp x then some o else st.rb x) ∧
    ∃ new : List (Nat × Nat), (pq.items st'.q).Perm (new ++ pq.items st.q) ∧ new.length ≤ l.length ∧
      new.Nodup ∧ (∀ x ∈ new, x.1 = v ∧ x.2 ∈ l ∧ v < st.hProp x.2) ∧
      ∀ x ∈ l, v < st.hProp x → (v, x) ∈ new := by
  intro l
  induction l with
  | nil =>
    intro st
    exact ⟨rfl, rfl, fun x => by simp, fun x => by simp, [], by simp, by simp, by simp, by simp, by simp⟩
  | cons f l ih =>
    intro st
    simp only [List.foldl_cons]
    by_cases hlt : v < st.hProp f
    · have e : afAdd pq o v st f = 
          { st with hProp := Function.update st.hProp f v, rb := Function.update st.rb f (some o),
                    q := pq.add st.q v f } := by
        unfold afAdd; rw [if_pos hlt]
      rw [e]
      obtain ⟨h1, h2, h3, hr, new, h4, h5, h6, h7, h8⟩ := ih 
          { st with hProp := Function.update st.hProp f v, rb := Function.update st.rb f (some o),
                    q := pq.add st.q v f }
      refine ⟨h1, h2, ?_, ?_, (v, f) :: new, ?_, by simp; omega, ?_, ?_, ?_⟩
      · intro x
        rw [h3 x]
        by_cases hx : x = f
        · subst hx
          simp only [Function.update_self, List.mem_cons, true_or, if_true, min_self, ite_self]
          omega
        · simp only [Function.update_of_ne hx, List.mem_cons, hx, false_or]
      · intro x
        rw [hr x]
        by_cases hx : x = f
        · subst hx
          simp [hlt]
        · simp only [Function.update_of_ne hx, List.mem_cons, hx, false_or]
      · refine h4.trans ?_
        refine ((pq.items_add st.q v f).append_left new).trans ?_
        exact List.perm_middle
      · refine List.nodup_cons.2 ⟨fun hm => ?_, h6⟩
        have := (h7 _ hm).2.2
        simp only [Function.update_self] at this
        omega
      · intro x hx
        rcases List.mem_cons.1 hx with rfl | hx
        · exact ⟨rfl, by simp, hlt⟩
        · obtain ⟨a1, a2, a3⟩ := h7 x hx
          refine ⟨a1, List.mem_cons_of_mem _ a2, ?_⟩
          by_cases hxf : x.2 = f
          · rw [hxf]; exact hlt
          · simpa only [Function.update_of_ne hxf] using a3
      · intro x hx hvx
        by_cases hxf : x = f
        · subst hxf; simp
        · rcases List.mem_cons.1 hx with rfl | hx
          · exact absurd rfl hxf
          · exact List.mem_cons_of_mem _ (h8 x hx (by simpa only [Function.update_of_ne hxf] using hvx))
    · have e : afAdd pq o v st f = st := by unfold afAdd; rw [if_neg hlt]
      rw [e]
      obtain ⟨h1, h2, h3, hr, new, h4, h5, h6, h7, h8⟩ := ih st
      refine ⟨h1, h2, ?_, ?_, new, h4, by simp; omega, h6, ?_, ?_⟩
      · intro x
        rw [h3 x]
        by_cases hx : x = f
        · subst hx
          simp only [List.mem_cons, true_or, if_true]
          split_ifs
          · rfl
          · omega
        · simp only [List.mem_cons, hx, false_or]
      · intro x
        rw [hr x]
        by_cases hx : x = f
        · subst hx; simp [hlt]
        · simp only [List.mem_cons, hx, false_or]
      · intro x hx
        obtain ⟨a1, a2, a3⟩ := h7 x hx
        exact ⟨a1, List.mem_cons_of_mem _ a2, a3⟩
      · intro x hx hvx
        rcases List.mem_cons.1 hx with rfl | hx
        · exact absurd hvx hlt
        · exact h8 x hx hvx

/-- A further precondition in the combined value. -/
theorem comb_insert {l : List Nat} (hl : l.Nodup) {p : Nat} (hp : p ∈ l) {D : Finset Nat} (hD : p ∉ D)
    (h : Nat → Nat) : comb ff ((l.filter (fun x => x ∈ insert p D)).map h) =
      if ff then max (h p) (comb ff ((l.filter (fun x => x ∈ D)).map h))
      else h p + comb ff ((l.filter (fun x => x ∈ D)).map h) := by
  rw [← comb_cons, ← List.map_cons]
  refine comb_perm (List.Perm.map h ?_)
  refine (List.perm_ext_iff_of_nodup (hl.filter _) (List.nodup_cons.2 ⟨by simp [hD], hl.filter _⟩)).2 fun x => ?_
  simp only [List.mem_filter, Finset.mem_insert, decide_eq_true_eq, List.mem_cons]
  constructor
  · rintro ⟨h1, h2 | h2⟩
    · exact .inl h2
    · exact .inr ⟨h1, h2⟩
  · rintro (rfl | ⟨h1, h2⟩)
    · exact ⟨hp, .inl rfl⟩
    · exact ⟨h1, .inr h2⟩

theorem comb_congr {l : List Nat} {h h' : Nat → Nat} (he : ∀ x ∈ l, h x = h' x) :
    comb ff (l.map h) = comb ff (l.map h') := by
  congr 1
  exact List.map_congr_left he

theorem afOp_inv (hM : M.WF) (hff : ff = true → M.total M.cost < U) {st : AF pq.Q} {ord : List Nat}
    {D : Nat → Finset Nat} {p o : Nat} (I : AInv M pq U ff s st ord D (st.hProp p)) (ho : o < M.numOps)
    (hpo : p ∈ M.prec o) (hpd : p ∈ ord) (hpD : p ∉ D o) :
    let D' := Function.update D o (insert p (D o))
    (afOp M pq U ff (st.hProp p) st o = none ∧ ff = false) ∨
    ∃ st', afOp M pq U ff (st.hProp p) st o = some st' ∧
      AInv M pq U ff s st' ord D' (st.hProp p) ∧ (∀ x ∈ ord, st'.hProp x = st.hProp x) ∧
      (pq.items st'.q).length + pot M D' ≤ (pq.items st.q).length + pot M D := by
  intro D'
  have hD'o : D' o = insert p (D o) := Function.update_self ..
  have hD'n : ∀ x, x ≠ o → D' x = D x := fun x hx => Function.update_of_ne hx ..
  have hsub' : ∀ x, ∀ y ∈ D' x, y ∈ ord := by
    intro x y hy
    by_cases hx : x = o
    · subst hx
      rw [hD'o] at hy
      rcases Finset.mem_insert.1 hy with rfl | hy
      · exact hpd
      · exact I.sub _ _ hy
    · rw [hD'n x hx] at hy; exact I.sub x y hy
  obtain ⟨v, hv⟩ : ∃ v, v = afNew M pq ff (st.hProp p) st o := ⟨_, rfl⟩
  -- the new value
  have hval : v = M.cost o + comb ff (((M.prec o).filter (fun p => p ∈ D' o)).map st.hProp) := by
    rw [hv, hD'o, comb_insert (hM.prec_nodup o ho) hpo hpD]
    unfold afNew
    rw [I.hOp o ho]
    cases ff <;> simp <;> omega
  have hvp : st.hProp p ≤ v := by
    rw [hval]
    have hm : p ∈ (M.prec o).filter (fun p => p ∈ D' o) := by
      rw [hD'o]; simp [hpo]
    have := le_comb (ff := ff) (v := st.hProp) p hm
    omega
  have hcnt : st.unsat o - 1 = (M.prec o).length - ((M.prec o).filter (fun p => p ∈ D' o)).length := by
    rw [I.unsat o ho, hD'o, filter_insert_length (hM.prec_nodup o ho) hpo hpD]
    push_cast; omega
  have hnot : ¬ ∀ p' ∈ M.prec o, p' ∈ D o := fun h => hpD (h p hpo)
  have hvff : ff = true → v < U ∧ v ≤ firedCost M M.cost D + M.cost o := by
    intro hf
    subst hf
    have h1 : comb true (((M.prec o).filter (fun p => p ∈ D' o)).map st.hProp) ≤ st.hProp p :=
      comb_le fun x hx => (I.dle x (hsub' o x (by simpa using (List.mem_filter.1 hx).2))).1
    have h2 := I.bound rfl p (Nat.ne_of_lt (I.dle p hpd).2)
    have h3 := (firedCost_fire (c := M.cost) (E := insert p (D o) ∪ (M.prec o).toFinset) ho hnot
      (fun x hx => Finset.mem_union_right _ (by simpa using hx))).1
    have h4 := firedCost_le (M := M) (c := M.cost) (Function.update D o (insert p (D o) ∪ (M.prec o).toFinset))
    have := hff rfl
    omega
  by_cases hov : U < v
  · left
    constructor
    · unfold afOp
      simp only [← hv, hov, if_true]
    · cases hb : ff with
      | false => rfl
      | true => have := (hvff hb).1; omega
  right
  obtain ⟨st1, hst1⟩ : ∃ st1 : AF pq.Q, st1 = { st with
      hOp := Function.update st.hOp o v,
      unsat := Function.update st.unsat o (st.unsat o - 1) } := ⟨_, rfl⟩
  obtain ⟨st', hst'⟩ : ∃ st' : AF pq.Q, st' = if st.unsat o - 1 = 0 then (M.add o).foldl (afAdd pq o v) st1
    else st1 := ⟨_, rfl⟩
  have heq : afOp M pq U ff (st.hProp p) st o = some st' := by
    unfold afOp
    simp only [← hv, hov, if_false, Function.update_self, hst', hst1]
  refine ⟨st', heq, ?_⟩
  have common : ∀ st2 : AF pq.Q, st2.hOp = st1.hOp → st2.unsat = st1.unsat →
      (∀ x ∈ ord, st2.hProp x = st.hProp x) →
      (∀ x < M.numOps, st2.unsat x = (M.prec x).length - ((M.prec x).filter (fun p => p ∈ D' x)).length) ∧
      (∀ x < M.numOps, st2.hOp x = M.cost x + comb ff (((M.prec x).filter (fun p => p ∈ D' x)).map st2.hProp)) := by
    intro st2 h1 h2 h4
    refine ⟨?_, ?_⟩
    · intro x hx
      rw [h2, hst1]
      by_cases hxo : x = o
      · subst hxo; simp only [Function.update_self]; exact hcnt
      · simp only [Function.update_of_ne hxo]; rw [I.unsat x hx, hD'n x hxo]
    · intro x hx
      have hc : comb ff (((M.prec x).filter (fun p => p ∈ D' x)).map st2.hProp) =
          comb ff (((M.prec x).filter (fun p => p ∈ D' x)).map st.hProp) :=
        comb_congr fun y hy => h4 y (hsub' x y (by simpa using (List.mem_filter.1 hy).2))
      rw [h1, hst1, hc]
      by_cases hxo : x = o
      · subst hxo; simp only [Function.update_self]; exact hval
      · simp only [Function.update_of_ne hxo]; rw [I.hOp x hx, hD'n x hxo]
  by_cases hz : st.unsat o - 1 = 0
  · -- the action is applied
    rw [if_pos hz] at hst'
    have hall : ∀ p' ∈ M.prec o, p' ∈ D' o := by
      rw [← filter_length_eq]
      have := List.length_filter_le (fun p' => decide (p' ∈ D' o)) (M.prec o)
      omega
    obtain ⟨fc, pt⟩ := firedCost_fire (c := M.cost) (E := insert p (D o)) ho hnot (by rw [← hD'o]; exact hall)
    change firedCost M M.cost D' = _ at fc
    change pot M D' + _ = _ at pt
    have hfold := afAdd_fold (pq := pq) o v (M.add o) st1
    simp only [← hst'] at hfold
    obtain ⟨h1, h2, h3, hr, new, h4, h5, h6, h7, h8⟩ := hfold
    have hv1 : st1.hProp = st.hProp := by rw [hst1]
    have hq1 : st1.q = st.q := by rw [hst1]
    have hr1 : st1.rb = st.rb := by rw [hst1]
    rw [hv1] at h3 h7 h8
    simp only [hv1, hr1] at hr
    rw [hq1] at h4
    have hvle : ∀ x, st'.hProp x ≤ st.hProp x := by
      intro x; rw [h3 x]; split_ifs <;> omega
    have hdone : ∀ x ∈ ord, st'.hProp x = st.hProp x := by
      intro x hx
      have := (I.dle x hx).1
      rw [h3 x]; split_ifs <;> omega
    have hrb : ∀ x ∈ ord, st'.rb x = st.rb x := by
      intro x hx
      have := (I.dle x hx).1
      rw [hr x, if_neg (by omega)]
    obtain ⟨c1, c2⟩ := common st' h1 h2 hdone
    have hmem : ∀ x, x ∈ pq.items st'.q ↔ x ∈ new ∨ x ∈ pq.items st.q := by
      intro x; rw [h4.mem_iff, List.mem_append]
    refine ⟨⟨?_, ?_, ?_, ?_, ?_, hsub', c1, c2, ?_, ?_, ?_, ?_, ?_, I.onodup, I.just.congr hrb, ?_⟩, hdone, ?_⟩
    · refine h4.nodup_iff.2 (List.nodup_append.2 ⟨h6, I.nodup, ?_⟩)
      rintro x hx y hy rfl
      have := (h7 x hx).2.2
      have := (I.ent x hy).1
      have := (h7 x hx).1
      omega
    · intro x hx
      rcases (hmem x).1 hx with hx | hx
      · obtain ⟨a1, a2, a3⟩ := h7 x hx
        have := I.leU x.2
        rw [h3 x.2, if_pos a2]
        omega
      · obtain ⟨a1, a2, a3⟩ := I.ent x hx
        exact ⟨Nat.le_trans (hvle _) a1, a2, a3⟩
    · intro f hf hfU
      rw [hmem]
      have h3f := h3 f
      by_cases hfm : f ∈ M.add o
      · rw [if_pos hfm] at h3f
        by_cases hlt : v < st.hProp f
        · left
          have e : st'.hProp f = v := by omega
          rw [e]
          exact h8 f hfm hlt
        · right
          have e : st'.hProp f = st.hProp f := by omega
          rw [e] at hfU ⊢
          exact I.pend f hf hfU
      · right
        rw [if_neg hfm] at h3f
        rw [h3f] at hfU ⊢
        exact I.pend f hf hfU
    · intro f hf x hx hxf
      rw [hdone f hf]
      rcases (hmem x).1 hx with hx | hx
      · have := (h7 x hx).2.2
        have := (I.dle f hf).1
        have := (h7 x hx).1
        rw [hxf] at *
        omega
      · exact I.stale f hf x hx hxf
    · intro f hf; rw [hdone f hf]; exact I.dle f hf
    · intro x hx hxall f hf
      by_cases hxo : x = o
      · subst hxo
        rw [h3 f, if_pos hf, h1, hst1]
        simp only [Function.update_self]
        omega
      · rw [hD'n x hxo] at hxall
        have := I.fired x hx hxall f hf
        rw [h1, hst1]
        simp only [Function.update_of_ne hxo]
        exact Nat.le_trans (hvle f) this
    · intro f hfU
      have h3f := h3 f
      by_cases hfm : f ∈ M.add o ∧ v < st.hProp f
      · rw [if_pos hfm.1] at h3f
        have e : st'.hProp f = v := by omega
        rw [e]
        refine .op st.hProp ho hfm.1 (fun p' hp' => ?_) ?_
        · exact I.vle p' (Nat.ne_of_lt (I.dle p' (hsub' o p' (hall p' hp'))).2)
        · rw [hval]
          have : (M.prec o).filter (fun p => decide (p ∈ D' o)) = M.prec o := by
            rw [List.filter_eq_self]; simpa using hall
          rw [this]
      · have e : st'.hProp f = st.hProp f := by
          rw [h3f]
          split_ifs with hfa
          · have : ¬ v < st.hProp f := fun h => hfm ⟨hfa, h⟩
            omega
          · rfl
        rw [e] at hfU ⊢
        exact I.vle f hfU
    · intro f hf
      have := I.s0 f hf
      have := hvle f
      omega
    · intro hfb f hfU
      have h3f := h3 f
      rw [fc]
      have hb := (hvff hfb).2
      by_cases hfm : f ∈ M.add o
      · rw [if_pos hfm] at h3f; omega
      · rw [if_neg hfm] at h3f
        rw [h3f] at hfU ⊢
        exact Nat.le_trans (I.bound hfb f hfU) (Nat.le_add_right _ _)
    · intro f; exact Nat.le_trans (hvle f) (I.leU f)
    · intro f hf hfU
      have h3f := h3 f
      rw [hr f]
      by_cases hfm : f ∈ M.add o ∧ v < st.hProp f
      · rw [if_pos hfm]
        exact .inr ⟨o, ho, rfl, hfm.1, fun x hx => hsub' o x (hall x hx)⟩
      · rw [if_neg hfm]
        refine I.supp f hf fun hU => hfU ?_
        rw [h3f]
        split_ifs with hfa
        · have : ¬ v < st.hProp f := fun h => hfm ⟨hfa, h⟩
          omega
        · exact hU
    · have := h4.length_eq
      rw [List.length_append] at this
      omega
  · -- a precondition is missing
    rw [if_neg hz] at hst'
    have hv1 : st1.hProp = st.hProp := by rw [hst1]
    have hq1 : st1.q = st.q := by rw [hst1]
    have hr1 : st1.rb = st.rb := by rw [hst1]
    obtain ⟨c1, c2⟩ := common st1 rfl rfl (fun x _ => by rw [hv1])
    have hnall : ¬ ∀ p' ∈ M.prec o, p' ∈ D' o := by
      intro hall
      rw [← filter_length_eq] at hall
      omega
    rw [hst']
    refine ⟨⟨?_, ?_, ?_, ?_, ?_, hsub', c1, c2, ?_, ?_, ?_, ?_, ?_, I.onodup, ?_, ?_⟩, fun x _ => by rw [hv1], ?_⟩
    · rw [hq1]; exact I.nodup
    · rw [hq1, hv1]; exact I.ent
    · rw [hq1, hv1]; exact I.pend
    · rw [hq1, hv1]; exact I.stale
    · rw [hv1]; exact I.dle
    · intro x hx hxall f hf
      by_cases hxo : x = o
      · subst hxo; exact absurd hxall hnall
      · rw [hD'n x hxo] at hxall
        rw [hv1, hst1]
        simp only [Function.update_of_ne hxo]
        exact I.fired x hx hxall f hf
    · rw [hv1]; exact I.vle
    · rw [hv1]; exact I.s0
    · intro hfb f hfU
      rw [hv1] at hfU ⊢
      refine Nat.le_trans (I.bound hfb f hfU) (firedCost_update ?_)
      exact Finset.subset_insert _ _
    · rw [hv1]; exact I.leU
    · rw [hr1]; exact I.just
    · rw [hr1, hv1]; exact I.supp
    · rw [hq1]
      exact Nat.add_le_add_left (pot_update (Finset.subset_insert _ _)) _

theorem afOps_fold (hM : M.WF) (hff : ff = true → M.total M.cost < U) {ord : List Nat} {p : Nat} (hpd : p ∈ ord) :
    ∀ (l : List Nat) (st : AF pq.Q) (D : Nat → Finset Nat), AInv M pq U ff s st ord D (st.hProp p) →
      l.Nodup → (∀ o ∈ l, o < M.numOps ∧ p ∈ M.prec o ∧ p ∉ D o) →
      let D' := fun o => if o ∈ l then insert p (D o) else D o
      (afOps M pq U ff (st.hProp p) l st = none ∧ ff = false) ∨
      ∃ st', afOps M pq U ff (st.hProp p) l st = some st' ∧ AInv M pq U ff s st' ord D' (st.hProp p) ∧
        (pq.items st'.q).length + pot M D' ≤ (pq.items st.q).length + pot M D := by
  intro l
  induction l with
  | nil => intro st D I _ _; right; exact ⟨st, rfl, by simpa using I, by simp⟩
  | cons o l ih =>
    intro st D I hnd hl
    obtain ⟨ho, hpo, hpD⟩ := hl o List.mem_cons_self
    rw [List.nodup_cons] at hnd
    unfold afOps
    rcases afOp_inv hM hff I ho hpo hpd hpD with ⟨e, hf⟩ | ⟨st1, e, h1, h2, h3⟩
    · left; rw [e]; exact ⟨rfl, hf⟩
    rw [e]
    rw [← h2 p hpd] at h1
    have h4 := ih st1 (Function.update D o (insert p (D o))) h1 hnd.2
      (fun x hx => by
        obtain ⟨a1, a2, a3⟩ := hl x (List.mem_cons_of_mem _ hx)
        refine ⟨a1, a2, ?_⟩
        rw [Function.update_of_ne (by rintro rfl; exact hnd.1 hx)]
        exact a3)
    have hD : (fun x => if x ∈ l then insert p (Function.update D o (insert p (D o)) x)
          else Function.update D o (insert p (D o)) x) =
        fun x => if x ∈ o :: l then insert p (D x) else D x := by
      funext x
      by_cases hx : x = o
      · subst hx; simp [hnd.1]
      · simp [hx]
    simp only [hD, h2 p hpd] at h4
    rcases h4 with h4 | ⟨st', e', h5, h6⟩
    · exact .inl h4
    · exact .inr ⟨st', e', h5, h6.trans h3⟩

theorem AInv.congr {st : AF pq.Q} {ord : List Nat} {D D' : Nat → Finset Nat} {b : Nat}
    (I : AInv M pq U ff s st ord D b) (hsub : ∀ o, ∀ p ∈ D' o, p ∈ ord)
    (h : ∀ o < M.numOps, ∀ p ∈ M.prec o, (p ∈ D o ↔ p ∈ D' o)) : AInv M pq U ff s st ord D' b := by
  have hfil : ∀ o < M.numOps, (M.prec o).filter (fun p => decide (p ∈ D o)) =
      (M.prec o).filter (fun p => decide (p ∈ D' o)) := fun o ho =>
    List.filter_congr fun p hp => by simp [h o ho p hp]
  refine { I with sub := hsub, unsat := ?_, hOp := ?_, fired := ?_, bound := ?_ }
  · intro o ho
    rw [← hfil o ho]; exact I.unsat o ho
  · intro o ho
    rw [← hfil o ho]; exact I.hOp o ho
  · intro o ho hall
    exact I.fired o ho fun p hp => (h o ho p hp).2 (hall p hp)
  · intro hf f hfU
    rw [← (firedCost_congr h).1]
    exact I.bound hf f hfU

/-- Below the current key, all values are known. -/
theorem AInv.least {st : AF pq.Q} {ord : List Nat} {D : Nat → Finset Nat} {b : Nat}
    (I : AInv M pq U ff s st ord D b) (hb : b ≤ U) (hD : ∀ f ∈ ord, st.hProp f < b → ∀ o, f ∈ D o) {f k : Nat}
    (h : VLe M ff (· ∈ s) f k) (hk : k < b) : f ∈ ord ∧ st.hProp f ≤ k := by
  have key : ∀ f, st.hProp f ≤ k → k < b → f ∈ ord := by
    intro f h1 h2
    by_contra hf
    have := (I.ent _ (I.pend f hf (by omega))).2.2
    simp only at this
    omega
  induction h with
  | @init f k h =>
    have := I.s0 f h
    exact ⟨key f (by omega) hk, by omega⟩
  | @op o f k v ho hf hp hle ih =>
    have hpk : ∀ p ∈ M.prec o, p ∈ ord ∧ st.hProp p ≤ v p := fun p hpm => by
      have h1 : v p ≤ k := by
        have := le_comb (ff := ff) (v := v) p hpm
        omega
      refine ih p hpm (by omega) fun f h1 h2 => ?_
      by_contra hf
      have := (I.ent _ (I.pend f hf (by omega))).2.2
      simp only at this
      omega
    have hall : ∀ p ∈ M.prec o, p ∈ D o := fun p hpm => by
      obtain ⟨h1, h2⟩ := hpk p hpm
      have := le_comb (ff := ff) (v := v) p hpm
      exact hD p h1 (by omega) o
    have h1 := I.fired o ho hall f hf
    have h2 := I.hOp o ho
    have h3 : (M.prec o).filter (fun p => decide (p ∈ D o)) = M.prec o := by
      rw [List.filter_eq_self]; simpa using hall
    rw [h3] at h2
    have h4 : comb ff ((M.prec o).map st.hProp) ≤ comb ff ((M.prec o).map v) :=
      comb_mono fun p hpm => (hpk p hpm).2
    exact ⟨key f (by omega) hk, by omega⟩

/-- What holds when the loop ends. -/
structure ADone (M : Strips) (ff : Bool) (s : List Nat) (hProp : Nat → Nat) (rb : Nat → Option Nat)
    (ord : List Nat) : Prop where
  exact : ∀ f ∈ ord, ∀ k, VLe M ff (· ∈ s) f k ↔ hProp f ≤ k
  just : Just M s rb ord
  nodup : ord.Nodup

theorem filter_insert_count {g : List Nat} (hg : g.Nodup) {ord : List Nat} {p : Nat} (hp : p ∉ ord) :
    (g.filter (fun x => x ∈ p :: ord)).length = (g.filter (fun x => x ∈ ord)).length + if p ∈ g then 1 else 0 := by
  by_cases hpg : p ∈ g
  · have h := filter_insert_length hg hpg (D := ord.toFinset) (by simpa using hp)
    simp only [Finset.mem_insert, List.mem_toFinset] at h
    simp only [List.mem_cons, hpg, if_true]
    exact h
  · simp only [hpg, if_false, Nat.add_zero]
    congr 1
    refine List.filter_congr fun x hx => ?_
    have : x ≠ p := by rintro rfl; exact hpg hx
    simp [this]

theorem afLoop_inv (hM : M.WF) (hff : ff = true → M.total M.cost < U) {g : List Nat} (hg : g.Nodup) :
    ∀ (fuel : Nat) (n : Int) (st : AF pq.Q) (ord : List Nat) (b : Nat),
    AInv M pq U ff s st ord (fun _ => ord.toFinset) b →
    n = g.length - (g.filter (fun x => x ∈ ord)).length → 0 < n →
    (pq.items st.q).length + pot M (fun _ => ord.toFinset) < fuel →
    ∃ r, afLoop M pq U ff g fuel n st = some r ∧
      (r = .overflow → ff = false) ∧
      (∀ st', r = .empty st' → ∃ f ∈ g, ∀ k < U, ¬ VLe M ff (· ∈ s) f k) ∧
      (∀ st', r = .goals st' → ∃ ord', ADone M ff s st'.hProp st'.rb ord' ∧ ∀ f ∈ g, f ∈ ord') := by
  intro fuel
  induction fuel with
  | zero => intro n st ord b _ _ _ h; omega
  | succ fuel ih =>
    intro n st ord b I hn hpos hf
    unfold afLoop
    cases hpop : pq.pop st.q with
    | none =>
      refine ⟨_, rfl, by simp, ?_, by simp⟩
      rintro st' e
      have hit := pq.pop_none _ hpop
      have hno : ∃ f ∈ g, f ∉ ord := by
        by_contra hc
        have hc : ∀ f ∈ g, f ∈ ord := fun f h => by by_contra h2; exact hc ⟨f, h, h2⟩
        have : g.filter (fun x => decide (x ∈ ord)) = g := by rw [List.filter_eq_self]; simpa using hc
        rw [this] at hn
        omega
      obtain ⟨f, hfg, hfo⟩ := hno
      refine ⟨f, hfg, fun k hk hv => hfo ?_⟩
      have I' : AInv M pq U ff s st ord (fun _ => ord.toFinset) U :=
        { I with ent := by rw [hit]; simp, dle := fun f h => ⟨Nat.le_of_lt (I.dle f h).2, (I.dle f h).2⟩ }
      exact (I'.least (Nat.le_refl _) (fun f h _ o => by simpa using h) hv hk).1
    | some r =>
      obtain ⟨⟨k, p⟩, q⟩ := r
      obtain ⟨hperm, hmin⟩ := pq.pop_some _ _ _ hpop
      have hlen := hperm.length_eq
      rw [List.length_cons] at hlen
      have hnd := hperm.nodup_iff.1 I.nodup
      rw [List.nodup_cons] at hnd
      have hmem : ∀ x, x ∈ pq.items q → x ∈ pq.items st.q := fun x hx =>
        hperm.mem_iff.2 (List.mem_cons_of_mem _ hx)
      have hkp := I.ent (k, p) (hperm.mem_iff.2 List.mem_cons_self)
      simp only at hkp
      by_cases hst : st.hProp p < k
      · simp only [hst, if_true]
        refine ih n { st with q := q } ord b { I with
          nodup := hnd.2, ent := fun x hx => I.ent x (hmem x hx), pend := ?_,
          stale := fun f hf x hx => I.stale f hf x (hmem x hx) } hn hpos ?_
        · intro f hf hU
          rcases List.mem_cons.1 (hperm.mem_iff.1 (I.pend f hf hU)) with e | e
          · simp only [Prod.mk.injEq] at e
            obtain ⟨e1, rfl⟩ := e
            omega
          · exact e
        · show (pq.items q).length + _ < fuel
          omega
      · simp only [hst, if_false]
        have hk : st.hProp p = k := by omega
        have hpd : p ∉ ord := fun h => hst (I.stale p h (k, p) (hperm.mem_iff.2 List.mem_cons_self) rfl)
        have hpU : st.hProp p ≠ U := by omega
        have I1 : AInv M pq U ff s { st with q := q } (p :: ord) (fun _ => ord.toFinset) (st.hProp p) := by
          refine { I with nodup := hnd.2, ent := ?_, pend := ?_, stale := ?_, dle := ?_, sub := ?_,
                          onodup := List.nodup_cons.2 ⟨hpd, I.onodup⟩, just := .cons I.just (I.supp p hpd hpU),
                          supp := ?_ }
          · intro x hx
            obtain ⟨a1, a2, a3⟩ := I.ent x (hmem x hx)
            exact ⟨a1, a2, by rw [hk]; exact hmin x (hmem x hx)⟩
          · intro f hf hU
            rcases List.mem_cons.1 (hperm.mem_iff.1 (I.pend f (fun h => hf (List.mem_cons_of_mem _ h)) hU)) with e | e
            · simp only [Prod.mk.injEq] at e
              exact absurd (by rw [e.2]; exact List.mem_cons_self) hf
            · exact e
          · intro f hf x hx hxf
            rcases List.mem_cons.1 hf with rfl | hf
            · have h1 := (I.ent x (hmem x hx)).1
              rw [hxf] at h1
              rcases Nat.lt_or_eq_of_le h1 with h | h
              · exact h
              · exfalso
                apply hnd.1
                have : x = (k, f) := by rw [← hk, h, ← hxf]
                rw [← this]; exact hx
            · exact I.stale f hf x (hmem x hx) hxf
          · intro f hf
            rcases List.mem_cons.1 hf with rfl | hf
            · exact ⟨Nat.le_refl _, by show st.hProp f < U; omega⟩
            · obtain ⟨a1, a2⟩ := I.dle f hf
              exact ⟨by show st.hProp f ≤ st.hProp p; omega, a2⟩
          · intro o f hf
            exact List.mem_cons_of_mem _ (by simpa using hf)
          · intro f hf hU
            rcases I.supp f (fun h => hf (List.mem_cons_of_mem _ h)) hU with h | ⟨o, h1, h2, h3, h4⟩
            · exact .inl h
            · exact .inr ⟨o, h1, h2, h3, fun x hx => List.mem_cons_of_mem _ (h4 x hx)⟩
        have hcount := filter_insert_count hg hpd
        by_cases hgoal : p ∈ g ∧ n - 1 = 0
        · rw [if_pos hgoal]
          refine ⟨_, rfl, by simp, by simp, ?_⟩
          rintro st' e
          obtain rfl := AFEnd.goals.inj e
          refine ⟨p :: ord, ⟨fun f hf k' => ⟨fun hv => ?_, fun hle => ?_⟩, I1.just, I1.onodup⟩, fun f hf => ?_⟩
          · by_contra hlt
            have hlt : k' < st.hProp f := not_le.1 hlt
            have hfle := (I1.dle f hf).1
            simp only at hfle
            have := (I1.least (by omega) (fun x hx hxb o => by
              rcases List.mem_cons.1 hx with rfl | hx
              · simp at hxb
              · simpa using hx) hv (by omega)).2
            simp only at this
            omega
          · exact (I1.vle f (Nat.ne_of_lt (I1.dle f hf).2)).mono hle
          · rw [if_pos hgoal.1] at hcount
            have hl : (g.filter (fun x => decide (x ∈ p :: ord))).length = g.length := by omega
            have := List.length_filter_eq_length_iff.1 hl f hf
            simpa using this
        · rw [if_neg hgoal]
          have hops := afOps_fold hM hff (List.mem_cons_self (a := p) (l := ord)) (M.precToAction p)
            { st with q := q } (fun _ => ord.toFinset) I1 (precToAction_nodup p)
            (fun o ho => ⟨(mem_precToAction.1 ho).1, (mem_precToAction.1 ho).2, by simpa using hpd⟩)
          simp only [hk] at hops
          rcases hops with ⟨e, hfb⟩ | ⟨st2, e, I2, hm⟩
          · rw [e]
            exact ⟨_, rfl, fun _ => hfb, by simp, by simp⟩
          · rw [e]
            have hcong : ∀ o < M.numOps, ∀ p' ∈ M.prec o,
                (p' ∈ (if o ∈ M.precToAction p then insert p ord.toFinset else ord.toFinset) ↔
                  p' ∈ (p :: ord).toFinset) := by
              intro o ho p' hp'
              by_cases hoo : o ∈ M.precToAction p
              · simp [hoo]
              · have : p' ≠ p := by
                  rintro rfl
                  exact hoo (mem_precToAction.2 ⟨ho, hp'⟩)
                simp [hoo, this]
            rw [(firedCost_congr (c := M.cost) hcong).2] at hm
            refine ih _ st2 (p :: ord) _ (I2.congr (fun _ x hx => by simpa using hx) hcong) ?_ ?_ ?_
            · by_cases hpg : p ∈ g
              · rw [if_pos hpg] at hcount ⊢; omega
              · rw [if_neg hpg] at hcount ⊢; omega
            · by_cases hpg : p ∈ g
              · have : n - 1 ≠ 0 := fun h => hgoal ⟨hpg, h⟩
                rw [if_pos hpg]; omega
              · rw [if_neg hpg]; exact hpos
            · omega

theorem afState_fold : ∀ (s : List Nat) (st : AF pq.Q),
    let st' := s.foldl (afState pq) st
    st'.hOp = st.hOp ∧ st'.unsat = st.unsat ∧ (∀ f, st'.hProp f = if f ∈ s then 0 else st.hProp f) ∧
      (∀ f ∈ s, st'.rb f = none) ∧
      (pq.items st'.q).Perm (s.map (fun f => (0, f)) ++ pq.items st.q) := by
  intro s
  induction s with
  | nil => intro st; simp
  | cons f s ih =>
    intro st
    obtain ⟨h1, h2, h3, hr, h4⟩ := ih (afState pq st f)
    have hrb : ∀ (s : List Nat) (st : AF pq.Q) (x : Nat), st.rb x = none → (s.foldl (afState pq) st).rb x = none := by
      intro s
      induction s with
      | nil => intro st x h; exact h
      | cons a s ih =>
        intro st x h
        refine ih _ x ?_
        by_cases hx : x = a
        · subst hx; simp [afState]
        · simp [afState, hx, h]
    refine ⟨h1, h2, fun x => ?_, fun x hx => ?_, ?_⟩
    · rw [List.foldl_cons, h3 x]
      by_cases hx : x = f
      · subst hx; simp [afState]
      · simp [afState, hx]
    · rcases List.mem_cons.1 hx with rfl | hx
      · exact hrb s _ x (by simp [afState])
      · exact hr x hx
    · rw [List.foldl_cons]
      refine h4.trans ?_
      refine ((pq.items_add st.q 0 f).append_left _).trans ?_
      exact List.perm_middle

theorem afStart_inv (hM : M.WF) (hU : 0 < U) (hs : s.Nodup) (rb0 : Nat → Option Nat) :
    AInv M pq U ff s (afStart M pq U rb0 s) [] (fun _ => ([] : List Nat).toFinset) 0 ∧
      (pq.items (afStart M pq U rb0 s).q).length = s.length := by
  obtain ⟨h1, h2, h3, hr, h4⟩ := afState_fold (pq := pq) s
    { hOp := M.cost, hProp := fun _ => U, rb := rb0, unsat := fun o => (M.prec o).length, q := pq.empty }
  have e : afStart M pq U rb0 s = s.foldl (afState pq)
      { hOp := M.cost, hProp := fun _ => U, rb := rb0, unsat := fun o => (M.prec o).length, q := pq.empty } := by
    unfold afStart
    rw [precLess_nil hM]
    rfl
  rw [← e] at h1 h2 h3 h4 hr
  simp only [pq.items_empty, List.append_nil] at h3 h4
  have hnone : ∀ o < M.numOps, ¬ ∀ p ∈ M.prec o, p ∈ (∅ : Finset Nat) := by
    intro o ho h
    obtain ⟨z, hz⟩ := List.exists_mem_of_ne_nil _ (hM.prec_ne o ho)
    exact absurd (h z hz) (Finset.notMem_empty z)
  have hs' : ∀ f, (afStart M pq U rb0 s).hProp f ≠ U → f ∈ s := by
    intro f hfU
    rw [h3] at hfU
    split_ifs at hfU with hf
    · exact hf
    · exact absurd rfl hfU
  refine ⟨⟨?_, ?_, ?_, by simp, by simp, by simp, ?_, ?_, ?_, ?_, ?_, ?_, ?_, List.nodup_nil, .nil, ?_⟩, ?_⟩
  · refine h4.nodup_iff.2 (hs.map fun a b e => ?_)
    simpa using e
  · intro x hx
    obtain ⟨f, hf, rfl⟩ := List.mem_map.1 (h4.mem_iff.1 hx)
    simp [h3, hf, hU]
  · intro f _ hfU
    have hf := hs' f hfU
    rw [h3, if_pos hf]
    exact h4.mem_iff.2 (List.mem_map.2 ⟨f, hf, rfl⟩)
  · intro o _; rw [h2]; simp
  · intro o _; rw [h1]; simp [comb]
  · intro o ho h; exact absurd h (by simpa using hnone o ho)
  · intro f hfU; exact .init (hs' f hfU)
  · intro f hf; rw [h3, if_pos hf]
  · intro _ f hfU
    rw [h3, if_pos (hs' f hfU)]
    exact Nat.zero_le _
  · intro f; rw [h3]; split_ifs
    · exact Nat.zero_le _
    · exact Nat.le_refl _
  · intro f _ hfU
    exact .inl ⟨hs' f hfU, hr f (hs' f hfU)⟩
  · simpa using h4.length_eq

/-! ## Extraction of a relaxed plan -/

theorem Just.mem {rb : Nat → Option Nat} {ord : List Nat} (h : Just M s rb ord) : ∀ f ∈ ord,
    f ∈ s ∧ rb f = none ∨ ∃ o < M.numOps, rb f = some o ∧ f ∈ M.add o ∧ ∀ x ∈ M.prec o, x ∈ ord := by
  induction h with
  | nil => simp
  | @cons p l _ hp ih =>
    have hlift : ∀ f, (f ∈ s ∧ rb f = none ∨ ∃ o < M.numOps, rb f = some o ∧ f ∈ M.add o ∧ ∀ x ∈ M.prec o, x ∈ l) →
        f ∈ s ∧ rb f = none ∨ ∃ o < M.numOps, rb f = some o ∧ f ∈ M.add o ∧ ∀ x ∈ M.prec o, x ∈ p :: l := by
      rintro f (h | ⟨o, h1, h2, h3, h4⟩)
      · exact .inl h
      · exact .inr ⟨o, h1, h2, h3, fun x hx => List.mem_cons_of_mem _ (h4 x hx)⟩
    intro f hf
    rcases List.mem_cons.1 hf with rfl | hf
    · exact hlift _ hp
    · exact hlift f (ih f hf)

/-- The invariant of the marking. -/
structure FInv (M : Strips) (rb : Nat → Option Nat) (ord stack mF mO : List Nat) : Prop where
  stk : ∀ f ∈ stack, f ∈ ord
  mf : ∀ f ∈ mF, f ∈ ord
  nodup : mF.Nodup
  mo : ∀ o ∈ mO, ∃ f ∈ mF, rb f = some o
  monodup : mO.Nodup
  closed : ∀ f ∈ mF, ∀ o, rb f = some o → o ∈ mO ∧ ∀ x ∈ M.prec o, x ∈ mF ∨ x ∈ stack

/-- Number of facts pushed for `f`. -/
def pushes (M : Strips) (rb : Nat → Option Nat) (f : Nat) : Nat :=
  match rb f with
  | none => 0
  | some o => (M.prec o).length

/-- Remaining work. -/
def ffWork (M : Strips) (rb : Nat → Option Nat) (ord mF : List Nat) : Nat :=
  ((ord.filter (· ∉ mF)).map fun f => 1 + pushes M rb f).sum

theorem ffWork_cons {rb : Nat → Option Nat} {f : Nat} : ∀ {ord mF : List Nat}, ord.Nodup → f ∈ ord → f ∉ mF →
    ffWork M rb ord (f :: mF) + (1 + pushes M rb f) = ffWork M rb ord mF := by
  intro ord mF
  induction ord with
  | nil => simp
  | cons a ord ih =>
    intro hnd hf hm
    rw [List.nodup_cons] at hnd
    unfold ffWork at ih ⊢
    by_cases ha : a = f
    · subst ha
      have e : ord.filter (fun x => decide (x ∉ a :: mF)) = ord.filter (fun x => decide (x ∉ mF)) := by
        refine List.filter_congr fun x hx => ?_
        have : x ≠ a := by rintro rfl; exact hnd.1 hx
        simp [this]
      rw [List.filter_cons_of_neg (by simp), List.filter_cons_of_pos (by simpa using hm), e]
      simp only [List.map_cons, List.sum_cons]
      omega
    · have hf' : f ∈ ord := by
        rcases List.mem_cons.1 hf with h | h
        · exact absurd h.symm ha
        · exact h
      have := ih hnd.2 hf' hm
      by_cases ham : a ∈ mF
      · rw [List.filter_cons_of_neg (by simp [ham]), List.filter_cons_of_neg (by simp [ham])]
        exact this
      · rw [List.filter_cons_of_pos (by simp [ham, ha]), List.filter_cons_of_pos (by simp [ham])]
        simp only [List.map_cons, List.sum_cons]
        omega

theorem pushAll_spec {cap : Nat} : ∀ (ps st : List Nat),
    (pushAll cap ps st = none ∧ cap < ps.length + st.length) ∨
    (pushAll cap ps st = some (ps.reverse ++ st)) := by
  intro ps
  induction ps with
  | nil => intro st; right; rfl
  | cons p ps ih =>
    intro st
    unfold pushAll
    by_cases h : st.length < cap
    · rw [if_pos h]
      rcases ih (p :: st) with ⟨h1, h2⟩ | h1
      · left
        refine ⟨h1, ?_⟩
        simp only [List.length_cons] at h2 ⊢
        omega
      · right; rw [h1]; simp
    · rw [if_neg h]
      left
      refine ⟨rfl, ?_⟩
      simp only [List.length_cons]
      omega

theorem ffLoop_spec {rb : Nat → Option Nat} {ord : List Nat} (hj : Just M s rb ord) (hnd : ord.Nodup) {cap : Nat} :
    ∀ (fuel : Nat) (stack mF mO : List Nat), FInv M rb ord stack mF mO →
      stack.length + ffWork M rb ord mF < fuel →
      (ffLoop M cap rb fuel stack mF mO = .ub ∧ cap < stack.length + ffWork M rb ord mF) ∨
      ∃ mF' mO', ffLoop M cap rb fuel stack mF mO = .ok mF' mO' ∧ FInv M rb ord [] mF' mO' ∧
        (∀ f ∈ stack, f ∈ mF') ∧ (∀ f ∈ mF, f ∈ mF') ∧ ffWork M rb ord mF' ≤ ffWork M rb ord mF := by
  intro fuel
  induction fuel with
  | zero => intro stack mF mO _ h; omega
  | succ fuel ih =>
    intro stack mF mO I hf
    cases stack with
    | nil =>
      right
      exact ⟨mF, mO, rfl, I, by simp, fun f h => h, Nat.le_refl _⟩
    | cons f st =>
      unfold ffLoop
      simp only [List.length_cons] at hf ⊢
      by_cases hm : f ∈ mF
      · rw [if_pos hm]
        have I' : FInv M rb ord st mF mO := { I with
          stk := fun x hx => I.stk x (List.mem_cons_of_mem _ hx)
          closed := fun x hx o ho => by
            obtain ⟨h1, h2⟩ := I.closed x hx o ho
            refine ⟨h1, fun y hy => ?_⟩
            rcases h2 y hy with h | h
            · exact .inl h
            · rcases List.mem_cons.1 h with rfl | h
              · exact .inl hm
              · exact .inr h }
        rcases ih st mF mO I' (by omega) with ⟨h1, h2⟩ | ⟨mF', mO', h1, h2, h3, h4, h5⟩
        · exact .inl ⟨h1, by omega⟩
        · refine .inr ⟨mF', mO', h1, h2, fun x hx => ?_, h4, h5⟩
          rcases List.mem_cons.1 hx with rfl | hx
          · exact h4 _ hm
          · exact h3 x hx
      · rw [if_neg hm]
        have hford := I.stk f List.mem_cons_self
        have hw := ffWork_cons (M := M) (rb := rb) hnd hford hm
        cases hr : rb f with
        | none =>
          simp only
          have I' : FInv M rb ord st (f :: mF) mO := by
            refine ⟨fun x hx => I.stk x (List.mem_cons_of_mem _ hx), ?_, List.nodup_cons.2 ⟨hm, I.nodup⟩, ?_,
              I.monodup, ?_⟩
            · intro x hx
              rcases List.mem_cons.1 hx with rfl | hx
              · exact hford
              · exact I.mf x hx
            · intro o ho
              obtain ⟨x, h1, h2⟩ := I.mo o ho
              exact ⟨x, List.mem_cons_of_mem _ h1, h2⟩
            · intro x hx o ho
              rcases List.mem_cons.1 hx with rfl | hx
              · rw [hr] at ho; simp at ho
              · obtain ⟨h1, h2⟩ := I.closed x hx o ho
                refine ⟨h1, fun y hy => ?_⟩
                rcases h2 y hy with h | h
                · exact .inl (List.mem_cons_of_mem _ h)
                · rcases List.mem_cons.1 h with rfl | h
                  · exact .inl List.mem_cons_self
                  · exact .inr h
          rcases ih st (f :: mF) mO I' (by omega) with ⟨h1, h2⟩ | ⟨mF', mO', h1, h2, h3, h4, h5⟩
          · exact .inl ⟨h1, by omega⟩
          · refine .inr ⟨mF', mO', h1, h2, fun x hx => ?_, fun x hx => h4 x (List.mem_cons_of_mem _ hx), by omega⟩
            rcases List.mem_cons.1 hx with rfl | hx
            · exact h4 _ List.mem_cons_self
            · exact h3 x hx
        | some o =>
          simp only
          have hpu : pushes M rb f = (M.prec o).length := by unfold pushes; rw [hr]
          rcases pushAll_spec (cap := cap) (M.prec o) st with ⟨e, h1⟩ | e
          · rw [e]
            left
            exact ⟨rfl, by omega⟩
          · rw [e]
            simp only
            have hso : f ∈ M.add o ∧ ∀ x ∈ M.prec o, x ∈ ord := by
              rcases hj.mem f hford with ⟨-, h⟩ | ⟨o', -, h2, h3, h4⟩
              · rw [hr] at h; simp at h
              · rw [hr] at h2
                obtain rfl := Option.some.inj h2
                exact ⟨h3, h4⟩
            have hmo : ∀ x, x ∈ (if o ∈ mO then mO else o :: mO) ↔ x = o ∨ x ∈ mO := by
              intro x
              by_cases h : o ∈ mO
              · rw [if_pos h]
                exact ⟨.inr, fun h' => h'.elim (fun e => e ▸ h) id⟩
              · rw [if_neg h, List.mem_cons]
            have I' : FInv M rb ord ((M.prec o).reverse ++ st) (f :: mF) (if o ∈ mO then mO else o :: mO) := by
              refine ⟨?_, ?_, List.nodup_cons.2 ⟨hm, I.nodup⟩, ?_, ?_, ?_⟩
              · intro x hx
                rcases List.mem_append.1 hx with hx | hx
                · exact hso.2 x (List.mem_reverse.1 hx)
                · exact I.stk x (List.mem_cons_of_mem _ hx)
              · intro x hx
                rcases List.mem_cons.1 hx with rfl | hx
                · exact hford
                · exact I.mf x hx
              · intro x hx
                rcases (hmo x).1 hx with rfl | hx
                · exact ⟨f, List.mem_cons_self, hr⟩
                · obtain ⟨y, h1, h2⟩ := I.mo x hx
                  exact ⟨y, List.mem_cons_of_mem _ h1, h2⟩
              · by_cases h : o ∈ mO
                · rw [if_pos h]; exact I.monodup
                · rw [if_neg h]; exact List.nodup_cons.2 ⟨h, I.monodup⟩
              · intro x hx o' ho'
                rcases List.mem_cons.1 hx with rfl | hx
                · rw [hr] at ho'
                  obtain rfl := Option.some.inj ho'
                  exact ⟨(hmo _).2 (.inl rfl), fun y hy => .inr (List.mem_append.2 (.inl (List.mem_reverse.2 hy)))⟩
                · obtain ⟨h1, h2⟩ := I.closed x hx o' ho'
                  refine ⟨(hmo _).2 (.inr h1), fun y hy => ?_⟩
                  rcases h2 y hy with h | h
                  · exact .inl (List.mem_cons_of_mem _ h)
                  · rcases List.mem_cons.1 h with rfl | h
                    · exact .inl List.mem_cons_self
                    · exact .inr (List.mem_append.2 (.inr h))
            have hlen : ((M.prec o).reverse ++ st).length = (M.prec o).length + st.length := by simp
            rcases ih _ (f :: mF) _ I' (by omega) with ⟨h1, h2⟩ | ⟨mF', mO', h1, h2, h3, h4, h5⟩
            · exact .inl ⟨h1, by omega⟩
            · refine .inr ⟨mF', mO', h1, h2, fun x hx => ?_, fun x hx => h4 x (List.mem_cons_of_mem _ hx), by omega⟩
              rcases List.mem_cons.1 hx with rfl | hx
              · exact h4 _ List.mem_cons_self
              · exact h3 x (List.mem_append.2 (.inr hx))

theorem ffGoals_spec {rb : Nat → Option Nat} {ord : List Nat} (hj : Just M s rb ord) (hnd : ord.Nodup) {cap fuel : Nat} :
    ∀ (g mF mO : List Nat), FInv M rb ord [] mF mO → (∀ f ∈ g, f ∈ ord) →
      1 + ffWork M rb ord mF < fuel →
      (ffGoals M cap rb fuel g mF mO = .ub ∧ cap < 1 + ffWork M rb ord mF) ∨
      ∃ mF' mO', ffGoals M cap rb fuel g mF mO = .ok mF' mO' ∧ FInv M rb ord [] mF' mO' ∧
        (∀ f ∈ g, f ∈ mF') ∧ ∀ f ∈ mF, f ∈ mF' := by
  intro g
  induction g with
  | nil => intro mF mO I _ _; right; exact ⟨mF, mO, rfl, I, by simp, fun f h => h⟩
  | cons f g ih =>
    intro mF mO I hg hf
    unfold ffGoals
    by_cases hc : 0 < cap
    · rw [if_pos hc]
      have I' : FInv M rb ord [f] mF mO := { I with
        stk := fun x hx => by rw [List.mem_singleton.1 hx]; exact hg f List.mem_cons_self
        closed := fun x hx o ho => ⟨(I.closed x hx o ho).1, fun y hy =>
          ((I.closed x hx o ho).2 y hy).imp id (by simp)⟩ }
      rcases ffLoop_spec hj hnd (cap := cap) fuel [f] mF mO I' (by simp only [List.length_singleton]; omega) with
        ⟨h1, h2⟩ | ⟨mF', mO', h1, h2, h3, h4, h5⟩
      · rw [h1]
        exact .inl ⟨rfl, by simpa using h2⟩
      · rw [h1]
        simp only
        rcases ih mF' mO' h2 (fun x hx => hg x (List.mem_cons_of_mem _ hx)) (by omega) with
          ⟨k1, k2⟩ | ⟨mF2, mO2, k1, k2, k3, k4⟩
        · exact .inl ⟨k1, by omega⟩
        · refine .inr ⟨mF2, mO2, k1, k2, fun x hx => ?_, fun x hx => k4 x (h4 x hx)⟩
          rcases List.mem_cons.1 hx with rfl | hx
          · exact k4 _ (h3 _ List.mem_cons_self)
          · exact k3 x hx
    · rw [if_neg hc]
      exact .inl ⟨rfl, by omega⟩

/-- The marked facts can be made true by the marked actions. -/
theorem ff_plan {rb : Nat → Option Nat} {mF mO : List Nat} (hcl : ∀ f ∈ mF, ∀ o, rb f = some o →
    o ∈ mO ∧ ∀ x ∈ M.prec o, x ∈ mF) : ∀ {ord : List Nat}, Just M s rb ord →
    ∃ π t, π.Nodup ∧ RelPlan M (· ∈ s) π t ∧ (∀ f ∈ ord, f ∈ mF → t f) ∧ (∀ o ∈ π, o ∈ mO) ∧
      (∀ f ∈ ord, f ∈ mF → ∀ o, rb f = some o → o ∈ π) ∧ (∀ o ∈ π, ∀ f ∈ M.add o, t f) := by
  intro ord hj
  induction hj with
  | nil => exact ⟨[], _, List.nodup_nil, .nil, by simp, by simp, by simp, by simp⟩
  | @cons p l _ hp ih =>
    obtain ⟨π, t, h1, h2, h3, h4, h5, h6⟩ := ih
    by_cases hpm : p ∈ mF
    · rcases hp with ⟨hs, hr⟩ | ⟨o, ho, hr, ha, hpr⟩
      · refine ⟨π, t, h1, h2, fun f hf hm => ?_, h4, fun f hf hm o hro => ?_, h6⟩
        · rcases List.mem_cons.1 hf with rfl | hf
          · exact h2.keep hs
          · exact h3 f hf hm
        · rcases List.mem_cons.1 hf with rfl | hf
          · rw [hr] at hro; simp at hro
          · exact h5 f hf hm o hro
      · by_cases hop : o ∈ π
        · refine ⟨π, t, h1, h2, fun f hf hm => ?_, h4, fun f hf hm o' hro => ?_, h6⟩
          · rcases List.mem_cons.1 hf with rfl | hf
            · exact h6 o hop _ ha
            · exact h3 f hf hm
          · rcases List.mem_cons.1 hf with rfl | hf
            · rw [hr] at hro; rw [← Option.some.inj hro]; exact hop
            · exact h5 f hf hm o' hro
        · obtain ⟨hmo, hmp⟩ := hcl p hpm o hr
          refine ⟨π ++ [o], _, List.nodup_append.2 ⟨h1, by simp, ?_⟩, h2.append (.cons ho (fun x hx =>
            h3 x (hpr x hx) (hmp x hx)) .nil), fun f hf hm => ?_, fun x hx => ?_, fun f hf hm o' hro => ?_,
            fun x hx f hf => ?_⟩
          · rintro x hx y hy rfl
            rw [List.mem_singleton.1 hy] at hx
            exact hop hx
          · rcases List.mem_cons.1 hf with rfl | hf
            · exact .inr ha
            · exact .inl (h3 f hf hm)
          · rcases List.mem_append.1 hx with hx | hx
            · exact h4 x hx
            · rw [List.mem_singleton.1 hx]; exact hmo
          · rcases List.mem_cons.1 hf with rfl | hf
            · rw [hr] at hro; rw [← Option.some.inj hro]; simp
            · exact List.mem_append.2 (.inl (h5 f hf hm o' hro))
          · rcases List.mem_append.1 hx with hx | hx
            · exact .inl (h6 x hx f hf)
            · rw [List.mem_singleton.1 hx] at hf; exact .inr hf
    · refine ⟨π, t, h1, h2, fun f hf hm => ?_, h4, fun f hf hm o hro => ?_, h6⟩
      · rcases List.mem_cons.1 hf with rfl | hf
        · exact absurd hm hpm
        · exact h3 f hf hm
      · rcases List.mem_cons.1 hf with rfl | hf
        · exact absurd hm hpm
        · exact h5 f hf hm o hro

theorem ffVal_eq {mO : List Nat} (h : ∀ o ∈ mO, o < M.numOps) : ffVal M mO = costOf M.cost mO := by
  unfold ffVal costOf
  by_cases hc : (List.range M.numOps).all (fun o => decide (M.cost o = 1)) = true
  · rw [if_pos hc]
    rw [List.all_eq_true] at hc
    have : mO.map M.cost = mO.map fun _ => 1 := List.map_congr_left fun o ho => by
      simpa using hc o (List.mem_range.2 (h o ho))
    rw [this]; simp
  · rw [if_neg hc]

theorem costOf_nodup_le {π : List Nat} (hnd : π.Nodup) (h : ∀ o ∈ π, o < M.numOps) (c : Nat → Nat) :
    costOf c π ≤ M.total c := by
  have : costOf c π = ∑ o ∈ π.toFinset, c o := by
    unfold costOf
    rw [← List.sum_toFinset c hnd]
  rw [this]
  exact Finset.sum_le_sum_of_subset fun o ho => Finset.mem_range.2 (h o (by simpa using ho))

/-! ## The result -/

theorem afLoop_mono {g : List Nat} : ∀ {f f' : Nat}, f ≤ f' → ∀ {n : Int} {st : AF pq.Q} {r},
    afLoop M pq U ff g f n st = some r → afLoop M pq U ff g f' n st = some r := by
  intro f
  induction f with
  | zero => intro f' _ n st r h; simp [afLoop] at h
  | succ f ih =>
    intro f' hf n st r h
    obtain ⟨f', rfl⟩ : ∃ k, f' = k + 1 := ⟨f' - 1, by omega⟩
    unfold afLoop at h ⊢
    cases hp : pq.pop st.q with
    | none => rw [hp] at h; exact h
    | some x =>
      obtain ⟨⟨k, p⟩, q⟩ := x
      rw [hp] at h
      simp only at h ⊢
      by_cases h1 : st.hProp p < k
      · rw [if_pos h1] at h ⊢
        exact ih (by omega) h
      · rw [if_neg h1] at h ⊢
        by_cases h2 : p ∈ g ∧ n - 1 = 0
        · rw [if_pos h2] at h ⊢; exact h
        · rw [if_neg h2] at h ⊢
          cases ho : afOps M pq U ff k (M.precToAction p) { st with q := q } with
          | none => rw [ho] at h; exact h
          | some st' =>
            rw [ho] at h
            exact ih (by omega) h

/-- Reachable facts have small h-max values. -/
theorem reach_vle (hM : M.WF) (htot : M.total M.cost < U) (hs : s.Nodup) {f : Nat} (h : Reach M (· ∈ s) f) :
    ∃ k < U, VLe M true (· ∈ s) f k := by
  obtain ⟨F, st, -, H⟩ := hmax_spec (pq := heapPQ 1) hM htot hs
  obtain ⟨h1, h2⟩ := H.le f h
  exact ⟨_, by omega, vle_iff_hle.2 h1⟩

theorem ff_spec (hM : M.WF) (htot : M.total M.cost < U) (hs : s.Nodup) {g : List Nat} (hg : g ≠ []) (hgn : g.Nodup)
    (cap : Nat) (rb0 : Nat → Option Nat) :
    ∃ F, ∀ fuel, F ≤ fuel → ∃ r, addFF M pq U true cap rb0 fuel s g = some r ∧
      ((r = .unreachable ∧ ∃ f ∈ g, ¬ Reach M (· ∈ s) f) ∨
       (r = .ub ∧ (∀ f ∈ g, Reach M (· ∈ s) f) ∧ ∃ ord rb, Just M s rb ord ∧ ord.Nodup ∧
          cap < 1 + ffWork M rb ord []) ∨
       (∃ π, r = .val (costOf M.cost π) ∧ π.Nodup ∧ SolvesRel M s g π)) := by
  obtain ⟨I0, -⟩ := afStart_inv (pq := pq) (U := U) (ff := true) hM (by omega) hs rb0
  have hlen : 0 < (g.length : Int) := by
    have := List.length_pos_iff.2 hg
    omega
  obtain ⟨r, e, k1, k2, k3⟩ := afLoop_inv hM (fun _ => htot) hgn _ (g.length : Int) _ [] 0 I0 (by simp) hlen
    (Nat.lt_succ_self _)
  obtain ⟨F1, hF1⟩ : ∃ F1, F1 = ((pq.items (afStart M pq U rb0 s).q).length +
    pot M fun _ => ([] : List Nat).toFinset).succ := ⟨_, rfl⟩
  rw [← hF1] at e
  cases r with
  | overflow => have := k1 rfl; simp at this
  | empty st =>
    obtain ⟨f, hf, hno⟩ := k2 st rfl
    refine ⟨F1, fun fuel hfu => ⟨.unreachable, ?_, .inl ⟨rfl, f, hf, fun hr => ?_⟩⟩⟩
    · unfold addFF
      rw [if_neg (by simpa using hg), afLoop_mono hfu e]
    · obtain ⟨k, h1, h2⟩ := reach_vle hM htot hs hr
      exact hno k h1 h2
  | goals st =>
    obtain ⟨ord, H, hgo⟩ := k3 st rfl
    have I : FInv M st.rb ord [] [] [] := ⟨by simp, by simp, by simp, by simp, by simp, by simp⟩
    refine ⟨max F1 (2 + ffWork M st.rb ord []), fun fuel hfu => ?_⟩
    have heq : addFF M pq U true cap rb0 fuel s g = match ffGoals M cap st.rb fuel g [] [] with
        | .fuel => none
        | .ub => some .ub
        | .ok _ mO => some (if ffVal M mO = U then .unreachable else if U < ffVal M mO then .ub else
            .val (ffVal M mO)) := by
      unfold addFF
      rw [if_neg (by simpa using hg), afLoop_mono (by omega) e]
      rfl
    rcases ffGoals_spec H.just H.nodup (cap := cap) (fuel := fuel) g [] [] I hgo (by omega) with
      ⟨h1, h2⟩ | ⟨mF, mO, h1, h2, h3, -⟩
    · refine ⟨.ub, by rw [heq, h1], .inr (.inl ⟨rfl, fun f hf => ?_, ord, st.rb, H.just, H.nodup, h2⟩)⟩
      exact ((H.exact f (hgo f hf) _).2 (Nat.le_refl _)).reach
    · have hcl : ∀ f ∈ mF, ∀ o, st.rb f = some o → o ∈ mO ∧ ∀ x ∈ M.prec o, x ∈ mF := fun f hf o ho => by
        obtain ⟨a1, a2⟩ := h2.closed f hf o ho
        exact ⟨a1, fun x hx => (a2 x hx).elim id (by simp)⟩
      obtain ⟨π, t, p1, p2, p3, p4, p5, p6⟩ := ff_plan hcl H.just
      have hperm : π.Perm mO := (List.perm_ext_iff_of_nodup p1 h2.monodup).2 fun o => ⟨p4 o, fun ho => by
        obtain ⟨f, hf, hr⟩ := h2.mo o ho
        exact p5 f (h2.mf f hf) hf o hr⟩
      have hlt : ∀ o ∈ mO, o < M.numOps := fun o ho => by
        obtain ⟨f, hf, hr⟩ := h2.mo o ho
        rcases H.just.mem f (h2.mf f hf) with ⟨-, h⟩ | ⟨o', h1, h2, -⟩
        · rw [hr] at h; simp at h
        · rw [hr] at h2; rw [Option.some.inj h2]; exact h1
      have hv : ffVal M mO = costOf M.cost π := by
        rw [ffVal_eq hlt]
        unfold costOf
        exact ((hperm.map M.cost).sum_eq).symm
      have hle := costOf_nodup_le p1 (fun o ho => hlt o (p4 o ho)) M.cost
      refine ⟨.val (costOf M.cost π), ?_, .inr (.inr ⟨π, rfl, p1, t, p2, fun f hf => p3 f (hgo f hf) (h3 f hf)⟩)⟩
      rw [heq, h1]
      simp only [hv]
      rw [if_neg (by omega), if_neg (by omega)]

theorem add_spec (hM : M.WF) (hU : 0 < U) (hs : s.Nodup) {g : List Nat} (hg : g ≠ []) (hgn : g.Nodup)
    (cap : Nat) (rb0 : Nat → Option Nat) :
    ∃ F r, (∀ fuel, F ≤ fuel → addFF M pq U false cap rb0 fuel s g = some r) ∧
      (r = .overflow ∨
       (r = .unreachable ∧ ∃ f ∈ g, ∀ k < U, ¬ VLe M false (· ∈ s) f k) ∨
       ∃ v : Nat → Nat, (∀ f ∈ g, ∀ k, VLe M false (· ∈ s) f k ↔ v f ≤ k) ∧
        r = if (g.map v).sum = U then .unreachable else if U < (g.map v).sum then .ub else
          .val (g.map v).sum) := by
  obtain ⟨I0, -⟩ := afStart_inv (pq := pq) (U := U) (ff := false) hM hU hs rb0
  have hlen : 0 < (g.length : Int) := by
    have := List.length_pos_iff.2 hg
    omega
  obtain ⟨r, e, k1, k2, k3⟩ := afLoop_inv hM (by simp) hgn _ (g.length : Int) _ [] 0 I0 (by simp) hlen
    (Nat.lt_succ_self _)
  obtain ⟨F1, hF1⟩ : ∃ F1, F1 = ((pq.items (afStart M pq U rb0 s).q).length +
    pot M fun _ => ([] : List Nat).toFinset).succ := ⟨_, rfl⟩
  rw [← hF1] at e
  cases r with
  | overflow =>
    refine ⟨F1, .overflow, fun fuel hfu => ?_, .inl rfl⟩
    unfold addFF
    rw [if_neg (by simpa using hg), afLoop_mono hfu e]
  | empty st =>
    refine ⟨F1, .unreachable, fun fuel hfu => ?_, .inr (.inl ⟨rfl, k2 st rfl⟩)⟩
    unfold addFF
    rw [if_neg (by simpa using hg), afLoop_mono hfu e]
  | goals st =>
    obtain ⟨ord, H, hgo⟩ := k3 st rfl
    refine ⟨F1, _, fun fuel hfu => ?_, .inr (.inr ⟨st.hProp, fun f hf => H.exact f (hgo f hf), rfl⟩)⟩
    unfold addFF
    rw [if_neg (by simpa using hg), afLoop_mono hfu e]
    rfl

end Verif.Strips
