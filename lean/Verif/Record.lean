import Verif.Reached

/-! # The records of the search nodes describe a partial decomposition tree

The `solution` list of a node holds one record per applied method or action.  A record carries an
instance number, the instance number of the decomposition that created the step and the position in
that method.  This file states and proves what these records mean for every reached node. -/

namespace Verif.Prog

open Verif.Htn Relation

variable {P : Problem} {cfg : Cfg}

/-- `parentSolutionStepInstanceNumber` of a step. -/
def parOf (h : Heap) (u : Nat) : Nat := ((h[u]?).map Step.par).getD 0

/-- `myPositionInParent` of a step. -/
def posOf (h : Heap) (u : Nat) : Nat := ((h[u]?).map Step.pos).getD 0

/-- `PathTo l r i p`: the record with instance number `i` has position `p` in the tree with the
root record `r` and the other records `l`. -/
inductive PathTo (l : List SolStep) (r : SolStep) : Nat → List Nat → Prop
  | root : PathTo l r r.inst []
  | child {x : SolStep} {p : List Nat} : x ∈ l → PathTo l r x.par p → PathTo l r x.inst (p ++ [x.pos])

/-- The position of a step of the network. -/
def LPath (l : List SolStep) (r : SolStep) (h : Heap) (u : Nat) (p : List Nat) : Prop :=
  ∃ q, PathTo l r (parOf h u) q ∧ p = q ++ [posOf h u]

/-- Position `p` is ordered before position `q` by the method used at a common ancestor. -/
def Bef (P : Problem) (l : List SolStep) (r : SolStep) (p q : List Nat) : Prop :=
  ∃ c d m i j p' q', d ∈ l ++ [r] ∧ d.method = some m ∧ PathTo l r d.inst c ∧
    p = c ++ i :: p' ∧ q = c ++ j :: q' ∧ TransGen (P.OrdRel m) i j

/-- The structure of the records of a node: root record `r`, the others `l` (latest first), the
remaining steps `I` in the heap `h`; all instance numbers are below `inst`. -/
structure Rec (P : Problem) (h : Heap) (inst : Nat) (I : Finset Nat) (l : List SolStep) (r : SolStep) :
    Prop where
  desc : (l ++ [r]).Pairwise (fun a b => b.inst < a.inst)
  lt : ∀ x ∈ l ++ [r], x.inst < inst
  root : r.task = P.init ∧ r.method.isSome = true
  prim : ∀ x ∈ l ++ [r], x.method = none → P.prim x.task = true
  meth : ∀ x ∈ l ++ [r], ∀ m, x.method = some m → m < P.numMethods ∧ P.head m = x.task
  own : ∀ x ∈ l, ∃ d ∈ l ++ [r], ∃ m, d.method = some m ∧ d.inst = x.par ∧ d.inst < x.inst ∧
    (P.sub m)[x.pos]? = some x.task
  ownL : ∀ u ∈ I, ∃ d ∈ l ++ [r], ∃ m, d.method = some m ∧ d.inst = parOf h u ∧
    (P.sub m)[posOf h u]? = some (taskOf h u)
  fill : ∀ d ∈ l ++ [r], ∀ m, d.method = some m → ∀ k < (P.sub m).length,
    (∃ x ∈ l, x.par = d.inst ∧ x.pos = k) ∨ ∃ u ∈ I, parOf h u = d.inst ∧ posOf h u = k
  uniq : ∀ x ∈ l, ∀ y ∈ l, x.par = y.par → x.pos = y.pos → x = y
  uniqX : ∀ x ∈ l, ∀ u ∈ I, x.par = parOf h u → x.pos ≠ posOf h u
  uniqL : ∀ u ∈ I, ∀ v ∈ I, parOf h u = parOf h v → posOf h u = posOf h v → u = v
  ordL : ∀ u ∈ I, ∀ v ∈ I, ∀ p q, LPath l r h u p → LPath l r h v q → Bef P l r p q →
    TransGen (Edge h) u v
  ordX : ∀ x ∈ l, x.method = none → ∀ v ∈ I, ∀ p q, PathTo l r x.inst p → LPath l r h v q →
    ¬ Bef P l r q p
  ordS : ∀ x ∈ l, ∀ y ∈ l, x.method = none → y.method = none → y.inst < x.inst →
    ∀ p q, PathTo l r x.inst p → PathTo l r y.inst q → ¬ Bef P l r p q

variable {h : Heap} {inst : Nat} {I : Finset Nat} {l : List SolStep} {r : SolStep}

/-! ## Positions -/

theorem PathTo.mono {l' : List SolStep} (hl : ∀ x ∈ l, x ∈ l') {i p} (hp : PathTo l r i p) :
    PathTo l' r i p := by
  induction hp with
  | root => exact .root
  | child hx _ ih => exact .child (hl _ hx) ih

theorem PathTo.old {y : SolStep} (hpar : ∀ x ∈ l, x.par ≠ y.inst) {i p} (hp : PathTo (y :: l) r i p)
    (hi : i ≠ y.inst) : PathTo l r i p := by
  induction hp with
  | root => exact .root
  | @child x p hx _ ih =>
    rcases List.mem_cons.1 hx with rfl | hx
    · exact absurd rfl hi
    · exact .child hx (ih (hpar x hx))

theorem Rec.inst_inj (R : Rec P h inst I l r) {x y : SolStep} (hx : x ∈ l ++ [r]) (hy : y ∈ l ++ [r])
    (e : x.inst = y.inst) : x = y := by
  have := R.desc
  by_contra hne
  rcases List.getElem_of_mem hx with ⟨a, ha, rfl⟩
  rcases List.getElem_of_mem hy with ⟨b, hb, rfl⟩
  have hab : a ≠ b := fun e => hne (by subst e; rfl)
  rw [List.pairwise_iff_getElem] at this
  rcases Nat.lt_or_gt_of_ne hab with hlt | hlt
  · have := this a b ha hb hlt; omega
  · have := this b a hb ha hlt; omega

theorem Rec.root_lt (R : Rec P h inst I l r) {x : SolStep} (hx : x ∈ l) : r.inst < x.inst :=
  (List.pairwise_append.1 R.desc).2.2 x hx r (by simp)

theorem PathTo.fun (R : Rec P h inst I l r) {i p q} (hp : PathTo l r i p) (hq : PathTo l r i q) :
    p = q := by
  induction hp generalizing q with
  | root =>
    generalize hi : r.inst = i at hq
    cases hq with
    | root => rfl
    | child hx _ => have := R.root_lt hx; omega
  | @child x p hx _ ih =>
    generalize hi : x.inst = i at hq
    cases hq with
    | root => have := R.root_lt hx; omega
    | @child y q hy hq =>
      obtain rfl := R.inst_inj (List.mem_append_left _ hx) (List.mem_append_left _ hy) hi
      rw [ih hq]

theorem append_singleton_inj {p q : List Nat} {a b : Nat} (h : p ++ [a] = q ++ [b]) : p = q ∧ a = b := by
  have := List.append_inj' h rfl
  exact ⟨this.1, by simpa using this.2⟩

theorem PathTo.inj (R : Rec P h inst I l r) {i j p} (hp : PathTo l r i p) (hq : PathTo l r j p) :
    i = j := by
  induction hp generalizing j with
  | root =>
    generalize hi : ([] : List Nat) = p at hq
    cases hq with
    | root => rfl
    | child _ _ => simp at hi
  | @child x p hx _ ih =>
    generalize hi : p ++ [x.pos] = p' at hq
    cases hq with
    | root => simp at hi
    | @child y q hy hq =>
      obtain ⟨rfl, e⟩ := append_singleton_inj hi
      rw [R.uniq x hx y hy (ih hq) e]

theorem PathTo.mem {i p} (hp : PathTo l r i p) : ∃ d ∈ l ++ [r], d.inst = i := by
  cases hp with
  | root => exact ⟨r, by simp, rfl⟩
  | child hx _ => exact ⟨_, List.mem_append_left _ hx, rfl⟩

/-- Every proper prefix of a position belongs to a decomposition. -/
theorem PathTo.pre (R : Rec P h inst I l r) {i p} (hp : PathTo l r i p) :
    ∀ c j p', p = c ++ j :: p' → ∃ d ∈ l ++ [r], PathTo l r d.inst c ∧ ∃ m, d.method = some m := by
  induction hp with
  | root => intro c j p' e; simp at e
  | @child x p hx hp ih =>
    intro c j p' e
    rcases List.eq_nil_or_concat p' with rfl | ⟨p'', b, rfl⟩
    · obtain ⟨rfl, -⟩ := append_singleton_inj e
      obtain ⟨d, hd, m, hm, e, -⟩ := R.own x hx
      exact ⟨d, hd, by rw [e]; exact hp, m, hm⟩
    · have : p ++ [x.pos] = (c ++ j :: p'') ++ [b] := by rw [e]; simp
      obtain ⟨rfl, -⟩ := append_singleton_inj this
      exact ih c j p'' rfl

/-- Every record has a position. -/
theorem Rec.path (R : Rec P h inst I l r) : ∀ x ∈ l ++ [r], ∃ p, PathTo l r x.inst p := by
  have key : ∀ (k : Nat) (x : SolStep), x ∈ l ++ [r] → x.inst ≤ k → ∃ p, PathTo l r x.inst p := by
    intro k
    induction k with
    | zero =>
      intro x hx hk
      rcases List.mem_append.1 hx with hx | hx
      · have := R.root_lt hx; omega
      · rw [List.mem_singleton.1 hx]; exact ⟨[], .root⟩
    | succ k ih =>
      intro x hx hk
      rcases List.mem_append.1 hx with hx | hx
      · obtain ⟨d, hd, m, -, e, hlt, -⟩ := R.own x hx
        obtain ⟨p, hp⟩ := ih d hd (by omega)
        exact ⟨_, .child hx (by rw [← e]; exact hp)⟩
      · rw [List.mem_singleton.1 hx]; exact ⟨[], .root⟩
  exact fun x hx => key _ x hx (Nat.le_refl _)

theorem Rec.lpath (R : Rec P h inst I l r) {u} (hu : u ∈ I) : ∃ p, LPath l r h u p := by
  obtain ⟨d, hd, m, -, e, -⟩ := R.ownL u hu
  obtain ⟨p, hp⟩ := R.path d hd
  exact ⟨_, p, by rw [← e]; exact hp, rfl⟩

/-- No record has the position of a remaining step. -/
theorem Rec.lpath_ne (R : Rec P h inst I l r) {u} (hu : u ∈ I) {c} (hc : LPath l r h u c) {i} :
    ¬ PathTo l r i c := by
  intro hp
  obtain ⟨q, hq, rfl⟩ := hc
  generalize hi : q ++ [posOf h u] = c at hp
  cases hp with
  | root => simp at hi
  | @child x p hx hp =>
    obtain ⟨rfl, e⟩ := append_singleton_inj hi
    exact R.uniqX x hx u hu (PathTo.inj R hp hq) e.symm

/-- Positions of records do not extend the position of a remaining step. -/
theorem Rec.no_ext (R : Rec P h inst I l r) {u} (hu : u ∈ I) {c} (hc : LPath l r h u c) {i p j p'}
    (hp : PathTo l r i p) : p ≠ c ++ j :: p' := by
  intro e
  obtain ⟨d, -, hd, -⟩ := PathTo.pre R hp c j p' e
  exact R.lpath_ne hu hc hd

theorem Rec.no_extL (R : Rec P h inst I l r) {u} (hu : u ∈ I) {c} (hc : LPath l r h u c) {v p j p'}
    (hp : LPath l r h v p) : p ≠ c ++ j :: p' := by
  intro e
  obtain ⟨q, hq, rfl⟩ := hp
  rcases List.eq_nil_or_concat p' with rfl | ⟨p'', b, rfl⟩
  · obtain ⟨rfl, -⟩ := append_singleton_inj e
    exact R.lpath_ne hu hc hq
  · have : q ++ [posOf h v] = (c ++ j :: p'') ++ [b] := by rw [e]; simp
    obtain ⟨rfl, -⟩ := append_singleton_inj this
    exact R.no_ext hu hc hq rfl

/-! ## Heap extension -/

theorem Rec.ext (R : Rec P h inst I l r) {h' : Heap} {inst' : Nat} (hp : h <+: h') (hh : HeapOK h)
    (hlt : ∀ u ∈ I, u < h.length) (hi : inst ≤ inst') : Rec P h' inst' I l r := by
  have e1 : ∀ u ∈ I, parOf h' u = parOf h u := fun u hu => by
    unfold parOf; rw [prefix_get hp (hlt u hu)]
  have e2 : ∀ u ∈ I, posOf h' u = posOf h u := fun u hu => by
    unfold posOf; rw [prefix_get hp (hlt u hu)]
  have e3 : ∀ u ∈ I, taskOf h' u = taskOf h u := fun u hu => prefix_taskOf hp (hlt u hu)
  have e4 : ∀ u ∈ I, ∀ p, LPath l r h' u p ↔ LPath l r h u p := fun u hu p => by
    unfold LPath; rw [e1 u hu, e2 u hu]
  refine ⟨R.desc, fun x hx => Nat.lt_of_lt_of_le (R.lt x hx) hi, R.root, R.prim, R.meth, R.own, ?_, ?_,
    R.uniq, ?_, ?_, ?_, ?_, R.ordS⟩
  · intro u hu; rw [e1 u hu, e2 u hu, e3 u hu]; exact R.ownL u hu
  · intro d hd m hm k hk
    rcases R.fill d hd m hm k hk with h | ⟨u, hu, h1, h2⟩
    · exact .inl h
    · exact .inr ⟨u, hu, by rw [e1 u hu]; exact h1, by rw [e2 u hu]; exact h2⟩
  · intro x hx u hu; rw [e1 u hu, e2 u hu]; exact R.uniqX x hx u hu
  · intro u hu v hv; rw [e1 u hu, e2 u hu, e1 v hv, e2 v hv]; exact R.uniqL u hu v hv
  · intro u hu v hv p q h1 h2 hb
    exact (prefix_trans hp hh (hlt u hu)).2 (R.ordL u hu v hv p q ((e4 u hu p).1 h1) ((e4 v hv q).1 h2) hb)
  · intro x hx hn v hv p q h1 h2
    exact R.ordX x hx hn v hv p q h1 ((e4 v hv q).1 h2)

/-! ## Adding a record -/

/-- Orderings between positions do not change when a record of an action is added. -/
theorem bef_action {y : SolStep} (hpar : ∀ x ∈ l, x.par ≠ y.inst) (hne : ∀ x ∈ l ++ [r], x.inst ≠ y.inst)
    (hy : y.method = none) {p q} (hb : Bef P (y :: l) r p q) : Bef P l r p q := by
  obtain ⟨c, d, m, i, j, p', q', hd, hm, hc, e1, e2, ht⟩ := hb
  rcases List.mem_cons.1 hd with rfl | hd
  · rw [hy] at hm; simp at hm
  · exact ⟨c, d, m, i, j, p', q', hd, hm, hc.old hpar (hne d hd), e1, e2, ht⟩

theorem Rec.par_lt (R : Rec P h inst I l r) {x} (hx : x ∈ l) : x.par < inst := by
  obtain ⟨d, hd, m, -, e, -⟩ := R.own x hx
  rw [← e]; exact R.lt d hd

theorem Rec.parL_lt (R : Rec P h inst I l r) {u} (hu : u ∈ I) : parOf h u < inst := by
  obtain ⟨d, hd, m, -, e, -⟩ := R.ownL u hu
  rw [← e]; exact R.lt d hd

theorem Rec.desc_cons (R : Rec P h inst I l r) {y : SolStep} (hy : y.inst = inst) :
    (y :: l ++ [r]).Pairwise (fun a b => b.inst < a.inst) :=
  List.pairwise_cons.2 ⟨fun x hx => by rw [hy]; exact R.lt x hx, R.desc⟩

/-- Applying the action of a step that no other step precedes. -/
theorem Rec.action (R : Rec P h inst I l r) {u} (hu : u ∈ I) (hmin : ∀ v ∈ I, ¬ TransGen (Edge h) v u)
    (hprim : P.prim (taskOf h u) = true) :
    Rec P h (inst + 1) (I.erase u) (⟨taskOf h u, none, inst, parOf h u, posOf h u⟩ :: l) r := by
  set y : SolStep := ⟨taskOf h u, none, inst, parOf h u, posOf h u⟩ with hy
  have hne : ∀ x ∈ l ++ [r], x.inst ≠ y.inst := fun x hx => Nat.ne_of_lt (R.lt x hx)
  have hpar : ∀ x ∈ l, x.par ≠ y.inst := fun x hx => Nat.ne_of_lt (R.par_lt hx)
  have hparL : ∀ v ∈ I, parOf h v ≠ y.inst := fun v hv => Nat.ne_of_lt (R.parL_lt hv)
  have hL : ∀ v ∈ I, ∀ p, LPath (y :: l) r h v p → LPath l r h v p := by
    rintro v hv p ⟨q, hq, rfl⟩
    exact ⟨q, hq.old hpar (hparL v hv), rfl⟩
  have hY : ∀ p, PathTo (y :: l) r y.inst p → LPath l r h u p := by
    intro p hp
    generalize hi : y.inst = i at hp
    cases hp with
    | root => exact absurd hi.symm (hne r (by simp))
    | @child x p hx hp =>
      rcases List.mem_cons.1 hx with rfl | hx
      · exact ⟨p, hp.old hpar (hparL u hu), rfl⟩
      · exact absurd hi.symm (hne x (List.mem_append_left _ hx))
  have hO : ∀ x ∈ l, ∀ p, PathTo (y :: l) r x.inst p → PathTo l r x.inst p := fun x hx p hp =>
    hp.old hpar (hne x (List.mem_append_left _ hx))
  have mem_sub : ∀ {d}, d ∈ l ++ [r] → d ∈ y :: l ++ [r] := fun hd => List.mem_cons_of_mem _ hd
  refine ⟨R.desc_cons rfl, ?_, R.root, ?_, ?_, ?_, ?_, ?_, ?_, ?_, ?_, ?_, ?_, ?_⟩
  · intro x hx
    rcases List.mem_cons.1 hx with rfl | hx
    · exact Nat.lt_succ_self _
    · exact Nat.lt_succ_of_lt (R.lt x hx)
  · intro x hx hn
    rcases List.mem_cons.1 hx with rfl | hx
    · exact hprim
    · exact R.prim x hx hn
  · intro x hx m hm
    rcases List.mem_cons.1 hx with rfl | hx
    · simp [hy] at hm
    · exact R.meth x hx m hm
  · intro x hx
    rcases List.mem_cons.1 hx with rfl | hx
    · obtain ⟨d, hd, m, h1, h2, h3⟩ := R.ownL u hu
      exact ⟨d, mem_sub hd, m, h1, h2, R.lt d hd, h3⟩
    · obtain ⟨d, hd, h⟩ := R.own x hx
      exact ⟨d, mem_sub hd, h⟩
  · intro v hv
    obtain ⟨d, hd, h⟩ := R.ownL v (Finset.mem_of_mem_erase hv)
    exact ⟨d, mem_sub hd, h⟩
  · intro d hd m hm k hk
    rcases List.mem_cons.1 hd with rfl | hd
    · simp [hy] at hm
    · rcases R.fill d hd m hm k hk with ⟨x, hx, h⟩ | ⟨v, hv, h1, h2⟩
      · exact .inl ⟨x, List.mem_cons_of_mem _ hx, h⟩
      · by_cases e : v = u
        · subst e; exact .inl ⟨y, List.mem_cons_self, h1, h2⟩
        · exact .inr ⟨v, Finset.mem_erase.2 ⟨e, hv⟩, h1, h2⟩
  · intro x hx z hz e1 e2
    rcases List.mem_cons.1 hx with rfl | hx <;> rcases List.mem_cons.1 hz with rfl | hz
    · rfl
    · exact absurd e2.symm (R.uniqX z hz u hu e1.symm)
    · exact absurd e2 (R.uniqX x hx u hu e1)
    · exact R.uniq x hx z hz e1 e2
  · intro x hx v hv e1 e2
    obtain ⟨hne, hv⟩ := Finset.mem_erase.1 hv
    rcases List.mem_cons.1 hx with rfl | hx
    · exact hne (R.uniqL u hu v hv e1 e2).symm
    · exact R.uniqX x hx v hv e1 e2
  · intro v hv w hw
    exact R.uniqL v (Finset.mem_of_mem_erase hv) w (Finset.mem_of_mem_erase hw)
  · intro v hv w hw p q h1 h2 hb
    have hv := Finset.mem_of_mem_erase hv
    have hw := Finset.mem_of_mem_erase hw
    exact R.ordL v hv w hw p q (hL v hv p h1) (hL w hw q h2) (bef_action hpar hne rfl hb)
  · intro x hx hn v hv p q h1 h2 hb
    have hv := Finset.mem_of_mem_erase hv
    have hb := bef_action hpar hne rfl hb
    rcases List.mem_cons.1 hx with rfl | hx
    · exact hmin v hv (R.ordL v hv u hu q p (hL v hv q h2) (hY p h1) hb)
    · exact R.ordX x hx hn v hv p q (hO x hx p h1) (hL v hv q h2) hb
  · intro x hx z hz hxn hzn hlt p q h1 h2 hb
    have hb := bef_action hpar hne rfl hb
    rcases List.mem_cons.1 hz with rfl | hz
    · rcases List.mem_cons.1 hx with rfl | hx
      · omega
      · have hlt : inst < x.inst := hlt
        have := R.lt x (List.mem_append_left _ hx); omega
    · rcases List.mem_cons.1 hx with rfl | hx
      · exact R.ordX z hz hzn u hu q p (hO z hz q h2) (hY p h1) hb
      · exact R.ordS x hx z hz hxn hzn hlt p q (hO x hx p h1) (hO z hz q h2) hb

theorem ordRel_rank (hP : P.WF) {m} (hm : m < P.numMethods) : ∃ rank : Nat → Nat, ∀ i j,
    TransGen (P.OrdRel m) i j → rank i < rank j := by
  obtain ⟨rank, hr⟩ := hP.ord_acyclic m hm
  refine ⟨rank, fun i j ht => ?_⟩
  induction ht with
  | single h => exact hr _ _ h
  | tail _ h ih => exact Nat.lt_trans ih (hr _ _ h)

theorem bef_irrefl (hP : P.WF) (R : Rec P h inst I l r) {p} : ¬ Bef P l r p p := by
  rintro ⟨c, d, m, i, j, p', q', hd, hm, -, e1, e2, ht⟩
  rw [e1] at e2
  have e := List.append_cancel_left e2
  simp only [List.cons.injEq] at e
  obtain ⟨rank, hr⟩ := ordRel_rank hP (R.meth d hd m hm).1
  have := hr i j ht
  rw [e.1] at this
  omega

/-- Below a remaining step, orderings come from above that step. -/
theorem Rec.shrink_left (R : Rec P h inst I l r) {u} (hu : u ∈ I) {c} (hc : LPath l r h u c) {k q}
    (hb : Bef P l r (c ++ [k]) q) : Bef P l r c q := by
  obtain ⟨a, d, m, i, j, p', q', hd, hm, ha, e1, e2, ht⟩ := hb
  rcases List.eq_nil_or_concat p' with rfl | ⟨p'', b, rfl⟩
  · obtain ⟨rfl, -⟩ := append_singleton_inj e1
    exact absurd ha (R.lpath_ne hu hc)
  · have : c ++ [k] = (a ++ i :: p'') ++ [b] := by rw [e1]; simp
    obtain ⟨rfl, -⟩ := append_singleton_inj this
    exact ⟨a, d, m, i, j, p'', q', hd, hm, ha, rfl, e2, ht⟩

theorem Rec.shrink_right (R : Rec P h inst I l r) {u} (hu : u ∈ I) {c} (hc : LPath l r h u c) {k q}
    (hb : Bef P l r q (c ++ [k])) : Bef P l r q c := by
  obtain ⟨a, d, m, i, j, p', q', hd, hm, ha, e1, e2, ht⟩ := hb
  rcases List.eq_nil_or_concat q' with rfl | ⟨q'', b, rfl⟩
  · obtain ⟨rfl, -⟩ := append_singleton_inj e2
    exact absurd ha (R.lpath_ne hu hc)
  · have : c ++ [k] = (a ++ j :: q'') ++ [b] := by rw [e2]; simp
    obtain ⟨rfl, -⟩ := append_singleton_inj this
    exact ⟨a, d, m, i, j, p', q'', hd, hm, ha, e1, rfl, ht⟩

theorem new_fields {m : Nat} {outer : List Nat} {i : Nat} (hi : i < (P.sub m).length) :
    parOf (extHeap P h m inst outer) (h.length + i) = inst ∧
      posOf (extHeap P h m inst outer) (h.length + i) = i ∧
      (P.sub m)[i]? = some (taskOf (extHeap P h m inst outer) (h.length + i)) := by
  unfold parOf posOf taskOf
  rw [extHeap_new hi]
  refine ⟨rfl, rfl, ?_⟩
  simp [List.getElem?_eq_getElem hi]

theorem old_fields {m : Nat} {outer : List Nat} {u : Nat} (hu : u < h.length) :
    parOf (extHeap P h m inst outer) u = parOf h u ∧ posOf (extHeap P h m inst outer) u = posOf h u ∧
      taskOf (extHeap P h m inst outer) u = taskOf h u := by
  unfold parOf posOf taskOf
  rw [extHeap_old hu]
  exact ⟨rfl, rfl, rfl⟩

/-- Decomposing a step that no other step precedes. -/
theorem Rec.decompose (hP : P.WF) (R : Rec P h inst I l r) {u m} (hu : u ∈ I)
    (hmin : ∀ v ∈ I, ¬ TransGen (Edge h) v u) (hm : m < P.numMethods) (hhead : P.head m = taskOf h u)
    {outer : List Nat} {I' : Finset Nat}
    (S : Subst P I (taskOf h) (TransGen (Edge h)) u m h.length I' (taskOf (extHeap P h m inst outer))
      (TransGen (Edge (extHeap P h m inst outer)))) :
    Rec P (extHeap P h m inst outer) (inst + 1) I'
      (⟨taskOf h u, some m, inst, parOf h u, posOf h u⟩ :: l) r := by
  set y : SolStep := ⟨taskOf h u, some m, inst, parOf h u, posOf h u⟩ with hy
  set h' := extHeap P h m inst outer with hh'
  have hne : ∀ x ∈ l ++ [r], x.inst ≠ y.inst := fun x hx => Nat.ne_of_lt (R.lt x hx)
  have hpar : ∀ x ∈ l, x.par ≠ y.inst := fun x hx => Nat.ne_of_lt (R.par_lt hx)
  have hparL : ∀ v ∈ I, parOf h v ≠ y.inst := fun v hv => Nat.ne_of_lt (R.parL_lt hv)
  have fold : ∀ v ∈ I, parOf h' v = parOf h v ∧ posOf h' v = posOf h v ∧ taskOf h' v = taskOf h v :=
    fun v hv => old_fields (S.fresh v hv)
  have fnew : ∀ i < (P.sub m).length, parOf h' (h.length + i) = inst ∧ posOf h' (h.length + i) = i ∧
      (P.sub m)[i]? = some (taskOf h' (h.length + i)) := fun i hi => new_fields hi
  obtain ⟨c0, hc0⟩ := R.lpath hu
  have hO : ∀ x ∈ l, ∀ p, PathTo (y :: l) r x.inst p → PathTo l r x.inst p := fun x hx p hp =>
    hp.old hpar (hne x (List.mem_append_left _ hx))
  have hL : ∀ v ∈ I, ∀ p, LPath (y :: l) r h' v p → LPath l r h v p := by
    rintro v hv p ⟨q, hq, rfl⟩
    rw [(fold v hv).1] at hq
    rw [(fold v hv).2.1]
    exact ⟨q, hq.old hpar (hparL v hv), rfl⟩
  have hY : ∀ p, PathTo (y :: l) r y.inst p → p = c0 := by
    intro p hp
    generalize hi : y.inst = i at hp
    cases hp with
    | root => exact absurd hi.symm (hne r (by simp))
    | @child x p hx hp =>
      rcases List.mem_cons.1 hx with rfl | hx
      · obtain ⟨q, hq, rfl⟩ := hc0
        have := hp.old hpar (hparL u hu)
        rw [PathTo.fun R this hq]
      · exact absurd hi.symm (hne x (List.mem_append_left _ hx))
  have hN : ∀ i < (P.sub m).length, ∀ p, LPath (y :: l) r h' (h.length + i) p → p = c0 ++ [i] := by
    rintro i hi p ⟨q, hq, rfl⟩
    rw [(fnew i hi).1] at hq
    rw [(fnew i hi).2.1, hY q hq]
  have hB : ∀ p q, Bef P (y :: l) r p q → Bef P l r p q ∨
      ∃ i j p' q', p = c0 ++ i :: p' ∧ q = c0 ++ j :: q' ∧ TransGen (P.OrdRel m) i j := by
    rintro p q ⟨c, d, m', i, j, p', q', hd, hm', hc, e1, e2, ht⟩
    rcases List.mem_cons.1 hd with rfl | hd
    · right
      obtain rfl : m = m' := by simpa [hy] using hm'
      rw [hY c hc] at e1 e2
      exact ⟨i, j, p', q', e1, e2, ht⟩
    · left
      exact ⟨c, d, m', i, j, p', q', hd, hm', hc.old hpar (hne d hd), e1, e2, ht⟩
  have mem_sub : ∀ {d}, d ∈ l ++ [r] → d ∈ y :: l ++ [r] := fun hd => List.mem_cons_of_mem _ hd
  refine ⟨R.desc_cons rfl, ?_, R.root, ?_, ?_, ?_, ?_, ?_, ?_, ?_, ?_, ?_, ?_, ?_⟩
  · intro x hx
    rcases List.mem_cons.1 hx with rfl | hx
    · exact Nat.lt_succ_self _
    · exact Nat.lt_succ_of_lt (R.lt x hx)
  · intro x hx hn
    rcases List.mem_cons.1 hx with rfl | hx
    · simp [hy] at hn
    · exact R.prim x hx hn
  · intro x hx m' hm'
    rcases List.mem_cons.1 hx with rfl | hx
    · obtain rfl : m = m' := by simpa [hy] using hm'
      exact ⟨hm, hhead⟩
    · exact R.meth x hx m' hm'
  · intro x hx
    rcases List.mem_cons.1 hx with rfl | hx
    · obtain ⟨d, hd, m, h1, h2, h3⟩ := R.ownL u hu
      exact ⟨d, mem_sub hd, m, h1, h2, R.lt d hd, h3⟩
    · obtain ⟨d, hd, h⟩ := R.own x hx
      exact ⟨d, mem_sub hd, h⟩
  · intro v hv
    rcases (S.mem v).1 hv with ⟨hv, hvu⟩ | ⟨i, hi, rfl⟩
    · rw [(fold v hv).1, (fold v hv).2.1, (fold v hv).2.2]
      obtain ⟨d, hd, h⟩ := R.ownL v hv
      exact ⟨d, mem_sub hd, h⟩
    · refine ⟨y, List.mem_cons_self, m, rfl, (fnew i hi).1.symm, ?_⟩
      rw [(fnew i hi).2.1]; exact (fnew i hi).2.2
  · intro d hd m' hm' k hk
    rcases List.mem_cons.1 hd with rfl | hd
    · obtain rfl : m = m' := by simpa [hy] using hm'
      exact .inr ⟨h.length + k, (S.mem _).2 (.inr ⟨k, hk, rfl⟩), (fnew k hk).1, (fnew k hk).2.1⟩
    · rcases R.fill d hd m' hm' k hk with ⟨x, hx, h⟩ | ⟨v, hv, h1, h2⟩
      · exact .inl ⟨x, List.mem_cons_of_mem _ hx, h⟩
      · by_cases e : v = u
        · subst e; exact .inl ⟨y, List.mem_cons_self, h1, h2⟩
        · exact .inr ⟨v, (S.mem v).2 (.inl ⟨hv, e⟩), by rw [(fold v hv).1]; exact h1,
            by rw [(fold v hv).2.1]; exact h2⟩
  · intro x hx z hz e1 e2
    rcases List.mem_cons.1 hx with rfl | hx <;> rcases List.mem_cons.1 hz with rfl | hz
    · rfl
    · exact absurd e2.symm (R.uniqX z hz u hu e1.symm)
    · exact absurd e2 (R.uniqX x hx u hu e1)
    · exact R.uniq x hx z hz e1 e2
  · intro x hx v hv e1 e2
    rcases (S.mem v).1 hv with ⟨hv, hvu⟩ | ⟨i, hi, rfl⟩
    · rw [(fold v hv).1] at e1
      rw [(fold v hv).2.1] at e2
      rcases List.mem_cons.1 hx with rfl | hx
      · exact hvu (R.uniqL u hu v hv e1 e2).symm
      · exact R.uniqX x hx v hv e1 e2
    · rw [(fnew i hi).1] at e1
      rcases List.mem_cons.1 hx with rfl | hx
      · exact hparL u hu e1
      · exact hpar x hx e1
  · intro v hv w hw e1 e2
    rcases (S.mem v).1 hv with ⟨hv, hvu⟩ | ⟨i, hi, rfl⟩ <;>
      rcases (S.mem w).1 hw with ⟨hw, hwu⟩ | ⟨j, hj, rfl⟩
    · rw [(fold v hv).1, (fold w hw).1] at e1
      rw [(fold v hv).2.1, (fold w hw).2.1] at e2
      exact R.uniqL v hv w hw e1 e2
    · rw [(fold v hv).1, (fnew j hj).1] at e1
      exact absurd e1 (hparL v hv)
    · rw [(fold w hw).1, (fnew i hi).1] at e1
      exact absurd e1.symm (hparL w hw)
    · rw [(fnew i hi).2.1, (fnew j hj).2.1] at e2
      rw [e2]
  · intro v hv w hw p q h1 h2 hb
    rcases (S.mem v).1 hv with ⟨hv, hvu⟩ | ⟨i, hi, rfl⟩ <;>
      rcases (S.mem w).1 hw with ⟨hw, hwu⟩ | ⟨j, hj, rfl⟩
    · rcases hB p q hb with hb | ⟨i', j', p', q', e, -, -⟩
      · exact (S.lt_old v hv w hw hvu hwu).2 (R.ordL v hv w hw p q (hL v hv p h1) (hL w hw q h2) hb)
      · exact absurd e (R.no_extL hu hc0 (hL v hv p h1))
    · rw [hN j hj q h2] at hb
      rcases hB _ _ hb with hb | ⟨i', j', p', q', e, -, -⟩
      · exact absurd (R.ordL v hv u hu p c0 (hL v hv p h1) hc0 (R.shrink_right hu hc0 hb)) (hmin v hv)
      · exact absurd e (R.no_extL hu hc0 (hL v hv p h1))
    · rw [hN i hi p h1] at hb
      rcases hB _ _ hb with hb | ⟨i', j', p', q', -, e, -⟩
      · exact (S.lt_new_old i w hi hw hwu).2
          (R.ordL u hu w hw c0 q hc0 (hL w hw q h2) (R.shrink_left hu hc0 hb))
      · exact absurd e (R.no_extL hu hc0 (hL w hw q h2))
    · rw [hN i hi p h1, hN j hj q h2] at hb
      rcases hB _ _ hb with hb | ⟨i', j', p', q', e1, e2, ht⟩
      · exact absurd (R.shrink_right hu hc0 (R.shrink_left hu hc0 hb)) (bef_irrefl hP R)
      · have e1 := List.append_cancel_left e1
        have e2 := List.append_cancel_left e2
        simp only [List.cons.injEq] at e1 e2
        rw [← e1.1, ← e2.1] at ht
        exact (S.lt_new i j hi hj).2 ht
  · intro x hx hn v hv p q h1 h2 hb
    rcases List.mem_cons.1 hx with rfl | hx
    · simp [hy] at hn
    · rcases (S.mem v).1 hv with ⟨hv, hvu⟩ | ⟨i, hi, rfl⟩
      · rcases hB _ _ hb with hb | ⟨i', j', p', q', -, e, -⟩
        · exact R.ordX x hx hn v hv p q (hO x hx p h1) (hL v hv q h2) hb
        · exact R.no_ext hu hc0 (hO x hx p h1) e
      · rw [hN i hi q h2] at hb
        rcases hB _ _ hb with hb | ⟨i', j', p', q', -, e, -⟩
        · exact R.ordX x hx hn u hu p c0 (hO x hx p h1) hc0 (R.shrink_left hu hc0 hb)
        · exact R.no_ext hu hc0 (hO x hx p h1) e
  · intro x hx z hz hxn hzn hlt p q h1 h2 hb
    rcases List.mem_cons.1 hx with rfl | hx
    · simp [hy] at hxn
    · rcases List.mem_cons.1 hz with rfl | hz
      · simp [hy] at hzn
      · rcases hB _ _ hb with hb | ⟨i', j', p', q', e, -, -⟩
        · exact R.ordS x hx z hz hxn hzn hlt p q (hO x hx p h1) (hO z hz q h2) hb
        · exact R.no_ext hu hc0 (hO x hx p h1) e

/-- Decomposing the initial task. -/
theorem Rec.first {u m} (hm : m < P.numMethods) (hhead : P.head m = taskOf h u)
    (hinit : taskOf h u = P.init) {outer : List Nat} {I' : Finset Nat}
    (S : Subst P {u} (taskOf h) (TransGen (Edge h)) u m h.length I' (taskOf (extHeap P h m inst outer))
      (TransGen (Edge (extHeap P h m inst outer)))) (a b : Nat) :
    Rec P (extHeap P h m inst outer) (inst + 1) I' [] ⟨taskOf h u, some m, inst, a, b⟩ := by
  set y : SolStep := ⟨taskOf h u, some m, inst, a, b⟩ with hy
  set h' := extHeap P h m inst outer with hh'
  have fnew : ∀ i < (P.sub m).length, parOf h' (h.length + i) = inst ∧ posOf h' (h.length + i) = i ∧
      (P.sub m)[i]? = some (taskOf h' (h.length + i)) := fun i hi => new_fields hi
  have hmem : ∀ v ∈ I', ∃ i, i < (P.sub m).length ∧ v = h.length + i := by
    intro v hv
    rcases (S.mem v).1 hv with ⟨h1, h2⟩ | h
    · exact absurd (Finset.mem_singleton.1 h1) h2
    · exact h
  have only : ∀ {d}, d ∈ [] ++ [y] → d = y := fun hd => by simpa using hd
  have hY : ∀ i p, PathTo [] y i p → p = [] := by
    intro i p hp
    cases hp with
    | root => rfl
    | child hx _ => simp at hx
  have hN : ∀ i < (P.sub m).length, ∀ p, LPath [] y h' (h.length + i) p → p = [i] := by
    rintro i hi p ⟨q, hq, rfl⟩
    rw [(fnew i hi).2.1, hY _ q hq]; rfl
  refine ⟨by simp, ?_, ⟨hinit, rfl⟩, ?_, ?_, by simp, ?_, ?_, by simp, by simp, ?_, ?_, by simp, by simp⟩
  · intro x hx; rw [only hx]; exact Nat.lt_succ_self _
  · intro x hx hn; rw [only hx] at hn; simp [hy] at hn
  · intro x hx m' hm'
    rw [only hx] at hm' ⊢
    obtain rfl : m = m' := by simpa [hy] using hm'
    exact ⟨hm, hhead⟩
  · intro v hv
    obtain ⟨i, hi, rfl⟩ := hmem v hv
    refine ⟨y, by simp, m, rfl, (fnew i hi).1.symm, ?_⟩
    rw [(fnew i hi).2.1]; exact (fnew i hi).2.2
  · intro d hd m' hm' k hk
    rw [only hd] at hm' ⊢
    obtain rfl : m = m' := by simpa [hy] using hm'
    exact .inr ⟨h.length + k, (S.mem _).2 (.inr ⟨k, hk, rfl⟩), (fnew k hk).1, (fnew k hk).2.1⟩
  · intro v hv w hw e1 e2
    obtain ⟨i, hi, rfl⟩ := hmem v hv
    obtain ⟨j, hj, rfl⟩ := hmem w hw
    rw [(fnew i hi).2.1, (fnew j hj).2.1] at e2
    rw [e2]
  · intro v hv w hw p q h1 h2 hb
    obtain ⟨i, hi, rfl⟩ := hmem v hv
    obtain ⟨j, hj, rfl⟩ := hmem w hw
    rw [hN i hi p h1, hN j hj q h2] at hb
    obtain ⟨c, d, m', i', j', p', q', hd, hm', hc, e1, e2, ht⟩ := hb
    rw [only hd] at hm' hc
    obtain rfl : m = m' := by simpa [hy] using hm'
    rw [hY _ c hc] at e1 e2
    simp only [List.nil_append, List.cons.injEq] at e1 e2
    rw [← e1.1, ← e2.1] at ht
    exact (S.lt_new i j hi hj).2 ht

/-! ## Reached nodes -/

/-- The records of a node: none in the initial node, otherwise as described by `Rec`. -/
def Recorded (P : Problem) (h : Heap) (inst : Nat) (n : Node) : Prop :=
  (n.sol = [] ∧ ∃ u, live h n = {u} ∧ taskOf h u = P.init ∧ parOf h u = 0) ∨
    ∃ l r, n.sol = l ++ [r] ∧ r.par = 0 ∧ Rec P h inst (live h n) l r

theorem fields_eq {u : Nat} {ps : Step} (hps : h[u]? = some ps) :
    taskOf h u = ps.task ∧ parOf h u = ps.par ∧ posOf h u = ps.pos := by
  simp [taskOf, parOf, posOf, hps]

theorem AStep.recorded (hP : P.WF) (hcfg : cfg.Ok) {i n u n'} (hg : Good P cfg h n)
    (hr : Recorded P h i n) (a : AStep P cfg h i n u n') : Recorded P h (i + 1) n' := by
  obtain ⟨hu, -, hl, -⟩ := a.inv hP hcfg hg
  obtain ⟨ps, hps, hsol, -, -, -, hne⟩ := a.sol
  obtain ⟨e1, e2, e3⟩ := fields_eq hps
  rcases hr with ⟨h0, -⟩ | ⟨l, r, e, e0, R⟩
  · exact absurd h0 hne
  · have hf := hg.node.first_min hg.heap (u := u) (List.mem_append_left _ hu)
    right
    refine ⟨⟨taskOf h u, none, i, parOf h u, posOf h u⟩ :: l, r, ?_, e0, ?_⟩
    · rw [hsol, e, e1, e2, e3]; rfl
    · rw [hl]; exact R.action hf.1 hf.2 (hg.node.prim u hu)

theorem Chain.recorded (hP : P.WF) (hcfg : cfg.Ok) {i n us j n'} (hg : Good P cfg h n)
    (hr : Recorded P h i n) (c : Chain P cfg h i n us j n') : Recorded P h j n' := by
  induction c with
  | nil => exact hr
  | step a f _ ih => exact ih (a.inv hP hcfg hg).2.1 (a.recorded hP hcfg hg hr)
  | flag d _ ih => exact ih hg.flag hr

theorem Recorded.ext {h' : Heap} {inst' : Nat} {n : Node} (hr : Recorded P h inst n) (hp : h <+: h')
    (hg : Good P cfg h n) (hh' : HeapOK h') (hi : inst ≤ inst') : Recorded P h' inst' n := by
  have hl := prefix_live hp hg.heap hh' hg.node.lt
  rcases hr with ⟨h0, u, hu, ht, hz⟩ | ⟨l, r, e, e0, R⟩
  · have : u < h.length := live_lt (n := n) (by rw [hu]; simp)
    refine .inl ⟨h0, u, by rw [hl]; exact hu, ?_, ?_⟩
    · rw [prefix_taskOf hp this]; exact ht
    · unfold parOf at hz ⊢; rw [prefix_get hp this]; exact hz
  · refine .inr ⟨l, r, e, e0, ?_⟩
    rw [hl]; exact R.ext hp hg.heap (fun u hu => live_lt hu) hi

theorem chain_inst {i n us j n'} (c : Chain P cfg h i n us j n') : i ≤ j := by
  induction c with
  | nil => exact Nat.le_refl _
  | step _ _ _ ih => omega
  | flag _ _ ih => exact ih

theorem Reached.recorded (hP : P.WF) (hcfg : cfg.Ok) {g n} (hr : Reached P cfg g n) :
    Recorded P g.heap g.inst n := by
  induction hr with
  | init =>
    left
    refine ⟨rfl, 0, ?_, rfl, rfl⟩
    have hno : ∀ u v, ¬ Edge (initNode P cfg).1.heap u v := by
      rintro u v ⟨st, hst, hv⟩
      cases u with
      | zero => simp [initNode] at hst; subst hst; simp at hv
      | succ u => simp [initNode] at hst
    ext v
    have hn := (init_ninv (cfg := cfg) hP).1
    rw [mem_live hn.good.heap hn.good.node.lt]
    constructor
    · rintro ⟨x, hx, hxv⟩
      have hx : x = 0 := by simpa [initNode, Node.firsts] using hx
      subst hx
      rcases ReflTransGen.cases_head hxv with rfl | ⟨w, hw, -⟩
      · simp
      · exact absurd hw (hno _ _)
    · intro hv
      rw [Finset.mem_singleton.1 hv]
      exact ⟨0, by simp [initNode, Node.firsts], .refl⟩
  | app hr hu hap h ih =>
    have hn := hr.ninv hP hcfg
    obtain ⟨e1, e2, n1, us, a, c⟩ := apply_chain _ _ _ _ _ _ _ hu (isApplicable_iff.1 hap) h
    have h1 := a.recorded hP hcfg hn.good ih
    have h2 := c.recorded hP hcfg (a.inv hP hcfg hn.good).2.1 h1
    rw [e1]; exact h2
  | @dec f g n j u m g' n' hr hu hm h ih =>
    have hn := hr.ninv hP hcfg
    obtain ⟨g1, n1, us, hd, hheap, c⟩ := decompose_chain h
    simp only [methodsOf, List.mem_filter, List.mem_range, beq_iff_eq] at hm
    obtain ⟨hm, hhead⟩ := hm
    have hg1 := decomposeBase_good hP hn.good hm hu hhead hd
    obtain ⟨hh1, hok1, hst, S⟩ := decomposeBase_inv hP hn.good.heap hn.good.node hm hd hu
    obtain ⟨u', ps, cc, hu', hps, -, hext, hinst, -, -, -, -, hsol, -⟩ := decomposeBase_some hd
    obtain rfl : u = u' := by rw [hu] at hu'; exact Option.some.inj hu'
    obtain ⟨e1, e2, e3⟩ := fields_eq hps
    have hf := hn.good.node.first_min hn.good.heap (u := u)
      (List.mem_append_right _ (List.mem_of_getElem? hu))
    rw [hext] at S
    have h1 : Recorded P g1.heap g1.inst n1 := by
      right
      rw [hext, hinst]
      rcases ih with ⟨h0, w, hw, ht, hz⟩ | ⟨l, r, e, e0, R⟩
      · have hwu : w = u := by
          have := hf.1
          rw [hw] at this
          exact (Finset.mem_singleton.1 this).symm
        subst hwu
        rw [hw] at S
        refine ⟨[], ⟨taskOf g.heap w, some m, g.inst, ps.par, ps.pos⟩, ?_, ?_, ?_⟩
        · rw [hsol, h0, e1]; rfl
        · rw [← e2]; exact hz
        · exact Rec.first hm hhead ht S _ _
      · refine ⟨⟨taskOf g.heap u, some m, g.inst, parOf g.heap u, posOf g.heap u⟩ :: l, r, ?_, e0, ?_⟩
        · rw [hsol, e, e1, e2, e3]; rfl
        · exact R.decompose hP hf.1 hf.2 hm hhead S
    have h2 := c.recorded hP hcfg hg1 h1
    rw [hheap]; exact h2
  | otherApp hr ho hu hap h ih _ =>
    have hn := hr.ninv hP hcfg
    obtain ⟨e1, e2, n1, us, a, c⟩ := apply_chain _ _ _ _ _ _ _ hu (isApplicable_iff.1 hap) h
    have := chain_inst c
    exact ih.ext (by rw [e1]) hn.good (by rw [e1]; exact hn.good.heap) (by omega)
  | otherDec hr ho hu hm h ih _ =>
    have hn := hr.ninv hP hcfg
    obtain ⟨k1, k2, -⟩ := decompose_step hP hcfg (ho.ninv hP hcfg) hu hm h
    obtain ⟨g1, n1, us, hd, hheap, c⟩ := decompose_chain h
    obtain ⟨_, _, _, _, _, _, _, hinst, _⟩ := decomposeBase_some hd
    have := chain_inst c
    exact ih.ext k1 hn.good k2 (by omega)

end Verif.Prog
