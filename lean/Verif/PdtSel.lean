import Verif.PdtTree

/-! # Selections in the tree are decompositions of bounded height

From left to right the leaves of a consistent selection are the actions of a decomposition tree, and every decomposition
that is not higher than the tree is represented by a selection. -/

namespace Verif.Pdt

open Verif.Htn Verif.Sog

variable {P : Problem} {tot : Nat → List Nat} {t : T}

/-- Visiting all children visits the placed subtasks in their order. -/
theorem flatMap_placed {α : Type} {ord : List Nat} {nv : Nat} {mp : List Nat} (h : Placed ord nv mp) {g : Nat → List α}
    (hg : ∀ c < nv, (∀ i ∈ ord, mp.getD i 0 ≠ c) → g c = []) :
    (List.range nv).flatMap g = ord.flatMap fun i => g (mp.getD i 0) := by
  have hmap : ord.flatMap (fun i => g (mp.getD i 0)) = (ord.map fun i => mp.getD i 0).flatMap g := by
    rw [List.flatMap_map]
  have hfil : (List.range nv).filter (fun c => ord.any fun i => mp.getD i 0 == c) = ord.map fun i => mp.getD i 0 := by
    have hs1 : ((List.range nv).filter fun c => ord.any fun i => mp.getD i 0 == c).Pairwise (· < ·) :=
      List.pairwise_lt_range.filter _
    have hs2 : (ord.map fun i => mp.getD i 0).Pairwise (· < ·) := by
      rw [List.pairwise_map]; exact h.mono
    refine List.Perm.eq_of_pairwise (fun a b _ _ h1 h2 => absurd h1 (by omega)) hs1 hs2 ?_
    rw [List.perm_ext_iff_of_nodup (hs1.imp fun h => Nat.ne_of_lt h) (hs2.imp fun h => Nat.ne_of_lt h)]
    intro c
    rw [List.mem_filter, List.mem_range, List.any_eq_true, List.mem_map]
    constructor
    · rintro ⟨-, i, hi, hc⟩
      exact ⟨i, hi, by simpa using hc⟩
    · rintro ⟨i, hi, rfl⟩
      exact ⟨h.lt i hi, i, hi, by simp⟩
  rw [hmap, ← hfil]
  have : ∀ l : List Nat, (∀ c ∈ l, c < nv) →
      l.flatMap g = (l.filter fun c => ord.any fun i => mp.getD i 0 == c).flatMap g := by
    intro l
    induction l with
    | nil => intro _; rfl
    | cons c l ih =>
      intro hl
      rw [List.flatMap_cons, ih fun x hx => hl x (List.mem_cons_of_mem _ hx)]
      by_cases hc : (ord.any fun i => mp.getD i 0 == c) = true
      · rw [List.filter_cons_of_pos (by exact hc), List.flatMap_cons]
      · rw [List.filter_cons_of_neg (by exact hc), hg c (hl c (by simp)), List.nil_append]
        intro i hi he
        exact hc (List.any_eq_true.2 ⟨i, hi, by simpa using he⟩)
  exact this _ fun c hc => List.mem_range.1 hc

theorem flatMap_single {α : Type} {n c : Nat} (hc : c < n) {g : Nat → List α} (hg : ∀ c' < n, c' ≠ c → g c' = []) :
    (List.range n).flatMap g = g c := by
  have h := flatMap_placed (ord := [0]) (nv := n) (mp := [c]) ⟨rfl, by simpa using hc, by simp⟩ (g := g) (fun c' h1 h2 => hg c' h1 (by
    have := h2 0 (by simp)
    simpa using this.symm))
  simpa using h

theorem nc_eq {p : Path} {e : EX} (h : t.ex p = some e) : t.nc p = e.children.length := by
  unfold T.nc; rw [h]

theorem leaves_none {sel : Path → Sel} (hs : Consistent P t sel) : ∀ f p, sel p = .none → (t.leavesFrom f p).flatMap (actAt t sel) = [] := by
  intro f
  induction f with
  | zero =>
    intro p h
    simp only [T.leavesFrom, List.flatMap_cons, List.flatMap_nil, List.append_nil, actAt, h]
    cases t.nd p <;> rfl
  | succ f ih =>
    intro p h
    rw [T.leavesFrom]
    by_cases h0 : t.nc p = 0
    · rw [if_pos h0]
      simp only [List.flatMap_cons, List.flatMap_nil, List.append_nil, actAt, h]
      cases t.nd p <;> rfl
    · rw [if_neg h0, List.flatMap_assoc, List.flatMap_eq_nil_iff]
      intro c _
      exact ih _ (hs.none_child p c h)

theorem leaves_prim (ht : t.OK P tot) {sel : Path → Sel} (hs : Consistent P t sel) : ∀ f p, p.length + f = t.K → ∀ i d x,
    sel p = .prim i → t.nd p = some d → d.prims[i]? = some x → (t.leavesFrom f p).flatMap (actAt t sel) = [x] := by
  have hact : ∀ p i d x, sel p = .prim i → t.nd p = some d → d.prims[i]? = some x → actAt t sel p = [x] := by
    intro p i d x h1 h2 h3
    simp only [actAt, h1, h2]
    rw [List.getD_eq_getElem?_getD, h3]
    rfl
  intro f
  induction f with
  | zero =>
    intro p _ i d x h1 h2 h3
    simp only [T.leavesFrom, List.flatMap_cons, List.flatMap_nil, List.append_nil]
    exact hact p i d x h1 h2 h3
  | succ f ih =>
    intro p hp i d x h1 h2 h3
    rw [T.leavesFrom]
    by_cases h0 : t.nc p = 0
    · rw [if_pos h0]
      simp only [List.flatMap_cons, List.flatMap_nil, List.append_nil]
      exact hact p i d x h1 h2 h3
    · rw [if_neg h0, List.flatMap_assoc]
      cases he : t.ex p with
      | none => exact absurd (by unfold T.nc; rw [he]) h0
      | some e =>
        obtain ⟨d', hd', -, -, hexp, -⟩ := ht.ex p e he
        rw [h2] at hd'
        obtain rfl := Option.some.inj hd'
        obtain ⟨c, j, k, hpos, hc, hother⟩ := hs.prim_child p i e h1 he
        obtain ⟨ch, hch, hx, -⟩ := hexp.pos_inh i c j k hpos
        rw [nc_eq he, flatMap_single (c := c) (List.getElem?_eq_some_iff.1 hch).1 fun c' _ hne =>
          leaves_none hs f _ (hother c' hne)]
        exact ih (c :: p) (by simp; omega) j ch x hc ((ht.child c p ch).2 ⟨e, he, hch⟩) (by rw [hx, h3])

/-- A selection at a vertex is a decomposition of its task. -/
theorem leaves_abs (ht : t.OK P tot) (hq : t.Has P tot (SeqR tot t)) (htot : ∀ m < P.numMethods, (tot m).Perm (List.range (P.sub m).length))
    {sel : Path → Sel} (hs : Consistent P t sel) : ∀ f p, p.length + f = t.K → ∀ a m d x,
    sel p = .abs a m → t.nd p = some d → d.abss[a]? = some x →
    ∃ tr, Valid P x tr ∧ HeightLE P tr f ∧ (t.leavesFrom f p).flatMap (actAt t sel) = yield tot tr := by
  intro f
  induction f with
  | zero =>
    intro p hp a m d x h1 h2 h3
    obtain ⟨_, e, _, -, he, -⟩ := hs.abs p a m h1
    obtain ⟨_, -, hlt, -⟩ := ht.ex p e he
    omega
  | succ f ih =>
    intro p hp a m d x h1 h2 h3
    obtain ⟨d', e, meth, hd', he, hm⟩ := hs.abs p a m h1
    rw [h2] at hd'
    obtain rfl := Option.some.inj hd'
    obtain ⟨d', hd', -, -, hexp, hnil⟩ := ht.ex p e he
    rw [h2] at hd'
    obtain rfl := Option.some.inj hd'
    obtain ⟨hlt, x', hx', hhead⟩ := lt_of_isMeth hm
    rw [h3] at hx'
    obtain rfl := Option.some.inj hx'
    obtain ⟨mp, ⟨-, hplace, himg⟩, hpl⟩ := hq p d e h2 he a m meth hm
    unfold SeqR at hpl
    rw [nc_eq he] at hpl
    have hpos : ∀ i ∈ tot meth, ∃ tr, Valid P ((P.sub meth).getD i 0) tr ∧ HeightLE P tr f ∧
        (t.leavesFrom f (mp.getD i 0 :: p)).flatMap (actAt t sel) = yield tot tr := by
      intro i hi
      obtain ⟨q, ch, hq, hch, hqp, htask⟩ := hplace i hi
      have hnd := (ht.child (mp.getD i 0) p ch).2 ⟨e, he, hch⟩
      have hsel := (hs.abs_child p a m e h1 he (mp.getD i 0)).2 q hq
      cases hb : q.isPrim with
      | true =>
        rw [hb, if_pos rfl] at hsel
        rw [hb] at htask hqp
        exact ⟨.leaf _, .leaf hqp.symm, .leaf, leaves_prim ht hs f _ (by simp; omega) _ ch _ hsel hnd htask⟩
      | false =>
        rw [hb, if_neg (by simp)] at hsel
        obtain ⟨m', hm'⟩ := hsel
        rw [hb] at htask
        exact ih _ (by simp; omega) _ m' ch _ hm' hnd htask
    haveI : Nonempty Tree := ⟨.leaf 0⟩
    choose! cs hcs using hpos
    have hmem : ∀ i, i ∈ tot meth ↔ i < (P.sub meth).length := fun i => by
      rw [(htot meth hlt).mem_iff, List.mem_range]
    refine ⟨.node meth cs, ?_, .node fun i hi => (hcs i ((hmem i).2 hi)).2.1, ?_⟩
    · rw [← hhead]
      refine .node hlt fun i y hy => ?_
      obtain ⟨hi, rfl⟩ := List.getElem?_eq_some_iff.1 hy
      have := (hcs i ((hmem i).2 hi)).1
      rwa [List.getD_eq_getElem _ _ hi] at this
    · have hne : t.nc p ≠ 0 := by
        rw [nc_eq he]
        intro h0
        exact hnil.1 (List.length_eq_zero_iff.1 h0) a m meth hm
      rw [T.leavesFrom, if_neg hne, List.flatMap_assoc, nc_eq he, flatMap_placed hpl]
      · rw [yield]
        refine List.flatMap_congr fun i hi => (hcs i hi).2.2
      · intro c _ hc
        refine leaves_none hs f _ ((hs.abs_child p a m e h1 he c).1 ?_)
        cases hq : e.ptr a m c with
        | none => rfl
        | some q =>
          obtain ⟨i, hi, hic⟩ := himg c q hq
          exact absurd hic (hc i hi)

/-- The plan of a selection is the yield of a decomposition of the initial task, not higher than the tree. -/
theorem plan_of_selection (ht : t.OK P tot) (hq : t.Has P tot (SeqR tot t)) (htot : ∀ m < P.numMethods, (tot m).Perm (List.range (P.sub m).length))
    {sel : Path → Sel} (hs : Consistent P t sel) :
    ∃ tr, Valid P P.init tr ∧ HeightLE P tr t.K ∧ planOf t sel = yield tot tr := by
  obtain ⟨d, hd, -, ha⟩ := ht.root
  obtain ⟨m, hm⟩ := hs.root
  exact leaves_abs ht hq htot hs t.K [] (by simp) 0 m d P.init hm hd (by rw [ha]; rfl)

/-! ## From decompositions to selections -/

/-- Every abstract task that occurs has a method. -/
def AllMeth (P : Problem) : Prop :=
  (∃ m < P.numMethods, P.head m = P.init) ∧
  ∀ m < P.numMethods, ∀ x ∈ P.sub m, P.prim x = false → ∃ m' < P.numMethods, P.head m' = x

theorem mem_meths {x m : Nat} : m ∈ meths P x ↔ m < P.numMethods ∧ P.head m = x := by
  unfold meths
  rw [List.mem_filter, List.mem_range, beq_iff_eq]

/-- Where the tasks of a child come from. -/
theorem child_task {d : ND} {e : EX} (h : ExpOK P tot d e) {c : Nat} {ch : ND} (hch : e.children[c]? = some ch) {j x : Nat}
    (hx : ch.abss[j]? = some x) : ∃ ti mi m, IsMeth P d ti mi m ∧ ∃ i ∈ tot m, x = (P.sub m).getD i 0 := by
  have hlen := h.lenA c ch hch
  obtain ⟨hj, -⟩ := List.getElem?_eq_some_iff.1 hx
  have hcs : ch.causesA[j]? = some ch.causesA[j] := List.getElem?_eq_getElem (by omega)
  have hne := h.caused c ch hch false ch.causesA[j] (List.getElem_mem _)
  obtain ⟨k, hk⟩ : ∃ k, (ch.causesA[j])[0]? = some k := by
    cases hc : ch.causesA[j] with
    | nil => exact absurd hc hne
    | cons k l => exact ⟨k, rfl⟩
  cases k with
  | inh p =>
    have := (h.inh_pos c ch false j _ 0 p hch hcs hk).1
    exact absurd this (by simp)
  | meth ti mi =>
    obtain ⟨hptr, m, hm⟩ := h.cause_ptr c ch false j _ 0 ti mi hch hcs hk
    obtain ⟨mp, -, h2, h3⟩ := h.place ti mi m hm
    obtain ⟨i, hi, hic⟩ := h3 c _ hptr
    obtain ⟨q, ch', hq, hch', -, htask⟩ := h2 i hi
    rw [hic] at hq hch'
    rw [hptr] at hq
    obtain rfl := Option.some.inj hq
    rw [hch] at hch'
    obtain rfl := Option.some.inj hch'
    refine ⟨ti, mi, m, hm, i, hi, ?_⟩
    have htask' : ch.abss[j]? = some ((P.sub m).getD i 0) := htask
    rw [hx] at htask'
    exact Option.some.inj htask'

theorem abss_meth (ht : t.OK P tot) (htot : ∀ m < P.numMethods, (tot m).Perm (List.range (P.sub m).length)) (hm : AllMeth P) :
    ∀ p d, t.nd p = some d → ∀ x ∈ d.abss, meths P x ≠ [] := by
  have key : ∀ x, (∃ m < P.numMethods, P.head m = x) → meths P x ≠ [] := by
    rintro x ⟨m, h1, h2⟩ h0
    have := (mem_meths (P := P) (x := x) (m := m)).2 ⟨h1, h2⟩
    rw [h0] at this
    simp at this
  intro p d hd x hx
  cases p with
  | nil =>
    obtain ⟨d', hd', -, ha⟩ := ht.root
    rw [hd] at hd'
    obtain rfl := Option.some.inj hd'
    rw [ha] at hx
    obtain rfl : x = P.init := by simpa using hx
    exact key _ hm.1
  | cons c p =>
    obtain ⟨e, he, hch⟩ := (ht.child c p d).1 hd
    obtain ⟨dp, hdp, -, -, hexp, -⟩ := ht.ex p e he
    obtain ⟨j, hj⟩ := List.mem_iff_getElem?.1 hx
    obtain ⟨ti, mi, m, h1, i, hi, rfl⟩ := child_task hexp hch hj
    have hlt := (lt_of_isMeth h1).1
    have hi' := List.mem_range.1 ((htot m hlt).mem_iff.1 hi)
    refine key _ (hm.2 m hlt _ ?_ ((ht.nd _ _ hd).isAbs _ hx))
    rw [List.getD_eq_getElem _ _ hi']
    exact List.getElem_mem _

theorem children_ne (ht : t.OK P tot) (htot : ∀ m < P.numMethods, (tot m).Perm (List.range (P.sub m).length)) (hm : AllMeth P)
    {p : Path} {e : EX} (he : t.ex p = some e) : e.children ≠ [] := by
  obtain ⟨d, hd, -, hne, -, hnil⟩ := ht.ex p e he
  intro h0
  obtain ⟨x, hx⟩ := List.exists_mem_of_ne_nil _ hne
  obtain ⟨a, ha⟩ := List.mem_iff_getElem?.1 hx
  have h1 := abss_meth ht htot hm p d hd x hx
  obtain ⟨m, hm'⟩ := List.exists_mem_of_ne_nil _ h1
  obtain ⟨mi, hmi⟩ := List.mem_iff_getElem?.1 hm'
  exact hnil.1 h0 a mi m ⟨x, ha, hmi⟩

open Classical in
/-- Spreading a decomposition tree over the path decomposition tree. -/
noncomputable def assign (P : Problem) (tot : Nat → List Nat) (R : Path → Nat → List Nat → Prop) (t : T) (tr : Tree) : Path → Option Tree
  | [] => some tr
  | c :: p =>
    match assign P tot R t tr p, t.nd p, t.ex p with
    | some (.leaf a), some d, some e =>
      match e.posP[d.prims.idxOf a]? with
      | some x => if c = x.1 then some (.leaf a) else none
      | none => none
    | some (.node m cs), some d, some e =>
      if h : ∃ i, i ∈ tot m ∧
          (Classical.epsilon fun mp => PlaceSpec P tot e (d.abss.idxOf (P.head m)) ((meths P (P.head m)).idxOf m) m mp ∧ R p m mp).getD i 0 = c
      then some (cs (Classical.choose h)) else none
    | _, _, _ => none

/-- The selection that belongs to a decomposition tree. -/
noncomputable def selT (P : Problem) (tot : Nat → List Nat) (R : Path → Nat → List Nat → Prop) (t : T) (tr : Tree) (p : Path) : Sel :=
  match assign P tot R t tr p, t.nd p with
  | some (.leaf a), some d => .prim (d.prims.idxOf a)
  | some (.node m _), some d => .abs (d.abss.idxOf (P.head m)) ((meths P (P.head m)).idxOf m)
  | _, _ => .none

/-- What holds for the tree assigned to a vertex. -/
def AssignOK (P : Problem) (t : T) (p : Path) : Tree → Prop
  | .leaf a => ∃ d, t.nd p = some d ∧ a ∈ d.prims
  | .node m cs => ∃ d e, t.nd p = some d ∧ t.ex p = some e ∧ P.head m ∈ d.abss ∧ m < P.numMethods ∧
      Valid P (P.head m) (.node m cs) ∧ HeightLE P (.node m cs) (t.K - p.length)

theorem isMeth_of {d : ND} {m : Nat} (hm : m < P.numMethods) (hd : P.head m ∈ d.abss) :
    IsMeth P d (d.abss.idxOf (P.head m)) ((meths P (P.head m)).idxOf m) m :=
  ⟨P.head m, getElem?_idxOf hd, getElem?_idxOf (mem_meths.2 ⟨hm, rfl⟩)⟩

theorem assignOK_of (ht : t.OK P tot) {p : Path} {d : ND} (hd : t.nd p = some d) {x : Nat} {tr : Tree} (hv : Valid P x tr)
    (hh : HeightLE P tr (t.K - p.length)) (hx : x ∈ d.tasks (P.prim x)) (hwf : ∀ m < P.numMethods, P.prim (P.head m) = false) :
    AssignOK P t p tr := by
  cases hv with
  | leaf h =>
    rw [h] at hx
    exact ⟨d, hd, hx⟩
  | @node m cs hm hc =>
    rw [hwf m hm] at hx
    have hlt : p.length < t.K := by
      have hpos : ∀ k, HeightLE P (.node m cs) k → 0 < k := by
        intro k h
        cases h
        omega
      have := hpos _ hh
      omega
    obtain ⟨e, he⟩ := ht.full p d hd hlt (List.ne_nil_of_mem hx)
    exact ⟨d, e, hd, he, hx, hm, .node hm hc, hh⟩

theorem assign_leaf {R : Path → Nat → List Nat → Prop} {tr0 : Tree} {p : Path} {a : Nat} {d : ND} {e : EX} (ha : assign P tot R t tr0 p = some (.leaf a))
    (hd : t.nd p = some d) (he : t.ex p = some e) {c j k : Nat} (hpos : e.posP[d.prims.idxOf a]? = some (c, j, k)) (c' : Nat) :
    assign P tot R t tr0 (c' :: p) = if c' = c then some (.leaf a) else none := by
  rw [assign, ha, hd, he]
  simp only [hpos]

theorem assign_node {R : Path → Nat → List Nat → Prop} {tr0 : Tree} {p : Path} {m : Nat} {cs : Nat → Tree} {d : ND} {e : EX}
    (ha : assign P tot R t tr0 p = some (.node m cs)) (hd : t.nd p = some d) (he : t.ex p = some e) (hR : t.Has P tot R)
    (hm : IsMeth P d (d.abss.idxOf (P.head m)) ((meths P (P.head m)).idxOf m) m) :
    ∃ mp, (PlaceSpec P tot e (d.abss.idxOf (P.head m)) ((meths P (P.head m)).idxOf m) m mp ∧ R p m mp) ∧
      (∀ i ∈ tot m, assign P tot R t tr0 (mp.getD i 0 :: p) = some (cs i)) ∧
      ∀ c, (∀ i ∈ tot m, mp.getD i 0 ≠ c) → assign P tot R t tr0 (c :: p) = none := by
  have hex : ∃ mp, PlaceSpec P tot e (d.abss.idxOf (P.head m)) ((meths P (P.head m)).idxOf m) m mp ∧ R p m mp :=
    hR p d e hd he _ _ _ hm
  have hsp := Classical.epsilon_spec hex
  refine ⟨_, hsp, fun i hi => ?_, fun c hc => ?_⟩
  · rw [assign, ha, hd, he]
    simp only
    have hE : ∃ i', i' ∈ tot m ∧ (Classical.epsilon fun mp => PlaceSpec P tot e (d.abss.idxOf (P.head m)) ((meths P (P.head m)).idxOf m) m mp ∧ R p m mp).getD i' 0 =
      (Classical.epsilon fun mp => PlaceSpec P tot e (d.abss.idxOf (P.head m)) ((meths P (P.head m)).idxOf m) m mp ∧ R p m mp).getD i 0 := ⟨i, hi, rfl⟩
    rw [dif_pos hE]
    rw [placed_inj hsp.1.1 (Classical.choose_spec hE).1 hi (Classical.choose_spec hE).2]
  · rw [assign, ha, hd, he]
    simp only
    rw [dif_neg]
    rintro ⟨i, hi, hic⟩
    exact hc i hi hic

theorem assign_none {R : Path → Nat → List Nat → Prop} {tr0 : Tree} {p : Path} (ha : assign P tot R t tr0 p = none) (c : Nat) : assign P tot R t tr0 (c :: p) = none := by
  rw [assign, ha]

theorem assign_unexpanded {R : Path → Nat → List Nat → Prop} {tr0 : Tree} {p : Path} (he : t.ex p = none) (c : Nat) : assign P tot R t tr0 (c :: p) = none := by
  rw [assign, he]
  cases assign P tot R t tr0 p with
  | none => rfl
  | some tr => cases tr <;> cases t.nd p <;> rfl

section
variable {R : Path → Nat → List Nat → Prop} (ht : t.OK P tot) (hR : t.Has P tot R) (htot : ∀ m < P.numMethods, (tot m).Perm (List.range (P.sub m).length))
  (hall : AllMeth P) (hwf : ∀ m < P.numMethods, P.prim (P.head m) = false)
include ht hR htot hall hwf

theorem prim_pos {p : Path} {d : ND} {e : EX} (hd : t.nd p = some d) (he : t.ex p = some e) {i : Nat} (hi : i < d.prims.length) :
    ∃ c j k ch, e.posP[i]? = some (c, j, k) ∧ e.children[c]? = some ch ∧ ch.prims[j]? = d.prims[i]? ∧ t.nd (c :: p) = some ch := by
  obtain ⟨d', hd', -, -, hexp, -⟩ := ht.ex p e he
  rw [hd] at hd'
  obtain rfl := Option.some.inj hd'
  have hlen := hexp.lenPos (children_ne ht htot hall he)
  obtain ⟨⟨c, j, k⟩, hx⟩ : ∃ x, e.posP[i]? = some x := ⟨_, List.getElem?_eq_getElem (by omega)⟩
  obtain ⟨ch, hch, hp, -⟩ := hexp.pos_inh i c j k hx
  exact ⟨c, j, k, ch, hx, hch, hp, (ht.child c p ch).2 ⟨e, he, hch⟩⟩

theorem assign_ok {tr0 : Tree} (hv : Valid P P.init tr0) (hh : HeightLE P tr0 t.K) : ∀ p tr, assign P tot R t tr0 p = some tr →
    AssignOK P t p tr := by
  intro p
  induction p with
  | nil =>
    intro tr h
    rw [assign, Option.some.injEq] at h
    subst h
    obtain ⟨d, hd, -, ha⟩ := ht.root
    have hpr : P.prim P.init = false := by
      have := (ht.nd _ _ hd).isAbs P.init (by rw [ha]; simp)
      exact this
    exact assignOK_of ht hd hv (by simpa using hh) (by rw [hpr]; show P.init ∈ d.abss; rw [ha]; simp) hwf
  | cons c p ih =>
    intro tr h
    cases ha : assign P tot R t tr0 p with
    | none => rw [assign_none ha] at h; exact absurd h (by simp)
    | some trp =>
      cases he : t.ex p with
      | none => rw [assign_unexpanded he] at h; exact absurd h (by simp)
      | some e =>
        have hok := ih trp ha
        obtain ⟨d, hd, -, -, hexp, -⟩ := ht.ex p e he
        cases trp with
        | leaf a =>
          obtain ⟨d', hd', hmem⟩ := hok
          rw [hd] at hd'
          obtain rfl := Option.some.inj hd'
          obtain ⟨c', j, k, ch, hpos, hch, hp, hnd⟩ := prim_pos ht hR htot hall hwf hd he (List.idxOf_lt_length_of_mem hmem)
          rw [assign_leaf ha hd he hpos] at h
          by_cases hc : c = c'
          · rw [if_pos hc, Option.some.injEq] at h
            subst h hc
            rw [getElem?_idxOf hmem] at hp
            exact ⟨ch, hnd, List.mem_of_getElem? hp⟩
          · rw [if_neg hc] at h; exact absurd h (by simp)
        | node m cs =>
          obtain ⟨d', e', hd', he', hmem, hm, hval, hht⟩ := hok
          rw [hd] at hd'
          obtain rfl := Option.some.inj hd'
          rw [he] at he'
          obtain rfl := Option.some.inj he'
          obtain ⟨mp, ⟨⟨hpl, hplace, -⟩, -⟩, h1, h2⟩ := assign_node ha hd he hR (isMeth_of hm hmem)
          by_cases hc : ∃ i ∈ tot m, mp.getD i 0 = c
          · obtain ⟨i, hi, rfl⟩ := hc
            rw [h1 i hi, Option.some.injEq] at h
            subst h
            obtain ⟨q, ch, hq, hch, hqp, htask⟩ := hplace i hi
            have hi' := List.mem_range.1 ((htot m hm).mem_iff.1 hi)
            have hnd := (ht.child _ p ch).2 ⟨e, he, hch⟩
            have hvi : Valid P ((P.sub m).getD i 0) (cs i) := by
              rw [List.getD_eq_getElem _ _ hi']
              obtain ⟨m', cs', -, -, heq, hvs⟩ := hval.abs_eq (hwf m hm)
              injection heq with e1 e2
              subst e1 e2
              exact hvs i _ (List.getElem?_eq_getElem hi')
            have hhi : HeightLE P (cs i) (t.K - (mp.getD i 0 :: p).length) := by
              have hgen : ∀ k, HeightLE P (.node m cs) k → HeightLE P (cs i) (k - 1) := by
                intro k hk
                cases hk with
                | node hk => exact hk i hi'
              have := hgen _ hht
              rwa [List.length_cons, Nat.sub_add_eq]
            rw [hqp] at htask
            exact assignOK_of ht hnd hvi hhi (List.mem_of_getElem? htask) hwf
          · rw [h2 c fun i hi hic => hc ⟨i, hi, hic⟩] at h
            exact absurd h (by simp)

theorem selT_leaf {tr0 : Tree} {p : Path} {a : Nat} {d : ND} (ha : assign P tot R t tr0 p = some (.leaf a)) (hd : t.nd p = some d) :
    selT P tot R t tr0 p = .prim (d.prims.idxOf a) := by
  unfold selT; rw [ha, hd]

theorem selT_node {tr0 : Tree} {p : Path} {m : Nat} {cs : Nat → Tree} {d : ND}
    (ha : assign P tot R t tr0 p = some (.node m cs)) (hd : t.nd p = some d) :
    selT P tot R t tr0 p = .abs (d.abss.idxOf (P.head m)) ((meths P (P.head m)).idxOf m) := by
  unfold selT; rw [ha, hd]

theorem selT_none {tr0 : Tree} {p : Path} (ha : assign P tot R t tr0 p = none) : selT P tot R t tr0 p = .none := by
  unfold selT; rw [ha]

/-- The selection of a decomposition follows the tree. -/
theorem selT_consistent {tr0 : Tree} (hv : Valid P P.init tr0) (hh : HeightLE P tr0 t.K) : Consistent P t (selT P tot R t tr0) := by
  have hok := assign_ok ht hR htot hall hwf hv hh
  -- what is selected comes from the assigned tree
  have hcases : ∀ p, (assign P tot R t tr0 p = none ∧ selT P tot R t tr0 p = .none) ∨
      (∃ a d, assign P tot R t tr0 p = some (.leaf a) ∧ t.nd p = some d ∧ a ∈ d.prims ∧ selT P tot R t tr0 p = .prim (d.prims.idxOf a)) ∨
      ∃ m cs d e, assign P tot R t tr0 p = some (.node m cs) ∧ t.nd p = some d ∧ t.ex p = some e ∧ P.head m ∈ d.abss ∧
        m < P.numMethods ∧ selT P tot R t tr0 p = .abs (d.abss.idxOf (P.head m)) ((meths P (P.head m)).idxOf m) := by
    intro p
    cases ha : assign P tot R t tr0 p with
    | none => exact .inl ⟨rfl, selT_none ht hR htot hall hwf ha⟩
    | some tr =>
      have := hok p tr ha
      cases tr with
      | leaf a =>
        obtain ⟨d, hd, hmem⟩ := this
        exact .inr (.inl ⟨a, d, rfl, hd, hmem, selT_leaf ht hR htot hall hwf ha hd⟩)
      | node m cs =>
        obtain ⟨d, e, hd, he, hmem, hm, -⟩ := this
        exact .inr (.inr ⟨m, cs, d, e, rfl, hd, he, hmem, hm, selT_node ht hR htot hall hwf ha hd⟩)
  refine ⟨?_, ?_, ?_, ?_, ?_, ?_⟩
  · obtain ⟨d, hd, -, ha⟩ := ht.root
    have hpr : P.prim P.init = false := (ht.nd _ _ hd).isAbs P.init (by rw [ha]; simp)
    obtain ⟨m, cs, hm, hhead, rfl, -⟩ := hv.abs_eq hpr
    refine ⟨(meths P (P.head m)).idxOf m, ?_⟩
    rw [selT_node ht hR htot hall hwf (p := []) rfl hd, ha, hhead]
    simp
  · intro p i h
    rcases hcases p with ⟨-, h1⟩ | ⟨a, d, -, hd, hmem, h1⟩ | ⟨m, cs, d, e, -, -, -, -, -, h1⟩
    · rw [h1] at h; exact absurd h (by simp)
    · rw [h1] at h
      obtain rfl := Sel.prim.inj h
      exact ⟨d, a, hd, getElem?_idxOf hmem⟩
    · rw [h1] at h; exact absurd h (by simp)
  · intro p a m h
    rcases hcases p with ⟨-, h1⟩ | ⟨a, d, -, hd, hmem, h1⟩ | ⟨m, cs, d, e, -, hd, he, hmem, hm, h1⟩
    · rw [h1] at h; exact absurd h (by simp)
    · rw [h1] at h; exact absurd h (by simp)
    · rw [h1] at h
      obtain ⟨rfl, rfl⟩ := Sel.abs.inj h
      exact ⟨d, e, m, hd, he, isMeth_of hm hmem⟩
  · intro p c h
    rcases hcases p with ⟨h0, h1⟩ | ⟨a, d, -, hd, hmem, h1⟩ | ⟨m, cs, d, e, -, hd, he, hmem, hm, h1⟩
    · exact selT_none ht hR htot hall hwf (assign_none h0 c)
    · rw [h1] at h; exact absurd h (by simp)
    · rw [h1] at h; exact absurd h (by simp)
  · intro p i e h he
    rcases hcases p with ⟨-, h1⟩ | ⟨a, d, ha, hd, hmem, h1⟩ | ⟨m, cs, d, e, -, hd, he, hmem, hm, h1⟩
    · rw [h1] at h; exact absurd h (by simp)
    · rw [h1] at h
      obtain rfl := Sel.prim.inj h
      obtain ⟨c, j, k, ch, hpos, hch, hp, hnd⟩ := prim_pos ht hR htot hall hwf hd he (List.idxOf_lt_length_of_mem hmem)
      refine ⟨c, j, k, hpos, ?_, fun c' hc' => ?_⟩
      · have ha' : assign P tot R t tr0 (c :: p) = some (.leaf a) := by rw [assign_leaf ha hd he hpos, if_pos rfl]
        rw [selT_leaf ht hR htot hall hwf ha' hnd]
        rw [getElem?_idxOf hmem] at hp
        rw [idxOf_of_getElem? (ht.nd _ _ hnd).nodupP hp]
      · exact selT_none ht hR htot hall hwf (by rw [assign_leaf ha hd he hpos, if_neg hc'])
    · rw [h1] at h; exact absurd h (by simp)
  · intro p a m e h he c
    rcases hcases p with ⟨-, h1⟩ | ⟨a, d, -, hd, hmem, h1⟩ | ⟨m, cs, d, e', ha, hd, he', hmem, hm, h1⟩
    · rw [h1] at h; exact absurd h (by simp)
    · rw [h1] at h; exact absurd h (by simp)
    · rw [h1] at h
      obtain ⟨rfl, rfl⟩ := Sel.abs.inj h
      rw [he] at he'
      obtain rfl := Option.some.inj he'
      obtain ⟨d', hd', -, -, hexp, -⟩ := ht.ex p e he
      rw [hd] at hd'
      obtain rfl := Option.some.inj hd'
      obtain ⟨mp, ⟨⟨hpl, hplace, himg⟩, -⟩, ha1, ha2⟩ := assign_node ha hd he hR (isMeth_of hm hmem)
      refine ⟨fun hq => selT_none ht hR htot hall hwf (ha2 c fun i hi hic => ?_), fun q hq => ?_⟩
      · obtain ⟨q, ch, hq', -⟩ := hplace i hi
        rw [hic, hq] at hq'
        exact absurd hq' (by simp)
      · obtain ⟨i, hi, rfl⟩ := himg c q hq
        obtain ⟨q', ch, hq', hch, hqp, htask⟩ := hplace i hi
        rw [hq] at hq'
        obtain rfl := Option.some.inj hq'
        have hnd := (ht.child _ p ch).2 ⟨e, he, hch⟩
        have hai := ha1 i hi
        have hi' := List.mem_range.1 ((htot m hm).mem_iff.1 hi)
        have hok' := hok _ _ hai
        -- the subtree decomposes the subtask
        have hvi : Valid P ((P.sub m).getD i 0) (cs i) := by
          obtain ⟨_, _, _, _, _, _, hval, _⟩ := hok p _ ha
          rw [List.getD_eq_getElem _ _ hi']
          obtain ⟨m', cs', -, -, heq, hvs⟩ := hval.abs_eq (hwf m hm)
          injection heq with e1 e2
          subst e1 e2
          exact hvs i _ (List.getElem?_eq_getElem hi')
        generalize hx : (P.sub m).getD i 0 = x at hvi htask hqp
        generalize htr : cs i = tr at hvi hai
        cases hvi with
        | leaf hp =>
          rw [hp] at hqp
          rw [hqp] at htask
          rw [hqp, if_pos rfl, selT_leaf ht hR htot hall hwf hai hnd]
          rw [idxOf_of_getElem? (ht.nd _ _ hnd).nodupP htask]
        | @node m' cs' hm' hcs' =>
          rw [hwf m' hm'] at hqp
          rw [hqp] at htask
          rw [hqp, if_neg (by simp), selT_node ht hR htot hall hwf hai hnd]
          exact ⟨_, by rw [idxOf_of_getElem? (ht.nd _ _ hnd).nodupA htask]⟩

theorem leaves_assign (hq : ∀ p m mp, R p m mp → SeqR tot t p m mp) {tr0 : Tree} (hv : Valid P P.init tr0) (hh : HeightLE P tr0 t.K) : ∀ f p, p.length + f = t.K → ∀ tr,
    assign P tot R t tr0 p = some tr → (t.leavesFrom f p).flatMap (actAt t (selT P tot R t tr0)) = yield tot tr := by
  have hok := assign_ok ht hR htot hall hwf hv hh
  have hs := selT_consistent ht hR htot hall hwf hv hh
  intro f
  induction f with
  | zero =>
    intro p hp tr h
    have := hok p tr h
    cases tr with
    | leaf a =>
      obtain ⟨d, hd, hmem⟩ := this
      exact leaves_prim ht hs 0 p hp _ d a (selT_leaf ht hR htot hall hwf h hd) hd (getElem?_idxOf hmem)
    | node m cs =>
      obtain ⟨d, e, hd, he, -⟩ := this
      obtain ⟨_, -, hlt, -⟩ := ht.ex p e he
      omega
  | succ f ih =>
    intro p hp tr h
    have := hok p tr h
    cases tr with
    | leaf a =>
      obtain ⟨d, hd, hmem⟩ := this
      exact leaves_prim ht hs (f + 1) p hp _ d a (selT_leaf ht hR htot hall hwf h hd) hd (getElem?_idxOf hmem)
    | node m cs =>
      obtain ⟨d, e, hd, he, hmem, hm, -⟩ := this
      obtain ⟨d', hd', -, -, hexp, hnil⟩ := ht.ex p e he
      rw [hd] at hd'
      obtain rfl := Option.some.inj hd'
      have hne : t.nc p ≠ 0 := by
        rw [nc_eq he]
        intro h0
        exact hnil.1 (List.length_eq_zero_iff.1 h0) _ _ m (isMeth_of hm hmem)
      obtain ⟨mp, ⟨-, hpl⟩, ha1, ha2⟩ := assign_node h hd he hR (isMeth_of hm hmem)
      have hpl := hq _ _ _ hpl
      unfold SeqR at hpl
      rw [nc_eq he] at hpl
      rw [T.leavesFrom, if_neg hne, List.flatMap_assoc, nc_eq he, flatMap_placed hpl]
      · rw [yield]
        refine List.flatMap_congr fun i hi => ih _ (by simp; omega) _ (ha1 i hi)
      · intro c _ hc
        exact leaves_none hs f _ (selT_none ht hR htot hall hwf (ha2 c hc))

/-- Every decomposition not higher than the tree is represented by a selection with the same plan. -/
theorem selection_of_tree (hq : ∀ p m mp, R p m mp → SeqR tot t p m mp) {tr : Tree} (hv : Valid P P.init tr) (hh : HeightLE P tr t.K) :
    ∃ sel, Consistent P t sel ∧ planOf t sel = yield tot tr :=
  ⟨selT P tot R t tr, selT_consistent ht hR htot hall hwf hv hh, leaves_assign ht hR htot hall hwf hq hv hh t.K [] (by simp) tr rfl⟩

end

end Verif.Pdt
