import Verif.PoLeaf
import Verif.PdtSel

/-! # Selections in the decomposition tree and decompositions, for partially ordered methods

A selection represents a decomposition whose leaves are the selected leaves of the tree, and the order of the leaves of
the decomposition follows from the order of the leaves of the tree. -/

namespace Verif.Pdt

open Verif.Htn Verif.Sog Relation

/-- The selection below a vertex represents a decomposition. -/
inductive Rep (P : Problem) (t : T) (sel : Path → Sel) (R : Path → Nat → List Nat → Prop) : Nat → Path → Tree → Prop
  | leaf {f : Nat} {p x : Path} {a : Nat} : x ∈ t.leavesFrom f p → actAt t sel x = [a] →
      (∀ y ∈ t.leavesFrom f p, y ≠ x → actAt t sel y = []) → Rep P t sel R f p (.leaf a)
  | node {f : Nat} {p : Path} {m : Nat} {cs : Nat → Tree} {mp : List Nat} : m < P.numMethods → t.nc p ≠ 0 → R p m mp →
      (∀ i < (P.sub m).length, mp.getD i 0 < t.nc p) →
      (∀ i < (P.sub m).length, ∀ j < (P.sub m).length, mp.getD i 0 = mp.getD j 0 → i = j) →
      (∀ i < (P.sub m).length, Rep P t sel R f (mp.getD i 0 :: p) (cs i)) →
      (∀ c < t.nc p, (∀ i < (P.sub m).length, mp.getD i 0 ≠ c) → ∀ y ∈ t.leavesFrom f (c :: p), actAt t sel y = []) →
      Rep P t sel R (f + 1) p (.node m cs)

/-- The leaves of a decomposition and the selected leaves of the tree correspond. -/
structure RepMap (P : Problem) (t : T) (sel : Path → Sel) (f : Nat) (p : Path) (tr : Tree)
    (φ : List Nat → Path) : Prop where
  act : ∀ q a, LeafAt P tr q a → φ q ∈ t.leavesFrom f p ∧ actAt t sel (φ q) = [a]
  inj : ∀ q q' a a', LeafAt P tr q a → LeafAt P tr q' a' → φ q = φ q' → q = q'
  surj : ∀ x ∈ t.leavesFrom f p, actAt t sel x ≠ [] → ∃ q a, LeafAt P tr q a ∧ φ q = x

/-- The order of the methods is kept. -/
def KeepR (P : Problem) (A : Path → List (Nat × Nat)) (p : Path) (m : Nat) (mp : List Nat) : Prop :=
  ∀ i < (P.sub m).length, ∀ j < (P.sub m).length, TransGen (P.OrdRel m) i j → TransGen (fun c c' => (c, c') ∈ A p) (mp.getD i 0) (mp.getD j 0)

/-- Only the order of the methods is imposed. -/
def ExactR (P : Problem) (A : Path → List (Nat × Nat)) (p : Path) (m : Nat) (mp : List Nat) : Prop :=
  ∀ i < (P.sub m).length, ∀ j < (P.sub m).length, TransGen (fun c c' => (c, c') ∈ A p) (mp.getD i 0) (mp.getD j 0) → TransGen (P.OrdRel m) i j

section
variable {P : Problem} {t : T} {sel : Path → Sel} {R : Path → Nat → List Nat → Prop} {A : Path → List (Nat × Nat)}

theorem rep_map {f : Nat} {p : Path} {tr : Tree} (h : Rep P t sel R f p tr) :
    ∃ φ, RepMap P t sel f p tr φ ∧
      ((∀ p m mp, R p m mp → KeepR P A p m mp) → ∀ q q' a a', LeafAt P tr q a → LeafAt P tr q' a' → Before P tr q q' →
        LeafLt t A f p (φ q) (φ q')) ∧
      (Acyclic A t → (∀ p m mp, R p m mp → ExactR P A p m mp) → ∀ q q' a a', LeafAt P tr q a → LeafAt P tr q' a' →
        LeafLt t A f p (φ q) (φ q') → Before P tr q q') := by
  induction h with
  | @leaf f p x a hx ha ho =>
    refine ⟨fun _ => x, ⟨?_, ?_, ?_⟩, ?_, ?_⟩
    · intro q b h; cases h; exact ⟨hx, ha⟩
    · intro q q' b b' h h' _; cases h; cases h'; rfl
    · intro y hy hne
      refine ⟨[], a, .here, ?_⟩
      by_contra hxy
      exact hne (ho y hy (fun h => hxy h.symm))
    · intro _ q q' b b' h h' hb; cases h; cases hb
    · intro hA _ q q' b b' _ _ hl; exact absurd hl (LeafLt.irrefl hA)
  | @node f p m cs mp hm h0 hR hlt hinj _ hoff ih =>
    haveI : Nonempty (List Nat → Path) := ⟨fun _ => []⟩
    choose! φ hφ using ih
    have hmem : ∀ i < (P.sub m).length, ∀ q a, LeafAt P (cs i) q a → φ i q ∈ t.leavesFrom f (mp.getD i 0 :: p) :=
      fun i hi q a h => ((hφ i hi).1.act q a h).1
    refine ⟨fun q => match q with | [] => [] | i :: q => φ i q, ⟨?_, ?_, ?_⟩, ?_, ?_⟩
    · rintro q a (_ | @⟨_, _, i, q, _, hi, h⟩)
      refine ⟨(leavesFrom_succ h0).2 ⟨_, hlt i hi, hmem i hi q a h⟩, ((hφ i hi).1.act q a h).2⟩
    · rintro q q' a a' (_ | @⟨_, _, i, q, _, hi, h⟩) (_ | @⟨_, _, i', q', _, hi', h'⟩) heq
      have heq' : φ i q = φ i' q' := heq
      have h1 := hmem i hi q a h
      rw [heq'] at h1
      obtain rfl := hinj i hi i' hi' (leavesFrom_disj h1 (hmem i' hi' q' a' h'))
      rw [(hφ i hi).1.inj q q' a a' h h' heq']
    · intro x hx hne
      obtain ⟨c, hc, hx⟩ := (leavesFrom_succ h0).1 hx
      by_cases hci : ∃ i < (P.sub m).length, mp.getD i 0 = c
      · obtain ⟨i, hi, rfl⟩ := hci
        obtain ⟨q, a, h1, h2⟩ := (hφ i hi).1.surj x hx hne
        exact ⟨i :: q, a, .child hi h1, h2⟩
      · push Not at hci
        exact absurd (hoff c hc hci x hx) hne
    · rintro hk q q' a a' (_ | @⟨_, _, i, q, _, hi, h⟩) (_ | @⟨_, _, i', q', _, hi', h'⟩) hb
      refine ⟨_, hlt i hi, _, hlt i' hi', hmem i hi q a h, hmem i' hi' q' a' h', ?_⟩
      cases hb with
      | same hb => exact .inl ⟨rfl, (hφ i hi).2.1 hk q q' a a' h h' hb⟩
      | diff hb => exact .inr (hk p m mp hR i hi i' hi' hb)
    · rintro hA hk q q' a a' (_ | @⟨_, _, i, q, _, hi, h⟩) (_ | @⟨_, _, i', q', _, hi', h'⟩) ⟨c, hc, c', hc', hx, hy, hl⟩
      obtain rfl := leavesFrom_disj hx (hmem i hi q a h)
      obtain rfl := leavesFrom_disj hy (hmem i' hi' q' a' h')
      rcases hl with ⟨he, hl⟩ | hl
      · obtain rfl := hinj i hi i' hi' he
        exact .same ((hφ i hi).2.2 hA hk q q' a a' h h' hl)
      · exact .diff (hk p m mp hR i hi i' hi' hl)

theorem flatMap_eq_one {α : Type} {l : List α} {g : α → List Nat} {a : Nat} (h : l.flatMap g = [a]) :
    ∃ x ∈ l, g x = [a] ∧ ∀ y ∈ l, y ≠ x → g y = [] := by
  induction l with
  | nil => simp at h
  | cons b l ih =>
    rw [List.flatMap_cons] at h
    rcases List.append_eq_singleton_iff.1 h with ⟨h1, h2⟩ | ⟨h1, h2⟩
    · obtain ⟨x, hx, hg, ho⟩ := ih h2
      refine ⟨x, List.mem_cons_of_mem _ hx, hg, fun y hy hne => ?_⟩
      rcases List.mem_cons.1 hy with rfl | hy
      · exact h1
      · exact ho y hy hne
    · refine ⟨b, List.mem_cons_self, h1, fun y hy hne => ?_⟩
      rcases List.mem_cons.1 hy with rfl | hy
      · exact absurd rfl hne
      · exact List.flatMap_eq_nil_iff.1 h2 y hy

variable {tot : Nat → List Nat}

theorem rep_prim (ht : t.OK P tot) (hs : Consistent P t sel) {f : Nat} {p : Path} (hp : p.length + f = t.K) {i : Nat} {d : ND} {x : Nat}
    (h1 : sel p = .prim i) (h2 : t.nd p = some d) (h3 : d.prims[i]? = some x) : Rep P t sel R f p (.leaf x) := by
  obtain ⟨y, hy, ha, ho⟩ := flatMap_eq_one (leaves_prim ht hs f p hp i d x h1 h2 h3)
  exact .leaf hy ha ho

theorem off_of_none (hs : Consistent P t sel) {f : Nat} {p : Path} (h : sel p = .none) : ∀ y ∈ t.leavesFrom f p, actAt t sel y = [] :=
  List.flatMap_eq_nil_iff.1 (leaves_none hs f p h)

/-- A selection at a vertex represents a decomposition of its task. -/
theorem rep_abs (ht : t.OK P tot) (hR : t.Has P tot R) (htot : ∀ m < P.numMethods, (tot m).Perm (List.range (P.sub m).length))
    (hs : Consistent P t sel) : ∀ f p, p.length + f = t.K → ∀ a m d x,
    sel p = .abs a m → t.nd p = some d → d.abss[a]? = some x →
    ∃ tr, Valid P x tr ∧ HeightLE P tr f ∧ Rep P t sel R f p tr := by
  intro f
  induction f with
  | zero =>
    intro p hp a m d x h1 h2 h3
    obtain ⟨_, e, _, -, he, -⟩ := hs.abs p a m h1
    obtain ⟨_, -, hlt, -⟩ := ht.ex p e he
    omega
  | succ f ih =>
    intro p hp a m d x h1 h2 h3
    obtain ⟨d', e, meth, hd', he, hm⟩ := hs.abs p a m h1
    rw [h2] at hd'
    obtain rfl := Option.some.inj hd'
    obtain ⟨hlt, x', hx', hhead⟩ := lt_of_isMeth hm
    rw [h3] at hx'
    obtain rfl := Option.some.inj hx'
    obtain ⟨mp, ⟨hw, hplace, himg⟩, hr⟩ := hR p d e h2 he a m meth hm
    have hpos : ∀ i ∈ tot meth, ∃ tr, Valid P ((P.sub meth).getD i 0) tr ∧ HeightLE P tr f ∧ Rep P t sel R f (mp.getD i 0 :: p) tr := by
      intro i hi
      obtain ⟨q, ch, hq, hch, hqp, htask⟩ := hplace i hi
      have hnd := (ht.child (mp.getD i 0) p ch).2 ⟨e, he, hch⟩
      have hsel := (hs.abs_child p a m e h1 he (mp.getD i 0)).2 q hq
      cases hb : q.isPrim with
      | true =>
        rw [hb, if_pos rfl] at hsel
        rw [hb] at htask hqp
        exact ⟨.leaf _, .leaf hqp.symm, .leaf, rep_prim ht hs (by simp; omega) hsel hnd htask⟩
      | false =>
        rw [hb, if_neg (by simp)] at hsel
        obtain ⟨m', hm'⟩ := hsel
        rw [hb] at htask
        exact ih _ (by simp; omega) _ m' ch _ hm' hnd htask
    haveI : Nonempty Tree := ⟨.leaf 0⟩
    choose! cs hcs using hpos
    have hmem : ∀ i, i ∈ tot meth ↔ i < (P.sub meth).length := fun i => by
      rw [(htot meth hlt).mem_iff, List.mem_range]
    refine ⟨.node meth cs, ?_, .node fun i hi => (hcs i ((hmem i).2 hi)).2.1, ?_⟩
    · rw [← hhead]
      refine .node hlt fun i y hy => ?_
      obtain ⟨hi, rfl⟩ := List.getElem?_eq_some_iff.1 hy
      have := (hcs i ((hmem i).2 hi)).1
      rwa [List.getD_eq_getElem _ _ hi] at this
    · have h0 : t.nc p ≠ 0 := by
        obtain ⟨d', hd', -, -, -, hnil⟩ := ht.ex p e he
        rw [h2] at hd'
        obtain rfl := Option.some.inj hd'
        rw [nc_eq he]
        exact fun h0 => hnil.1 (List.length_eq_zero_iff.1 h0) a m meth hm
      refine .node hlt h0 hr (fun i hi => ?_) (fun i hi j hj => placed_inj hw ((hmem i).2 hi) ((hmem j).2 hj))
        (fun i hi => (hcs i ((hmem i).2 hi)).2.2) fun c _ hc => off_of_none hs ((hs.abs_child p a m e h1 he c).1 ?_)
      · rw [nc_eq he]; exact hw.lt i ((hmem i).2 hi)
      · cases hq : e.ptr a m c with
        | none => rfl
        | some q =>
          obtain ⟨i, hi, hic⟩ := himg c q hq
          exact absurd hic (hc i ((hmem i).1 hi))

/-- Every selection represents a decomposition of the initial task. -/
theorem rep_of_selection (ht : t.OK P tot) (hR : t.Has P tot R) (htot : ∀ m < P.numMethods, (tot m).Perm (List.range (P.sub m).length))
    (hs : Consistent P t sel) : ∃ tr, Valid P P.init tr ∧ HeightLE P tr t.K ∧ Rep P t sel R t.K [] tr := by
  obtain ⟨d, hd, -, ha⟩ := ht.root
  obtain ⟨m, hm⟩ := hs.root
  exact rep_abs ht hR htot hs t.K [] (by simp) 0 m d P.init hm hd (by rw [ha]; rfl)

/-- Every decomposition that is not higher than the tree is represented by a selection. -/
theorem rep_of_tree (ht : t.OK P tot) (hR : t.Has P tot R) (htot : ∀ m < P.numMethods, (tot m).Perm (List.range (P.sub m).length))
    (hall : AllMeth P) (hwf : ∀ m < P.numMethods, P.prim (P.head m) = false) {tr0 : Tree} (hv : Valid P P.init tr0)
    (hh : HeightLE P tr0 t.K) : ∃ sel, Consistent P t sel ∧ Rep P t sel R t.K [] tr0 := by
  have hok := assign_ok ht hR htot hall hwf hv hh
  have hs := selT_consistent ht hR htot hall hwf hv hh
  refine ⟨selT P tot R t tr0, hs, ?_⟩
  suffices key : ∀ f p, p.length + f = t.K → ∀ tr, assign P tot R t tr0 p = some tr → Rep P t (selT P tot R t tr0) R f p tr from
    key t.K [] (by simp) tr0 rfl
  intro f
  induction f with
  | zero =>
    intro p hp tr h
    have := hok p tr h
    cases tr with
    | leaf a =>
      obtain ⟨d, hd, hmem⟩ := this
      exact rep_prim ht hs hp (selT_leaf ht hR htot hall hwf h hd) hd (getElem?_idxOf hmem)
    | node m cs =>
      obtain ⟨d, e, hd, he, -⟩ := this
      obtain ⟨_, -, hlt, -⟩ := ht.ex p e he
      omega
  | succ f ih =>
    intro p hp tr h
    have := hok p tr h
    cases tr with
    | leaf a =>
      obtain ⟨d, hd, hmem⟩ := this
      exact rep_prim ht hs hp (selT_leaf ht hR htot hall hwf h hd) hd (getElem?_idxOf hmem)
    | node m cs =>
      obtain ⟨d, e, hd, he, hmem, hm, -⟩ := this
      obtain ⟨mp, ⟨⟨hw, hplace, himg⟩, hr⟩, ha1, ha2⟩ := assign_node h hd he hR (isMeth_of hm hmem)
      have hmem' : ∀ i, i ∈ tot m ↔ i < (P.sub m).length := fun i => by
        rw [(htot m hm).mem_iff, List.mem_range]
      have h0 : t.nc p ≠ 0 := by
        obtain ⟨d', hd', -, -, -, hnil⟩ := ht.ex p e he
        rw [hd] at hd'
        obtain rfl := Option.some.inj hd'
        rw [nc_eq he]
        exact fun h0 => hnil.1 (List.length_eq_zero_iff.1 h0) _ _ m (isMeth_of hm hmem)
      refine .node hm h0 hr (fun i hi => ?_) (fun i hi j hj => placed_inj hw ((hmem' i).2 hi) ((hmem' j).2 hj))
        (fun i hi => ih _ (by simp; omega) _ (ha1 i ((hmem' i).2 hi))) fun c _ hc => off_of_none hs (selT_none ht hR htot hall hwf (ha2 c fun i hi => hc i ((hmem' i).1 hi)))
      rw [nc_eq he]; exact hw.lt i ((hmem' i).2 hi)

end

end Verif.Pdt
