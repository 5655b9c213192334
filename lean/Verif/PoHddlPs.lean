import Verif.PoHddlSt
import Verif.PsMain

/-! # What is printed for plans of the translation of parallel sequences -/

namespace Verif.Sas

open Verif.Htn Relation

/-- The line of an operator of `htnPS` in the plan: the cells of the subtasks are `0, pgb, 2 * pgb, ...` for a method of the initial task
(htnToSAS.cpp 1426-1430) and the cells from that of the task on for the others (1464-1470). -/
def psLine (P : Problem) (h : List Nat) : Lab → OLine
  | .prim a c => .prim a c
  | .meth m c => .meth m c ((List.range (P.sub m).length).map fun l => if P.head m = P.init then l * hMax h else c + l)

/-- The order between the tasks of the stacks: those above are before those below, `Q` are the orders between the stacks. -/
def stkLt (Q : Nat → Nat → Prop) (κ y : Nat → Nat) (u v : Nat) : Prop := (κ u = κ v ∧ y v < y u) ∨ TransGen Q (κ u) (κ v)

/-- The tasks of the stacks `st 0, ..., st (n - 1)` (top first): task `u` is in cell `y u` of stack `κ u`. -/
structure StkNet (n : Nat) (st : Nat → List Nat) (I : Finset Nat) (lab κ y : Nat → Nat) : Prop where
  lt : ∀ u ∈ I, κ u < n
  task : ∀ u ∈ I, (st (κ u)).reverse[y u]? = some (lab u)
  surj : ∀ k < n, ∀ j < (st k).length, ∃ u ∈ I, κ u = k ∧ y u = j
  inj : ∀ u ∈ I, ∀ v ∈ I, κ u = κ v → y u = y v → u = v

section

variable {P : Problem} {n : Nat} {st : Nat → List Nat} {I : Finset Nat} {lab κ y : Nat → Nat} {Q : Nat → Nat → Prop}

theorem StkNet.y_lt (h : StkNet n st I lab κ y) {u : Nat} (hu : u ∈ I) : y u < (st (κ u)).length := by
  have := (List.getElem?_eq_some_iff.1 (h.task u hu)).1
  simpa using this

/-- If the stacks before stack `k` are empty, no task is before the top of stack `k`. -/
theorem StkNet.min (h : StkNet n st I lab κ y) (hcl : ∀ l k, Q l k → st l ≠ [] → st k ≠ []) {u : Nat} (hu : u ∈ I)
    (htop : y u + 1 = (st (κ u)).length) (hfree : ∀ l, Q l (κ u) → st l = []) {v : Nat} (hv : v ∈ I) : ¬ stkLt Q κ y v u := by
  have hy := h.y_lt hv
  rintro (⟨h1, h2⟩ | h1)
  · rw [h1] at hy
    omega
  · have hne : st (κ v) ≠ [] := fun e => by rw [e] at hy; simp at hy
    have key : ∀ {a b : Nat}, ReflTransGen Q a b → st a ≠ [] → st b ≠ [] := by
      intro a b hab ha
      induction hab with
      | refl => exact ha
      | tail _ hq ih => exact hcl _ _ hq ih
    obtain ⟨l, h2, h3⟩ := TransGen.tail'_iff.1 h1
    exact key h2 hne (hfree l h3)

/-- Executing the top of a stack. -/
theorem StkNet.pop (h : StkNet n st I lab κ y) {u : Nat} (hu : u ∈ I) {r : List Nat} {t : Nat} (hst : st (κ u) = t :: r) (hy : y u = r.length) :
    lab u = t ∧ StkNet n (Function.update st (κ u) r) (I.erase u) lab κ y := by
  have ht := h.task u hu
  rw [hst, hy, List.reverse_cons, List.getElem?_append_right (by simp)] at ht
  simp only [List.length_reverse, Nat.sub_self, List.getElem?_cons_zero, Option.some.injEq] at ht
  have hlow : ∀ v ∈ I, v ≠ u → κ v = κ u → y v < r.length := by
    intro v hv hvu e
    have h1 := h.y_lt hv
    rw [e, hst, List.length_cons] at h1
    have : y v ≠ r.length := fun e' => hvu (h.inj v hv u hu e (e'.trans hy.symm))
    omega
  refine ⟨ht.symm, fun v hv => h.lt v (Finset.mem_of_mem_erase hv), fun v hv => ?_, fun k hk j hj => ?_, fun v hv w hw =>
    h.inj v (Finset.mem_of_mem_erase hv) w (Finset.mem_of_mem_erase hw)⟩
  · obtain ⟨hvu, hv⟩ := Finset.mem_erase.1 hv
    have h1 := h.task v hv
    by_cases e : κ v = κ u
    · rw [e, Function.update_self]
      rw [e, hst, List.reverse_cons, List.getElem?_append_left (by simpa using hlow v hv hvu e)] at h1
      exact h1
    · rwa [Function.update_of_ne e]
  · by_cases e : k = κ u
    · subst e
      rw [Function.update_self] at hj
      obtain ⟨v, hv, h1, h2⟩ := h.surj (κ u) hk j (by rw [hst, List.length_cons]; omega)
      exact ⟨v, Finset.mem_erase.2 ⟨fun e => by rw [e, hy] at h2; omega, hv⟩, h1, h2⟩
    · rw [Function.update_of_ne e] at hj
      obtain ⟨v, hv, h1, h2⟩ := h.surj k hk j hj
      exact ⟨v, Finset.mem_erase.2 ⟨fun e' => e (by rw [← h1, e']), hv⟩, h1, h2⟩

/-- Decomposing the top of a stack. -/
theorem StkNet.push (h : StkNet n st I lab κ y) (hac : ∀ k, ¬ TransGen Q k k) {u m b : Nat} (hu : u ∈ I) {r : List Nat} {t : Nat}
    (hst : st (κ u) = t :: r) (hy : y u = r.length) (hb : ∀ v ∈ I, v < b)
    (htot : ∀ i j, i < (P.sub m).length → j < (P.sub m).length → (TransGen (P.OrdRel m) i j ↔ i < j)) :
    ∃ I' lab' κ' y', StkNet n (Function.update st (κ u) (P.sub m ++ r)) I' lab' κ' y' ∧
      Subst P I lab (stkLt Q κ y) u m b I' lab' (stkLt Q κ' y') ∧ (∀ v ∈ I, κ' v = κ v ∧ y' v = y v) ∧
      ∀ i < (P.sub m).length, κ' (b + i) = κ u ∧ y' (b + i) = r.length + ((P.sub m).length - 1 - i) := by
  classical
  let N := (P.sub m).length
  let I' := I.erase u ∪ (Finset.range N).image (b + ·)
  let lab' : Nat → Nat := fun v => if v < b then lab v else (P.sub m)[v - b]?.getD 0
  let κ' : Nat → Nat := fun v => if v < b then κ v else κ u
  let y' : Nat → Nat := fun v => if v < b then y v else r.length + (N - 1 - (v - b))
  have hmem : ∀ v, v ∈ I' ↔ (v ∈ I ∧ v ≠ u) ∨ ∃ i, i < (P.sub m).length ∧ v = b + i := by
    intro v
    simp only [I', Finset.mem_union, Finset.mem_erase, Finset.mem_image, Finset.mem_range]
    refine or_congr and_comm (exists_congr fun i => and_congr_right fun _ => eq_comm)
  have k_old : ∀ v ∈ I, κ' v = κ v := fun v hv => if_pos (hb v hv)
  have k_new : ∀ i, κ' (b + i) = κ u := fun i => if_neg (by omega)
  have y_old : ∀ v ∈ I, y' v = y v := fun v hv => if_pos (hb v hv)
  have y_new : ∀ i, y' (b + i) = r.length + (N - 1 - i) := fun i => by
    simp only [y']; rw [if_neg (by omega), Nat.add_sub_cancel_left]
  have l_old : ∀ v ∈ I, lab' v = lab v := fun v hv => if_pos (hb v hv)
  have l_new : ∀ i t, (P.sub m)[i]? = some t → lab' (b + i) = t := fun i t hi => by
    simp only [lab']; rw [if_neg (by omega), Nat.add_sub_cancel_left, hi, Option.getD_some]
  have hlow : ∀ v ∈ I, v ≠ u → κ v = κ u → y v < r.length := by
    intro v hv hvu e
    have h1 := h.y_lt hv
    rw [e, hst, List.length_cons] at h1
    have : y v ≠ r.length := fun e' => hvu (h.inj v hv u hu e (e'.trans hy.symm))
    omega
  refine ⟨I', lab', κ', y', ⟨fun v hv => ?_, fun v hv => ?_, fun k hk j hj => ?_, fun v hv w hw e1 e2 => ?_⟩,
    ⟨hmem, hb, fun v hv _ => l_old v hv, l_new, fun v hv w hw hvu hwu => ?_, fun i j hi hj => ?_, fun i w hi hw hwu => ?_,
      fun v j hv hvu hj => ?_⟩, fun v hv => ⟨k_old v hv, y_old v hv⟩, fun i _ => ⟨k_new i, y_new i⟩⟩
  · rcases (hmem v).1 hv with ⟨hv, -⟩ | ⟨i, hi, rfl⟩
    · rw [k_old v hv]
      exact h.lt v hv
    · rw [k_new]
      exact h.lt u hu
  · rcases (hmem v).1 hv with ⟨hv, hvu⟩ | ⟨i, hi, rfl⟩
    · rw [k_old v hv, y_old v hv, l_old v hv]
      have h1 := h.task v hv
      by_cases e : κ v = κ u
      · have hl := hlow v hv hvu e
        rw [e, Function.update_self, List.reverse_append, List.getElem?_append_left (by simpa using hl)]
        rw [e, hst, List.reverse_cons, List.getElem?_append_left (by simpa using hl)] at h1
        exact h1
      · rwa [Function.update_of_ne e]
    · rw [k_new, y_new, Function.update_self, List.reverse_append, List.getElem?_append_right (by simp), List.length_reverse,
        Nat.add_sub_cancel_left, List.getElem?_reverse (by omega), l_new i _ (List.getElem?_eq_getElem hi), List.getElem?_eq_some_iff]
      exact ⟨by omega, by congr 1; omega⟩
  · by_cases e : k = κ u
    · subst e
      rw [Function.update_self, List.length_append] at hj
      by_cases hjr : j < r.length
      · obtain ⟨v, hv, h1, h2⟩ := h.surj (κ u) hk j (by rw [hst, List.length_cons]; omega)
        exact ⟨v, (hmem v).2 (.inl ⟨hv, fun e => by rw [e, hy] at h2; omega⟩), by rw [k_old v hv, h1], by rw [y_old v hv, h2]⟩
      · refine ⟨b + (N - 1 - (j - r.length)), (hmem _).2 (.inr ⟨_, ?_, rfl⟩), k_new _, ?_⟩
        · simp only [N]
          omega
        · rw [y_new]
          simp only [N]
          omega
    · rw [Function.update_of_ne e] at hj
      obtain ⟨v, hv, h1, h2⟩ := h.surj k hk j hj
      exact ⟨v, (hmem v).2 (.inl ⟨hv, fun e' => e (by rw [← h1, e'])⟩), by rw [k_old v hv, h1], by rw [y_old v hv, h2]⟩
  · rcases (hmem v).1 hv with ⟨hv, hvu⟩ | ⟨i, hi, rfl⟩ <;> rcases (hmem w).1 hw with ⟨hw, hwu⟩ | ⟨j, hj, rfl⟩
    · rw [k_old v hv, k_old w hw] at e1
      rw [y_old v hv, y_old w hw] at e2
      exact h.inj v hv w hw e1 e2
    · rw [k_old v hv, k_new] at e1
      rw [y_old v hv, y_new] at e2
      have := hlow v hv hvu e1
      omega
    · rw [k_old w hw, k_new] at e1
      rw [y_old w hw, y_new] at e2
      have := hlow w hw hwu e1.symm
      omega
    · rw [y_new, y_new] at e2
      simp only [N] at e2
      congr 1
      omega
  · simp only [stkLt, k_old v hv, k_old w hw, y_old v hv, y_old w hw]
  · simp only [stkLt, k_new, y_new, htot i j hi hj]
    constructor
    · rintro (⟨-, h1⟩ | h1)
      · omega
      · exact absurd h1 (hac _)
    · intro hij
      exact .inl ⟨trivial, by simp only [N]; omega⟩
  · simp only [stkLt, k_new, y_new, k_old w hw, y_old w hw]
    refine or_congr (and_congr_right fun e => ?_) Iff.rfl
    have := hlow w hw hwu e.symm
    omega
  · simp only [stkLt, k_new, y_new, k_old v hv, y_old v hv]
    refine or_congr (and_congr_right fun e => ?_) Iff.rfl
    have := hlow v hv hvu e
    omega

end

section

variable {P : Problem} {vars : List (Nat × Nat)} {h : List Nat} {nA nT : Nat} {T : STask Lab}

theorem range_ord (hP : P.WF) (hq : ParSeq P) {m : Nat} (hm : m < P.numMethods) (e : P.head m ≠ P.init) (i j : Nat) (hi : i < (P.sub m).length)
    (hj : j < (P.sub m).length) : TransGen (P.OrdRel m) i j ↔ i < j := by
  have key : ∀ {i j : Nat}, i < j → j < (P.sub m).length → TransGen (P.OrdRel m) i j := by
    intro i j hij hj
    have := List.pairwise_iff_getElem.1 (hq.tot m hm e) i j (by simp; omega) (by simpa using hj) hij
    simpa using this
  refine ⟨fun h => ?_, fun h => key h hj⟩
  obtain ⟨rank, hr⟩ := hP.ord_acyclic m hm
  have hlt : ∀ {a b : Nat}, TransGen (P.OrdRel m) a b → rank a < rank b := by
    intro a b hab
    induction hab with
    | single h => exact hr _ _ h
    | tail _ h ih => exact ih.trans (hr _ _ h)
  by_contra hc
  rcases Nat.lt_or_ge j i with h1 | h1
  · have := hlt h
    have := hlt (key h1 hi)
    omega
  · obtain rfl : i = j := by omega
    exact absurd (hlt h) (by omega)

theorem cell_inj {H a b i j : Nat} (hi : i < H) (hj : j < H) (e : a * H + i = b * H + j) : a = b ∧ i = j := mul_add_inj hi hj e

theorem ps_cellRun (hin : PsInput P vars nA nT h.length) (hf : ∀ a < nA, PrecFun vars P a) (hops : PsOpsOK P vars nA h T)
    {ord : Nat → Nat → Prop} (hirr : ∀ k, ¬ ord k k) (hac : ∀ k, ¬ TransGen (fun l k => l < h.length ∧ k < h.length ∧ ord l k) k k)
    {σ σ' : Val} {ρ : List (Lab × SOp)} (hr : SRun T σ ρ σ')
    (hz : ∀ k < h.length, σ' (psHead vars.length k) = 0) : ∀ {s : State} {st : Nat → List Nat} {I : Finset Nat} {lab κ y : Nat → Nat},
    PEnc vars h ord σ s st → Reach P s → (∀ l < h.length, ∀ k < h.length, ord l k → st l ≠ [] → st k ≠ []) →
    StkNet h.length st I lab κ y →
    CellRun P I lab (stkLt (fun l k => l < h.length ∧ k < h.length ∧ ord l k) κ y) (fun u => κ u * hMax h + y u)
      (ρ.map fun x => psLine P h x.1) := by
  induction hr with
  | nil σ =>
    intro s st I lab κ y he _ _ hn
    have hI : I = ∅ := by
      refine Finset.eq_empty_of_forall_notMem fun u hu => ?_
      have h1 := he.head _ (hn.lt u hu)
      rw [hz _ (hn.lt u hu)] at h1
      have := hn.y_lt hu
      omega
    subst hI
    exact .nil
  | @cons σ σ' x ρ hx happ hrun ih =>
    intro s st I lab κ y he hrs hcl hn
    have hyH : ∀ u ∈ I, y u < hMax h := fun u hu => by
      have h1 := hn.y_lt hu
      have h2 := he.le _ (hn.lt u hu)
      have h3 := hAt_le (h := h) (k := κ u)
      omega
    have hcinj : ∀ u ∈ I, ∀ v ∈ I, κ v * hMax h + y v = κ u * hMax h + y u → v = u := fun u hu v hv e => by
      obtain ⟨e1, e2⟩ := cell_inj (hyH v hv) (hyH u hu) e
      exact hn.inj v hv u hu e1 e2
    have hcl' : ∀ l k, (l < h.length ∧ k < h.length ∧ ord l k) → st l ≠ [] → st k ≠ [] := fun l k ⟨h1, h2, h3⟩ => hcl l h1 k h2 h3
    rcases (hops x).1 hx with ⟨a, j, k, ha, hk, hj, rfl⟩ | ⟨m, j, k, hm, e, hk, hfit, rfl⟩ | ⟨m, hm, e, rfl⟩
    · obtain ⟨hap, ⟨r, hst, rfl⟩, hfree⟩ := (psA_app hin hf hirr he ha hk hj).1 happ
      obtain ⟨u, hu, rfl, hy⟩ := hn.surj k hk r.length (by rw [hst, List.length_cons]; omega)
      obtain ⟨rfl, hn'⟩ := hn.pop hu hst hy
      have hcl2 : ∀ l < h.length, ∀ k < h.length, ord l k → Function.update st (κ u) r l ≠ [] → Function.update st (κ u) r k ≠ [] := by
        intro l hl k hk' hlk hne
        by_cases ek : k = κ u
        · subst ek
          have h1 := hfree l hl hlk
          by_cases el : l = κ u
          · subst el
            exact absurd hlk (hirr _)
          · rw [Function.update_of_ne el] at hne
            exact absurd h1 hne
        · rw [Function.update_of_ne ek]
          refine hcl l hl k hk' hlk fun e' => hne ?_
          by_cases el : l = κ u
          · subst el
            rw [hst] at e'
            cases e'
          · rw [Function.update_of_ne el, e']
      have := CellRun.prim (P := P) (c := fun u => κ u * hMax h + y u) hu (by rw [hin.prim]; simpa using ha) (hcinj u hu)
        (fun v hv => hn.min hcl' hu (by rw [hst, hy, List.length_cons]) (fun l hl => hfree l hl.1 hl.2.2) hv) (fun v _ w _ hvw => hvw)
        (ih hz (psA_step hin he hk hrs hst hap) (hrs.step hap) hcl2 hn')
      simp only [hy] at this
      exact this
    · have hpos := List.length_pos_iff.2 (hin.wf.sub_ne m hm)
      obtain ⟨⟨r, hst, rfl⟩, hfree⟩ := (psM_app hirr he hk (by omega)).1 happ
      obtain ⟨u, hu, rfl, hy⟩ := hn.surj k hk r.length (by rw [hst, List.length_cons]; omega)
      have hlab := (hn.pop hu hst hy).1
      obtain ⟨b, hb⟩ : ∃ b, ∀ v ∈ I, v < b := ⟨I.sup id + 1, fun v hv => Nat.lt_succ_of_le (Finset.le_sup (f := id) hv)⟩
      obtain ⟨I', lab', κ', y', g1, g2, g3, g4⟩ := hn.push (P := P) hac hu hst hy hb (range_ord hin.wf hin.par hm e)
      have hcl2 : ∀ l < h.length, ∀ k < h.length, ord l k → Function.update st (κ u) (P.sub m ++ r) l ≠ [] →
          Function.update st (κ u) (P.sub m ++ r) k ≠ [] := by
        intro l hl k hk' hlk hne
        by_cases ek : k = κ u
        · subst ek
          rw [Function.update_self]
          exact List.append_ne_nil_of_left_ne_nil (hin.wf.sub_ne m hm) r
        · rw [Function.update_of_ne ek]
          refine hcl l hl k hk' hlk fun e' => hne ?_
          by_cases el : l = κ u
          · subst el
            rw [hst] at e'
            cases e'
          · rw [Function.update_of_ne el, e']
      have := CellRun.meth (P := P) (c := fun u => κ u * hMax h + y u) (c' := fun u => κ' u * hMax h + y' u)
        (cells := (List.range (P.sub m).length).map fun l => κ u * hMax h + r.length + l) hm hlab.symm hu (hcinj u hu)
        (hn.min hcl' hu (by rw [hst, hy, List.length_cons]) (fun l hl => hfree l hl.1 hl.2.2) hu) g2
        (fun v hv _ => by simp only [(g3 v hv).1, (g3 v hv).2]) (fun i hi => ?_)
        (ih hz (psM_step he hk hst (hin.wf.sub_ne m hm) hfit) hrs hcl2 g1)
      · simp only [hy] at this
        rw [List.map_cons]
        simp only [psM, psLine, if_neg e]
        exact this
      · rw [List.getElem?_map, List.getElem?_range (by omega), Option.map_some, (g4 i hi).1, (g4 i hi).2, Nat.add_assoc]
    · have := psT_app.1 happ
      rw [he.top] at this
      cases this

theorem ps_order (hin : PsInput P vars nA nT h.length) {m : Nat} (hm : m < P.numMethods) : (reoOf P m).order = (P.sub m).reverse := by
  by_cases e : P.head m = P.init
  · obtain ⟨r, hr1, hr2, -⟩ := reorder_top (prim := P.prim) (hin.wf.sub_ne m hm) (fun o ho => hin.wf.ord_lt m hm o.1 o.2 ho)
      (hin.top_len m hm e ▸ hin.top_ord m hm e)
    rw [reoOf, hr1, Option.getD_some, hr2]
  · obtain ⟨r, _, hr1, hr2, -⟩ := reorder_seq hin.wf hin.par hm e
    rw [reoOf, hr1, Option.getD_some, hr2]

theorem psActs_lines (ρ : List (Lab × SOp)) : ((ρ.map fun x => psLine P h x.1).filterMap fun x => match x with
    | .prim a _ => some a
    | _ => none) = psActs ρ := by
  rw [psActs, List.filterMap_map]
  refine List.filterMap_congr fun x _ => ?_
  obtain ⟨l, o⟩ := x
  cases l <;> rfl

theorem ps_hddl (hin : PsInput P vars nA nT h.length) (hf : ∀ a < nA, PrecFun vars P a) (h1 : ∀ p ∈ h, 1 ≤ p)
    (hT : psTranslate P vars nA nT h = some T) {ρ : List (Lab × SOp)} (hρ : T.Plan ρ) :
    ∃ tr occ, HddlPO P (planToHddlPO P (fun m => (reoOf P m).order) (ρ.map fun x => psLine P h x.1)) tr occ (psActs ρ) := by
  obtain ⟨T', hT', hops, hgoal, -, -, -, -, hc, htop, hz⟩ := psTranslate_eq hin h1
  rw [hT] at hT'
  cases hT'
  obtain ⟨σ, hrun, hg⟩ := hρ
  have hg1 : σ vars.length = 0 := hg (vars.length, 0) (by rw [hgoal]; simp)
  have hg2 : ∀ k < h.length, σ (psHead vars.length k) = 0 := fun k hk =>
    hg (psHead vars.length k, 0) (by rw [hgoal]; exact List.mem_append_right _ (.tail _ (List.mem_map.2 ⟨k, by simpa using hk, rfl⟩)))
  suffices hrun' : CellRun P {0} (fun _ => P.init) (fun _ _ => False) (fun _ => 0) (ρ.map fun x => psLine P h x.1) by
    have := hddlPO_of_run (fun m hm => ps_order hin hm) hin.wf.init_abs rfl (fun f t h => ?_) hrun'
    · obtain ⟨tr, occ, hh⟩ := this
      refine ⟨tr, occ, ?_⟩
      rw [← psActs_lines (P := P) (h := h)]
      exact hh
    · obtain ⟨x, -, e⟩ := List.mem_map.1 h
      obtain ⟨l, o⟩ := x
      cases l <;> cases e
  cases hrun with
  | nil =>
    rw [htop] at hg1
    cases hg1
  | @cons _ _ x ρ hx happ hrun =>
    have hz' : ∀ v, vars.length < v → T.start v = 0 := by
      intro v hv
      have := hz (v - (vars.length + 1))
      rwa [show vars.length + 1 + (v - (vars.length + 1)) = v from by omega] at this
    rcases (hops x).1 hx with ⟨a, j, k, ha, hk, hj, rfl⟩ | ⟨m, j, k, hm, e, hk, hfit, rfl⟩ | ⟨m, hm, e, rfl⟩
    · rw [psA, mkOp_app_iff (psA_fun (hf a ha) hk), holds_append] at happ
      have := happ.2 _ ((mem_psPre hk).2 (.inl rfl))
      rw [hz' _ psHead_gt] at this
      simp only at this
      omega
    · rw [psM, mkOp_app_iff (psPre_fun hk)] at happ
      have := happ _ ((mem_psPre hk).2 (.inl rfl))
      rw [hz' _ psHead_gt] at this
      simp only at this
      omega
    · have hl := hin.top_len m hm e
      have henc := psT_step hin (fun k hk => hAt_pos h1 hk) hc hz hm e
      let N := (P.sub m).length
      let Q : Nat → Nat → Prop := fun l k => l < h.length ∧ k < h.length ∧ seqOrd P m l k
      let κ : Nat → Nat := fun v => N - 1 - (v - 1)
      have hQ : ∀ i j, i < N → j < N → (TransGen Q (N - 1 - i) (N - 1 - j) ↔ TransGen (P.OrdRel m) i j) := by
        intro i j hi hj
        constructor
        · intro hq
          have := hq.lift (p := P.OrdRel m) (fun l => N - 1 - l) (fun a b hab => hab.2.2)
          simpa [Function.onFun, show N - 1 - (N - 1 - i) = i by omega, show N - 1 - (N - 1 - j) = j by omega] using this
        · intro hq
          refine hq.lift (p := Q) (fun l => N - 1 - l) (fun a b hab => ?_)
          obtain ⟨ha, hb⟩ := hin.wf.ord_lt m hm a b hab
          refine ⟨by simp only [N]; omega, by simp only [N]; omega, ?_⟩
          rw [seqOrd]
          simp only [N]
          rwa [show (P.sub m).length - 1 - ((P.sub m).length - 1 - a) = a by omega,
            show (P.sub m).length - 1 - ((P.sub m).length - 1 - b) = b by omega]
      have hac : ∀ k, ¬ TransGen Q k k := by
        intro k hk
        obtain ⟨rank, hr⟩ := hin.wf.ord_acyclic m hm
        have hlt : ∀ {a b : Nat}, TransGen Q a b → rank (N - 1 - a) < rank (N - 1 - b) := by
          intro a b hab
          induction hab with
          | single h => exact hr _ _ h.2.2
          | tail _ h ih => exact ih.trans (hr _ _ h.2.2)
        exact absurd (hlt hk) (by omega)
      have hnet : StkNet h.length (fun k => [(P.sub m)[(P.sub m).length - 1 - k]?.getD 0]) ((Finset.range N).image (1 + ·))
          (fun v => (P.sub m)[v - 1]?.getD 0) κ (fun _ => 0) := by
        refine ⟨fun u hu => ?_, fun u hu => ?_, fun k hk j hj => ?_, fun u hu v hv e1 _ => ?_⟩
        · obtain ⟨i, hi, rfl⟩ := Finset.mem_image.1 hu
          have := Finset.mem_range.1 hi
          simp only [κ, N] at *
          omega
        · obtain ⟨i, hi, rfl⟩ := Finset.mem_image.1 hu
          have := Finset.mem_range.1 hi
          simp only [κ, N, Nat.add_sub_cancel_left] at *
          rw [show (P.sub m).length - 1 - ((P.sub m).length - 1 - i) = i by omega]
          rfl
        · refine ⟨1 + (N - 1 - k), Finset.mem_image.2 ⟨_, Finset.mem_range.2 ?_, rfl⟩, ?_, ?_⟩
          · simp only [N]; omega
          · simp only [κ, N, Nat.add_sub_cancel_left]; omega
          · simp only [List.length_singleton] at hj; omega
        · obtain ⟨i, hi, rfl⟩ := Finset.mem_image.1 hu
          obtain ⟨j, hj, rfl⟩ := Finset.mem_image.1 hv
          have := Finset.mem_range.1 hi
          have := Finset.mem_range.1 hj
          simp only [κ, Nat.add_sub_cancel_left] at e1
          omega
      have hcr := ps_cellRun hin hf hops (psIrr hin.wf hm) hac hrun hg2 henc ⟨[], .nil _⟩ (fun _ _ _ _ _ _ => by simp) hnet
      have hsub : Subst P {0} (fun _ => P.init) (fun _ _ => False) 0 m 1 ((Finset.range N).image (1 + ·))
          (fun v => (P.sub m)[v - 1]?.getD 0) (stkLt Q κ fun _ => 0) := by
        refine ⟨fun v => ?_, fun v hv => ?_, fun v hv hv0 => ?_, fun i t hi => ?_, fun v hv w _ hv0 => ?_, fun i j hi hj => ?_,
          fun i w _ hw hw0 => ?_, fun v j hv hv0 => ?_⟩
        · simp only [Finset.mem_image, Finset.mem_range, Finset.mem_singleton, N]
          constructor
          · rintro ⟨i, hi, rfl⟩
            exact .inr ⟨i, hi, rfl⟩
          · rintro (⟨h1, h2⟩ | ⟨i, hi, rfl⟩)
            · exact absurd h1 h2
            · exact ⟨i, hi, rfl⟩
        · rw [Finset.mem_singleton.1 hv]; omega
        · exact absurd (Finset.mem_singleton.1 hv) hv0
        · simp only [Nat.add_sub_cancel_left, hi, Option.getD_some]
        · exact absurd (Finset.mem_singleton.1 hv) hv0
        · simp only [stkLt, κ, Nat.add_sub_cancel_left, Nat.lt_irrefl, and_false, false_or]
          exact hQ i j hi hj
        · exact absurd (Finset.mem_singleton.1 hw) hw0
        · exact absurd (Finset.mem_singleton.1 hv) hv0
      rw [List.map_cons]
      simp only [psT, psLine, if_pos e]
      refine CellRun.meth (c := fun _ => 0) (c' := fun u => κ u * hMax h + 0) hm e (Finset.mem_singleton_self 0)
        (fun v hv _ => Finset.mem_singleton.1 hv) id hsub (fun v hv hv0 => absurd (Finset.mem_singleton.1 hv) hv0) (fun i hi => ?_) hcr
      rw [List.getElem?_map, List.getElem?_range (by omega), Option.map_some]
      simp only [κ, N, Nat.add_sub_cancel_left, Nat.add_zero]

end

end Verif.Sas
