import Verif.ToReorder
import Verif.ToTransWF

/-! # The input of the translation of totally ordered problems, in terms of the problem -/

namespace Verif.Sas

open Verif.Htn

/-- The input of the translation: the variables partition the facts; actions are numbered before the abstract tasks; the
subtasks of every method are totally ordered, in the order of their numbers; the initial facts are found (`S0Fits`). -/
structure ToInput (P : Problem) (vars : List (Nat × Nat)) (nA nT : Nat) : Prop where
  wf : P.WF
  sas : SasInput P vars
  fits : S0Fits P vars
  prim : ∀ t, P.prim t = decide (t < nA)
  nA_le : nA ≤ nT
  head_lt : ∀ m < P.numMethods, P.head m < nT
  sub_lt : ∀ m < P.numMethods, ∀ t ∈ P.sub m, t < nT
  init_lt : P.init < nT
  totOK : TotOK P fun m => List.range (P.sub m).length

/-- Two facts belong to the same variable. -/
def SameVar (vars : List (Nat × Nat)) (f g : Nat) : Prop := ∃ v ∈ vars, (v.1 ≤ f ∧ f ≤ v.2) ∧ v.1 ≤ g ∧ g ≤ v.2

/-- No action needs two facts of the same variable, and leading actions of a method do not need different facts of a variable
that no action in between adds a fact of. -/
structure NoConf (P : Problem) (vars : List (Nat × Nat)) (nA : Nat) : Prop where
  act : ∀ a < nA, ∀ f ∈ P.prec a, ∀ g ∈ P.prec a, SameVar vars f g → f = g
  meth : ∀ m < P.numMethods, ∀ i j a b : Nat, i ≤ j → (P.sub m)[i]? = some a → (P.sub m)[j]? = some b →
    (∀ k t : Nat, k ≤ j → (P.sub m)[k]? = some t → P.prim t = true) →
    ∀ f ∈ P.prec a, ∀ g ∈ P.prec b, SameVar vars f g →
      (∀ k c : Nat, i ≤ k → k < j → (P.sub m)[k]? = some c → ∀ h ∈ P.add c, ¬ SameVar vars f h) → f = g

/-- The number of leading actions of a method. -/
def primLead (P : Problem) (m : Nat) : Nat := ((P.sub m).takeWhile P.prim).length

section

variable {P : Problem} {vars : List (Nat × Nat)} {nA nT : Nat}

theorem ToInput.trans (h : ToInput P vars nA nT) : TransInput P vars nA nT fun m => List.range (P.sub m).length where
  wf := h.wf
  sas := h.sas
  fits := h.fits
  prim := h.prim
  nA_le := h.nA_le
  head_lt := h.head_lt
  sub_lt := h.sub_lt
  init_lt := h.init_lt
  totOK := h.totOK
  reo m hm := by
    obtain ⟨h1, ⟨r, hr, ho⟩, -⟩ := reorder_range h.wf h.totOK hm rfl
    exact ⟨r, hr, by rw [h1]; exact ho⟩
  lead m hm := (reorder_range h.wf h.totOK hm rfl).2.2

theorem ToInput.leadOf (h : ToInput P vars nA nT) {m : Nat} (hm : m < P.numMethods) : leadOf P m = primLead P m :=
  leadOf_eq h.wf h.totOK hm

theorem sameVar_of_conv {n : Nat} (hc : Contig 0 vars n) {f g : Nat} {p q : Nat × Nat} (hp : conv vars f = some p)
    (hq : conv vars g = some q) : p.1 = q.1 ↔ SameVar vars f g := by
  obtain ⟨f1, l1, h1, h2, h3, h4⟩ := conv_some (i := p.1) (v := p.2) hp
  obtain ⟨f2, l2, k1, k2, k3, k4⟩ := conv_some (i := q.1) (v := q.2) hq
  constructor
  · intro e
    rw [e, k1] at h1
    cases h1
    exact ⟨_, List.mem_of_getElem? k1, ⟨h2, h3⟩, k2, k3⟩
  · rintro ⟨v, hv, h5, h6⟩
    obtain ⟨i, hi⟩ := List.mem_iff_getElem?.1 hv
    have e1 := conv_eq hc (f := v.1) (l := v.2) hi h5.1 h5.2
    have e2 := conv_eq hc (f := v.1) (l := v.2) hi h6.1 h6.2
    rw [hp] at e1
    rw [hq] at e2
    rw [Option.some.inj e1, Option.some.inj e2]

theorem NoConf.noConflict (h : ToInput P vars nA nT) (hn : NoConf P vars nA) :
    NoConflict P vars nA fun m => List.range (P.sub m).length where
  precFun a ha x hx y hy e := by
    obtain ⟨f, hf, hx⟩ := List.mem_filterMap.1 hx
    obtain ⟨g, hg, hy⟩ := List.mem_filterMap.1 hy
    obtain rfl := hn.act a ha f hf g hg ((sameVar_of_conv h.sas.contig hx hy).1 e)
    rw [hx] at hy
    rw [Option.some.inj hy]
  prefOK m hm := by
    obtain ⟨h1, -, h3, h4⟩ := reorder_range h.wf h.totOK hm rfl
    intro i j a b hij ha hb p hp q hq e hk
    rw [h1] at ha hb h4
    rw [h1] at hk
    rw [List.getElem?_take] at ha hb
    split at ha
    · split at hb
      · next hi hj =>
        obtain ⟨f, hf, hp'⟩ := List.mem_filterMap.1 hp
        obtain ⟨g, hg, hq'⟩ := List.mem_filterMap.1 hq
        have := hn.meth m hm i j a b hij ha hb (fun k t hkj ht => h4 t (by
          rw [List.mem_iff_getElem?]
          exact ⟨k, by rw [List.getElem?_take, if_pos (by omega), ht]⟩)) f hf g hg
          ((sameVar_of_conv h.sas.contig hp' hq').1 e) (by
          intro k c h5 h6 hc g' hg' hs
          have hk' := hk k c h5 h6 (by rw [List.getElem?_take, if_pos (by omega), hc])
          obtain ⟨i', f', l', -, e2, e3, e4⟩ := varIdx_exists h.sas.contig (Nat.zero_le _) (h.wf.add_lt c g' hg')
          have e5 := conv_eq h.sas.contig e2 e3 e4
          exact hk' (i', g' - f') (List.mem_append_left _ (List.mem_filterMap.2 ⟨g', hg', e5⟩))
            ((sameVar_of_conv h.sas.contig hp' e5).2 hs).symm)
        subst this
        rw [hp'] at hq'
        rw [Option.some.inj hq']
      · cases hb
    · cases ha

end

end Verif.Sas

namespace Verif.Htn

theorem Fits.congr {P : Problem} {tot : Nat → List Nat} {lead lead' : Nat → Nat} (hl : ∀ m < P.numMethods, lead m = lead' m)
    (ht : TotOK P tot) {t : Nat} {tr : Tree} (hv : Valid P t tr) : ∀ h, Fits P tot lead tr h → Fits P tot lead' tr h := by
  induction hv with
  | leaf hp =>
    intro h hf
    exact .leaf hf.pos
  | @node m cs hm hc ih =>
    intro h hf
    cases hf with
    | node h1 h2 h3 =>
      rw [hl m hm] at h2
      refine .node h1 h2 fun x i hi => ?_
      have hlt : i < (P.sub m).length := by simpa using (ht m hm).1.mem_iff.1 (List.mem_of_getElem? hi)
      have := h3 x i (by rw [hl m hm]; exact hi)
      rw [hl m hm] at this
      exact ih i _ (List.getElem?_eq_getElem hlt) _ this

theorem SolutionFits.congr {P : Problem} {tot : Nat → List Nat} {lead lead' : Nat → Nat} (hl : ∀ m < P.numMethods, lead m = lead' m)
    (ht : TotOK P tot) {h : Nat} {π : List Nat} (hs : SolutionFits P tot lead h π) : SolutionFits P tot lead' h π := by
  obtain ⟨tr, h1, h2, h3⟩ := hs
  exact ⟨tr, h1, h2.congr hl ht h1 h, h3⟩

end Verif.Htn
