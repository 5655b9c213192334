import Verif.PushTrans
import Verif.PsMain

/-! # The operators of the translation of partially ordered problems

The new variables are named by `PV`; the operators that are written are described by preconditions and effects on these. -/

namespace Verif.Sas

open Verif.Htn

/-- The new variables. -/
inductive PV
  | task (j : Nat)
  | con (k j : Nat)
  | occ (j : Nat)
  | mov (j : Nat)
deriving DecidableEq

/-- Their numbers. -/
def ix (nV B : Nat) : PV → Nat
  | .task j => puTask nV j
  | .con k j => puCon nV B k j
  | .occ j => puOcc nV B j
  | .mov j => puMov nV B j

/-- The variables that exist. -/
def VOk (B : Nat) : PV → Prop
  | .task j => j < B
  | .con k j => j < k ∧ k < B
  | .occ j => j < B
  | .mov j => j < B

/-- The largest value. -/
def vMax (nT : Nat) : PV → Nat
  | .task _ => nT
  | _ => 1

/-! ## Triangular numbers -/

theorem tri_succ (k : Nat) : (k + 1) * k / 2 = k * (k - 1) / 2 + k := by
  cases k with
  | zero => rfl
  | succ k =>
    have : (k + 1 + 1) * (k + 1) = (k + 1) * k + (k + 1) * 2 := by ring
    rw [this, Nat.add_mul_div_right _ _ (by omega), Nat.add_sub_cancel]

theorem tri_mono {k k' : Nat} (h : k ≤ k') : k * (k - 1) / 2 ≤ k' * (k' - 1) / 2 :=
  Nat.div_le_div_right (Nat.mul_le_mul h (by omega))

theorem tri_lt {k k' j : Nat} (hj : j < k) (h : k < k') : k * (k - 1) / 2 + j < k' * (k' - 1) / 2 := by
  have h1 := tri_succ k
  have h2 := tri_mono (show k + 1 ≤ k' from h)
  rw [Nat.add_sub_cancel] at h2
  omega

theorem tri_inj {k j k' j' : Nat} (hj : j < k) (hj' : j' < k') (h : k * (k - 1) / 2 + j = k' * (k' - 1) / 2 + j') : k = k' ∧ j = j' := by
  rcases Nat.lt_trichotomy k k' with hlt | rfl | hlt
  · have := tri_lt hj hlt
    omega
  · exact ⟨rfl, by omega⟩
  · have := tri_lt hj' hlt
    omega

theorem ix_inj {nV B : Nat} {p q : PV} (hp : VOk B p) (hq : VOk B q) (h : ix nV B p = ix nV B q) : p = q := by
  cases p <;> cases q <;> simp only [ix, puTask, puCon, puOcc, puMov, VOk] at h hp hq
  case task.task => congr 1; omega
  case occ.occ => congr 1; omega
  case mov.mov => congr 1; omega
  case con.con =>
    obtain ⟨rfl, rfl⟩ := tri_inj hp.1 hq.1 (by omega)
    rfl
  case task.con => omega
  case task.occ => omega
  case task.mov => omega
  case con.task => omega
  case con.occ => have := tri_lt hp.1 hp.2; omega
  case con.mov => have := tri_lt hp.1 hp.2; omega
  case occ.task => omega
  case occ.con => have := tri_lt hq.1 hq.2; omega
  case occ.mov => omega
  case mov.task => omega
  case mov.con => have := tri_lt hq.1 hq.2; omega
  case mov.occ => omega

theorem ix_ge {nV B : Nat} (p : PV) : nV ≤ ix nV B p := by
  cases p <;> simp only [ix, puTask, puCon, puOcc, puMov] <;> omega

/-! ## Operators over these variables -/

/-- A variable with a value as written to the file. -/
def lit (nV B : Nat) (x : PV × Nat) : Nat × Nat := (ix nV B x.1, x.2)

/-- Preconditions and effects on the variables of the problem and on the new ones; the conditional effects, and such without
consequences (`idle`). -/
structure PvOp where
  bpre : List (Nat × Nat)
  badd : List (Nat × Nat)
  pre : List (PV × Nat)
  add : List (PV × Nat)
  cond : List ((PV × Nat) × (PV × Nat))
  idle : List (Nat × Nat)
  cost : Nat

/-- The operator that is written. -/
def PvOp.toC (nV B : Nat) (o : PvOp) : COp where
  base := mkOp (o.bpre ++ o.pre.map (lit nV B)) (o.badd ++ o.add.map (lit nV B)) o.cost
  cond := (o.cond.map fun e => ([lit nV B e.1], lit nV B e.2)) ++ o.idle.map fun p => ([p], p)

/-- The effects of the operator in a state in which the new variables have the values `τ`. -/
def PvOp.effs (o : PvOp) (τ : PV → Nat) : List (PV × Nat) := o.add ++ (o.cond.filter fun e => τ e.1.1 == e.1.2).map Prod.snd

/-- The values of the new variables. -/
def view (nV B : Nat) (σ : Val) : PV → Nat := fun p => σ (ix nV B p)

/-- No two different values for a variable. -/
def FunP (E : List (PV × Nat)) : Prop := ∀ x ∈ E, ∀ y ∈ E, x.1 = y.1 → x.2 = y.2

/-- The operator is about existing variables only. -/
structure PvOp.Ok (nV B : Nat) (o : PvOp) : Prop where
  bpre : ∀ p ∈ o.bpre, p.1 < nV
  bfun : ∀ x ∈ o.bpre, ∀ y ∈ o.bpre, x.1 = y.1 → x.2 = y.2
  badd : ∀ p ∈ o.badd, p.1 < nV
  pre : ∀ x ∈ o.pre, VOk B x.1
  pfun : FunP o.pre
  add : ∀ x ∈ o.add, VOk B x.1
  cond : ∀ e ∈ o.cond, VOk B e.2.1
  idle : ∀ p ∈ o.idle, p.1 < nV
  one : o.idle = [] ∨ o.badd = []

section

variable {nV B : Nat} {o : PvOp}

theorem toC_app (ho : o.Ok nV B) {σ : Val} : (o.toC nV B).App σ ↔ Holds σ o.bpre ∧ ∀ x ∈ o.pre, view nV B σ x.1 = x.2 := by
  rw [COp.App, PvOp.toC]
  simp only
  rw [mkOp_app_iff, holds_append]
  · refine and_congr_right fun _ => ⟨fun h x hx => h _ (List.mem_map_of_mem hx), fun h p hp => ?_⟩
    obtain ⟨x, hx, rfl⟩ := List.mem_map.1 hp
    exact h x hx
  · intro x hx y hy e
    rcases List.mem_append.1 hx with hx | hx <;> rcases List.mem_append.1 hy with hy | hy
    · exact ho.bfun x hx y hy e
    · obtain ⟨y', hy', rfl⟩ := List.mem_map.1 hy
      have := ho.bpre x hx
      have := ix_ge (nV := nV) (B := B) y'.1
      simp only [lit] at e
      omega
    · obtain ⟨x', hx', rfl⟩ := List.mem_map.1 hx
      have := ho.bpre y hy
      have := ix_ge (nV := nV) (B := B) x'.1
      simp only [lit] at e
      omega
    · obtain ⟨x', hx', rfl⟩ := List.mem_map.1 hx
      obtain ⟨y', hy', rfl⟩ := List.mem_map.1 hy
      exact ho.pfun x' hx' y' hy' (ix_inj (ho.pre x' hx') (ho.pre y' hy') e)

theorem toC_res_eq (σ : Val) : (o.toC nV B).res σ =
    assign σ (o.badd ++ (o.effs (view nV B σ)).map (lit nV B) ++ o.idle.filter fun p => σ p.1 == p.2) := by
  have h1 : ((o.toC nV B).cond.filter fun e => e.1.all fun c => σ c.1 == c.2).map Prod.snd =
      ((o.cond.filter fun e => view nV B σ e.1.1 == e.1.2).map Prod.snd).map (lit nV B) ++ o.idle.filter fun p => σ p.1 == p.2 := by
    simp only [PvOp.toC, List.filter_append, List.map_append, List.filter_map, List.map_map]
    have e1 : ∀ l : List ((PV × Nat) × (PV × Nat)), List.map (Prod.snd ∘ fun e => ([lit nV B e.1], lit nV B e.2))
        (List.filter ((fun e => e.1.all fun c => σ c.1 == c.2) ∘ fun e => ([lit nV B e.1], lit nV B e.2)) l) =
        List.map (lit nV B ∘ Prod.snd) (List.filter (fun e => view nV B σ e.1.1 == e.1.2) l) := by
      intro l
      congr 1
      refine List.filter_congr fun e _ => ?_
      simp [lit, view]
    rw [e1]
    congr 1
    rw [show (Prod.snd ∘ fun p : Nat × Nat => ([p], p)) = id from rfl, List.map_id]
    refine List.filter_congr fun p _ => ?_
    simp
  rw [COp.res, h1, show (o.toC nV B).base.res σ = assign σ (o.badd ++ o.add.map (lit nV B)) from mkOp_res _ _ _ _]
  have h2 : ∀ (τ : Val) (l : List (Nat × Nat)), l.foldl (fun σ e => Function.update σ e.1 e.2) τ = assign τ l := fun _ _ => rfl
  rw [h2, ← assign_append]
  simp only [PvOp.effs, List.map_append, List.append_assoc]

theorem effs_ok (ho : o.Ok nV B) (τ : PV → Nat) : ∀ x ∈ o.effs τ, VOk B x.1 := by
  intro x hx
  rcases List.mem_append.1 hx with hx | hx
  · exact ho.add x hx
  · obtain ⟨e, he, rfl⟩ := List.mem_map.1 hx
    exact ho.cond e (List.mem_filter.1 he).1

theorem assign_same {σ : Val} {l : List (Nat × Nat)} (h : ∀ p ∈ l, σ p.1 = p.2) : assign σ l = σ := by
  induction l with
  | nil => rfl
  | cons p l ih =>
    have h1 : Function.update σ p.1 p.2 = σ := by
      rw [← h p (.head _)]
      exact Function.update_eq_self _ _
    simp only [assign, List.foldl_cons] at ih ⊢
    rw [h1]
    exact ih fun q hq => h q (.tail _ hq)

/-- The variables of the problem. -/
theorem res_base (ho : o.Ok nV B) {σ : Val} {i : Nat} (hi : i < nV) : (o.toC nV B).res σ i = assign σ o.badd i := by
  rw [toC_res_eq, assign_append, assign_append]
  have h1 : ∀ τ : Val, ∀ i < nV, assign τ ((o.effs (view nV B σ)).map (lit nV B)) i = τ i := by
    intro τ i hi
    refine assign_not (fun p hp => ?_) τ
    obtain ⟨x, hx, rfl⟩ := List.mem_map.1 hp
    have := ix_ge (nV := nV) (B := B) x.1
    simp only [lit]
    omega
  rcases ho.one with h | h
  · rw [h]
    exact h1 _ i hi
  · rw [h]
    have h2 : ∀ p ∈ o.idle.filter fun p => σ p.1 == p.2, assign (assign σ []) ((o.effs (view nV B σ)).map (lit nV B)) p.1 = p.2 := by
      intro p hp
      obtain ⟨hp1, hp2⟩ := List.mem_filter.1 hp
      rw [h1 _ p.1 (ho.idle p hp1)]
      simpa [assign] using hp2
    rw [assign_same h2]
    exact h1 _ i hi

theorem res_idle (ho : o.Ok nV B) {σ τ : Val} (q : PV) : assign τ (o.idle.filter fun p => σ p.1 == p.2) (ix nV B q) = τ (ix nV B q) := by
  refine assign_not (fun p hp => ?_) τ
  have := ho.idle p (List.mem_filter.1 hp).1
  have := ix_ge (nV := nV) (B := B) q
  omega

/-- A new variable with an effect. -/
theorem res_mem (ho : o.Ok nV B) {σ : Val} {q : PV} {w : Nat} (hf : FunP (o.effs (view nV B σ))) (hm : (q, w) ∈ o.effs (view nV B σ)) :
    view nV B ((o.toC nV B).res σ) q = w := by
  rw [view, toC_res_eq, assign_append, res_idle ho, assign_append]
  refine assign_mem (fun x hx y hy e => ?_) (List.mem_map.2 ⟨(q, w), hm, rfl⟩) _
  obtain ⟨x', hx', rfl⟩ := List.mem_map.1 hx
  obtain ⟨y', hy', rfl⟩ := List.mem_map.1 hy
  exact hf x' hx' y' hy' (ix_inj (effs_ok ho _ x' hx') (effs_ok ho _ y' hy') e)

/-- A new variable without an effect. -/
theorem res_not (ho : o.Ok nV B) {σ : Val} {q : PV} (hq : VOk B q) (hm : ∀ w, (q, w) ∉ o.effs (view nV B σ)) :
    view nV B ((o.toC nV B).res σ) q = view nV B σ q := by
  rw [view, toC_res_eq, assign_append, res_idle ho, assign_append, assign_not, assign_not]
  · rfl
  · intro p hp
    have := ho.badd p hp
    have := ix_ge (nV := nV) (B := B) q
    omega
  · intro p hp e
    obtain ⟨x, hx, rfl⟩ := List.mem_map.1 hp
    have := ix_inj (effs_ok ho _ x hx) hq e
    exact hm x.2 (by rw [← this]; exact hx)

end

/-! ## The operators of the translation -/

/-- The cells below are occupied, no task of a higher cell is before, and the cell has the given value. -/
def lPre (B t j : Nat) : List (PV × Nat) :=
  (List.range B).map fun k => if k < j then (PV.occ k, 1) else if j < k then (PV.con k j, 0) else (PV.task j, t)

/-- Clearing a cell. -/
def lClear (j : Nat) : List (PV × Nat) := ((List.range j).map fun k => (PV.con j k, 0)) ++ [(PV.task j, 0), (PV.occ j, 0)]

/-- Executing action `a` in cell `j`. -/
def opAct (P : Problem) (vars : List (Nat × Nat)) (B a j : Nat) : PvOp where
  bpre := precV vars P a
  badd := addV vars P a
  pre := lPre B (a + 1) j
  add := lClear j
  cond := []
  idle := []
  cost := P.cost a

/-- Decomposing a task `t` in cell `j` into the tasks `order`, with the orderings `ord` between them. -/
def opDec (B t j : Nat) (order : List Nat) (ord : List (Nat × Nat)) : PvOp where
  bpre := []
  badd := []
  pre := lPre B (t + 1) j ++ (List.range (order.length - 1)).map fun l => (PV.task (B - 1 - l), 0)
  add := (PV.task j, 1 + order[0]?.getD 0) ::
    (((List.range (order.length - 1)).map fun l => (PV.task (B - order.length + 1 + l), 1 + order[l + 1]?.getD 0)) ++
    (List.range (order.length - 1)).map fun l => (PV.occ (B - 1 - l), 1))
  cond := ((List.range (order.length - 1)).flatMap fun l => (List.range j).map fun x => ((PV.con j x, 1), (PV.con (B - l - 1) x, 1))) ++
    ord.map fun o => ((PV.con (puCell B order.length j o.1) (puCell B order.length j o.2), 0),
      (PV.con (puCell B order.length j o.1) (puCell B order.length j o.2), 1))
  idle := []
  cost := 0

/-- Moving task `t` from cell `j`. -/
def opMove (B t j : Nat) : PvOp where
  bpre := []
  badd := []
  pre := [(PV.task j, 1 + t), (PV.occ j, 1), (PV.task (j - 1), 0), (PV.occ (j - 1), 0)] ++
    (List.range (B - 2)).map fun l => if l < j then (PV.mov l, 0) else (PV.mov (l + 1), 0)
  add := [(PV.task j, 0), (PV.occ j, 0), (PV.task (j - 1), 1 + t), (PV.occ (j - 1), 1), (PV.mov j, 0)] ++
    (List.range (B - 2)).map fun l => if l < j - 1 then (PV.con j l, 0) else (PV.con (l + 2) j, 0)
  cond := ((List.range (B - 2)).map fun l =>
      if l < j - 1 then ((PV.con j l, 1), (PV.con (j - 1) l, 1)) else ((PV.con (l + 2) j, 1), (PV.con (l + 2) (j - 1), 1))) ++
    if 1 < j then [((PV.occ (j - 2), 0), (PV.mov (j - 1), 1)), ((PV.occ (j - 2), 1), (PV.mov (j - 1), 0))] else []
  idle := [(0, 0), (0, 0)]
  cost := 0

/-! ## They are written -/

section W

variable {S : SasP} {nT B : Nat}

theorem pushSizes_get {p : PV} (hp : VOk B p) (nV : Nat) : (pushSizes nT B)[ix nV B p - nV]? = some (vMax nT p) := by
  have key : ∀ (a b : List Nat) (i : Nat), a.length ≤ i → (a ++ b)[i]? = b[i - a.length]? := fun a b i h => List.getElem?_append_right h
  cases p with
  | task j =>
    have hj : j < B := hp
    rw [pushSizes, List.append_assoc, List.append_assoc, List.getElem?_append_left (by simp [ix, puTask]; omega), List.getElem?_replicate,
      if_pos (by simp only [ix, puTask]; omega)]
    rfl
  | con k j =>
    have := tri_lt hp.1 hp.2
    rw [pushSizes, List.append_assoc, List.append_assoc, key _ _ _ (by simp [ix, puCon]; omega),
      List.getElem?_append_left (by simp [ix, puCon]; omega), List.getElem?_replicate, if_pos (by simp [ix, puCon]; omega)]
    rfl
  | occ j =>
    have hj : j < B := hp
    rw [pushSizes, List.append_assoc, List.append_assoc, key _ _ _ (by simp [ix, puOcc]; omega), key _ _ _ (by simp [ix, puOcc]; omega),
      List.getElem?_append_left (by simp [ix, puOcc]; omega), List.getElem?_replicate, if_pos (by simp [ix, puOcc]; omega)]
    rfl
  | mov j =>
    have hj : j < B := hp
    rw [pushSizes, List.append_assoc, List.append_assoc, key _ _ _ (by simp [ix, puMov]; omega), key _ _ _ (by simp [ix, puMov]; omega),
      key _ _ _ (by simp [ix, puMov]; omega), List.getElem?_replicate, if_pos (by simp [ix, puMov]; omega)]
    rfl

theorem pushSizes_length : (pushSizes nT B).length = B * 3 + B * (B - 1) / 2 := by
  simp only [pushSizes, List.length_append, List.length_replicate]
  omega

theorem UW_contig (hne : S.vars ≠ []) {n : Nat} (hc : Contig 0 S.vars n) : ∃ m, Contig 0 (pushVars S nT B) m := by
  refine ⟨n + ((pushSizes nT B).map (· + 1)).sum, contig_append hc ?_⟩
  rw [contig_last hc hne]
  exact chainVars_contig _ _

theorem UW_length : (pushVars S nT B).length = S.vars.length + (pushSizes nT B).length := by
  simp [pushVars, chainVars_length]

theorem UW_vars {i : Nat} (hi : i < S.vars.length) : (pushVars S nT B)[i]? = S.vars[i]? := by
  rw [pushVars, List.getElem?_append_left hi]

theorem UW_new {i s : Nat} (hi : (pushSizes nT B)[i]? = some s) : ∃ f, (pushVars S nT B)[S.vars.length + i]? = some (f, f + s) := by
  rw [pushVars, List.getElem?_append_right (by omega), show S.vars.length + i - S.vars.length = i from by omega]
  exact chainVars_get _ _ _ _ hi

theorem conv_UW (hne : S.vars ≠ []) {n : Nat} (hc : Contig 0 S.vars n) {b : Nat} {p : Nat × Nat} (hb : conv S.vars b = some p) :
    conv (pushVars S nT B) b = some p := by
  obtain ⟨m, hm⟩ := UW_contig (nT := nT) (B := B) hne hc
  obtain ⟨i, v⟩ := p
  obtain ⟨f, l, h1, h2, h3, h4⟩ := conv_some hb
  have hi : i < S.vars.length := (List.getElem?_eq_some_iff.1 h1).1
  rw [conv_eq hm (by rw [UW_vars hi]; exact h1) h2 h3]
  congr 2
  omega

theorem map_UW (hne : S.vars ≠ []) {n : Nat} (hc : Contig 0 S.vars n) {l : List Nat} {r : List (Nat × Nat)}
    (hl : l.map (conv S.vars) = r.map some) : l.map (conv (pushVars S nT B)) = r.map some := by
  induction l generalizing r with
  | nil =>
    cases r with
    | nil => rfl
    | cons y r => simp at hl
  | cons x l ih =>
    cases r with
    | nil => simp at hl
    | cons y r =>
      simp only [List.map_cons, List.cons.injEq] at hl ⊢
      exact ⟨conv_UW hne hc hl.1, ih hl.2⟩

/-- The fact of a new variable with a value. -/
def pbit (W : List (Nat × Nat)) (nV B : Nat) (x : PV × Nat) : Nat := bitOf W (ix nV B x.1) x.2

theorem conv_pbit (hne : S.vars ≠ []) {n : Nat} (hc : Contig 0 S.vars n) {x : PV × Nat} (hx : VOk B x.1) (hv : x.2 ≤ vMax nT x.1) :
    conv (pushVars S nT B) (pbit (pushVars S nT B) S.vars.length B x) = some (lit S.vars.length B x) := by
  obtain ⟨m, hm⟩ := UW_contig (nT := nT) (B := B) hne hc
  obtain ⟨f, hf⟩ := UW_new (S := S) (pushSizes_get (nT := nT) hx S.vars.length)
  have hge := ix_ge (nV := S.vars.length) (B := B) x.1
  rw [show S.vars.length + (ix S.vars.length B x.1 - S.vars.length) = ix S.vars.length B x.1 from by omega] at hf
  exact conv_bitOf hm hf (by omega)

theorem map_pbit (hne : S.vars ≠ []) {n : Nat} (hc : Contig 0 S.vars n) {l : List (PV × Nat)} (hl : ∀ x ∈ l, VOk B x.1 ∧ x.2 ≤ vMax nT x.1) :
    (l.map (pbit (pushVars S nT B) S.vars.length B)).map (conv (pushVars S nT B)) = (l.map (lit S.vars.length B)).map some := by
  rw [List.map_map, List.map_map]
  exact List.map_congr_left fun x hx => conv_pbit hne hc (hl x hx).1 (hl x hx).2

/-- A variable with an existing value. -/
def LOk (B nT : Nat) (x : PV × Nat) : Prop := VOk B x.1 ∧ x.2 ≤ vMax nT x.1

theorem writeCOp_eq (hne : S.vars ≠ []) {n : Nat} (hc : Contig 0 S.vars n) {o : PvOp} {b : PBits} {bp ba : List Nat} {bi : List (Nat × Nat)}
    (hp : b.pre = bp ++ o.pre.map (pbit (pushVars S nT B) S.vars.length B))
    (ha : b.add = ba ++ o.add.map (pbit (pushVars S nT B) S.vars.length B))
    (hcn : b.cond = (o.cond.map fun e => (pbit (pushVars S nT B) S.vars.length B e.1, pbit (pushVars S nT B) S.vars.length B e.2)) ++ bi)
    (hbp : bp.map (conv S.vars) = o.bpre.map some) (hba : ba.map (conv S.vars) = o.badd.map some)
    (hbi : bi.map (fun e => (conv S.vars e.1, conv S.vars e.2)) = o.idle.map fun p => (some p, some p))
    (h1 : ∀ x ∈ o.pre, LOk B nT x) (h2 : ∀ x ∈ o.add, LOk B nT x) (h3 : ∀ e ∈ o.cond, LOk B nT e.1 ∧ LOk B nT e.2) :
    writeCOp (pushVars S nT B) true b o.cost = some (o.toC S.vars.length B) := by
  have e1 : b.pre.map (conv (pushVars S nT B)) = (o.bpre ++ o.pre.map (lit S.vars.length B)).map some := by
    rw [hp, List.map_append, List.map_append, map_UW hne hc hbp, map_pbit hne hc h1]
  have e2 : b.add.map (conv (pushVars S nT B)) = (o.badd ++ o.add.map (lit S.vars.length B)).map some := by
    rw [ha, List.map_append, List.map_append, map_UW hne hc hba, map_pbit hne hc h2]
  have e3 : b.cond.mapM (fun e => do
      let c ← conv (pushVars S nT B) e.1
      let v ← conv (pushVars S nT B) e.2
      pure ([c], v)) = some ((o.cond.map fun e => ([lit S.vars.length B e.1], lit S.vars.length B e.2)) ++ o.idle.map fun p => ([p], p)) := by
    apply mapM_some
    rw [hcn, List.map_append, List.map_append]
    congr 1
    · rw [List.map_map, List.map_map]
      refine List.map_congr_left fun e he => ?_
      obtain ⟨g1, g2⟩ := h3 e he
      simp only [Function.comp_apply, conv_pbit hne hc g1.1 g1.2, conv_pbit hne hc g2.1 g2.2]
      rfl
    · clear hcn
      generalize o.idle = od at hbi
      clear h1 h2 h3 e1 e2 hp ha hbp hba
      induction bi generalizing od with
      | nil =>
        cases od with
        | nil => rfl
        | cons y od => simp at hbi
      | cons x bi ih =>
        cases od with
        | nil => simp at hbi
        | cons y od =>
          simp only [List.map_cons, List.cons.injEq, Prod.mk.injEq] at hbi ⊢
          refine ⟨?_, ih od hbi.2⟩
          simp only [conv_UW hne hc hbi.1.1, conv_UW hne hc hbi.1.2]
          rfl
  rw [writeCOp, writeOp_eq e1 e2, if_pos rfl]
  simp only [Option.bind_eq_bind, Option.bind_some] at e3 ⊢
  rw [e3]
  rfl

theorem puPre_eq (W : List (Nat × Nat)) (nV t j : Nat) : puPre W nV B t j = (lPre B t j).map (pbit W nV B) := by
  rw [puPre, lPre, List.map_map]
  refine List.map_congr_left fun k _ => ?_
  simp only [Function.comp_apply]
  split
  · rfl
  · split <;> rfl

theorem puClear_eq (W : List (Nat × Nat)) (nV j : Nat) : puClear W nV B j = (lClear j).map (pbit W nV B) := by
  simp only [puClear, lClear, List.map_append, List.map_map, List.map_cons, List.map_nil]
  rfl

theorem mem_lPre {t j : Nat} (hj : j < B) {x : PV × Nat} : x ∈ lPre B t j ↔
    (∃ k < j, x = (PV.occ k, 1)) ∨ (∃ k, j < k ∧ k < B ∧ x = (PV.con k j, 0)) ∨ x = (PV.task j, t) := by
  rw [lPre, List.mem_map]
  constructor
  · rintro ⟨k, hk, rfl⟩
    have hk := List.mem_range.1 hk
    split
    · exact .inl ⟨k, by assumption, rfl⟩
    · split
      · exact .inr (.inl ⟨k, by assumption, hk, rfl⟩)
      · exact .inr (.inr rfl)
  · rintro (⟨k, hk, rfl⟩ | ⟨k, h1, h2, rfl⟩ | rfl)
    · exact ⟨k, List.mem_range.2 (by omega), by rw [if_pos hk]⟩
    · exact ⟨k, List.mem_range.2 h2, by rw [if_neg (by omega), if_pos h1]⟩
    · exact ⟨j, List.mem_range.2 hj, by rw [if_neg (by omega), if_neg (by omega)]⟩

theorem mem_lClear {j : Nat} {x : PV × Nat} : x ∈ lClear j ↔ (∃ k < j, x = (PV.con j k, 0)) ∨ x = (PV.task j, 0) ∨ x = (PV.occ j, 0) := by
  simp only [lClear, List.mem_append, List.mem_map, List.mem_range, List.mem_cons, List.not_mem_nil, or_false]
  refine or_congr_left (exists_congr fun k => and_congr_right fun _ => eq_comm)

theorem lPre_ok {t j : Nat} (hj : j < B) (ht : t ≤ nT) : ∀ x ∈ lPre B t j, LOk B nT x := by
  intro x hx
  rcases (mem_lPre hj).1 hx with ⟨k, hk, rfl⟩ | ⟨k, h1, h2, rfl⟩ | rfl
  · exact ⟨show k < B by omega, le_refl 1⟩
  · exact ⟨⟨h1, h2⟩, Nat.zero_le 1⟩
  · exact ⟨hj, ht⟩

theorem lClear_ok {j : Nat} (hj : j < B) : ∀ x ∈ lClear j, LOk B nT x := by
  intro x hx
  rcases mem_lClear.1 hx with ⟨k, hk, rfl⟩ | rfl | rfl
  · exact ⟨⟨hk, hj⟩, Nat.zero_le 1⟩
  · exact ⟨hj, Nat.zero_le nT⟩
  · exact ⟨hj, Nat.zero_le 1⟩

theorem actOp_write {P : Problem} {vars : List (Nat × Nat)} (hS : SPok P vars S) (hne : S.vars ≠ []) {a j : Nat} (hj : j < B) (ha : a < nT) :
    writeCOp (pushVars S nT B) true (puActBits S (pushVars S nT B) B a j) (P.cost a) = some ((opAct P vars B a j).toC S.vars.length B) := by
  obtain ⟨n, hc⟩ := hS.contig
  refine writeCOp_eq (o := opAct P vars B a j) (bi := []) hne hc ?_ ?_ rfl (hS.prec a) (hS.add a) rfl (lPre_ok hj (by omega)) (lClear_ok hj)
    (fun _ h => by cases h)
  · rw [puActBits, puPre_eq]
    rfl
  · rw [puActBits, puClear_eq]
    rfl

theorem puCell_lt {n j x : Nat} (hn : n + j ≤ B) (hx : x < n) : puCell B n j x < B := by
  rw [puCell]
  split <;> omega

theorem puCell_mono {n j x y : Nat} (hn : n + j ≤ B) (hx : x < n) (h : y < x) : puCell B n j y < puCell B n j x := by
  simp only [puCell]
  split_ifs <;> omega

theorem decOp_write (hne : S.vars ≠ []) {c : Nat} (hc : Contig 0 S.vars c) {t j : Nat} {order : List Nat} {ord : List (Nat × Nat)}
    (h0 : order ≠ []) (h1 : order.length = 1 → ord = []) (hn : order.length + j ≤ B) (ht : t < nT) (hsub : ∀ x ∈ order, x < nT)
    (hord : ∀ o ∈ ord, o.2 < o.1 ∧ o.1 < order.length) :
    writeCOp (pushVars S nT B) true (puMethBits (pushVars S nT B) S.vars.length B t order.length j order ord) 0 =
      some ((opDec B t j order ord).toC S.vars.length B) := by
  have hpos : 0 < order.length := List.length_pos_iff.2 h0
  have hget : ∀ i < order.length, 1 + order[i]?.getD 0 ≤ nT := by
    intro i hi
    rw [List.getElem?_eq_getElem hi]
    have := hsub _ (List.getElem_mem hi)
    simp only [Option.getD_some]
    omega
  have hpre : (puMethBits (pushVars S nT B) S.vars.length B t order.length j order ord).pre =
      [] ++ (opDec B t j order ord).pre.map (pbit (pushVars S nT B) S.vars.length B) := by
    simp only [opDec, List.map_append, ← puPre_eq]
    generalize hk : order.length = k at *
    match k, hpos with
    | 1, _ => simp [puMethBits]
    | k + 2, _ => simp [puMethBits, pbit, ix]
  have hadd : (puMethBits (pushVars S nT B) S.vars.length B t order.length j order ord).add =
      [] ++ (opDec B t j order ord).add.map (pbit (pushVars S nT B) S.vars.length B) := by
    simp only [opDec, List.map_append, List.map_cons, List.map_map]
    generalize hk : order.length = k at *
    match k, hpos with
    | 1, _ => simp [puMethBits, pbit, ix]
    | k + 2, _ =>
      simp only [puMethBits]
      rfl
  have hcond : (puMethBits (pushVars S nT B) S.vars.length B t order.length j order ord).cond =
      ((opDec B t j order ord).cond.map fun e =>
        (pbit (pushVars S nT B) S.vars.length B e.1, pbit (pushVars S nT B) S.vars.length B e.2)) ++ [] := by
    simp only [opDec, List.map_append, List.map_map, List.append_nil, List.map_flatMap]
    generalize hk : order.length = k at *
    match k, hpos with
    | 1, _ => simp [puMethBits, h1]
    | k + 2, _ =>
      simp only [puMethBits]
      rfl
  refine writeCOp_eq (o := opDec B t j order ord) (bp := []) (ba := []) (bi := []) hne hc hpre hadd hcond rfl rfl rfl ?_ ?_ ?_
  · intro x hx
    rcases List.mem_append.1 hx with hx | hx
    · exact lPre_ok (by omega) (by omega) x hx
    · obtain ⟨l, hl, rfl⟩ := List.mem_map.1 hx
      have := List.mem_range.1 hl
      exact ⟨show B - 1 - l < B by omega, Nat.zero_le nT⟩
  · intro x hx
    rcases List.mem_cons.1 hx with rfl | hx
    · exact ⟨show j < B by omega, hget 0 hpos⟩
    rcases List.mem_append.1 hx with hx | hx
    · obtain ⟨l, hl, rfl⟩ := List.mem_map.1 hx
      have := List.mem_range.1 hl
      exact ⟨show B - order.length + 1 + l < B by omega, hget (l + 1) (by omega)⟩
    · obtain ⟨l, hl, rfl⟩ := List.mem_map.1 hx
      have := List.mem_range.1 hl
      exact ⟨show B - 1 - l < B by omega, le_refl 1⟩
  · intro e he
    rcases List.mem_append.1 he with he | he
    · obtain ⟨l, hl, he⟩ := List.mem_flatMap.1 he
      obtain ⟨x, hx, rfl⟩ := List.mem_map.1 he
      have := List.mem_range.1 hl
      have := List.mem_range.1 hx
      exact ⟨⟨show x < j ∧ j < B by omega, le_refl 1⟩, ⟨show x < B - l - 1 ∧ B - l - 1 < B by omega, le_refl 1⟩⟩
    · obtain ⟨o, ho, rfl⟩ := List.mem_map.1 he
      obtain ⟨g1, g2⟩ := hord o ho
      have hcell : VOk B (PV.con (puCell B order.length j o.1) (puCell B order.length j o.2)) := ⟨puCell_mono hn g2 g1, puCell_lt hn g2⟩
      exact ⟨⟨hcell, Nat.zero_le 1⟩, ⟨hcell, le_refl 1⟩⟩

theorem moveOp_write (hne : S.vars ≠ []) {c : Nat} (hc : Contig 0 S.vars c) {t j : Nat} (hj0 : 0 < j) (hj : j < B) (ht : t < nT) :
    writeCOp (pushVars S nT B) true (puMoveBits (pushVars S nT B) S.vars.length B t j (zeroJunk t j)) 0 =
      some ((opMove B t j).toC S.vars.length B) := by
  have hz : conv S.vars 0 = some (0, 0) := by
    obtain ⟨v, r, hv⟩ := List.exists_cons_of_ne_nil hne
    have hv0 : S.vars[0]? = some (v.1, v.2) := by rw [hv]; rfl
    have h1 : v.1 = 0 := by
      rw [hv] at hc
      exact hc.1
    have := conv_eq hc hv0 (b := 0) (le_of_eq h1) (Nat.zero_le _)
    rw [this, h1]
  have hpre : (puMoveBits (pushVars S nT B) S.vars.length B t j (zeroJunk t j)).pre =
      [] ++ (opMove B t j).pre.map (pbit (pushVars S nT B) S.vars.length B) := by
    simp only [opMove, puMoveBits, List.map_append, List.map_cons, List.map_nil, List.map_map, List.nil_append]
    congr 1
    refine List.map_congr_left fun l _ => ?_
    simp only [Function.comp_apply]
    split <;> rfl
  have hadd : (puMoveBits (pushVars S nT B) S.vars.length B t j (zeroJunk t j)).add =
      [] ++ (opMove B t j).add.map (pbit (pushVars S nT B) S.vars.length B) := by
    simp only [opMove, puMoveBits, List.map_append, List.map_cons, List.map_nil, List.map_map, List.nil_append]
    congr 1
    refine List.map_congr_left fun l _ => ?_
    simp only [Function.comp_apply]
    split <;> rfl
  have hcond : (puMoveBits (pushVars S nT B) S.vars.length B t j (zeroJunk t j)).cond =
      ((opMove B t j).cond.map fun e =>
        (pbit (pushVars S nT B) S.vars.length B e.1, pbit (pushVars S nT B) S.vars.length B e.2)) ++ zeroJunk t j := by
    simp only [opMove, puMoveBits, List.map_append, List.map_map]
    congr 2
    · refine List.map_congr_left fun l _ => ?_
      simp only [Function.comp_apply]
      split <;> rfl
    · split <;> rfl
  refine writeCOp_eq (o := opMove B t j) (bp := []) (ba := []) (bi := zeroJunk t j) hne hc hpre hadd hcond rfl rfl ?_ ?_ ?_ ?_
  · simp [zeroJunk, opMove, hz]
  · intro x hx
    simp only [opMove, List.mem_append, List.mem_cons, List.not_mem_nil, or_false, List.mem_map, List.mem_range] at hx
    rcases hx with (rfl | rfl | rfl | rfl) | ⟨l, hl, rfl⟩
    · exact ⟨hj, show 1 + t ≤ nT by omega⟩
    · exact ⟨hj, le_refl 1⟩
    · exact ⟨show j - 1 < B by omega, Nat.zero_le nT⟩
    · exact ⟨show j - 1 < B by omega, Nat.zero_le 1⟩
    · split
      · exact ⟨show l < B by omega, Nat.zero_le 1⟩
      · exact ⟨show l + 1 < B by omega, Nat.zero_le 1⟩
  · intro x hx
    simp only [opMove, List.mem_append, List.mem_cons, List.not_mem_nil, or_false, List.mem_map, List.mem_range] at hx
    rcases hx with (rfl | rfl | rfl | rfl | rfl) | ⟨l, hl, rfl⟩
    · exact ⟨hj, Nat.zero_le nT⟩
    · exact ⟨hj, Nat.zero_le 1⟩
    · exact ⟨show j - 1 < B by omega, show 1 + t ≤ nT by omega⟩
    · exact ⟨show j - 1 < B by omega, le_refl 1⟩
    · exact ⟨hj, Nat.zero_le 1⟩
    · split
      · exact ⟨show l < j ∧ j < B by omega, Nat.zero_le 1⟩
      · exact ⟨show j < l + 2 ∧ l + 2 < B by omega, Nat.zero_le 1⟩
  · intro e he
    simp only [opMove, List.mem_append, List.mem_map, List.mem_range] at he
    rcases he with ⟨l, hl, rfl⟩ | he
    · split
      · exact ⟨⟨show l < j ∧ j < B by omega, le_refl 1⟩, ⟨show l < j - 1 ∧ j - 1 < B by omega, le_refl 1⟩⟩
      · exact ⟨⟨show j < l + 2 ∧ l + 2 < B by omega, le_refl 1⟩, ⟨show j - 1 < l + 2 ∧ l + 2 < B by omega, le_refl 1⟩⟩
    · split at he
      · simp only [List.mem_cons, List.not_mem_nil, or_false] at he
        rcases he with rfl | rfl
        · exact ⟨⟨show j - 2 < B by omega, Nat.zero_le 1⟩, ⟨show j - 1 < B by omega, le_refl 1⟩⟩
        · exact ⟨⟨show j - 2 < B by omega, le_refl 1⟩, ⟨show j - 1 < B by omega, Nat.zero_le 1⟩⟩
      · cases he

end W

end Verif.Sas
