import Verif.StripsComb
import Verif.PsMain

/-! # The operators of the translation to SAS+ without conditional effects -/

namespace Verif.Sas

open Verif.Htn

/-- The variables that exist. -/
def SOk (B : Nat) : SV → Prop
  | .task j => j < B
  | .con k l => k < B ∧ l < B ∧ k ≠ l
  | .occ j => j < B

/-- The largest value. -/
def sMax (nT : Nat) : SV → Nat
  | .task _ => nT + 1
  | _ => 1

theorem con_lt {B k l : Nat} (h : SOk B (.con k l)) : k * (B - 1) + (if k ≤ l then l - 1 else l) < B * (B - 1) := by
  obtain ⟨h1, h2, h3⟩ := h
  have h4 : (if k ≤ l then l - 1 else l) < B - 1 := by split_ifs <;> omega
  have h5 : (k + 1) * (B - 1) ≤ B * (B - 1) := Nat.mul_le_mul_right _ h1
  rw [Nat.succ_mul] at h5
  omega

theorem con_inj {B k l k' l' : Nat} (h : SOk B (.con k l)) (h' : SOk B (.con k' l'))
    (e : k * (B - 1) + (if k ≤ l then l - 1 else l) = k' * (B - 1) + (if k' ≤ l' then l' - 1 else l')) : k = k' ∧ l = l' := by
  obtain ⟨h1, h2, h3⟩ := h
  obtain ⟨h1', h2', h3'⟩ := h'
  have h4 : (if k ≤ l then l - 1 else l) < B - 1 := by split_ifs <;> omega
  have h4' : (if k' ≤ l' then l' - 1 else l') < B - 1 := by split_ifs <;> omega
  have hk : k = k' := by
    rcases Nat.lt_trichotomy k k' with hlt | h | hlt
    · have h5 : (k + 1) * (B - 1) ≤ k' * (B - 1) := Nat.mul_le_mul_right _ hlt
      rw [Nat.succ_mul] at h5
      omega
    · exact h
    · have h5 : (k' + 1) * (B - 1) ≤ k * (B - 1) := Nat.mul_le_mul_right _ hlt
      rw [Nat.succ_mul] at h5
      omega
  subst hk
  refine ⟨rfl, ?_⟩
  have e : (if k ≤ l then l - 1 else l) = (if k ≤ l' then l' - 1 else l') := by omega
  split_ifs at e <;> omega

theorem svIx_inj {nV B : Nat} {p q : SV} (hp : SOk B p) (hq : SOk B q) (h : svIx nV B p = svIx nV B q) : p = q := by
  cases p with
  | task j =>
    have hj : j < B := hp
    cases q with
    | task j' => simp only [svIx] at h; congr 1; omega
    | con k l => simp only [svIx] at h; omega
    | occ j' => simp only [svIx] at h; omega
  | con k l =>
    have h1 := con_lt hp
    cases q with
    | task j' => have hj : j' < B := hq; simp only [svIx] at h; omega
    | con k' l' =>
      simp only [svIx] at h
      obtain ⟨rfl, rfl⟩ := con_inj hp hq (by omega)
      rfl
    | occ j' => simp only [svIx] at h; omega
  | occ j =>
    cases q with
    | task j' => have hj : j' < B := hq; simp only [svIx] at h; omega
    | con k l => have h1 := con_lt hq; simp only [svIx] at h; omega
    | occ j' => simp only [svIx] at h; congr 1; omega

theorem svIx_ge {nV B : Nat} (p : SV) : nV ≤ svIx nV B p := by
  cases p <;> simp only [svIx] <;> omega

/-- A variable with a value as written to the file. -/
def sLit (nV B : Nat) (x : SV × Nat) : Nat × Nat := (svIx nV B x.1, x.2)

/-- The operator that is written. -/
def sOp (nV B : Nat) (bp ba : List (Nat × Nat)) (d : List (SV × Nat) × List (SV × Nat)) (cost : Nat) : SOp :=
  mkOp (bp ++ d.1.map (sLit nV B)) (ba ++ d.2.map (sLit nV B)) cost

/-- The values of the new variables. -/
def sView (nV B : Nat) (σ : Val) : SV → Nat := fun p => σ (svIx nV B p)

/-- No two different values for a variable. -/
def FunS (E : List (SV × Nat)) : Prop := ∀ x ∈ E, ∀ y ∈ E, x.1 = y.1 → x.2 = y.2

/-- The operator is about existing variables only. -/
structure SOpOk (nV B : Nat) (bp ba : List (Nat × Nat)) (d : List (SV × Nat) × List (SV × Nat)) : Prop where
  bpre : ∀ p ∈ bp, p.1 < nV
  bfun : ∀ x ∈ bp, ∀ y ∈ bp, x.1 = y.1 → x.2 = y.2
  badd : ∀ p ∈ ba, p.1 < nV
  pre : ∀ x ∈ d.1, SOk B x.1
  pfun : FunS d.1
  add : ∀ x ∈ d.2, SOk B x.1
  afun : FunS d.2

section

variable {nV B : Nat} {bp ba : List (Nat × Nat)} {d : List (SV × Nat) × List (SV × Nat)} {cost : Nat}

theorem sOp_app (ho : SOpOk nV B bp ba d) {σ : Val} : (sOp nV B bp ba d cost).App σ ↔ Holds σ bp ∧ ∀ x ∈ d.1, sView nV B σ x.1 = x.2 := by
  rw [sOp, mkOp_app_iff, holds_append]
  · refine and_congr_right fun _ => ⟨fun h x hx => h _ (List.mem_map_of_mem hx), fun h p hp => ?_⟩
    obtain ⟨x, hx, rfl⟩ := List.mem_map.1 hp
    exact h x hx
  · intro x hx y hy e
    rcases List.mem_append.1 hx with hx | hx <;> rcases List.mem_append.1 hy with hy | hy
    · exact ho.bfun x hx y hy e
    · obtain ⟨y', hy', rfl⟩ := List.mem_map.1 hy
      have := ho.bpre x hx
      have := svIx_ge (nV := nV) (B := B) y'.1
      simp only [sLit] at e
      omega
    · obtain ⟨x', hx', rfl⟩ := List.mem_map.1 hx
      have := ho.bpre y hy
      have := svIx_ge (nV := nV) (B := B) x'.1
      simp only [sLit] at e
      omega
    · obtain ⟨x', hx', rfl⟩ := List.mem_map.1 hx
      obtain ⟨y', hy', rfl⟩ := List.mem_map.1 hy
      exact ho.pfun x' hx' y' hy' (svIx_inj (ho.pre x' hx') (ho.pre y' hy') e)

theorem sOp_res_eq (σ : Val) : (sOp nV B bp ba d cost).res σ = assign σ (ba ++ d.2.map (sLit nV B)) := mkOp_res _ _ _ _

/-- The variables of the problem. -/
theorem sRes_base {σ : Val} {i : Nat} (hi : i < nV) : (sOp nV B bp ba d cost).res σ i = assign σ ba i := by
  rw [sOp_res_eq, assign_append]
  refine assign_not (fun p hp => ?_) _
  obtain ⟨x, hx, rfl⟩ := List.mem_map.1 hp
  have := svIx_ge (nV := nV) (B := B) x.1
  simp only [sLit]
  omega

/-- A new variable with an effect. -/
theorem sRes_mem (ho : SOpOk nV B bp ba d) {σ : Val} {q : SV} {w : Nat} (hm : (q, w) ∈ d.2) :
    sView nV B ((sOp nV B bp ba d cost).res σ) q = w := by
  rw [sView, sOp_res_eq, assign_append]
  refine assign_mem (fun x hx y hy e => ?_) (List.mem_map.2 ⟨(q, w), hm, rfl⟩) _
  obtain ⟨x', hx', rfl⟩ := List.mem_map.1 hx
  obtain ⟨y', hy', rfl⟩ := List.mem_map.1 hy
  exact ho.afun x' hx' y' hy' (svIx_inj (ho.add x' hx') (ho.add y' hy') e)

/-- A new variable without an effect. -/
theorem sRes_not (ho : SOpOk nV B bp ba d) {σ : Val} {q : SV} (hq : SOk B q) (hm : ∀ w, (q, w) ∉ d.2) :
    sView nV B ((sOp nV B bp ba d cost).res σ) q = sView nV B σ q := by
  rw [sView, sOp_res_eq, assign_append, assign_not, assign_not]
  · rfl
  · intro p hp
    have := ho.badd p hp
    have := svIx_ge (nV := nV) (B := B) q
    omega
  · intro p hp e
    obtain ⟨x, hx, rfl⟩ := List.mem_map.1 hp
    have := svIx_inj (ho.add x hx) hq e
    exact hm x.2 (by rw [← this]; exact hx)

end

/-! ## They are written -/

section W

variable {S : SasP} {nT B : Nat}

theorem stSizes_get {p : SV} (hp : SOk B p) (nV : Nat) : (stSizes nT B)[svIx nV B p - nV]? = some (sMax nT p) := by
  have key : ∀ (a b : List Nat) (i : Nat), a.length ≤ i → (a ++ b)[i]? = b[i - a.length]? := fun a b i h => List.getElem?_append_right h
  cases p with
  | task j =>
    have hj : j < B := hp
    rw [stSizes, List.append_assoc, List.getElem?_append_left (by simp [svIx]; omega), List.getElem?_replicate,
      if_pos (by simp only [svIx]; omega)]
    rfl
  | con k l =>
    have h1 := con_lt hp
    have h2 : svIx nV B (.con k l) - nV = B + (k * (B - 1) + (if k ≤ l then l - 1 else l)) := by simp only [svIx]; omega
    rw [h2]
    generalize k * (B - 1) + (if k ≤ l then l - 1 else l) = i at *
    rw [stSizes, List.append_assoc, key _ _ _ (by simp), List.getElem?_append_left (by simpa using h1), List.getElem?_replicate,
      if_pos (by simpa using h1)]
    rfl
  | occ j =>
    have hj : j < B := hp
    have h2 : svIx nV B (.occ j) - nV = B + (B * (B - 1) + j) := by simp only [svIx]; omega
    rw [h2, stSizes, List.append_assoc, key _ _ _ (by simp), key _ _ _ (by simp), List.getElem?_replicate, if_pos (by simpa using hj)]
    rfl

theorem stSizes_length : (stSizes nT B).length = 2 * B + B * (B - 1) := by
  simp only [stSizes, List.length_append, List.length_replicate]
  omega

theorem SW_contig (hne : S.vars ≠ []) {n : Nat} (hc : Contig 0 S.vars n) : ∃ m, Contig 0 (stVars S nT B) m := by
  refine ⟨n + ((stSizes nT B).map (· + 1)).sum, contig_append hc ?_⟩
  rw [contig_last hc hne]
  exact chainVars_contig _ _

theorem SW_length : (stVars S nT B).length = S.vars.length + (stSizes nT B).length := by
  simp [stVars, chainVars_length]

theorem SW_vars {i : Nat} (hi : i < S.vars.length) : (stVars S nT B)[i]? = S.vars[i]? := by
  rw [stVars, List.getElem?_append_left hi]

theorem SW_new {i s : Nat} (hi : (stSizes nT B)[i]? = some s) : ∃ f, (stVars S nT B)[S.vars.length + i]? = some (f, f + s) := by
  rw [stVars, List.getElem?_append_right (by omega), show S.vars.length + i - S.vars.length = i from by omega]
  exact chainVars_get _ _ _ _ hi

theorem conv_SW (hne : S.vars ≠ []) {n : Nat} (hc : Contig 0 S.vars n) {b : Nat} {p : Nat × Nat} (hb : conv S.vars b = some p) :
    conv (stVars S nT B) b = some p := by
  obtain ⟨m, hm⟩ := SW_contig (nT := nT) (B := B) hne hc
  obtain ⟨i, v⟩ := p
  obtain ⟨f, l, h1, h2, h3, h4⟩ := conv_some hb
  have hi : i < S.vars.length := (List.getElem?_eq_some_iff.1 h1).1
  rw [conv_eq hm (by rw [SW_vars hi]; exact h1) h2 h3]
  congr 2
  omega

theorem map_SW (hne : S.vars ≠ []) {n : Nat} (hc : Contig 0 S.vars n) {l : List Nat} {r : List (Nat × Nat)}
    (hl : l.map (conv S.vars) = r.map some) : l.map (conv (stVars S nT B)) = r.map some := by
  induction l generalizing r with
  | nil =>
    cases r with
    | nil => rfl
    | cons y r => simp at hl
  | cons x l ih =>
    cases r with
    | nil => simp at hl
    | cons y r =>
      simp only [List.map_cons, List.cons.injEq] at hl ⊢
      exact ⟨conv_SW hne hc hl.1, ih hl.2⟩

theorem conv_stBit (hne : S.vars ≠ []) {n : Nat} (hc : Contig 0 S.vars n) {x : SV × Nat} (hx : SOk B x.1) (hv : x.2 ≤ sMax nT x.1) :
    conv (stVars S nT B) (stBit (stVars S nT B) S.vars.length B x) = some (sLit S.vars.length B x) := by
  obtain ⟨m, hm⟩ := SW_contig (nT := nT) (B := B) hne hc
  obtain ⟨f, hf⟩ := SW_new (S := S) (stSizes_get (nT := nT) hx S.vars.length)
  have hge := svIx_ge (nV := S.vars.length) (B := B) x.1
  rw [show S.vars.length + (svIx S.vars.length B x.1 - S.vars.length) = svIx S.vars.length B x.1 from by omega] at hf
  exact conv_bitOf hm hf (by omega)

/-- A variable with an existing value. -/
def SLOk (B nT : Nat) (x : SV × Nat) : Prop := SOk B x.1 ∧ x.2 ≤ sMax nT x.1

theorem map_stBit (hne : S.vars ≠ []) {n : Nat} (hc : Contig 0 S.vars n) {l : List (SV × Nat)} (hl : ∀ x ∈ l, SLOk B nT x) :
    (l.map (stBit (stVars S nT B) S.vars.length B)).map (conv (stVars S nT B)) = (l.map (sLit S.vars.length B)).map some := by
  rw [List.map_map, List.map_map]
  exact List.map_congr_left fun x hx => conv_stBit hne hc (hl x hx).1 (hl x hx).2

theorem stWrite_eq (hne : S.vars ≠ []) {n : Nat} (hc : Contig 0 S.vars n) {bp ba : List Nat} {bp' ba' : List (Nat × Nat)}
    {d : List (SV × Nat) × List (SV × Nat)} {cost : Nat}
    (hbp : bp.map (conv S.vars) = bp'.map some) (hba : ba.map (conv S.vars) = ba'.map some)
    (h1 : ∀ x ∈ d.1, SLOk B nT x) (h2 : ∀ x ∈ d.2, SLOk B nT x) :
    stWrite (stVars S nT B) S.vars.length B bp ba d cost = some (sOp S.vars.length B bp' ba' d cost) := by
  have e1 : (bp ++ d.1.map (stBit (stVars S nT B) S.vars.length B)).map (conv (stVars S nT B)) =
      (bp' ++ d.1.map (sLit S.vars.length B)).map some := by
    rw [List.map_append, List.map_append, map_SW hne hc hbp, map_stBit hne hc h1]
  have e2 : (ba ++ d.2.map (stBit (stVars S nT B) S.vars.length B)).map (conv (stVars S nT B)) =
      (ba' ++ d.2.map (sLit S.vars.length B)).map some := by
    rw [List.map_append, List.map_append, map_SW hne hc hba, map_stBit hne hc h2]
  rw [stWrite, writeOp_eq e1 e2]
  rfl

end W

/-! ## Preconditions and effects -/

section L

variable {nT B : Nat}

theorem skip_inj {j c c' : Nat} (h : skip j c = skip j c') : c = c' := by
  simp only [skip] at h
  split_ifs at h <;> omega

theorem skip_ne (j c : Nat) : skip j c ≠ j := by
  simp only [skip]
  split_ifs <;> omega

theorem skip_lt {j c : Nat} (hc : c < B - 1) : skip j c < B := by
  simp only [skip]
  split_ifs <;> omega

theorem skip_surj {j x : Nat} (hj : j < B) (hx : x < B) (h : x ≠ j) : ∃ c < B - 1, skip j c = x := by
  by_cases hlt : x < j
  · exact ⟨x, by omega, by rw [skip, if_neg (by omega)]⟩
  · exact ⟨x - 1, by omega, by rw [skip, if_pos (by omega)]; omega⟩

theorem mem_stPre {t j : Nat} (hj : j < B) {x : SV × Nat} : x ∈ stPre B t j ↔ x = (.task j, t) ∨ ∃ l < B, l ≠ j ∧ x = (.con l j, 0) := by
  rw [stPre, List.mem_map]
  constructor
  · rintro ⟨l, hl, rfl⟩
    by_cases e : l = j
    · rw [if_pos e]
      exact .inl rfl
    · rw [if_neg e]
      exact .inr ⟨l, List.mem_range.1 hl, e, rfl⟩
  · rintro (rfl | ⟨l, hl, e, rfl⟩)
    · exact ⟨j, List.mem_range.2 hj, if_pos rfl⟩
    · exact ⟨l, List.mem_range.2 hl, if_neg e⟩

theorem mem_stClear {j : Nat} (hj : j < B) {x : SV × Nat} :
    x ∈ stClear B j ↔ x = (.task j, 0) ∨ x = (.occ j, 0) ∨ ∃ l < B, l ≠ j ∧ x = (.con j l, 0) := by
  simp only [stClear, List.cons_append, List.mem_cons, List.mem_append, List.mem_map, List.mem_range, List.not_mem_nil, or_false]
  refine or_congr_right ?_
  rw [or_comm]
  refine or_congr_right ⟨?_, ?_⟩
  · rintro ⟨k, hk, rfl⟩
    refine ⟨if k < j then k else k + 1, ?_, ?_, rfl⟩ <;> split_ifs <;> omega
  · rintro ⟨l, hl, hne, rfl⟩
    by_cases h : l < j
    · exact ⟨l, by omega, by rw [if_pos h]⟩
    · refine ⟨l - 1, by omega, ?_⟩
      rw [if_neg (by omega), show l - 1 + 1 = l by omega]

theorem stPre_ok {t j : Nat} (hj : j < B) (ht : t ≤ nT + 1) : ∀ x ∈ stPre B t j, SLOk B nT x := by
  intro x hx
  rcases (mem_stPre hj).1 hx with rfl | ⟨l, hl, e, rfl⟩
  · exact ⟨hj, ht⟩
  · exact ⟨⟨hl, hj, e⟩, Nat.zero_le _⟩

theorem stPre_fun {t j : Nat} (hj : j < B) : FunS (stPre B t j) := by
  intro x hx y hy e
  rcases (mem_stPre hj).1 hx with rfl | ⟨l, hl, h, rfl⟩ <;> rcases (mem_stPre hj).1 hy with rfl | ⟨l', hl', h', rfl⟩ <;>
    first | rfl | simp at e

theorem stClear_ok {j : Nat} (hj : j < B) : ∀ x ∈ stClear B j, SLOk B nT x := by
  intro x hx
  rcases (mem_stClear hj).1 hx with rfl | rfl | ⟨l, hl, e, rfl⟩
  · exact ⟨hj, Nat.zero_le _⟩
  · exact ⟨hj, Nat.zero_le _⟩
  · exact ⟨⟨hj, hl, e.symm⟩, Nat.zero_le _⟩

theorem stClear_fun {j : Nat} (hj : j < B) : FunS (stClear B j) := by
  intro x hx y hy _
  rcases (mem_stClear hj).1 hx with rfl | rfl | ⟨l, hl, h, rfl⟩ <;>
    rcases (mem_stClear hj).1 hy with rfl | rfl | ⟨l', hl', h', rfl⟩ <;> rfl

/-- A choice of `k` of the other cells. -/
structure Subs (B k : Nat) (subs : List Nat) : Prop where
  len : subs.length = k
  incr : subs.Pairwise (· < ·)
  lt : ∀ c ∈ subs, c < B - 1

theorem Subs.inj {k : Nat} {subs : List Nat} (h : Subs B k subs) {i i' c : Nat} (hi : subs[i]? = some c) (hi' : subs[i']? = some c) :
    i = i' := by
  obtain ⟨h1, h2⟩ := List.getElem?_eq_some_iff.1 hi
  obtain ⟨h1', h2'⟩ := List.getElem?_eq_some_iff.1 hi'
  exact (List.Nodup.getElem_inj_iff (h.incr.imp fun h => Nat.ne_of_lt h)).1 (h2.trans h2'.symm)

theorem mem_zip {subs ts : List Nat} {j : Nat} {x : SV × Nat} :
    x ∈ List.zipWith (fun c t => (SV.task (skip j c), 2 + t)) subs ts ↔
      ∃ (i c t : Nat), subs[i]? = some c ∧ ts[i]? = some t ∧ x = (.task (skip j c), 2 + t) := by
  rw [List.mem_iff_getElem?]
  constructor
  · rintro ⟨i, hi⟩
    rw [List.getElem?_zipWith] at hi
    cases h1 : subs[i]? with
    | none => simp [h1] at hi
    | some c =>
      cases h2 : ts[i]? with
      | none => simp [h1, h2] at hi
      | some t =>
        simp only [h1, h2, Option.some.injEq] at hi
        exact ⟨i, c, t, h1, h2, hi.symm⟩
  · rintro ⟨i, c, t, h1, h2, rfl⟩
    exact ⟨i, by simp [List.getElem?_zipWith, h1, h2]⟩

/-- The preconditions of a method that needs further cells. -/
theorem mem_stDec_pre {t j v : Nat} {subs ts : List Nat} {e1 e2 : List (Nat × Nat)} {x : SV × Nat} :
    x ∈ (stDec B t j v subs ts e1 e2).1 ↔ x ∈ stPre B t j ∨ (∃ c ∈ subs, x = (.task (skip j c), 0)) ∨
      ∃ c < subs.getLast?.getD 0 + 1, x = (.occ (skip j c), if c ∈ subs then 0 else 1) := by
  simp only [stDec, List.mem_append, List.mem_map, List.mem_range, or_assoc]
  refine or_congr_right (or_congr (exists_congr fun c => and_congr_right fun _ => eq_comm)
    (exists_congr fun c => and_congr_right fun _ => eq_comm))

/-- Its effects. -/
theorem mem_stDec_add {t j v : Nat} {subs ts : List Nat} {e1 e2 : List (Nat × Nat)} {x : SV × Nat} :
    x ∈ (stDec B t j v subs ts e1 e2).2 ↔ x = (.task j, v) ∨
      (∃ (i c t : Nat), subs[i]? = some c ∧ ts[i]? = some t ∧ x = (.task (skip j c), 2 + t)) ∨
      (∃ c ∈ subs, x = (.occ (skip j c), 1)) ∨ ∃ e, (e ∈ e1 ∨ e ∈ e2) ∧ x = (.con e.1 e.2, 1) := by
  simp only [stDec, List.mem_cons, List.mem_append, mem_zip, List.mem_map]
  constructor
  · rintro (h | ((h | ⟨e, he, rfl⟩) | ⟨c, hc, rfl⟩) | ⟨e, he, rfl⟩)
    · exact .inl h
    · exact .inr (.inl h)
    · exact .inr (.inr (.inr ⟨e, .inl he, rfl⟩))
    · exact .inr (.inr (.inl ⟨c, hc, rfl⟩))
    · exact .inr (.inr (.inr ⟨e, .inr he, rfl⟩))
  · rintro (h | h | ⟨c, hc, rfl⟩ | ⟨e, he | he, rfl⟩)
    · exact .inl h
    · exact .inr (.inl (.inl (.inl h)))
    · exact .inr (.inl (.inr ⟨c, hc, rfl⟩))
    · exact .inr (.inl (.inl (.inr ⟨e, he, rfl⟩)))
    · exact .inr (.inr ⟨e, he, rfl⟩)

theorem stDec_ok {k t j v : Nat} {subs ts : List Nat} {e1 e2 : List (Nat × Nat)} (hj : j < B) (hs : Subs B k subs) (h0 : subs ≠ [])
    (ht : t ≤ nT + 1) (hv : v ≤ nT + 1) (hts : ∀ t ∈ ts, t < nT) (he : ∀ e, e ∈ e1 ∨ e ∈ e2 → SOk B (.con e.1 e.2)) :
    (∀ x ∈ (stDec B t j v subs ts e1 e2).1, SLOk B nT x) ∧ ∀ x ∈ (stDec B t j v subs ts e1 e2).2, SLOk B nT x := by
  have hlast : subs.getLast?.getD 0 + 1 ≤ B - 1 := by
    rw [List.getLast?_eq_getLast_of_ne_nil h0, Option.getD_some]
    exact hs.lt _ (List.getLast_mem h0)
  refine ⟨fun x hx => ?_, fun x hx => ?_⟩
  · rcases mem_stDec_pre.1 hx with hx | ⟨c, hc, rfl⟩ | ⟨c, hc, rfl⟩
    · exact stPre_ok hj ht x hx
    · exact ⟨skip_lt (hs.lt c hc), Nat.zero_le _⟩
    · exact ⟨skip_lt (by omega), by simp only [sMax]; split <;> omega⟩
  · rcases mem_stDec_add.1 hx with rfl | ⟨i, c, t, h1, h2, rfl⟩ | ⟨c, hc, rfl⟩ | ⟨e, h, rfl⟩
    · exact ⟨hj, hv⟩
    · refine ⟨skip_lt (hs.lt c (List.mem_of_getElem? h1)), ?_⟩
      have := hts t (List.mem_of_getElem? h2)
      simp only [sMax]
      omega
    · exact ⟨skip_lt (hs.lt c hc), le_refl 1⟩
    · exact ⟨he e h, le_refl 1⟩

theorem stDec_fun {k t j v : Nat} {subs ts : List Nat} {e1 e2 : List (Nat × Nat)} (hj : j < B) (hs : Subs B k subs) :
    FunS (stDec B t j v subs ts e1 e2).1 ∧ FunS (stDec B t j v subs ts e1 e2).2 := by
  refine ⟨fun x hx y hy e => ?_, fun x hx y hy e => ?_⟩
  · rcases mem_stDec_pre.1 hx with hx | ⟨c, hc, rfl⟩ | ⟨c, hc, rfl⟩ <;> rcases mem_stDec_pre.1 hy with hy | ⟨c', hc', rfl⟩ | ⟨c', hc', rfl⟩
    · exact stPre_fun hj x hx y hy e
    · rcases (mem_stPre hj).1 hx with rfl | ⟨l, hl, h, rfl⟩ <;> simp at e
      exact absurd e.symm (skip_ne j c')
    · rcases (mem_stPre hj).1 hx with rfl | ⟨l, hl, h, rfl⟩ <;> simp at e
    · rcases (mem_stPre hj).1 hy with rfl | ⟨l, hl, h, rfl⟩ <;> simp at e
      exact absurd e (skip_ne j c)
    · rfl
    · simp at e
    · rcases (mem_stPre hj).1 hy with rfl | ⟨l, hl, h, rfl⟩ <;> simp at e
    · simp at e
    · simp only [SV.occ.injEq] at e
      rw [skip_inj e]
  · rcases mem_stDec_add.1 hx with rfl | ⟨i, c, t, h1, h2, rfl⟩ | ⟨c, hc, rfl⟩ | ⟨e, h, rfl⟩ <;>
      rcases mem_stDec_add.1 hy with rfl | ⟨i', c', t', h1', h2', rfl⟩ | ⟨c', hc', rfl⟩ | ⟨e', h', rfl⟩ <;> try first | rfl | (simp at e; done)
    · simp only [SV.task.injEq] at e
      exact absurd e.symm (skip_ne j c')
    · simp only [SV.task.injEq] at e
      exact absurd e (skip_ne j c)
    · simp only [SV.task.injEq] at e
      have e := skip_inj e
      subst e
      obtain rfl := hs.inj h1 h1'
      rw [h2] at h2'
      cases h2'
      rfl

end L

end Verif.Sas
