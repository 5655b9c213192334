import Verif.PdtPruneInv
import Verif.PdtSel
import Verif.Rintanen
import Verif.StateFormula

/-! # Model of the pruning of leaf actions (src/sat/sat_planner.cpp 179-293, 337-389)

Both filters go through the leaves from left to right with some information about the states that may be reached there;
the actions of a leaf that are not pruned and may be executable are collected, the others are pruned, and then the
information is updated with the collected actions. -/

namespace Verif.Pdt

open Verif.Htn Verif.Sog Verif.Inv

/-- A filter: the test of an action, and the update with the actions of a leaf. -/
structure Filter (σ : Type) where
  ok : σ → Nat → Bool
  next : σ → List Nat → σ

/-- The primitives of a leaf that are not pruned (by their numbers). -/
def alive (S : Flags) (p : Path) (d : ND) : List Nat := (List.range d.prims.length).filter fun i => !S (.prim p i)

/-- One leaf: the pruned entries and the new information. -/
def filterLeaf {σ : Type} (F : Filter σ) (S : Flags) (p : Path) (d : ND) (s : σ) : List Flag × σ :=
  (((alive S p d).filter fun i => !F.ok s (d.prims.getD i 0)).map (.prim p),
   F.next s (((alive S p d).filter fun i => F.ok s (d.prims.getD i 0)).map fun i => d.prims.getD i 0))

/-- The loop over the leaves: all pruned entries and the final information. -/
def filterLeaves {σ : Type} (F : Filter σ) (t : T) (S : Flags) : List Path → σ → List Flag × σ
  | [], s => ([], s)
  | p :: ps, s =>
    match t.nd p with
    | none => filterLeaves F t S ps s
    | some d => ((filterLeaf F S p d s).1 ++ (filterLeaves F t S ps (filterLeaf F S p d s).2).1,
        (filterLeaves F t S ps (filterLeaf F S p d s).2).2)

/-- `filter_leafs_ff` (sat_planner.cpp 179-219): the facts that are reachable when nothing is deleted. -/
def ffFilter (P : Problem) : Filter (Nat → Bool) where
  ok s a := (P.prec a).all s
  next s as := fun f => s f || as.any fun a => (P.add a).contains f

/-- The start of `filter_leafs_ff` (lines 180-184). -/
def ffStart (P : Problem) : Nat → Bool := fun f => P.s0.contains f

/-- `filter_leafs_Rintanen` (sat_planner.cpp 230-293): binary clauses that hold.  All actions of a leaf are tested before
their effects are taken into account. -/
def rinFilter (P : Problem) : Filter (List Cand) where
  ok cs a := (actionInf P a cs).isSome
  next cs as := reduceCands (as.foldl (fun cs' a =>
    match actionInf P a cs with
    | none => cs'
    | some inf => actionEffect P a inf cs') cs)

/-- The clauses that the last round of `filter_leafs_Rintanen` reports. -/
def rinClauses (P : Problem) (t : T) (S : Flags) : List (Int × Int) :=
  (filterLeaves (rinFilter P) t S t.leaves (initialCands P)).2.map (·.1)

/-- The rounds of one filter until nothing is pruned (sat_planner.cpp 349-361); `none`: more rounds than fuel. -/
def filterRounds {σ : Type} (F : Filter σ) (t : T) (s0 : σ) : Nat → Flags → Option Flags
  | 0, _ => none
  | f + 1, S =>
    if (filterLeaves F t S t.leaves s0).1 = [] then some S
    else filterRounds F t s0 f (S.set (filterLeaves F t S t.leaves s0).1)

/-- `pruningMode` (`sat_pruning`, src/sat/sat_planner.h). -/
inductive Mode
  | none
  | ff
  | h2
deriving DecidableEq

/-- The filter rounds (lines 349-361). -/
def filterAll (P : Problem) (t : T) (mode : Mode) (S : Flags) : Option Flags :=
  match mode with
  | .none => some S
  | .ff => filterRounds (ffFilter P) t (ffStart P) (unset P t S + 1) S
  | .h2 =>
    match filterRounds (ffFilter P) t (ffStart P) (unset P t S + 1) S with
    | Option.none => Option.none
    | some S' => filterRounds (rinFilter P) t (initialCands P) (unset P t S' + 1) S'

/-- The abstract tasks of the leaves (lines 338-341). -/
def leafAbs (t : T) : List Flag :=
  t.leaves.flatMap fun p =>
    match t.nd p with
    | none => []
    | some d => (List.range d.abss.length).map (.abs p)

/-- The first propagation (lines 338-343). -/
def pruneFirst (P : Problem) (t : T) : Option Flags :=
  propAll P t (unset P t (Flags.empty.set (leafAbs t)) + 1) t.leaves (Flags.empty.set (leafAbs t))

/-- All of the pruning (lines 337-362). -/
def prune (P : Problem) (t : T) (mode : Mode) : Option Flags :=
  match pruneFirst P t with
  | none => none
  | some S1 =>
    match filterAll P t mode S1 with
    | none => none
    | some S2 => propAll P t (unset P t S2 + 1) t.leaves S2

/-! ## Leaves -/

section
variable {P : Problem} {tot : Nat → List Nat} {t : T}

theorem leavesFrom_mem : ∀ (f : Nat) (q p : Path), p ∈ t.below f q → (t.nc p = 0 ∨ p.length = q.length + f) →
    p ∈ t.leavesFrom f q := by
  intro f
  induction f with
  | zero =>
    intro q p hp _
    simpa [T.below, T.leavesFrom] using hp
  | succ f ih =>
    intro q p hp hl
    rw [T.below, List.mem_cons, List.mem_flatMap] at hp
    rw [T.leavesFrom]
    rcases hp with rfl | ⟨c, hc, hp⟩
    · have h0 : t.nc p = 0 := by
        rcases hl with h | h
        · exact h
        · omega
      rw [if_pos h0]; simp
    · have hc' := List.mem_range.1 hc
      rw [if_neg (by omega), List.mem_flatMap]
      refine ⟨c, hc, ih _ p hp ?_⟩
      rcases hl with h | h
      · exact .inl h
      · right; rw [h]; simp; omega

theorem leavesFrom_node (ht : t.OK P tot) : ∀ (f : Nat) (q : Path), q.length + f = t.K → (∃ d, t.nd q = some d) →
    ∀ p ∈ t.leavesFrom f q, (∃ d, t.nd p = some d) ∧ t.nc p = 0 := by
  intro f
  induction f with
  | zero =>
    rintro q hl ⟨d, hd⟩ p hp
    simp only [T.leavesFrom, List.mem_singleton] at hp
    subst hp
    refine ⟨⟨d, hd⟩, ?_⟩
    unfold T.nc
    cases he : t.ex p with
    | none => rfl
    | some e =>
      obtain ⟨_, -, hlt, -⟩ := ht.ex p e he
      omega
  | succ f ih =>
    rintro q hl ⟨d, hd⟩ p hp
    rw [T.leavesFrom] at hp
    by_cases h0 : t.nc q = 0
    · rw [if_pos h0, List.mem_singleton] at hp
      subst hp
      exact ⟨⟨d, hd⟩, h0⟩
    · rw [if_neg h0, List.mem_flatMap] at hp
      obtain ⟨c, hc, hp⟩ := hp
      have hc := List.mem_range.1 hc
      refine ih (c :: q) (by simp; omega) ?_ p hp
      unfold T.nc at hc
      cases he : t.ex q with
      | none => rw [he] at hc; simp at hc
      | some e =>
        rw [he] at hc
        exact ⟨_, (ht.child c q _).2 ⟨e, he, List.getElem?_eq_getElem hc⟩⟩

/-- The leaves are the vertices without children. -/
theorem mem_leaves (ht : t.OK P tot) {p : Path} : p ∈ t.leaves ↔ (∃ d, t.nd p = some d) ∧ t.nc p = 0 := by
  constructor
  · obtain ⟨d, hd, -⟩ := ht.root
    exact leavesFrom_node ht t.K [] (by simp) ⟨d, hd⟩ p
  · rintro ⟨⟨d, hd⟩, h0⟩
    exact leavesFrom_mem t.K [] p (mem_nodes ht p d hd) (.inl h0)

/-! ## Filters -/

theorem filterLeaves_flags {σ : Type} (F : Filter σ) (S : Flags) : ∀ (ps : List Path) (s : σ),
    ∀ f ∈ (filterLeaves F t S ps s).1, ∃ p ∈ ps, ∃ d i, t.nd p = some d ∧ i < d.prims.length ∧ f = .prim p i ∧ S f = false := by
  intro ps
  induction ps with
  | nil => intro s f hf; simp [filterLeaves] at hf
  | cons p ps ih =>
    intro s f hf
    rw [filterLeaves] at hf
    cases hd : t.nd p with
    | none =>
      rw [hd] at hf
      obtain ⟨q, hq, h⟩ := ih s f hf
      exact ⟨q, by simp [hq], h⟩
    | some d =>
      rw [hd] at hf
      rcases List.mem_append.1 hf with hf | hf
      · simp only [filterLeaf, alive, List.mem_map, List.mem_filter, List.mem_range, Bool.not_eq_true'] at hf
        obtain ⟨i, ⟨⟨hi, hS⟩, -⟩, rfl⟩ := hf
        exact ⟨p, by simp, d, i, hd, hi, rfl, hS⟩
      · obtain ⟨q, hq, h⟩ := ih _ f hf
        exact ⟨q, by simp [hq], h⟩

/-- The information is about the state, whatever actions from `A` are executed. -/
structure FilterOK {σ : Type} (P : Problem) (A : Nat → Prop) (F : Filter σ) (R : σ → State → Prop) : Prop where
  ok : ∀ s st a, R s st → P.Applicable st a → F.ok s a = true
  keep : ∀ s st as, R s st → R (F.next s as) st
  step : ∀ s st as a, R s st → a ∈ as → A a → P.Applicable st a → R (F.next s as) (P.result st a)

theorem filterLeaves_sound (ht : t.OK P tot) {σ : Type} {F : Filter σ} {A : Nat → Prop} {R : σ → State → Prop} (hF : FilterOK P A F R)
    {S : Flags} {sel : Path → Sel} (hs : Consistent P t sel) (hu : Unpruned t S sel) : ∀ (ps : List Path) (s : σ) (st st' : State),
    ps.Nodup → (∀ a ∈ ps.flatMap (actAt t sel), A a) → R s st → Exec P st (ps.flatMap (actAt t sel)) st' →
    (∀ p ∈ ps, ∀ i, sel p = .prim i → Flag.prim p i ∉ (filterLeaves F t S ps s).1) ∧ R (filterLeaves F t S ps s).2 st' ∧
    R (filterLeaves F t S ps s).2 st := by
  intro ps
  induction ps with
  | nil => intro s st st' _ _ hR he; cases he; exact ⟨by simp, hR, hR⟩
  | cons p ps ih =>
    intro s st st' hnd hA hR he
    have hA' : ∀ a ∈ ps.flatMap (actAt t sel), A a := fun a ha => hA a (by rw [List.flatMap_cons]; exact List.mem_append_right _ ha)
    obtain ⟨hnp, hnd⟩ := List.nodup_cons.1 hnd
    rw [List.flatMap_cons] at he
    obtain ⟨st1, he1, he2⟩ := exec_append.1 he
    rw [filterLeaves]
    cases hd : t.nd p with
    | none =>
      have hact : actAt t sel p = [] := by simp [actAt, hd]
      rw [hact] at he1
      cases he1
      obtain ⟨h1, h2⟩ := ih s st st' hnd hA' hR he2
      refine ⟨fun q hq i hi => ?_, h2⟩
      rcases List.mem_cons.1 hq with rfl | hq
      · obtain ⟨d, x, hd', -⟩ := hs.prim q i hi
        rw [hd] at hd'
        exact absurd hd' (by simp)
      · exact h1 q hq i hi
    | some d =>
      have hok : ∀ i, sel p = .prim i → i < d.prims.length ∧ F.ok s (d.prims.getD i 0) = true ∧ i ∈ alive S p d ∧
          P.Applicable st (d.prims.getD i 0) ∧ st1 = P.result st (d.prims.getD i 0) := by
        intro i hi
        obtain ⟨d', x, hd', hx⟩ := hs.prim p i hi
        rw [hd] at hd'
        obtain rfl := Option.some.inj hd'
        have hlt := (List.getElem?_eq_some_iff.1 hx).1
        have hact : actAt t sel p = [d.prims.getD i 0] := by simp [actAt, hd, hi]
        rw [hact] at he1
        cases he1 with
        | cons ha he1 =>
          cases he1
          refine ⟨hlt, hF.ok s st _ hR ha, ?_, ha, rfl⟩
          unfold alive
          rw [List.mem_filter, List.mem_range]
          exact ⟨hlt, by rw [hu (.prim p i) hi]; rfl⟩
      have hR1 : R (filterLeaf F S p d s).2 st1 := by
        cases hsel : sel p with
        | prim i =>
          obtain ⟨hlt, ho, hal, ha, rfl⟩ := hok i hsel
          refine hF.step s st _ _ hR ?_ (hA _ (by rw [List.flatMap_cons]; simp [actAt, hd, hsel])) ha
          exact List.mem_map.2 ⟨i, List.mem_filter.2 ⟨hal, ho⟩, rfl⟩
        | none =>
          have hact : actAt t sel p = [] := by simp [actAt, hd, hsel]
          rw [hact] at he1
          cases he1
          exact hF.keep _ _ _ hR
        | abs a m =>
          have hact : actAt t sel p = [] := by simp [actAt, hd, hsel]
          rw [hact] at he1
          cases he1
          exact hF.keep _ _ _ hR
      have hRst : R (filterLeaf F S p d s).2 st := hF.keep _ _ _ hR
      obtain ⟨h1, h2, h3⟩ := ih _ _ _ hnd hA' hR1 he2
      refine ⟨fun q hq i hi hmem => ?_, h2, ?_⟩
      · rcases List.mem_append.1 hmem with hm | hm
        · simp only [filterLeaf, List.mem_map, List.mem_filter, Bool.not_eq_true'] at hm
          obtain ⟨j, ⟨-, hnok⟩, heq⟩ := hm
          obtain ⟨rfl, rfl⟩ := Flag.prim.inj heq
          rw [(hok j hi).2.1] at hnok
          exact absurd hnok (by simp)
        · obtain ⟨q', hq', _, _, -, -, heq, -⟩ := filterLeaves_flags F S ps _ _ hm
          obtain ⟨rfl, -⟩ := Flag.prim.inj heq
          exact h1 q hq' i hi hm
      · -- the information only gets weaker
        have hweak : ∀ (ps : List Path) (s : σ) (st : State), R s st → R (filterLeaves F t S ps s).2 st := by
          intro ps
          induction ps with
          | nil => intro s st h; exact h
          | cons p ps ih =>
            intro s st h
            rw [filterLeaves]
            cases t.nd p with
            | none => exact ih s st h
            | some d => exact ih _ st (hF.keep _ _ _ h)
        exact hweak ps _ st hRst

theorem ffFilter_ok : FilterOK P (fun _ => True) (ffFilter P) fun s st => ∀ f, st f → s f = true := by
  refine ⟨fun s st a h ha => ?_, fun s st as h f hf => ?_, fun s st as a h ha _ _ f hf => ?_⟩
  · exact List.all_eq_true.2 fun f hf => h f (ha f hf)
  · show (s f || _) = true
    rw [h f hf]; rfl
  · show (s f || _) = true
    rw [Bool.or_eq_true]
    rcases hf with hf | hf
    · right
      exact List.any_eq_true.2 ⟨a, ha, by simpa using hf⟩
    · exact .inl (h f hf.1)

/-- The effect of the actions of a leaf on one candidate. -/
def leafCand (P : Problem) (cs : List Cand) (cd : Cand) (a : Nat) : Cand :=
  match actionInf P a cs with
  | none => cd
  | some inf => effCand P a inf cd

theorem rinFold_eq (cs : List Cand) : ∀ (as : List Nat) (cs' : List Cand), as.foldl (fun cs' a =>
    match actionInf P a cs with
    | none => cs'
    | some inf => actionEffect P a inf cs') cs' = cs'.map fun cd => as.foldl (leafCand P cs) cd := by
  intro as
  induction as with
  | nil => intro cs'; simp
  | cons a as ih =>
    intro cs'
    rw [List.foldl_cons, ih]
    simp only [List.foldl_cons, leafCand]
    cases actionInf P a cs with
    | none => rfl
    | some inf => simp only; rw [actionEffect_eq, List.map_map]; rfl

theorem leafCand_cases (cs : List Cand) (cd : Cand) (a : Nat) : leafCand P cs cd a = cd ∨ (leafCand P cs cd a).2 = true := by
  unfold leafCand
  cases actionInf P a cs with
  | none => exact .inl rfl
  | some inf =>
    rcases effCand_cases (P := P) (a := a) (inf := inf) cd with h | ⟨-, h⟩
    · exact .inl h
    · right; simp only; rw [h]

theorem leafCand_flag (cs : List Cand) : ∀ (as : List Nat) (cd : Cand), cd.2 = true → (as.foldl (leafCand P cs) cd).2 = true := by
  intro as
  induction as with
  | nil => intro cd h; exact h
  | cons a as ih =>
    intro cd h
    refine ih _ ?_
    rcases leafCand_cases (P := P) cs cd a with h' | h'
    · rw [h']; exact h
    · exact h'

theorem leafCand_all (cs : List Cand) : ∀ (as : List Nat) (cd : Cand), (as.foldl (leafCand P cs) cd).2 = false →
    as.foldl (leafCand P cs) cd = cd ∧ ∀ a ∈ as, leafCand P cs cd a = cd := by
  intro as
  induction as with
  | nil => intro cd _; exact ⟨rfl, by simp⟩
  | cons a as ih =>
    intro cd h
    rw [List.foldl_cons] at h ⊢
    rcases leafCand_cases (P := P) cs cd a with h' | h'
    · rw [h'] at h ⊢
      obtain ⟨h1, h2⟩ := ih cd h
      exact ⟨h1, by simpa using ⟨h', h2⟩⟩
    · rw [leafCand_flag cs as _ h'] at h
      exact absurd h (by simp)

/-- What a clause that survives a leaf has passed. -/
theorem rinNext_mem {cs : List Cand} {as : List Nat} {cd : Cand} (h : cd ∈ (rinFilter P).next cs as) :
    cd ∈ cs ∧ cd.2 = false ∧ ∀ a ∈ as, ∀ inf, actionInf P a cs = some inf → effCand P a inf cd = cd := by
  have h' : cd ∈ reduceCands (cs.map fun cd => as.foldl (leafCand P cs) cd) := by
    rw [← rinFold_eq]; exact h
  unfold reduceCands at h'
  rw [List.mem_filter, List.mem_map] at h'
  obtain ⟨⟨cd0, hm, rfl⟩, hf⟩ := h'
  have hf' : (as.foldl (leafCand P cs) cd0).2 = false := by simpa using hf
  obtain ⟨h1, h2⟩ := leafCand_all cs as cd0 hf'
  rw [h1] at hf' ⊢
  refine ⟨hm, hf', fun a ha inf hi => ?_⟩
  have := h2 a ha
  unfold leafCand at this
  rw [hi] at this
  exact this

theorem rinFilter_ok :
    FilterOK P (Sat.NoClash P) (rinFilter P) fun cs st => (∀ cd ∈ cs, cd.2 = false ∧ Distinct cd.1) ∧ ClHold st (cs.map (·.1)) := by
  have hlive : ∀ cs : List Cand, (∀ cd ∈ cs, cd.2 = false ∧ Distinct cd.1) → live cs = cs.map (·.1) := by
    intro cs h
    refine live_noflag ?_
    rw [List.countP_eq_zero]
    intro cd hcd
    rw [(h cd hcd).1]; simp
  have hinf : ∀ (cs : List Cand) (st : State) (a : Nat), (∀ cd ∈ cs, cd.2 = false ∧ Distinct cd.1) → ClHold st (cs.map (·.1)) →
      P.Applicable st a → ∃ inf, actionInf P a cs = some inf ∧ InfOk st inf := by
    intro cs st a h1 h2 ha
    obtain ⟨inf, hi, hio⟩ := inferPres_ok h2 (P.prec a) ha (st := ⟨fun _ => false, fun _ => false⟩) ⟨by simp, by simp⟩
    refine ⟨inf, ?_, hio⟩
    rw [actionInf_eq, hlive cs h1]
    exact hi
  have hkeep : ∀ (cs : List Cand) (st : State) (as : List Nat),
      ((∀ cd ∈ cs, cd.2 = false ∧ Distinct cd.1) ∧ ClHold st (cs.map (·.1))) →
      (∀ cd ∈ (rinFilter P).next cs as, cd.2 = false ∧ Distinct cd.1) ∧ ClHold st (((rinFilter P).next cs as).map (·.1)) := by
    intro cs st as h
    refine ⟨fun cd hcd => ?_, fun c hc => ?_⟩
    · obtain ⟨h1, h2, -⟩ := rinNext_mem hcd
      exact ⟨h2, (h.1 cd h1).2⟩
    · obtain ⟨cd, hcd, rfl⟩ := List.mem_map.1 hc
      exact h.2 _ (List.mem_map_of_mem (rinNext_mem hcd).1)
  refine ⟨fun cs st a h ha => ?_, hkeep, fun cs st as a h ha hp happ => ?_⟩
  · obtain ⟨inf, hi, -⟩ := hinf cs st a h.1 h.2 ha
    show (actionInf P a cs).isSome = true
    rw [hi]; rfl
  · have hk := hkeep cs st as h
    refine ⟨hk.1, ?_⟩
    obtain ⟨inf, hi, hio⟩ := hinf cs st a h.1 h.2 happ
    refine eff_step hp (fun c hc => ?_) (inf := inf) (fun c hc => ?_) hio hk.2
    · obtain ⟨cd, hcd, rfl⟩ := List.mem_map.1 hc
      exact (hk.1 cd hcd).2
    · obtain ⟨cd, hcd, rfl⟩ := List.mem_map.1 hc
      obtain ⟨-, h2, h3⟩ := rinNext_mem hcd
      obtain ⟨c, b⟩ := cd
      simp only at h2
      subst h2
      exact effCand_false (h3 a ha inf hi)

/-! ## Rounds -/

theorem set_self_mono {S : Flags} {l : List Flag} : ∀ f, S f = true → S.set l f = true := fun _ h => set_true.2 (.inl h)

theorem filterRounds_spec (ht : t.OK P tot) {σ : Type} (F : Filter σ) (s0 : σ) : ∀ (f : Nat) (S : Flags), unset P t S < f →
    ∃ S', filterRounds F t s0 f S = some S' ∧ (∀ g, S g = true → S' g = true) ∧
      (∀ g, S' g = true → S g = true ∨ ∃ p ∈ t.leaves, ∃ i, g = .prim p i) ∧ (filterLeaves F t S' t.leaves s0).1 = [] ∧
      ∀ I : Flags → Prop, (∀ S, I S → I (S.set (filterLeaves F t S t.leaves s0).1)) → I S → I S' := by
  intro f
  induction f with
  | zero => intro S h; omega
  | succ f ih =>
    intro S h
    rw [filterRounds]
    by_cases h0 : (filterLeaves F t S t.leaves s0).1 = []
    · rw [if_pos h0]
      exact ⟨S, rfl, fun _ h => h, fun _ h => .inl h, h0, fun I _ h => h⟩
    · rw [if_neg h0]
      obtain ⟨g, hg⟩ := List.exists_mem_of_ne_nil _ h0
      obtain ⟨p, hp, d, i, hd, hi, rfl, hS⟩ := filterLeaves_flags F S _ _ _ hg
      have hlt := unset_lt (P := P) (t := t) (S := S) (S' := S.set (filterLeaves F t S t.leaves s0).1) set_self_mono
        (mem_flags (P := P) (mem_nodes ht p d hd) hd (.inl ⟨i, hi, rfl⟩)) hS (set_true.2 (.inr hg))
      obtain ⟨S', h1, h2, h3, h4, h5⟩ := ih (S.set (filterLeaves F t S t.leaves s0).1) (by omega)
      refine ⟨S', h1, fun g hg => h2 g (set_self_mono g hg), fun g hg => ?_, h4, fun I hI hS => h5 I hI (hI S hS)⟩
      rcases h3 g hg with h | h
      · rcases set_true.1 h with h | h
        · exact .inl h
        · obtain ⟨p, hp, d, i, -, -, rfl, -⟩ := filterLeaves_flags F S _ _ _ h
          exact .inr ⟨p, hp, i, rfl⟩
      · exact .inr h

/-- A filter keeps what a selection with an executable plan uses. -/
theorem filter_unpruned (ht : t.OK P tot) {σ : Type} {F : Filter σ} {A : Nat → Prop} {R : σ → State → Prop} (hF : FilterOK P A F R) {s0 : σ}
    (h0 : R s0 P.initState) {sel : Path → Sel} (hs : Consistent P t sel) (hnd : t.leaves.Nodup) {st' : State}
    (hex : Exec P P.initState (planOf t sel) st') (hA : ∀ a ∈ planOf t sel, A a) {S : Flags} (hu : Unpruned t S sel) :
    Unpruned t (S.set (filterLeaves F t S t.leaves s0).1) sel := by
  intro f hf
  obtain ⟨h1, -⟩ := filterLeaves_sound ht hF hs hu t.leaves s0 P.initState st' hnd hA h0 hex
  cases hc : S.set (filterLeaves F t S t.leaves s0).1 f with
  | false => rfl
  | true =>
    rcases set_true.1 hc with h | h
    · rw [hu f hf] at h; exact absurd h (by simp)
    · obtain ⟨p, hp, d, i, -, -, rfl, -⟩ := filterLeaves_flags F S _ _ _ h
      exact absurd h (h1 p hp i hf)

theorem leavesFrom_suffix : ∀ (f : Nat) (q p : Path), p ∈ t.leavesFrom f q → ∃ r, p = r ++ q := by
  intro f
  induction f with
  | zero => intro q p h; simp only [T.leavesFrom, List.mem_singleton] at h; exact ⟨[], by simp [h]⟩
  | succ f ih =>
    intro q p h
    rw [T.leavesFrom] at h
    by_cases h0 : t.nc q = 0
    · rw [if_pos h0, List.mem_singleton] at h; exact ⟨[], by simp [h]⟩
    · rw [if_neg h0, List.mem_flatMap] at h
      obtain ⟨c, -, h⟩ := h
      obtain ⟨r, rfl⟩ := ih _ p h
      exact ⟨r ++ [c], by simp⟩

theorem leaves_nodup : t.leaves.Nodup := by
  have : ∀ (f : Nat) (q : Path), (t.leavesFrom f q).Nodup := by
    intro f
    induction f with
    | zero => intro q; simp [T.leavesFrom]
    | succ f ih =>
      intro q
      rw [T.leavesFrom]
      by_cases h0 : t.nc q = 0
      · rw [if_pos h0]; simp
      · rw [if_neg h0]
        rw [List.nodup_flatMap]
        refine ⟨fun c _ => ih _, ?_⟩
        refine List.nodup_range.pairwise_of_forall_ne ?_
        intro c _ c' _ hne p hp hp'
        obtain ⟨r, rfl⟩ := leavesFrom_suffix _ _ _ hp
        obtain ⟨r', h⟩ := leavesFrom_suffix _ _ _ hp'
        have h1 : (r ++ [c]) ++ q = (r' ++ [c']) ++ q := by simpa using h
        have h2 := List.append_cancel_right h1
        have h3 := congrArg List.getLast? h2
        simp at h3
        exact hne h3
  exact this _ _

/-- A selection with an executable plan. -/
def Executable (P : Problem) (t : T) (sel : Path → Sel) : Prop := ∃ st', Exec P P.initState (planOf t sel) st'

theorem filterAll_spec (ht : t.OK P tot) (mode : Mode) (S : Flags) :
    ∃ S', filterAll P t mode S = some S' ∧ (∀ g, S g = true → S' g = true) ∧
      (∀ g, S' g = true → S g = true ∨ ∃ p ∈ t.leaves, ∃ i, g = .prim p i) ∧
      ∀ sel, Consistent P t sel → Executable P t sel → (mode = .h2 → ∀ a ∈ planOf t sel, Sat.NoClash P a) → Unpruned t S sel →
        Unpruned t S' sel := by
  have hff : ∀ sel, Consistent P t sel → Executable P t sel → ∀ S, Unpruned t S sel →
      Unpruned t (S.set (filterLeaves (ffFilter P) t S t.leaves (ffStart P)).1) sel := by
    rintro sel hs ⟨st', hex⟩ S hu
    exact filter_unpruned ht ffFilter_ok (fun f hf => by simpa [ffStart, Problem.initState] using hf) hs leaves_nodup hex (fun _ _ => trivial) hu
  cases mode with
  | none => exact ⟨S, rfl, fun _ h => h, fun _ h => .inl h, fun _ _ _ _ h => h⟩
  | ff =>
    obtain ⟨S', h1, h2, h3, -, h5⟩ := filterRounds_spec ht (ffFilter P) (ffStart P) (unset P t S + 1) S (by omega)
    exact ⟨S', h1, h2, h3, fun sel hs hx _ hu => h5 (fun S => Unpruned t S sel) (fun S hS => hff sel hs hx S hS) hu⟩
  | h2 =>
    obtain ⟨S', h1, h2, h3, -, h5⟩ := filterRounds_spec ht (ffFilter P) (ffStart P) (unset P t S + 1) S (by omega)
    obtain ⟨S'', k1, k2, k3, -, k5⟩ := filterRounds_spec ht (rinFilter P) (initialCands P) (unset P t S' + 1) S' (by omega)
    refine ⟨S'', by rw [filterAll, h1]; exact k1, fun g hg => k2 g (h2 g hg), fun g hg => ?_, ?_⟩
    · rcases k3 g hg with h | h
      · exact h3 g h
      · exact .inr h
    · rintro sel hs ⟨st', hex⟩ hna hu
      refine k5 (fun S => Unpruned t S sel) (fun S hS => ?_) (h5 (fun S => Unpruned t S sel) (fun S hS => hff sel hs ⟨st', hex⟩ S hS) hu)
      refine filter_unpruned ht rinFilter_ok ?_ hs leaves_nodup hex (hna rfl) hS
      refine ⟨fun cd hcd => ?_, fun c hc => ?_⟩
      · obtain ⟨h1, h2, -⟩ := initialCands_spec P cd hcd
        exact ⟨h1, h2⟩
      · obtain ⟨cd, hcd, rfl⟩ := List.mem_map.1 hc
        exact (initialCands_spec P cd hcd).2.2.1

/-! ## The whole pruning -/

/-- Setting entries of leaves does not matter elsewhere. -/
theorem localOK_set {S S' : Flags} (hm : ∀ g, S g = true → S' g = true) {q : Path} (hq : ∀ g, S' g = true → S g = true ∨ g.path ≠ q)
    (h : LocalOK P t S q) : LocalOK P t S' q := by
  have hold : ∀ g : Flag, g.path = q → S' g = true → S g = true := by
    intro g hg hg'
    rcases hq g hg' with h | h
    · exact h
    · exact absurd hg h
  refine ⟨fun d hd he a ha => hm _ (h.unexp d hd he a ha), fun d x a hd hx he hall => hm _ (h.meths d x a hd hx he fun m hm' =>
      hold _ rfl (hall m hm')), fun d x a m hd hx he hs hlt => hm _ (h.absMeth d x a m hd hx he (hold _ rfl hs) hlt),
    fun d i cs hd hp hi hcs hall => hm _ (h.causesP d i cs hd hp hi hcs fun k hk => hold _ rfl (hall k hk)),
    fun d i cs hd hp hi hcs hall => hm _ (h.causesA d i cs hd hp hi hcs fun k hk => hold _ rfl (hall k hk)),
    fun d i cs k x c r hd hp hi hcs hk hs => ?_, fun d i cs k x c r hd hp hi hcs hk hs => ?_,
    fun d e i c j k hd he hi hpos hs => hm _ (h.primChild d e i c j k hd he hi hpos (hold _ rfl hs)),
    fun d e x a m c r hd he hx hlt hptr hs => hm _ (h.methChild d e x a m c r hd he hx hlt hptr (hold _ rfl hs))⟩
  · obtain ⟨h1, h2⟩ := h.primCause d i cs k x c r hd hp hi hcs hk (hold _ rfl hs)
    exact ⟨hm _ h1, hm _ h2⟩
  · obtain ⟨h1, h2⟩ := h.absCause d i cs k x c r hd hp hi hcs hk (hold _ rfl hs)
    exact ⟨hm _ h1, hm _ h2⟩

/-- At inner vertices nothing can be inferred from empty tables. -/
theorem localOK_empty (ht : t.OK P tot) (htot : ∀ m < P.numMethods, (tot m).Perm (List.range (P.sub m).length)) (hall : AllMeth P)
    {q : Path} (hq : t.nc q ≠ 0) : LocalOK P t Flags.empty q := by
  have hex : ∃ e, t.ex q = some e := by
    unfold T.nc at hq
    cases he : t.ex q with
    | none => rw [he] at hq; exact absurd rfl hq
    | some e => exact ⟨e, rfl⟩
  obtain ⟨e, he⟩ := hex
  have hcs : ∀ d, t.nd q = some d → q ≠ [] → ∀ b, ∀ cs ∈ d.causes b, cs ≠ [] := by
    intro d hd hne b cs hcs
    cases q with
    | nil => exact absurd rfl hne
    | cons c r =>
      obtain ⟨e', he', hch⟩ := (ht.child c r d).1 hd
      obtain ⟨_, -, -, -, hexp, -⟩ := ht.ex r e' he'
      exact hexp.caused c d hch b cs hcs
  refine ⟨fun d _ h => absurd h (by rw [he]; simp), fun d x a hd hx _ h => ?_, fun _ _ _ _ _ _ _ h => absurd h (by simp [Flags.empty]),
    fun d i cs hd hp hi hc h => ?_, fun d i cs hd hp hi hc h => ?_, fun _ _ _ _ _ _ _ _ _ _ _ _ h => absurd h (by simp [Flags.empty]),
    fun _ _ _ _ _ _ _ _ _ _ _ _ h => absurd h (by simp [Flags.empty]),
    fun _ _ _ _ _ _ _ _ _ _ h => absurd h (by simp [Flags.empty]),
    fun _ _ _ _ _ _ _ _ _ _ _ _ h => absurd h (by simp [Flags.empty])⟩
  · have := abss_meth ht htot hall q d hd x (List.mem_of_getElem? hx)
    exact absurd (h 0 (List.length_pos_of_ne_nil this)) (by simp [Flags.empty])
  · have := hcs d hd hp true cs (List.mem_of_getElem? hc)
    exact absurd (h 0 (List.length_pos_of_ne_nil this)) (by simp [Flags.empty])
  · have := hcs d hd hp false cs (List.mem_of_getElem? hc)
    exact absurd (h 0 (List.length_pos_of_ne_nil this)) (by simp [Flags.empty])

theorem localOK_missing {S : Flags} {q : Path} (hq : t.nd q = none) : LocalOK P t S q := by
  refine ⟨?_, ?_, ?_, ?_, ?_, ?_, ?_, ?_, ?_⟩ <;> intros <;> simp_all

/-- The whole pruning terminates; afterwards nothing more can be inferred, and nothing that an executable selection uses
is pruned. -/
theorem prune_spec (ht : t.OK P tot) (htot : ∀ m < P.numMethods, (tot m).Perm (List.range (P.sub m).length)) (hall : AllMeth P)
    (mode : Mode) : ∃ S, prune P t mode = some S ∧ (∀ q, LocalOK P t S q) ∧
      ∀ sel, Consistent P t sel → Executable P t sel → (mode = .h2 → ∀ a ∈ planOf t sel, Sat.NoClash P a) → Unpruned t S sel := by
  have hlv : ∀ p ∈ t.leaves, ∃ d, t.nd p = some d := fun p hp => ((mem_leaves ht).1 hp).1
  have hla : ∀ f ∈ leafAbs t, ∃ p ∈ t.leaves, ∃ d a, t.nd p = some d ∧ a < d.abss.length ∧ f = .abs p a := by
    intro f hf
    unfold leafAbs at hf
    rw [List.mem_flatMap] at hf
    obtain ⟨p, hp, hf⟩ := hf
    obtain ⟨d, hd⟩ := hlv p hp
    rw [hd] at hf
    simp only [List.mem_map, List.mem_range] at hf
    obtain ⟨a, ha, rfl⟩ := hf
    exact ⟨p, hp, d, a, hd, ha, rfl⟩
  obtain ⟨S1, h1, -, h3, h4⟩ := propAll_spec ht hlv (Flags.empty.set (leafAbs t))
  have hc1 : ∀ q, LocalOK P t S1 q := h4 fun q hq => by
    cases hd : t.nd q with
    | none => exact localOK_missing hd
    | some d =>
      have hnc : t.nc q ≠ 0 := fun h0 => hq ((mem_leaves ht).2 ⟨⟨d, hd⟩, h0⟩)
      refine localOK_set set_self_mono (fun g hg => ?_) (localOK_empty ht htot hall hnc)
      rcases set_true.1 hg with h | h
      · exact .inl h
      · obtain ⟨p, hp, -, a, -, -, rfl⟩ := hla g h
        right
        rintro rfl
        exact hq hp
  obtain ⟨S2, k1, k2, k3, k4⟩ := filterAll_spec ht mode S1
  obtain ⟨S3, l1, -, l3, l4⟩ := propAll_spec ht hlv S2
  refine ⟨S3, ?_, l4 fun q hq => localOK_set k2 (fun g hg => ?_) (hc1 q), fun sel hs hx hna => l3 sel hs (k4 sel hs hx hna (h3 sel hs ?_))⟩
  · rw [prune, pruneFirst, h1]
    simp only
    rw [k1]
    exact l1
  · rcases k3 g hg with h | ⟨p, hp, i, rfl⟩
    · exact .inl h
    · right
      rintro rfl
      exact hq hp
  · intro f hf
    cases hc : Flags.empty.set (leafAbs t) f with
    | false => rfl
    | true =>
      rcases set_true.1 hc with h | h
      · exact absurd h (by simp [Flags.empty])
      · obtain ⟨p, hp, d, a, hd, ha, rfl⟩ := hla f h
        obtain ⟨m, hm⟩ := hf
        obtain ⟨d', e, x, hd', he, hx⟩ := hs.abs p a m hm
        have hnc := ((mem_leaves ht).1 hp).2
        exfalso
        have hne := children_ne ht htot hall he
        unfold T.nc at hnc
        rw [he] at hnc
        exact hne (List.length_eq_zero_iff.1 hnc)

end

end Verif.Pdt
