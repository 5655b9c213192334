import Verif.SearchStep

/-! # Invariants of the search loop -/

namespace Verif.Prog

open Verif.Htn Verif.TaskCounter Relation

variable {P : Problem} {cfg : Cfg} {V F H : Type}

/-! ## Contracts of the parameters -/

/-- Contract of a fringe: `items` lists what is contained, `eval` is the value `fValue`
assigned by `push`.  Nothing gets lost or duplicated. -/
structure FringeOK (E : Env V F H) (f0 : F) (items : F → List SNode) (eval : SNode → Option Int) : Prop where
  empty : items f0 = []
  push : ∀ fr x, (items (E.push fr x)).Perm ({ x with f := eval x } :: items fr)
  pop_none : ∀ fr, E.pop fr = none → items fr = []
  pop_some : ∀ fr x fr', E.pop fr = some (x, fr') → (items fr).Perm (x :: items fr')

/-- The visited list after a sequence of insertions. -/
def runIns (E : Env V F H) (v0 : V) (hist : List (Heap × SNode)) : V :=
  hist.foldl (fun v x => (E.ins v x.1 x.2).1) v0

/-- Contract of the visited list: if a node is rejected then some node has been accepted
before that has, for every solution of the rejected node, a solution that is no longer,
and -- in case `c = 1` -- leads to total costs that are not higher.  (`c = 0`: costs are
not considered.)  `Q` holds of all nodes that are inserted. -/
def VisSound (P : Problem) (cfg : Cfg) (E : Env V F H) (v0 : V) (Q : Heap → SNode → Prop) (c : Nat) : Prop :=
  ∀ hist h x, (∀ y ∈ hist, y.1 <+: h ∧ Good P cfg y.1 y.2.node ∧ Q y.1 y.2) →
    Good P cfg h x.node → Q h x →
    (E.ins (runIns E v0 hist) h x).2 = false →
    ∃ pre y post, hist = pre ++ y :: post ∧ (E.ins (runIns E v0 pre) y.1 y.2).2 = true ∧
      ∀ π k, NodeSol P h x.node π k → ∃ π' k', NodeSol P y.1 y.2.node π' k' ∧
        c * (y.2.node.costs + P.planCost π') ≤ c * (x.node.costs + P.planCost π) ∧
        k' + π'.length ≤ k + π.length

/-- Contract of the heuristic: nodes found to be unsolvable have no solution (whose total costs
and size meet `B`; costs count only if `c = 1`).  `J` is known about the internal state of the heuristic. -/
def HeurSafe (P : Problem) (cfg : Cfg) (E : Env V F H) (K : Heap → Node → Prop) (J : Heap → H → Prop)
    (B : Nat → Nat → Prop) (c : Nat) : Prop :=
  ∀ hs h par n2, J h hs → NInv P cfg h n2 → K h n2 → (E.heur hs h par n2).2.2 = false →
    ∀ π k, B (c * (n2.costs + P.planCost π)) (k + π.length) → ¬ NodeSol P h n2 π k

/-- The internal state of the heuristic is in order throughout. -/
structure HeurInv (P : Problem) (cfg : Cfg) (E : Env V F H) (K : Heap → Node → Prop) (J : Heap → H → Prop)
    (hs0 : H) : Prop where
  init : J (initNode P cfg).1.heap hs0
  ext : ∀ h h' hs, h <+: h' → HeapOK h → HeapOK h' → J h hs → J h' hs
  step : ∀ hs h par n2, J h hs → NInv P cfg h n2 → K h n2 → J h (E.heur hs h par n2).1

/-- No condition on costs and size. -/
def noBound : Nat → Nat → Prop := fun _ _ => True

/-- No condition on the internal state. -/
def noState : Heap → H → Prop := fun _ _ => True

theorem HeurInv.trivial (E : Env V F H) (K) (hs0) : HeurInv P cfg E K noState hs0 := by
  constructor <;> intros <;> exact True.intro

/-- Properties `K` of nodes and `Q` of evaluated nodes that hold during search. -/
structure Keeps (P : Problem) (cfg : Cfg) (E : Env V F H) (eval : SNode → Option Int)
    (K : Heap → Node → Prop) (Q : Heap → SNode → Prop) (J : Heap → H → Prop) : Prop where
  root : Q (initNode P cfg).1.heap
    { rootNode P cfg E.hLength with f := eval (rootNode P cfg E.hLength) }
  toK : ∀ h x, Q h x → K h x.node
  app : ∀ f g n i u g' n2, NInv P cfg g.heap n → K g.heap n → n.prims[i]? = some u →
    P.Applicable (holds n.state) (taskOf g.heap u) → apply P cfg f g n i = some (g', n2) → K g'.heap n2
  dec : ∀ f g n d u m g' n2, NInv P cfg g.heap n → K g.heap n → n.abs[d]? = some u →
    m ∈ methodsOf P (taskOf g.heap u) → decompose P cfg f g n d m = some (g', n2) → K g'.heap n2
  ext : ∀ h h' x, h <+: h' → HeapOK h' → NInv P cfg h x.node → Q h x → Q h' x
  extK : ∀ h h' n, h <+: h' → HeapOK h' → NInv P cfg h n → K h n → K h' n
  heur : ∀ hs h par n2, J h hs → NInv P cfg h n2 → K h n2 → (E.heur hs h par n2).2.2 = true →
    Q h ⟨n2, (E.heur hs h par n2).2.1, eval ⟨n2, (E.heur hs h par n2).2.1, none⟩⟩
  fresh : E.subopt = true → ∀ h n2, NInv P cfg h n2 → K h n2 → Q h ⟨n2, [], none⟩

theorem Keeps.trivial (E : Env V F H) (eval) (J : Heap → H → Prop) :
    Keeps P cfg E eval (fun _ _ => True) (fun _ _ => True) J := by
  constructor <;> intros <;> trivial

/-! ## Coverage -/

/-- Some node in `X` has a solution of total costs at most `T` (if `c = 1`) and size below `μ`. -/
def CovBy (P : Problem) (c : Nat) (h : Heap) (X : List Node) (T μ : Nat) : Prop :=
  ∃ n ∈ X, ∃ π k, NodeSol P h n π k ∧ c * (n.costs + P.planCost π) ≤ c * T ∧ k + π.length < μ

theorem CovBy.mono {c h X X' T T' μ μ'} (hc : CovBy P c h X T μ) (hX : ∀ x ∈ X, x ∈ X')
    (hT : c * T ≤ c * T') (hμ : μ ≤ μ') : CovBy P c h X' T' μ' := by
  obtain ⟨n, hn, π, k, hs, h1, h2⟩ := hc
  exact ⟨n, hX n hn, π, k, hs, Nat.le_trans h1 hT, Nat.lt_of_lt_of_le h2 hμ⟩

theorem NInv.ext {h h' : Heap} (hp : h <+: h') (hh' : HeapOK h') {n : Node} (hn : NInv P cfg h n) :
    NInv P cfg h' n :=
  ⟨hn.good.ext hp hh', hn.solne, fun π k hs => hn.sound π k
    ((prefix_nodeSol hp hn.good.heap hh' hn.good.node.lt).1 hs), hn.costs, hn.depth, hn.mixed⟩

theorem CovBy.ext {c X T μ} {h h' : Heap} (hp : h <+: h') (hh' : HeapOK h')
    (hX : ∀ n ∈ X, NInv P cfg h n) (hc : CovBy P c h X T μ) : CovBy P c h' X T μ := by
  obtain ⟨n, hn, π, k, hs, h1, h2⟩ := hc
  have hi := (hX n hn).good
  exact ⟨n, hn, π, k, (prefix_nodeSol hp hi.heap hh' hi.node.lt).2 hs, h1, h2⟩

section

variable (P cfg) (E : Env V F H) (items : F → List SNode) (v0 : V) (Q : Heap → SNode → Prop)
  (J : Heap → H → Prop) (B : Nat → Nat → Prop) (c : Nat)

/-- The nodes that count as known. -/
def known (s : St V F H) (pend closed : List Node) : List Node :=
  (items s.fr).map SNode.node ++ (pend ++ closed)

/-- Invariant of the main loop.  `closed` are the nodes expanded so far, `pend` is the node
being expanded. -/
structure SInv (s : St V F H) (pend closed : List Node) (hist : List (Heap × SNode)) : Prop where
  heap : HeapOK s.g.heap
  vis : s.vis = runIns E v0 hist
  hist_ok : ∀ y ∈ hist, y.1 <+: s.g.heap ∧ NInv P cfg y.1 y.2.node ∧ Q y.1 y.2
  items_ok : ∀ x ∈ items s.fr, NInv P cfg s.g.heap x.node ∧ Q s.g.heap x ∧
    (E.subopt = true → isGoal P x.node = false)
  pc_ok : ∀ n ∈ pend ++ closed, NInv P cfg s.g.heap n
  closed_cov : ∀ n ∈ closed, ∀ π k, B (c * (n.costs + P.planCost π)) (k + π.length) → NodeSol P s.g.heap n π k →
    CovBy P c s.g.heap (known items s pend closed) (n.costs + P.planCost π) (k + π.length)
  acc : ∀ pre y post, hist = pre ++ y :: post → (E.ins (runIns E v0 pre) y.1 y.2).2 = true →
    (E.subopt = false → y.2.node ∈ pend ++ closed) ∧
    ∀ π k, B (c * (y.2.node.costs + P.planCost π)) (k + π.length) → NodeSol P s.g.heap y.2.node π k →
      CovBy P c s.g.heap (known items s pend closed) (y.2.node.costs + P.planCost π) (k + π.length + 1)
  root : ∀ π k, B (c * P.planCost π) (k + π.length) → IsSolutionN P π k →
    CovBy P c s.g.heap (known items s pend closed) (P.planCost π) (k + π.length + 1)
  state : J s.g.heap s.hs

end

variable {E : Env V F H} {items : F → List SNode} {v0 : V} {f0 : F} {Q : Heap → SNode → Prop}
  {K : Heap → Node → Prop} {J : Heap → H → Prop} {B : Nat → Nat → Prop} {eval : SNode → Option Int} {c : Nat}

theorem SInv.known_ok {s pend closed hist} (I : SInv P cfg E items v0 Q J B c s pend closed hist) :
    ∀ n ∈ known items s pend closed, NInv P cfg s.g.heap n := by
  intro n hn
  rcases List.mem_append.1 hn with hn | hn
  · obtain ⟨x, hx, rfl⟩ := List.mem_map.1 hn
    exact (I.items_ok x hx).1
  · exact I.pc_ok n hn

theorem SInv.heap_ext (hK : Keeps P cfg E eval K Q J) {hs0} (hJ : HeurInv P cfg E K J hs0) {s pend closed hist}
    (I : SInv P cfg E items v0 Q J B c s pend closed hist)
    {g' : Glob} (hp : s.g.heap <+: g'.heap) (hh' : HeapOK g'.heap) :
    SInv P cfg E items v0 Q J B c { s with g := g' } pend closed hist := by
  have hko := I.known_ok
  have hback : ∀ n ∈ known items s pend closed, ∀ π k, NodeSol P g'.heap n π k → NodeSol P s.g.heap n π k :=
    fun n hn π k hs => (prefix_nodeSol hp I.heap hh' (hko n hn).good.node.lt).1 hs
  refine ⟨hh', I.vis, fun y hy => ⟨(I.hist_ok y hy).1.trans hp, (I.hist_ok y hy).2⟩, ?_, ?_, ?_, ?_, ?_,
    hJ.ext _ _ _ hp I.heap hh' I.state⟩
  · intro x hx
    obtain ⟨h1, h2, h3⟩ := I.items_ok x hx
    exact ⟨h1.ext hp hh', hK.ext _ _ x hp hh' h1 h2, h3⟩
  · exact fun n hn => (I.pc_ok n hn).ext hp hh'
  · intro n hn π k hb hs
    have hnk : n ∈ known items s pend closed :=
      List.mem_append_right _ (List.mem_append_right _ hn)
    exact (I.closed_cov n hn π k hb (hback n hnk π k hs)).ext hp hh' hko
  · intro pre y post he ha
    obtain ⟨h1, h2⟩ := I.acc pre y post he ha
    refine ⟨h1, fun π k hb hs => ?_⟩
    have hy := I.hist_ok y (by rw [he]; simp)
    have hs' : NodeSol P s.g.heap y.2.node π k :=
      (prefix_nodeSol hp I.heap hh' (fun u hu => Nat.lt_of_lt_of_le (hy.2.1.good.node.lt u hu) hy.1.length_le)).1 hs
    exact (h2 π k hb hs').ext hp hh' hko
  · exact fun π k hb hs => (I.root π k hb hs).ext hp hh' hko

/-- Enlarging the fringe. -/
theorem SInv.push (hF : FringeOK E f0 items eval) {s pend closed hist}
    (I : SInv P cfg E items v0 Q J B c s pend closed hist) {x : SNode}
    (hx : NInv P cfg s.g.heap x.node) (hq : Q s.g.heap { x with f := eval x })
    (hg : E.subopt = true → isGoal P x.node = false) :
    SInv P cfg E items v0 Q J B c { s with fr := E.push s.fr x } pend closed hist ∧
      (∀ n ∈ known items s pend closed, n ∈ known items { s with fr := E.push s.fr x } pend closed) ∧
      x.node ∈ known items { s with fr := E.push s.fr x } pend closed := by
  have hperm := hF.push s.fr x
  have hsub : ∀ n ∈ known items s pend closed, n ∈ known items { s with fr := E.push s.fr x } pend closed := by
    intro n hn
    rcases List.mem_append.1 hn with hn | hn
    · obtain ⟨y, hy, rfl⟩ := List.mem_map.1 hn
      exact List.mem_append_left _ (List.mem_map.2 ⟨y, hperm.mem_iff.2 (List.mem_cons_of_mem _ hy), rfl⟩)
    · exact List.mem_append_right _ hn
  refine ⟨⟨I.heap, I.vis, I.hist_ok, ?_, I.pc_ok, ?_, ?_, ?_, I.state⟩, hsub, ?_⟩
  · intro y hy
    rcases List.mem_cons.1 (hperm.mem_iff.1 hy) with rfl | hy
    · exact ⟨hx, hq, hg⟩
    · exact I.items_ok y hy
  · exact fun n hn π k hb hs => (I.closed_cov n hn π k hb hs).mono hsub (Nat.le_refl _) (Nat.le_refl _)
  · intro pre y post he ha
    obtain ⟨h1, h2⟩ := I.acc pre y post he ha
    exact ⟨h1, fun π k hb hs => (h2 π k hb hs).mono hsub (Nat.le_refl _) (Nat.le_refl _)⟩
  · exact fun π k hb hs => (I.root π k hb hs).mono hsub (Nat.le_refl _) (Nat.le_refl _)
  · exact List.mem_append_left _ (List.mem_map.2 ⟨_, hperm.mem_iff.2 List.mem_cons_self, rfl⟩)

theorem runIns_append {v : V} {hist : List (Heap × SNode)} {y} :
    runIns E v (hist ++ [y]) = (E.ins (runIns E v hist) y.1 y.2).1 := by
  simp [runIns]

/-- Recording an insertion whose acceptance is covered. -/
theorem SInv.insert {s pend closed hist} (I : SInv P cfg E items v0 Q J B c s pend closed hist) {x : SNode}
    (hx : NInv P cfg s.g.heap x.node) (hq : Q s.g.heap x)
    (hacc : (E.ins s.vis s.g.heap x).2 = true → (E.subopt = false → x.node ∈ pend ++ closed) ∧
      ∀ π k, B (c * (x.node.costs + P.planCost π)) (k + π.length) → NodeSol P s.g.heap x.node π k →
        CovBy P c s.g.heap (known items s pend closed) (x.node.costs + P.planCost π) (k + π.length + 1)) :
    SInv P cfg E items v0 Q J B c { s with vis := (E.ins s.vis s.g.heap x).1 } pend closed
      (hist ++ [(s.g.heap, x)]) := by
  refine ⟨I.heap, ?_, ?_, I.items_ok, I.pc_ok, I.closed_cov, ?_, I.root, I.state⟩
  · rw [runIns_append, ← I.vis]
  · intro y hy
    rcases List.mem_append.1 hy with hy | hy
    · exact I.hist_ok y hy
    · obtain rfl : y = (s.g.heap, x) := by simpa using hy
      exact ⟨List.prefix_refl _, hx, hq⟩
  · intro pre y post he ha
    rcases List.eq_nil_or_concat post with rfl | ⟨post', z, rfl⟩
    · have h1 : hist = pre ∧ (s.g.heap, x) = y := by
        have := List.append_inj' he (by simp)
        exact ⟨this.1, by simpa using this.2⟩
      obtain ⟨rfl, rfl⟩ := h1
      rw [← I.vis] at ha
      exact hacc ha
    · have h1 : hist = pre ++ y :: post' := by
        have : hist ++ [(s.g.heap, x)] = (pre ++ y :: post') ++ [z] := by rw [he]; simp
        exact (List.append_inj' this (by simp)).1
      exact I.acc pre y post' h1 ha

/-- Treatment of a new node during expansion. -/
theorem child_inv (hF : FringeOK E f0 items eval) (hK : Keeps P cfg E eval K Q J)
    (hV : VisSound P cfg E v0 Q c) (hH : HeurSafe P cfg E K J B c) {hs0} (hJ : HeurInv P cfg E K J hs0)
    (hB : ∀ a b x y, a ≤ b → x ≤ y → B b y → B a x) {s pend closed hist} {par n2 : Node}
    (I : SInv P cfg E items v0 Q J B c s pend closed hist)
    (hn2 : NInv P cfg s.g.heap n2) (hk2 : K s.g.heap n2)
    (hdead : n2.reachable = false → ∀ π k, ¬ NodeSol P s.g.heap n2 π k) {s' r}
    (h : child P E s par n2 = (s', r)) :
    (r = none → ∃ hist', SInv P cfg E items v0 Q J B c s' pend closed hist' ∧ s'.g = s.g ∧ s'.iter = s.iter ∧
      (∀ n ∈ known items s pend closed, n ∈ known items s' pend closed) ∧
      ∀ π k, B (c * (n2.costs + P.planCost π)) (k + π.length) → NodeSol P s.g.heap n2 π k →
        CovBy P c s.g.heap (known items s' pend closed) (n2.costs + P.planCost π) (k + π.length + 1)) ∧
    (∀ x, r = some x → E.subopt = true ∧ x.node = n2 ∧ isGoal P n2 = true ∧ s'.g = s.g ∧ J s'.g.heap s'.hs) := by
  unfold child at h
  split at h
  · rename_i hf
    simp only [Prod.mk.injEq] at h
    obtain ⟨rfl, rfl⟩ := h
    exact ⟨fun _ => ⟨hist, I, rfl, rfl, fun _ h => h, fun π k _ hs => absurd hs (hdead hf π k)⟩, fun x hx => by simp at hx⟩
  · -- generic treatment after the visited list
    have rest : ∀ (v' : V) (s' : St V F H) (r : Option SNode),
        (if (E.heur s.hs s.g.heap par n2).2.2 = false then
            ({ s with vis := v', hs := (E.heur s.hs s.g.heap par n2).1 }, none)
          else if (E.subopt && isGoal P n2) = true then
            ({ s with vis := v', hs := (E.heur s.hs s.g.heap par n2).1 },
              some ⟨n2, (E.heur s.hs s.g.heap par n2).2.1, none⟩)
          else ({ s with vis := v', hs := (E.heur s.hs s.g.heap par n2).1,
                         fr := E.push s.fr ⟨n2, (E.heur s.hs s.g.heap par n2).2.1, none⟩ }, none)) =
          (s', r) →
        (∀ (hacc : ∀ hs' : H, J s.g.heap hs' → ∀ fr', (∀ n ∈ known items s pend closed, n ∈ known items { s with fr := fr' } pend closed) →
          (∀ π k, B (c * (n2.costs + P.planCost π)) (k + π.length) → NodeSol P s.g.heap n2 π k →
            CovBy P c s.g.heap (known items { s with fr := fr' } pend closed) (n2.costs + P.planCost π) (k + π.length + 1)) →
          SInv P cfg E items v0 Q J B c { s with fr := fr' } pend closed hist →
          ∃ hist', SInv P cfg E items v0 Q J B c { s with vis := v', hs := hs', fr := fr' } pend closed hist'),
        (r = none → ∃ hist', SInv P cfg E items v0 Q J B c s' pend closed hist' ∧ s'.g = s.g ∧ s'.iter = s.iter ∧
          (∀ n ∈ known items s pend closed, n ∈ known items s' pend closed) ∧
          ∀ π k, B (c * (n2.costs + P.planCost π)) (k + π.length) → NodeSol P s.g.heap n2 π k →
            CovBy P c s.g.heap (known items s' pend closed) (n2.costs + P.planCost π) (k + π.length + 1)) ∧
        (∀ x, r = some x → E.subopt = true ∧ x.node = n2 ∧ isGoal P n2 = true ∧ s'.g = s.g ∧ J s'.g.heap s'.hs)) := by
      intro v' s' r h hacc
      split at h
      · rename_i hf
        simp only [Prod.mk.injEq] at h
        obtain ⟨rfl, rfl⟩ := h
        have hno := hH s.hs s.g.heap par n2 I.state hn2 hk2 hf
        refine ⟨fun _ => ?_, fun x hx => by simp at hx⟩
        obtain ⟨hist', I'⟩ := hacc (E.heur s.hs s.g.heap par n2).1 (hJ.step _ _ _ _ I.state hn2 hk2) s.fr (fun _ h => h)
          (fun π k hb hs => absurd hs (hno π k hb)) I
        exact ⟨hist', I', rfl, rfl, fun _ h => h, fun π k hb hs => absurd hs (hno π k hb)⟩
      · rename_i ht
        split at h
        · rename_i hsg
          simp only [Prod.mk.injEq] at h
          obtain ⟨rfl, rfl⟩ := h
          refine ⟨fun h => by simp at h, fun x hx => ?_⟩
          simp only [Option.some.injEq] at hx
          subst hx
          simp only [Bool.and_eq_true] at hsg
          exact ⟨hsg.1, rfl, hsg.2, rfl, hJ.step _ _ _ _ I.state hn2 hk2⟩
        · rename_i hsg
          simp only [Prod.mk.injEq] at h
          obtain ⟨rfl, rfl⟩ := h
          refine ⟨fun _ => ?_, fun x hx => by simp at hx⟩
          have hq := hK.heur s.hs s.g.heap par n2 I.state hn2 hk2 (by simpa using ht)
          obtain ⟨I1, hsub, hmem⟩ := I.push hF (x := ⟨n2, (E.heur s.hs s.g.heap par n2).2.1, none⟩) hn2 hq
            (fun hs => by simpa [hs] using hsg)
          have hcov : ∀ π k, B (c * (n2.costs + P.planCost π)) (k + π.length) → NodeSol P s.g.heap n2 π k →
              CovBy P c s.g.heap (known items { s with fr := E.push s.fr ⟨n2, (E.heur s.hs s.g.heap par n2).2.1, none⟩ } pend closed)
                (n2.costs + P.planCost π) (k + π.length + 1) :=
            fun π k _ hs => ⟨n2, hmem, π, k, hs, Nat.le_refl _, Nat.lt_succ_self _⟩
          obtain ⟨hist', I'⟩ := hacc (E.heur s.hs s.g.heap par n2).1 (hJ.step _ _ _ _ I.state hn2 hk2) _ hsub hcov I1
          exact ⟨hist', I', rfl, rfl, hsub, hcov⟩
    by_cases hsub : E.subopt = true
    · simp only [hsub, if_true] at h
      split at h
      · rename_i hdup
        simp only [Prod.mk.injEq] at h
        obtain ⟨rfl, rfl⟩ := h
        refine ⟨fun _ => ?_, fun x hx => by simp at hx⟩
        have hq := hK.fresh hsub s.g.heap n2 hn2 hk2
        have hI' := I.insert (x := ⟨n2, [], none⟩) hn2 hq (fun ha => by rw [hdup] at ha; simp at ha)
        refine ⟨_, hI', rfl, rfl, fun _ h => h, fun π k hb hs => ?_⟩
        rw [I.vis] at hdup
        obtain ⟨pre, y, post, he, ha, hy⟩ := hV hist s.g.heap ⟨n2, [], none⟩
          (fun y hy => ⟨(I.hist_ok y hy).1, (I.hist_ok y hy).2.1.good, (I.hist_ok y hy).2.2⟩) hn2.good hq hdup
        obtain ⟨π', k', hs', hle, hm⟩ := hy π k hs
        have hyh := I.hist_ok y (by rw [he]; simp)
        have hs'' : NodeSol P s.g.heap y.2.node π' k' :=
          (prefix_nodeSol hyh.1 hyh.2.1.good.heap I.heap hyh.2.1.good.node.lt).2 hs'
        exact ((I.acc pre y post he ha).2 π' k' (hB _ _ _ _ hle hm hb) hs'').mono (fun _ h => h) hle (by omega)
      · rename_i hnew
        refine rest (E.ins s.vis s.g.heap ⟨n2, [], none⟩).1 s' r (by simpa [hsub] using h) ?_
        intro hs' hj fr' hmono hcov I1
        have hq := hK.fresh hsub s.g.heap n2 hn2 hk2
        have := I1.insert (x := ⟨n2, [], none⟩) hn2 hq
          (fun _ => ⟨fun h => by rw [hsub] at h; simp at h, hcov⟩)
        exact ⟨_, ⟨this.heap, this.vis, this.hist_ok, this.items_ok, this.pc_ok, this.closed_cov,
          this.acc, this.root, hj⟩⟩
    · simp only [hsub, if_false, Bool.false_eq_true] at h
      split at h
      · rename_i hx; simp at hx
      · refine rest s.vis s' r (by simpa [hsub] using h) ?_
        intro hs' hj fr' hmono hcov I1
        exact ⟨hist, ⟨I1.heap, I1.vis, I1.hist_ok, I1.items_ok, I1.pc_ok, I1.closed_cov, I1.acc, I1.root, hj⟩⟩

end Verif.Prog
