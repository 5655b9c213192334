import Verif.Automaton

/-! # The search does not depend on the representation of the BDDs

If a function between two representations of BDDs commutes with the operations, then the runs of the search with both
representations have the same outcome.  This allows to run the search with tables. -/

namespace Verif.Sym

open Verif.Htn

/-- `h` commutes with the operations. -/
structure Hom {A B : Type} (O : Ops A) (O' : Ops B) (h : A → B) : Prop where
  zero : O'.zero = h O.zero
  and : ∀ x y, O'.and (h x) (h y) = h (O.and x y)
  or : ∀ x y, O'.or (h x) (h y) = h (O.or x y)
  not : ∀ x, O'.not (h x) = h (O.not x)
  isEq : ∀ x y, O'.isEq (h x) (h y) = O.isEq x y
  swapEA : ∀ x, O'.swapEA (h x) = h (O.swapEA x)
  swapPE : ∀ x, O'.swapPE (h x) = h (O.swapPE x)
  exP : ∀ x, O'.exP (h x) = h (O.exP x)
  exE : ∀ x, O'.exE (h x) = h (O.exE x)
  exA : ∀ x, O'.exA (h x) = h (O.exA x)
  image : ∀ t x, O'.image t (h x) = h (O.image t x)
  biimp : O'.biimp = h O.biimp
  init : O'.init = h O.init
  goal : O'.goal = h O.goal

variable {A B : Type} {O : Ops A} {O' : Ops B} {h : A → B}

theorem Hom.isZero (H : Hom O O' h) (x : A) : O'.isZero (h x) = O.isZero x := by
  rw [Ops.isZero, Ops.isZero, H.zero, H.isEq]

def Map.mapV (h : A → B) (m : Map A) : Map B := m.map fun e => (e.1, h e.2)

theorem Map.get?_mapV (m : Map A) (k : List Nat) : (Map.mapV h m).get? k = (m.get? k).map h := by
  induction m with
  | nil => rfl
  | cons e m ih =>
    obtain ⟨k', v⟩ := e
    simp only [Map.mapV, List.map_cons, Map.get?] at ih ⊢
    split
    · rfl
    · exact ih

theorem Map.set_mapV (m : Map A) (k : List Nat) (v : A) : (Map.mapV h m).set k (h v) = Map.mapV h (m.set k v) := by
  induction m with
  | nil => rfl
  | cons e m ih =>
    obtain ⟨k', v'⟩ := e
    simp only [Map.mapV, List.map_cons, Map.set] at ih ⊢
    split
    · rfl
    · split
      · rfl
      · rw [ih]
        rfl

def St.mapV (h : A → B) (st : St A) : St B where
  edges := Map.mapV h st.edges
  extra := Map.mapV h st.extra
  eps := Map.mapV h st.eps
  ins := st.ins
  prim := st.prim
  abst := st.abst

/-- The context with the other operations. -/
def Ctx.to (x : Ctx A) (O' : Ops B) : Ctx B := ⟨O', x.P, x.nA, x.c, x.d⟩

theorem ensure_hom (H : Hom O O' h) (st : St A) (k : List Nat) : ensure O' (st.mapV h) k = (ensure O st k).mapV h := by
  unfold ensure
  simp only [St.mapV, Map.get?_mapV]
  cases st.edges.get? k with
  | some x => rfl
  | none => simp only [Option.map_none, H.zero, Map.set_mapV]

theorem edgeAt_hom (H : Hom O O' h) (st : St A) (k : List Nat) : edgeAt O' (st.mapV h) k = h (edgeAt O st k) := by
  unfold edgeAt
  simp only [St.mapV, Map.get?_mapV, H.zero]
  cases st.edges.get? k <;> rfl

theorem addQ_hom (x : Ctx A) (st : St A) (task isTo extra : Nat) (param : Option Nat) (only : Bool) :
    addQ (x.to O') (st.mapV h) task isTo extra param only = (addQ x st task isTo extra param only).mapV h := by
  unfold addQ
  have e1 : (x.to O').P = x.P := rfl
  have e2 : (x.to O').nA = x.nA := rfl
  by_cases hh : x.nA ≤ task ∨ x.P.cost task = 0
  · simp only [e1, e2, if_pos hh]; rfl
  · simp only [e1, e2, if_neg hh]; rfl

theorem setEdge_hom (st : St A) (k : List Nat) (y : A) :
    ({ st.mapV h with edges := (st.mapV h).edges.set k (h y) } : St B) = ({ st with edges := st.edges.set k y } : St A).mapV h := by
  simp only [St.mapV, Map.set_mapV]

/-- The pair of a state and a BDD. -/
def prV (h : A → B) (a : St A × A) : St B × B := (a.1.mapV h, h a.2)

theorem foldl_hom {X Y α β : Type} (g : X → Y) (i : α → β) (f : X → α → X) (f' : Y → β → Y)
    (hf : ∀ x a, f' (g x) (i a) = g (f x a)) (l : List α) (x : X) : (l.map i).foldl f' (g x) = g (l.foldl f x) := by
  induction l generalizing x with
  | nil => rfl
  | cons a l ih => rw [List.map_cons, List.foldl_cons, List.foldl_cons, hf, ih]

theorem foldl_hom' {X Y α : Type} (g : X → Y) (f : X → α → X) (f' : Y → α → Y)
    (hf : ∀ x a, f' (g x) a = g (f x a)) (l : List α) (x : X) : l.foldl f' (g x) = g (l.foldl f x) := by
  have := foldl_hom g id f f' hf l x
  rwa [List.map_id] at this

theorem extraStep_hom {x : Ctx A} (H : Hom x.O O' h) (t2 to2 : Nat) (acc : St A × A) (e : Nat × A) :
    extraStep (x.to O') t2 to2 (prV h acc) (e.1, h e.2) = prV h (extraStep x t2 to2 acc e) := by
  obtain ⟨st, y⟩ := acc
  unfold extraStep
  have e1 : ((x.to O').O) = O' := rfl
  have e2 : (x.to O').c = x.c := rfl
  have e3 : (x.to O').d = x.d := rfl
  simp only [e1, e2, e3, prV, H.and, H.isZero, H.exE, ensure_hom H, edgeAt_hom H, H.or, H.isEq, H.not, setEdge_hom, addQ_hom]
  generalize (if e.1 = 0 then x.d else 0) = dd
  split
  · rfl
  · simp only [Prod.mk.injEq, and_true]
    split <;> rfl

theorem extrasOf_hom (m : Map A) (isTo t2 to2 : Nat) :
    extrasOf (Map.mapV h m) isTo t2 to2 = (extrasOf m isTo t2 to2).map fun e => (e.1, h e.2) := by
  induction m with
  | nil => rfl
  | cons e m ih =>
    simp only [extrasOf, Map.mapV, List.map_cons, List.filterMap_cons] at ih ⊢
    rw [ih]
    clear ih
    obtain ⟨k, v⟩ := e
    rcases k with _ | ⟨a, _ | ⟨b, _ | ⟨c, _ | ⟨d, _ | ⟨k, r⟩⟩⟩⟩⟩ <;> simp only
    by_cases hh : a = isTo ∧ b = t2 ∧ c = to2
    · simp only [if_pos hh, List.map_cons]
    · simp only [if_neg hh]

theorem primEdge_hom {x : Ctx A} (H : Hom x.O O' h) (isTo lc ld : Nat) (next : A) (st : St A) (e : Nat × Nat) :
    primEdge (x.to O') isTo lc ld (h next) (st.mapV h) e = (primEdge x isTo lc ld next st e).mapV h := by
  have e0 : ((x.to O').O) = O' := rfl
  have e2 : (x.to O').c = x.c := rfl
  have e3 : (x.to O').d = x.d := rfl
  unfold primEdge
  have e1 : (st.mapV h).edges.get? [isTo, e.1, e.2, lc, ld] = (st.edges.get? [isTo, e.1, e.2, lc, ld]).map h := Map.get?_mapV _ _
  rw [e1]
  cases st.edges.get? [isTo, e.1, e.2, lc, ld] with
  | none => rfl
  | some bdd =>
    simp only [Option.map_some, e0, e2, e3, H.and, H.not, H.isZero, ensure_hom H, edgeAt_hom H]
    split
    · rfl
    · rw [show ((ensure x.O st [0, e.1, e.2, x.c, x.d]).mapV h).extra = Map.mapV h (ensure x.O st [0, e.1, e.2, x.c, x.d]).extra from rfl,
        extrasOf_hom]
      rw [show ∀ (s : St A) (y : A), (s.mapV h, h y) = prV h (s, y) from fun _ _ => rfl,
        foldl_hom (prV h) (fun e : Nat × A => (e.1, h e.2)) (extraStep x e.1 e.2) (extraStep (x.to O') e.1 e.2)
          (fun a e' => extraStep_hom H _ _ a e')]
      generalize (extrasOf _ isTo e.1 e.2).foldl (extraStep x e.1 e.2) _ = r
      simp only [prV, H.isZero, edgeAt_hom H, H.exE, H.or, H.isEq, setEdge_hom, addQ_hom]
      split
      · rfl
      · split <;> rfl

theorem outEdges_hom (m : Map A) (v : Nat) : outEdges (Map.mapV h m) v = outEdges m v := by
  unfold outEdges Map.mapV
  rw [List.filterMap_map]
  rfl

/-- The result of a step. -/
def exV (h : A → B) (r : Except Out (St A)) : Except Out (St B) := r.map (St.mapV h)

theorem doPrim_hom {x : Ctx A} (H : Hom x.O O' h) (task isTo lc ld : Nat) (state : A) (st : St A) :
    doPrim (x.to O') task isTo lc ld (h state) (st.mapV h) = exV h (doPrim x task isTo lc ld state st) := by
  have e0 : ((x.to O').O) = O' := rfl
  have e2 : (x.to O').c = x.c := rfl
  have e3 : (x.to O').d = x.d := rfl
  unfold doPrim
  simp only [e0, e2, e3, H.image, H.swapEA, H.isZero]
  split
  · rfl
  · have e1 : (st.mapV h).eps.get? [isTo, x.c, x.d] = (st.eps.get? [isTo, x.c, x.d]).map h := Map.get?_mapV _ _
    rw [e1]
    cases st.eps.get? [isTo, x.c, x.d] with
    | none => rfl
    | some cur =>
      simp only [Option.map_some, H.or, H.isEq, H.goal, H.and, H.isZero]
      split
      · rfl
      · have e4 : ∀ y, ({ st.mapV h with eps := (st.mapV h).eps.set [isTo, x.c, x.d] (h y) } : St B) =
          ({ st with eps := st.eps.set [isTo, x.c, x.d] y } : St A).mapV h := by
          intro y
          simp only [St.mapV, Map.set_mapV]
        simp only [e4]
        have e5 : (st.mapV h).edges = Map.mapV h st.edges := rfl
        rw [e5, outEdges_hom, foldl_hom' (St.mapV h) (primEdge x isTo lc ld (x.O.swapEA (x.O.image task state)))
          (primEdge (x.to O') isTo lc ld (h (x.O.swapEA (x.O.image task state)))) (fun s e => primEdge_hom H _ _ _ _ s e)]
        split <;> rfl

theorem unitMethod_hom {x : Ctx A} (H : Hom x.O O' h) (isTo t : Nat) (state : A) (st : St A) :
    unitMethod (x.to O') isTo t (h state) (st.mapV h) = (unitMethod x isTo t state st).mapV h := by
  have e0 : ((x.to O').O) = O' := rfl
  have e2 : (x.to O').c = x.c := rfl
  have e3 : (x.to O').d = x.d := rfl
  unfold unitMethod
  simp only [e0, e2, e3, ensure_hom H, edgeAt_hom H, H.or, H.isEq, setEdge_hom, addQ_hom]
  split <;> rfl

theorem epsStep_hom {x : Ctx A} (H : Hom x.O O' h) (vm g isTo getHere : Nat) (fresh : A) (acc : St A × A) (l : Nat × Nat) :
    epsStep (x.to O') vm g isTo getHere (h fresh) (prV h acc) l = prV h (epsStep x vm g isTo getHere fresh acc l) := by
  have e0 : ((x.to O').O) = O' := rfl
  have e2 : (x.to O').c = x.c := rfl
  have e3 : (x.to O').d = x.d := rfl
  obtain ⟨st, y⟩ := acc
  unfold epsStep
  have e4 : (st.mapV h).ins = st.ins := rfl
  have e1 : (st.mapV h).eps.get? [vm, l.1, l.2] = (st.eps.get? [vm, l.1, l.2]).map h := Map.get?_mapV _ _
  simp only [prV, e0, e2, e3, e4, e1, H.isZero]
  split
  · rfl
  · split
    · rfl
    · cases st.eps.get? [vm, l.1, l.2] with
      | none => rfl
      | some e =>
        simp only [Option.map_some, H.and, H.isZero, H.exA, H.exE, H.exP, H.not, ensure_hom H, edgeAt_hom H, H.or, H.isEq,
          setEdge_hom, addQ_hom]
        generalize (if l.1 - getHere = 0 then x.d else 0) = dd
        split
        · rfl
        · simp only [Prod.mk.injEq, and_true]
          split <;> rfl

theorem epsLayers_hom (m : Map A) (vm getHere lc : Nat) : epsLayers (Map.mapV h m) vm getHere lc = epsLayers m vm getHere lc := by
  unfold epsLayers Map.mapV
  simp only [List.countP_map]
  rfl

theorem knownStep_hom {x : Ctx A} (H : Hom x.O O' h) (f vm g isTo lc getHere gd : Nat) (fresh : A) (st : St A) (ak : A) :
    knownStep (x.to O') f vm g isTo lc getHere gd (h fresh) (st.mapV h) (h ak) =
      (((knownStep x f vm g isTo lc getHere gd fresh st ak).1.mapV h, h (knownStep x f vm g isTo lc getHere gd fresh st ak).2.1,
        (knownStep x f vm g isTo lc getHere gd fresh st ak).2.2) : St B × B × Bool) := by
  have e0 : ((x.to O').O) = O' := rfl
  have e2 : (x.to O').c = x.c := rfl
  have e3 : (x.to O').d = x.d := rfl
  unfold knownStep
  simp only [e0, e2, ensure_hom H, edgeAt_hom H, H.and, H.isZero, H.swapPE, H.exA, H.not]
  split
  · rfl
  · rw [show ((ensure x.O st [0, f, vm, getHere, gd]).mapV h).eps = Map.mapV h (ensure x.O st [0, f, vm, getHere, gd]).eps from rfl,
      epsLayers_hom, show ∀ (s : St A) (y : A), (s.mapV h, h y) = prV h (s, y) from fun _ _ => rfl,
      foldl_hom' (prV h) (epsStep x vm g isTo getHere fresh) (epsStep (x.to O') vm g isTo getHere (h fresh))
        (fun s e => epsStep_hom H _ _ _ _ _ s e)]
    generalize List.foldl (epsStep x vm g isTo getHere fresh) _ _ = r
    obtain ⟨s, y⟩ := r
    simp only [prV, Prod.mk.injEq, and_true]
    split
    · rfl
    · have e1 : ∀ k, ((s.mapV h).extra.get? k).getD O'.zero = h ((s.extra.get? k).getD x.O.zero) := by
        intro k
        simp only [St.mapV, Map.get?_mapV, H.zero]
        cases s.extra.get? k <;> rfl
      rw [e1, H.or]
      simp only [St.mapV, Map.set_mapV]

theorem knownLoop_hom {x : Ctx A} (H : Hom x.O O' h) (f vm g isTo lc getHere : Nat) (fresh : A) (l : List Nat) (st : St A) (ak : A) :
    knownLoop (x.to O') f vm g isTo lc getHere (h fresh) l (st.mapV h) (h ak) = prV h (knownLoop x f vm g isTo lc getHere fresh l st ak) := by
  induction l generalizing st ak with
  | nil => rfl
  | cons gd r ih =>
    have e0 : ((x.to O').O) = O' := rfl
    unfold knownLoop
    simp only [knownStep_hom H, e0, H.isZero, ih]
    split <;> rfl

theorem maxDepth_hom (m : Map A) (a t u c : Nat) : maxDepth (Map.mapV h m) a t u c = maxDepth m a t u c := by
  unfold maxDepth Map.mapV
  rw [List.filterMap_map]
  rfl

theorem getHereStep_hom {x : Ctx A} (H : Hom x.O O' h) (f vm g isTo lc : Nat) (fresh : A) (acc : St A × A) (getHere : Nat) :
    getHereStep (x.to O') f vm g isTo lc (h fresh) (prV h acc) getHere = prV h (getHereStep x f vm g isTo lc fresh acc getHere) := by
  obtain ⟨st, y⟩ := acc
  unfold getHereStep
  have e1 : (prV h (st, y)).1.edges = Map.mapV h st.edges := rfl
  simp only [e1, maxDepth_hom]
  cases maxDepth st.edges 0 f vm getHere with
  | none => rfl
  | some ld => exact knownLoop_hom H _ _ _ _ _ _ _ _ _ _

theorem twoMethod_hom {x : Ctx A} (H : Hom x.O O' h) (isTo lc ld vm f g : Nat) (state : A) (st : St A) :
    twoMethod (x.to O') isTo lc ld vm f g (h state) (st.mapV h) = (twoMethod x isTo lc ld vm f g state st).mapV h := by
  have e0 : ((x.to O').O) = O' := rfl
  have e2 : (x.to O').c = x.c := rfl
  have e3 : (x.to O').d = x.d := rfl
  have key : ∀ (b : Bool) (s : St A) (y fr : A), (if b = true then s.mapV h
      else ((List.range (lc + 1)).foldl (getHereStep (x.to O') f vm g isTo lc (h fr)) (s.mapV h, h y)).1) =
      (if b = true then s else ((List.range (lc + 1)).foldl (getHereStep x f vm g isTo lc fr) (s, y)).1).mapV h := by
    intro b s y fr
    split
    · rfl
    · rw [show (s.mapV h, h y) = prV h (s, y) from rfl,
        foldl_hom' (prV h) (getHereStep x f vm g isTo lc fr) (getHereStep (x.to O') f vm g isTo lc (h fr))
          (fun s e => getHereStep_hom H _ _ _ _ _ _ s e)]
      rfl
  unfold twoMethod
  simp only [e0, e2, e3, H.swapPE, ensure_hom H, edgeAt_hom H, H.and, H.isZero, H.exA, H.not, H.biimp, key, H.or, setEdge_hom, H.isEq, addQ_hom]
  generalize (ite (x.O.isZero _ = true) _ _ : St A) = s0
  split <;> rfl

theorem doMethod_hom {x : Ctx A} (H : Hom x.O O' h) (isTo lc ld : Nat) (state : A) (st : St A) (m : Nat) :
    doMethod (x.to O') isTo lc ld (h state) (st.mapV h) m = exV h (doMethod x isTo lc ld state st m) := by
  unfold doMethod
  have e1 : (x.to O').P = x.P := rfl
  rw [e1]
  split
  · rfl
  · rw [unitMethod_hom H]; rfl
  · cases taskPair x.P m with
    | none => rfl
    | some p => simp only [twoMethod_hom H]; rfl

theorem foldlM_hom {α : Type} (f : St A → α → Except Out (St A)) (f' : St B → α → Except Out (St B))
    (hf : ∀ s a, f' (s.mapV h) a = exV h (f s a)) (l : List α) (s : St A) : l.foldlM f' (s.mapV h) = exV h (l.foldlM f s) := by
  induction l generalizing s with
  | nil => rfl
  | cons a l ih =>
    rw [List.foldlM_cons, List.foldlM_cons, hf]
    cases f s a with
    | error o => rfl
    | ok s' => exact ih s'

theorem doInfo_hom {x : Ctx A} (H : Hom x.O O' h) (task isTo source : Nat) (st : St A) :
    doInfo (x.to O') task isTo source (st.mapV h) = exV h (doInfo x task isTo source st) := by
  have e0 : ((x.to O').O) = O' := rfl
  have e1 : (x.to O').P = x.P := rfl
  have e2 : (x.to O').c = x.c := rfl
  have e3 : (x.to O').d = x.d := rfl
  have e4 : (x.to O').nA = x.nA := rfl
  unfold doInfo
  have e5 : (st.mapV h).edges = Map.mapV h st.edges := rfl
  simp only [e0, e1, e2, e3, e4, e5, maxDepth_hom]
  split
  · rfl
  · next lc ld _ =>
    rw [Map.get?_mapV]
    cases st.edges.get? [0, task, isTo, lc, ld] with
    | none => rfl
    | some state =>
      simp only [Option.map_some, H.isZero]
      split
      · rfl
      · split
        · exact doPrim_hom H _ _ _ _ _ _
        · exact foldlM_hom _ _ (fun s m => doMethod_hom H _ _ _ _ s m) _ _

theorem doEntry_hom {x : Ctx A} (H : Hom x.O O' h) (st : St A) (e : (Nat × Nat) × List Info) :
    doEntry (x.to O') (st.mapV h) e = exV h (doEntry x st e) :=
  foldlM_hom _ _ (fun s a => doInfo_hom H _ _ a s) _ _

theorem copyLayer_hom (H : Hom O O' h) (nV c d c' d' : Nat) (st : St A) :
    copyLayer O' nV c d c' d' (st.mapV h) = (copyLayer O nV c d c' d' st).mapV h := by
  unfold copyLayer
  have e5 : (st.mapV h).edges = st.edges.map fun e => (e.1, h e.2) := rfl
  rw [e5]
  simp only
  rw [foldl_hom (St.mapV h) (fun e : List Nat × A => (e.1, h e.2))]
  rotate_left 1
  · exact fun st e => match e.1 with
      | [a, t, u, lc, ld] =>
        if lc = c ∧ ld = d then
          let k := [a, t, u, c', d']
          let st := ensure O st k
          { st with edges := st.edges.set k (O.or (edgeAt O st k) e.2) }
        else st
      | _ => st
  · intro s e
    obtain ⟨k, y⟩ := e
    simp only
    split
    · next a t u lc ld =>
      by_cases hh : lc = c ∧ ld = d
      · simp only [if_pos hh, ensure_hom H, edgeAt_hom H, H.or, setEdge_hom]
      · simp only [if_neg hh]
    · next hk =>
      split
      · exact absurd rfl (hk _ _ _ _ _)
      · rfl
  refine foldl_hom' (St.mapV h) _ _ ?_ _ _
  intro s v
  have : ∀ k, ((s.mapV h).eps.get? k).getD O'.zero = h ((s.eps.get? k).getD O.zero) := by
    intro k
    simp only [St.mapV, Map.get?_mapV, H.zero]
    cases s.eps.get? k <;> rfl
  rw [this]
  simp only [St.mapV, Map.set_mapV]

theorem runLoop_hom (H : Hom O O' h) (P : Problem) (nA nV fuel : Nat) (c d : Nat) (q : List ((Nat × Nat) × List Info)) (st : St A) :
    runLoop O' P nA nV fuel c d q (st.mapV h) = runLoop O P nA nV fuel c d q st := by
  induction fuel generalizing c d q st with
  | zero => rfl
  | succ n ih =>
    unfold runLoop
    have := foldlM_hom (h := h) (doEntry ⟨O, P, nA, c, d⟩) (doEntry ⟨O', P, nA, c, d⟩) (fun s e => doEntry_hom (x := ⟨O, P, nA, c, d⟩) H s e) q st
    rw [this]
    cases q.foldlM (doEntry ⟨O, P, nA, c, d⟩) st with
    | error o => rfl
    | ok s =>
      simp only [exV, Except.map]
      rw [show nextLayer (s.mapV h) c d = nextLayer s c d from rfl]
      cases nextLayer s c d with
      | error o => rfl
      | ok r =>
        simp only
        rw [copyLayer_hom H, ih]

/-- Both representations give the same outcome. -/
theorem buildAutomaton_hom (H : Hom O O' h) (P : Problem) (nA fuel : Nat) :
    buildAutomaton O' P nA fuel = buildAutomaton O P nA fuel := by
  unfold buildAutomaton
  have : startSt O' P = (startSt O P).mapV h := by
    simp only [startSt, St.mapV, Map.mapV, List.map_cons, List.map_nil, H.init, H.zero, List.map_map]
    rfl
  rw [this, runLoop_hom H]

end Verif.Sym
