import Verif.ToHddl
import Verif.HtnLemmas

/-! # Model of `HTNToSASTranslation::planToHddl` for plans of the translations of partially ordered problems

src/translation/htnToSAS.cpp 2520-2736.  The lines of the plan are given by the names of their operators; parsing the names is not
modelled.  The names of these translations have no `firstPrim[.]` (htnToSAS.cpp 913-946, 1359, 1426-1470, 1672, 1813-1835), but the
cells of the subtasks of a method are those listed in its name, and lines `move(...)` change them. -/

namespace Verif.Sas

open Verif.Htn Relation

/-- A line of the plan: `primitive(id[a],head[h])`, `method(id[m],head[h],subtasks[cells])`, `move(...,from[f],to[t])`, or another line,
which is skipped. -/
inductive OLine
  | prim (a h : Nat)
  | meth (m h : Nat) (cells : List Nat)
  | move (f t : Nat)
  | other
deriving DecidableEq, Repr

/-- `primNumMax`, lines 2553-2568. -/
def plPrims : List OLine → Nat
  | [] => 0
  | .prim _ _ :: ls => 1 + plPrims ls
  | _ :: ls => plPrims ls

/-- `methNumMax`, lines 2553-2568. -/
def plMeths : List OLine → Nat
  | [] => 0
  | .meth _ _ _ :: ls => 1 + plMeths ls
  | _ :: ls => plMeths ls

/-- A line with a number (`order`); its task is `primIndex` or `decomposedTask` of its method. -/
structure PEnt where
  line : OLine
  id : Nat
deriving DecidableEq, Repr

/-- The numbers given by the loop of lines 2583-2663: `p` is `primNum`, `q` is `methNum`, `N` is `primNumMax`; the lines with
`order[i] == -1` are left out. -/
def plEnts (N : Nat) : List OLine → Nat → Nat → List PEnt
  | [], _, _ => []
  | .prim a h :: ls, p, q => ⟨.prim a h, p⟩ :: plEnts N ls (p + 1) q
  | .meth m h cells :: ls, p, q => ⟨.meth m h cells, N + q⟩ :: plEnts N ls p (q + 1)
  | _ :: ls, p, q => plEnts N ls p q

/-- The actions printed by line 2606. -/
def plActs : List PEnt → List (Nat × Nat)
  | [] => []
  | e :: es => match e.line with
    | .prim a _ => (e.id, a) :: plActs es
    | _ => plActs es

/-- `subHeads[j]` and `subHeadsFixed[j]` of one method: the first entry that is not fixed and has the cell `h` is changed by `g`
(the inner loops of lines 2596-2602 and 2654-2660). -/
def updHead (h : Nat) (g : Nat × Bool → Nat × Bool) : List (Nat × Bool) → Option (List (Nat × Bool))
  | [] => none
  | x :: r => if x.2 = false ∧ x.1 = h then some (g x :: r) else (updHead h g r).map (x :: ·)

/-- The loops over the methods, the newest one first (lines 2594-2605 and 2649-2661). -/
def updHeads (h : Nat) (g : Nat × Bool → Nat × Bool) : List (List (Nat × Bool)) → List (List (Nat × Bool))
  | [] => []
  | l :: r => match updHead h g l with
    | some l' => l' :: r
    | none => l :: updHeads h g r

/-- What the loop of lines 2583-2663 does with `subHeads` and `subHeadsFixed` of the methods, the newest one first. -/
def plHeads : List OLine → List (List (Nat × Bool)) → List (List (Nat × Bool))
  | [], H => H
  | .prim _ h :: ls, H => plHeads ls (updHeads h (fun x => (x.1, true)) H)
  | .meth _ _ cells :: ls, H => plHeads ls (cells.map (fun c => (c, false)) :: H)
  | .move f t :: ls, H => plHeads ls (updHeads f (fun x => (t, x.2)) H)
  | .other :: ls, H => plHeads ls H

/-- The search for the line of a subtask, lines 2699-2726 (`none`: -1 is printed). -/
def plFind (P : Problem) (t h : Nat) (es : List PEnt) : Option Nat :=
  (es.find? fun e => match e.line with
    | .prim a k => a == t && k == h
    | .meth m k _ => P.head m == t && k == h
    | _ => false).map PEnt.id

/-- The lines of the methods, lines 2679-2730; `H` are the cells of the subtasks of the methods, `order` is `subTasksInOrder`. -/
def plDecs (P : Problem) (order : Nat → List Nat) : List PEnt → List (List Nat) → List HLine
  | [], _ => []
  | e :: es, H => match e.line with
    | .meth m _ _ => ⟨e.id, P.head m, m, (List.range (P.sub m).length).reverse.map fun j =>
        plFind P ((order m)[j]?.getD 0) ((H.headD [])[j]?.getD 0) es⟩ :: plDecs P order es H.tail
    | _ => plDecs P order es H

/-- `planToHddl`, htnToSAS.cpp 2520-2736. -/
def planToHddlPO (P : Problem) (order : Nat → List Nat) (ls : List OLine) : HOut :=
  let N := plPrims ls
  let es := plEnts N ls 0 0
  ⟨plActs es, N, plDecs P order es ((plHeads ls []).reverse.map fun l => l.map Prod.fst)⟩

/-! ## Without moves the cells of the subtasks are those of the names -/

/-- The cells in the names of the methods. -/
def plCells : List OLine → List (List Nat)
  | [] => []
  | .meth _ _ cells :: ls => cells :: plCells ls
  | _ :: ls => plCells ls

theorem updHead_fst {h : Nat} {g : Nat × Bool → Nat × Bool} (hg : ∀ x, (g x).1 = x.1) : ∀ {l l' : List (Nat × Bool)}, updHead h g l = some l' →
    l'.map Prod.fst = l.map Prod.fst := by
  intro l
  induction l with
  | nil => intro l' h; cases h
  | cons x r ih =>
    intro l' h'
    rw [updHead] at h'
    split at h'
    · cases h'
      simp [hg]
    · obtain ⟨l'', h1, rfl⟩ := Option.map_eq_some_iff.1 h'
      simp [ih h1]

theorem updHeads_fst {h : Nat} {g : Nat × Bool → Nat × Bool} (hg : ∀ x, (g x).1 = x.1) : ∀ (H : List (List (Nat × Bool))),
    (updHeads h g H).map (fun l => l.map Prod.fst) = H.map fun l => l.map Prod.fst := by
  intro H
  induction H with
  | nil => rfl
  | cons l r ih =>
    rw [updHeads]
    cases hu : updHead h g l with
    | none => simpa using ih
    | some l' => simpa using updHead_fst hg hu

theorem plHeads_noMove : ∀ (ls : List OLine) (H : List (List (Nat × Bool))), (∀ f t, .move f t ∉ ls) →
    (plHeads ls H).reverse.map (fun l => l.map Prod.fst) = (H.reverse.map fun l => l.map Prod.fst) ++ plCells ls := by
  intro ls
  induction ls with
  | nil => intro H _; simp [plHeads, plCells]
  | cons x ls ih =>
    intro H hm
    have hm' : ∀ f t, OLine.move f t ∉ ls := fun f t h => hm f t (.tail _ h)
    cases x with
    | prim a h =>
      rw [plHeads, ih _ hm', List.map_reverse, updHeads_fst (g := fun x => (x.1, true)) (fun _ => rfl), List.map_reverse]
      rfl
    | meth m h cells =>
      rw [plHeads, ih _ hm', plCells]
      simp [Function.comp_def]
    | move f t => exact absurd (.head _) (hm f t)
    | other => exact ih H hm'

/-! ## Plans that work off a network whose tasks are in cells -/

/-- Executing the lines works off the network: each task is in a cell of its own until it is worked off. -/
inductive CellRun (P : Problem) : Finset Nat → (Nat → Nat) → (Nat → Nat → Prop) → (Nat → Nat) → List OLine → Prop
  | nil {lab : Nat → Nat} {lt : Nat → Nat → Prop} {c : Nat → Nat} : CellRun P ∅ lab lt c []
  | other {I : Finset Nat} {lab : Nat → Nat} {lt lt' : Nat → Nat → Prop} {c : Nat → Nat} {ls : List OLine} :
      (∀ u ∈ I, ∀ v ∈ I, lt u v → lt' u v) → CellRun P I lab lt' c ls → CellRun P I lab lt c (.other :: ls)
  | prim {I : Finset Nat} {lab : Nat → Nat} {lt lt' : Nat → Nat → Prop} {c : Nat → Nat} {u : Nat} {ls : List OLine} :
      u ∈ I → P.prim (lab u) = true → (∀ v ∈ I, c v = c u → v = u) → (∀ v ∈ I, ¬ lt v u) →
      (∀ v ∈ I.erase u, ∀ w ∈ I.erase u, lt v w → lt' v w) → CellRun P (I.erase u) lab lt' c ls →
      CellRun P I lab lt c (.prim (lab u) (c u) :: ls)
  | meth {I I' : Finset Nat} {lab lab' : Nat → Nat} {lt lt' : Nat → Nat → Prop} {c c' : Nat → Nat} {u m b : Nat} {cells : List Nat}
      {ls : List OLine} : m < P.numMethods → P.head m = lab u → u ∈ I → (∀ v ∈ I, c v = c u → v = u) → ¬ lt u u →
      Subst P I lab lt u m b I' lab' lt' → (∀ v ∈ I, v ≠ u → c' v = c v) →
      (∀ i < (P.sub m).length, cells[(P.sub m).length - 1 - i]? = some (c' (b + i))) → CellRun P I' lab' lt' c' ls →
      CellRun P I lab lt c (.meth m (c u) cells :: ls)

/-- Following the numbers of the subtasks: `Follow D k p l`, from line `k` along the positions `p` to line `l`. -/
inductive Follow (D : List Pdt.DLine) : Nat → List Nat → Nat → Prop
  | nil (k : Nat) : Follow D k [] k
  | cons {d : Pdt.DLine} {i k l : Nat} {p : List Nat} : d ∈ D → d.subs[i]? = some k → Follow D k p l → Follow D d.id (i :: p) l

theorem Follow.mono {D D' : List Pdt.DLine} (h : ∀ d ∈ D, d ∈ D') {k l : Nat} {p : List Nat} (hf : Follow D k p l) : Follow D' k p l := by
  induction hf with
  | nil k => exact .nil k
  | cons hd hs _ ih => exact .cons (h _ hd) hs ih

/-- What is known about the numbers given from some line on, for a network. -/
structure CPrinted (P : Problem) (order : Nat → List Nat) (N : Nat) (I : Finset Nat) (lab : Nat → Nat) (lt : Nat → Nat → Prop) (c : Nat → Nat)
    (ls : List OLine) (p q : Nat) (tr : Nat → Tree) (occ : List (Nat × List Nat)) (id : Nat → Nat) (D : List Pdt.DLine) : Prop where
  lin : LinNet P I lab lt tr occ ((plActs (plEnts N ls p q)).map Prod.snd)
  find : ∀ u ∈ I, plFind P (lab u) (c u) (plEnts N ls p q) = some (id u)
  decs : plDecs P order (plEnts N ls p q) (plCells ls) = D.map toH
  meths : ∀ d ∈ D, ∃ m, d.meth = some m
  reads : ∀ A D', (∀ x ∈ plActs (plEnts N ls p q), x ∈ A) → (∀ d ∈ D, d ∈ D') → ∀ u ∈ I,
    Pdt.Reads P (fun m => List.range (P.sub m).length) A D' (id u) (tr u)
  follow : ∀ (n u : Nat) (l : List Nat), occ[n]? = some (u, l) → Follow D (id u) l (p + n)
  decIds : D.map Pdt.DLine.id = List.range' (N + q) (plMeths ls)
  once : ∀ z, (∑ u ∈ I, if id u = z then 1 else 0) + (D.flatMap Pdt.DLine.subs).count z =
    (List.range' p (plPrims ls)).count z + (List.range' (N + q) (plMeths ls)).count z
  actIds : (plActs (plEnts N ls p q)).map Prod.fst = List.range' p (plPrims ls)

section

variable {P : Problem}

theorem _root_.Verif.Htn.LinNet.congr' {I : Finset Nat} {lab : Nat → Nat} {lt lt' : Nat → Nat → Prop} {tr : Nat → Tree} {occ : List (Nat × List Nat)} {π : List Nat}
    (h : LinNet P I lab lt' tr occ π) (ho : ∀ u ∈ I, ∀ v ∈ I, lt u v → lt' u v) : LinNet P I lab lt tr occ π := by
  refine ⟨h.valid, h.nodup, h.all, h.order.imp_of_mem fun {x y} hx hy hnb hb => hnb ?_, h.labels⟩
  rcases hb with hb | hb
  · exact .inl hb
  · exact .inr (ho _ ((h.all y).1 hy).1 _ ((h.all x).1 hx).1 hb)

theorem _root_.Verif.Htn.LinNet.progress' {I : Finset Nat} {lab : Nat → Nat} {lt : Nat → Nat → Prop} {tr : Nat → Tree} {occ : List (Nat × List Nat)} {π : List Nat}
    {u : Nat} (hu : u ∈ I) (hp : P.prim (lab u) = true) (hmin : ∀ v ∈ I, ¬ lt v u) (h : LinNet P (I.erase u) lab lt tr occ π) :
    LinNet P I lab lt (fun v => if v = u then .leaf (lab u) else tr v) ((u, []) :: occ) (lab u :: π) := by
  classical
  set tr' : Nat → Tree := fun v => if v = u then .leaf (lab u) else tr v with htr'
  have htu : tr' u = .leaf (lab u) := by simp [htr']
  have htv : ∀ v, v ≠ u → tr' v = tr v := fun v hv => by simp [htr', hv]
  have hocc : ∀ x ∈ occ, x.1 ≠ u := fun x hx => (Finset.mem_erase.1 ((h.all x).1 hx).1).1
  refine ⟨?_, ?_, ?_, ?_, ?_⟩
  · intro v hv'
    by_cases hvu : v = u
    · subst hvu; rw [htu]; exact .leaf hp
    · rw [htv v hvu]; exact h.valid v (Finset.mem_erase.2 ⟨hvu, hv'⟩)
  · exact List.nodup_cons.2 ⟨fun hx => hocc _ hx rfl, h.nodup⟩
  · rintro ⟨v, p⟩
    by_cases hvu : v = u
    · subst hvu
      simp only [List.mem_cons, htu]
      constructor
      · rintro (h | h)
        · cases h; exact ⟨hu, _, .here⟩
        · exact absurd rfl (hocc _ h)
      · rintro ⟨_, a, hl⟩
        obtain ⟨rfl, _⟩ := leafAt_leaf.1 hl
        exact .inl rfl
    · simp only [List.mem_cons, htv v hvu]
      rw [h.all]
      simp [hvu]
  · refine List.pairwise_cons.2 ⟨fun x hx => ?_, ?_⟩
    · rintro (⟨h, _⟩ | h')
      · exact hocc x hx h
      · exact hmin _ (Finset.mem_of_mem_erase ((h.all x).1 hx).1) h'
    · refine h.order.imp_of_mem (fun {x y} hx hy hnb hb => hnb ?_)
      rcases hb with ⟨h1, h2⟩ | hb
      · refine .inl ⟨h1, ?_⟩
        rwa [htv _ (hocc y hy)] at h2
      · exact .inr hb
  · refine .cons (by rw [htu]; exact .here) (forall₂_imp_mem h.labels fun x hx a hla => ?_)
    rwa [htv _ (hocc x hx)]

/-- The occurrences of leaves after hanging the trees of the subtasks below `u`. -/
def hang (u b : Nat) (x : Nat × List Nat) : Nat × List Nat := if x.1 < b then x else (u, (x.1 - b) :: x.2)

theorem _root_.Verif.Htn.LinNet.of_subst' {I I' : Finset Nat} {lab lab' : Nat → Nat} {lt lt' : Nat → Nat → Prop} {u m b : Nat} {tr' : Nat → Tree}
    {occ : List (Nat × List Nat)} {π : List Nat}
    (hm : m < P.numMethods) (hhead : P.head m = lab u) (hu : u ∈ I) (hirr : ¬ lt u u)
    (S : Subst P I lab lt u m b I' lab' lt') (hL : LinNet P I' lab' lt' tr' occ π) :
    LinNet P I lab lt (fun v => if v = u then .node m (fun i => tr' (b + i)) else tr' v) (occ.map (hang u b)) π := by
  classical
  set tr : Nat → Tree := fun v => if v = u then .node m (fun i => tr' (b + i)) else tr' v with htr
  have htu : tr u = .node m (fun i => tr' (b + i)) := by simp [htr]
  have htv : ∀ v, v ≠ u → tr v = tr' v := fun v hv => by simp [htr, hv]
  have hub : u < b := S.fresh u hu
  have hf_old : ∀ v p, v ∈ I → hang u b (v, p) = (v, p) := fun v p hv => by simp [hang, S.fresh v hv]
  have hf_new : ∀ i p, hang u b (b + i, p) = (u, i :: p) := fun i p => by simp [hang]
  have hcase : ∀ x ∈ occ, (∃ v p, x = (v, p) ∧ v ∈ I ∧ v ≠ u) ∨
      ∃ i p, x = (b + i, p) ∧ i < (P.sub m).length := by
    rintro ⟨v, p⟩ hx
    rcases (S.mem v).1 ((hL.all _).1 hx).1 with ⟨h1, h2⟩ | ⟨i, hi, rfl⟩
    · exact .inl ⟨v, p, rfl, h1, h2⟩
    · exact .inr ⟨i, p, rfl, hi⟩
  refine ⟨?_, ?_, ?_, ?_, ?_⟩
  · intro v hv
    by_cases hvu : v = u
    · subst hvu
      rw [htu, ← hhead]
      refine .node hm fun i t ht => ?_
      have hi : i < (P.sub m).length := (List.getElem?_eq_some_iff.1 ht).1
      have := hL.valid (b + i) ((S.mem _).2 (.inr ⟨i, hi, rfl⟩))
      rwa [S.lab_new i t ht] at this
    · rw [htv v hvu, ← S.lab_old v hv hvu]
      exact hL.valid v ((S.mem v).2 (.inl ⟨hv, hvu⟩))
  · refine List.Nodup.map_on ?_ hL.nodup
    intro x hx y hy hxy
    rcases hcase x hx with ⟨v, p, rfl, h1, h2⟩ | ⟨i, p, rfl, hi⟩ <;>
      rcases hcase y hy with ⟨w, q, rfl, h3, h4⟩ | ⟨j, q, rfl, hj⟩
    · rwa [hf_old v p h1, hf_old w q h3] at hxy
    · rw [hf_old v p h1, hf_new] at hxy; cases hxy; exact absurd rfl h2
    · rw [hf_new, hf_old w q h3] at hxy; cases hxy; exact absurd rfl h4
    · rw [hf_new, hf_new] at hxy; cases hxy; rfl
  · rintro ⟨v, p⟩
    rw [List.mem_map]
    constructor
    · rintro ⟨x, hx, hfx⟩
      obtain ⟨_, a, hla⟩ := (hL.all x).1 hx
      rcases hcase x hx with ⟨w, q, rfl, h1, h2⟩ | ⟨i, q, rfl, hi⟩
      · rw [hf_old w q h1] at hfx; cases hfx
        exact ⟨h1, a, by rw [htv _ h2]; exact hla⟩
      · rw [hf_new] at hfx; cases hfx
        exact ⟨hu, a, by simp only [htu]; exact .child hi hla⟩
    · rintro ⟨hv, a, hla⟩
      simp only at hv hla
      by_cases hvu : v = u
      · subst hvu
        rw [htu] at hla
        obtain ⟨i, q, rfl, hi, hq⟩ := leafAt_node.1 hla
        exact ⟨(b + i, q), (hL.all _).2 ⟨(S.mem _).2 (.inr ⟨i, hi, rfl⟩), a, hq⟩, hf_new i q⟩
      · rw [htv v hvu] at hla
        exact ⟨(v, p), (hL.all _).2 ⟨(S.mem _).2 (.inl ⟨hv, hvu⟩), a, hla⟩, hf_old v p hv⟩
  · rw [List.pairwise_map]
    refine hL.order.imp_of_mem (fun {x y} hx hy hnb hb => hnb ?_)
    rcases hcase x hx with ⟨v, p, rfl, h1, h2⟩ | ⟨i, p, rfl, hi⟩ <;>
      rcases hcase y hy with ⟨w, q, rfl, h3, h4⟩ | ⟨j, q, rfl, hj⟩
    · rw [hf_old v p h1, hf_old w q h3] at hb
      rcases hb with ⟨hb1, hb2⟩ | hb
      · exact .inl ⟨hb1, by simpa only [htv w h4] using hb2⟩
      · exact .inr ((S.lt_old w h3 v h1 h4 h2).2 hb)
    · rw [hf_old v p h1, hf_new] at hb
      rcases hb with ⟨hb1, hb2⟩ | hb
      · exact absurd hb1.symm h2
      · exact .inr ((S.lt_new_old j v hj h1 h2).2 hb)
    · rw [hf_new, hf_old w q h3] at hb
      rcases hb with ⟨hb1, hb2⟩ | hb
      · exact absurd hb1 h4
      · exact .inr ((S.lt_old_new w i h3 h4 hi).2 hb)
    · rw [hf_new, hf_new] at hb
      rcases hb with ⟨_, hb2⟩ | hb
      · simp only [htu] at hb2
        rcases before_node_iff.1 hb2 with ⟨rfl, hb3⟩ | hb3
        · exact .inl ⟨rfl, hb3⟩
        · exact .inr ((S.lt_new j i hj hi).2 hb3)
      · exact absurd hb hirr
  · rw [forall₂_map_left']
    refine forall₂_imp_mem hL.labels ?_
    intro x hx a hla
    rcases hcase x hx with ⟨w, q, rfl, h1, h2⟩ | ⟨i, q, rfl, hi⟩
    · rw [hf_old w q h1]; simpa only [htv w h2] using hla
    · rw [hf_new]; simp only [htu]; exact .child hi hla

theorem plFind_skip {t h : Nat} {e : PEnt} {es : List PEnt} (hne : ∀ a k, e.line = .prim a k → k ≠ h)
    (hne' : ∀ m k cs, e.line = .meth m k cs → k ≠ h) : plFind P t h (e :: es) = plFind P t h es := by
  rw [plFind, List.find?_cons_of_neg, plFind]
  cases hl : e.line with
  | prim a k => simp [hne a k hl]
  | meth m k cs => simp [hne' m k cs hl]
  | move f t => simp
  | other => simp

theorem cprinted_of_run {order : Nat → List Nat} (hord : ∀ m < P.numMethods, order m = (P.sub m).reverse) (N : Nat) {I : Finset Nat}
    {lab : Nat → Nat} {lt : Nat → Nat → Prop} {c : Nat → Nat} {ls : List OLine} (h : CellRun P I lab lt c ls) :
    ∀ p q, ∃ tr occ id D, CPrinted P order N I lab lt c ls p q tr occ id D := by
  induction h with
  | @nil lab lt c =>
    intro p q
    refine ⟨fun _ => .leaf 0, [], id, [], ⟨?_, ?_, ?_, ?_, .nil⟩, ?_, rfl, ?_, ?_, ?_, rfl, ?_, rfl⟩ <;> simp [plPrims, plMeths]
  | @other I lab lt lt' c ls ho _ ih =>
    intro p q
    obtain ⟨tr, occ, id, D, h⟩ := ih p q
    exact ⟨tr, occ, id, D, h.lin.congr' ho, h.find, h.decs, h.meths, h.reads, h.follow, h.decIds, h.once, h.actIds⟩
  | @prim I lab lt lt' c u ls hu hp hinj hmin ho _ ih =>
    intro p q
    obtain ⟨tr, occ, id, D, h⟩ := ih (p + 1) q
    have hne : ∀ v ∈ I, v ≠ u → v ∈ I.erase u := fun v hv hvu => Finset.mem_erase.2 ⟨hvu, hv⟩
    refine ⟨_, _, fun v => if v = u then p else id v, D, (h.lin.congr' ho).progress' hu hp hmin, ?_, h.decs, h.meths, ?_, ?_, h.decIds, ?_, ?_⟩
    · intro v hv
      by_cases hvu : v = u
      · subst hvu
        simp [plFind, plEnts]
      · rw [plEnts, plFind_skip (by rintro _ _ ⟨⟩ e; exact hvu (hinj v hv e.symm)) (by rintro _ _ _ ⟨⟩), if_neg hvu]
        exact h.find v (hne v hv hvu)
    · intro A D' hA hD v hv
      by_cases hvu : v = u
      · subst hvu
        simp only [if_pos rfl]
        exact .leaf (hA _ (by simp [plEnts, plActs]))
      · simp only [if_neg hvu]
        exact h.reads A D' (fun y hy => hA y (by rw [plEnts, plActs]; exact .tail _ hy)) hD v (hne v hv hvu)
    · intro n v l hn
      cases n with
      | zero =>
        simp only [List.getElem?_cons_zero, Option.some.injEq, Prod.mk.injEq] at hn
        obtain ⟨rfl, rfl⟩ := hn
        simp only [if_pos rfl]
        exact .nil _
      | succ n =>
        simp only [List.getElem?_cons_succ] at hn
        have hm := List.mem_of_getElem? hn
        have hvu : v ≠ u := (Finset.mem_erase.1 ((h.lin.all _).1 hm).1).1
        simp only [if_neg hvu]
        have := h.follow n v l hn
        rwa [show p + (n + 1) = p + 1 + n by omega]
    · intro z
      have h1 := h.once z
      rw [← Finset.add_sum_erase I _ hu, plPrims, Nat.add_comm 1, List.range'_succ, plMeths, List.count_cons]
      simp only [if_true, beq_iff_eq]
      have : ∑ v ∈ I.erase u, (if (if v = u then p else id v) = z then 1 else 0) = ∑ v ∈ I.erase u, if id v = z then 1 else 0 :=
        Finset.sum_congr rfl fun v hv => by rw [if_neg (Finset.ne_of_mem_erase hv)]
      rw [this]
      · omega
      · rintro _ _ _ ⟨⟩
    · rw [plEnts, plActs, List.map_cons, h.actIds, plPrims, Nat.add_comm 1, List.range'_succ]
  | @meth I I' lab lab' lt lt' c c' u m b cells ls hm hh hu hinj hirr S hc hcells _ ih =>
    intro p q
    obtain ⟨tr, occ, id, D, h⟩ := ih p (q + 1)
    have hub := S.fresh u hu
    have hne : ∀ v ∈ I, v ≠ u → v ∈ I' := fun v hv hvu => (S.mem v).2 (.inl ⟨hv, hvu⟩)
    have hnew : ∀ i < (P.sub m).length, b + i ∈ I' := fun i hi => (S.mem _).2 (.inr ⟨i, hi, rfl⟩)
    have hents : plEnts N (.meth m (c u) cells :: ls) p q = ⟨.meth m (c u) cells, N + q⟩ :: plEnts N ls p (q + 1) := rfl
    have hacts : plActs (plEnts N (.meth m (c u) cells :: ls) p q) = plActs (plEnts N ls p (q + 1)) := rfl
    let d : Pdt.DLine := ⟨N + q, P.head m, some m, (List.range (P.sub m).length).map fun i => id (b + i)⟩
    refine ⟨_, _, fun v => if v = u then N + q else id v, d :: D, h.lin.of_subst' hm hh hu hirr S, ?_, ?_, ?_, ?_, ?_, ?_, ?_, ?_⟩
    · intro v hv
      rw [hents]
      by_cases hvu : v = u
      · subst hvu
        simp [plFind, hh]
      · rw [plFind_skip (by rintro _ _ ⟨⟩) (by rintro _ _ _ ⟨⟩ e; exact hvu (hinj v hv e.symm)), if_neg hvu, ← hc v hv hvu, ← S.lab_old v hv hvu]
        exact h.find v (hne v hv hvu)
    · rw [hents, plDecs, plCells, List.tail_cons, h.decs, List.map_cons]
      simp only [toH, d, List.headD_cons, Option.getD_some, List.map_map]
      congr 2
      apply List.ext_getElem?
      intro i
      rw [List.getElem?_map, List.getElem?_map]
      rcases Nat.lt_or_ge i (P.sub m).length with hi | hi
      · rw [List.getElem?_reverse (by rw [List.length_range]; exact hi), List.length_range, List.getElem?_range (by omega),
          List.getElem?_range hi, Option.map_some, Option.map_some, hcells i hi, hord m hm, List.getElem?_reverse (by omega),
          show (P.sub m).length - 1 - ((P.sub m).length - 1 - i) = i by omega, List.getElem?_eq_getElem hi, Option.getD_some, Option.getD_some]
        have := h.find (b + i) (hnew i hi)
        rw [S.lab_new i _ (List.getElem?_eq_getElem hi)] at this
        rw [this]
        rfl
      · rw [List.getElem?_eq_none (by simp; omega), List.getElem?_eq_none (by simp; omega)]
        rfl
    · intro d' hd
      rcases List.mem_cons.1 hd with rfl | hd
      · exact ⟨m, rfl⟩
      · exact h.meths d' hd
    · intro A D' hA hD v hv
      have hr := h.reads A D' (by rwa [hacts] at hA) fun d hd => hD d (.tail _ hd)
      by_cases hvu : v = u
      · subst hvu
        simp only [if_pos rfl]
        exact .node (κ := fun i => id (b + i)) (hD d (.head _)) fun i hi => hr _ (hnew i (List.mem_range.1 hi))
      · simp only [if_neg hvu]
        exact hr v (hne v hv hvu)
    · intro n v l hn
      rw [List.getElem?_map] at hn
      obtain ⟨⟨w, k⟩, hx, e⟩ := Option.map_eq_some_iff.1 hn
      have hf := h.follow n w k hx
      have hm' := (S.mem w).1 ((h.lin.all _).1 (List.mem_of_getElem? hx)).1
      rcases hm' with ⟨h1, h2⟩ | ⟨i, hi, rfl⟩
      · rw [hang, if_pos (S.fresh w h1)] at e
        cases e
        simp only [if_neg h2]
        exact hf.mono fun d hd => .tail _ hd
      · rw [hang, if_neg (by simp)] at e
        cases e
        simp only [if_pos rfl, Nat.add_sub_cancel_left]
        exact .cons (d := d) (k := id (b + i)) (.head _) (by simp [d, hi]) (hf.mono fun d hd => .tail _ hd)
    · rw [List.map_cons, h.decIds, plMeths, Nat.add_comm 1, List.range'_succ]
      rfl
    · intro z
      have h1 := h.once z
      have h2 := S.sum_eq hu (fun v => if id v = z then 1 else 0) (fun v => if v = u then 1 +
        ∑ i ∈ Finset.range (P.sub m).length, (if id (b + i) = z then 1 else 0) else if id v = z then 1 else 0)
        (fun v _ hvu => by simp only [if_neg hvu]) (by simp only [if_true])
      rw [← Finset.add_sum_erase I _ hu] at h2 ⊢
      simp only [if_true] at h2 ⊢
      have e1 : ∑ v ∈ I.erase u, (if (if v = u then N + q else id v) = z then 1 else 0) = ∑ v ∈ I.erase u, if id v = z then 1 else 0 :=
        Finset.sum_congr rfl fun v hv => by rw [if_neg (Finset.ne_of_mem_erase hv)]
      have e2 : ∑ v ∈ I.erase u, (if v = u then 1 + ∑ i ∈ Finset.range (P.sub m).length, (if id (b + i) = z then 1 else 0)
          else if id v = z then 1 else 0) = ∑ v ∈ I.erase u, if id v = z then 1 else 0 :=
        Finset.sum_congr rfl fun v hv => by rw [if_neg (Finset.ne_of_mem_erase hv)]
      have e3 : (d.subs).count z = ∑ i ∈ Finset.range (P.sub m).length, if id (b + i) = z then 1 else 0 := by
        simp only [d]
        generalize (P.sub m).length = n
        induction n with
        | zero => simp
        | succ n ih => rw [List.range_succ, List.map_append, List.count_append, ih, Finset.sum_range_succ]; simp [List.count_singleton]
      rw [e1, plPrims, plMeths, Nat.add_comm 1 (plMeths ls), List.range'_succ, List.flatMap_cons, List.count_append, e3, List.count_cons]
      rw [e2] at h2
      simp only [beq_iff_eq]
      have e4 : N + (q + 1) = N + q + 1 := rfl
      rw [e4] at h1
      · omega
      · rintro _ _ ⟨⟩
    · rw [hacts]
      exact h.actIds

end

end Verif.Sas
