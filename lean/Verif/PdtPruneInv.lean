import Verif.PdtPrune

/-! # The propagation of pruned tasks terminates, is exhaustive and sound -/

namespace Verif.Pdt

open Verif.Htn Verif.Sog

/-- All entries of the pruning tables. -/
def T.flags (P : Problem) (t : T) : List Flag :=
  t.nodes.flatMap fun p =>
    match t.nd p with
    | none => []
    | some d =>
      (List.range d.prims.length).map (.prim p) ++ (List.range d.abss.length).map (.abs p) ++
      ((List.range d.abss.length).flatMap fun a => (List.range (meths P (d.abss.getD a 0)).length).map fun m => .meth p a m) ++
      ((List.range d.prims.length).flatMap fun i => (List.range (d.causesP.getD i []).length).map fun c => .causeP p i c) ++
      ((List.range d.abss.length).flatMap fun a => (List.range (d.causesA.getD a []).length).map fun c => .causeA p a c)

/-- Number of entries that are not set. -/
def unset (P : Problem) (t : T) (S : Flags) : Nat := ((t.flags P).filter fun f => !S f).length

section
variable {P : Problem} {tot : Nat → List Nat} {t : T}

theorem below_self (f : Nat) (q : Path) : q ∈ t.below f q := by
  cases f <;> simp [T.below]

theorem below_child : ∀ (f : Nat) (q p : Path), p ∈ t.below f q → p.length < q.length + f → ∀ c < t.nc p, c :: p ∈ t.below f q := by
  intro f
  induction f with
  | zero =>
    intro q p hp hl c hc
    simp only [T.below, List.mem_singleton] at hp
    subst hp
    omega
  | succ f ih =>
    intro q p hp hl c hc
    rw [T.below, List.mem_cons, List.mem_flatMap] at hp ⊢
    right
    rcases hp with rfl | ⟨c', hc', hp⟩
    · exact ⟨c, List.mem_range.2 hc, below_self f _⟩
    · exact ⟨c', hc', ih _ p hp (by simp at hl ⊢; omega) c hc⟩

/-- The list of vertices is complete. -/
theorem mem_nodes (ht : t.OK P tot) : ∀ p d, t.nd p = some d → p ∈ t.nodes := by
  intro p
  induction p with
  | nil => intro d _; exact below_self _ _
  | cons c p ih =>
    intro d hd
    obtain ⟨e, he, hch⟩ := (ht.child c p d).1 hd
    obtain ⟨dp, hdp, hlt, -⟩ := ht.ex p e he
    refine below_child t.K [] p (ih dp hdp) (by simpa using hlt) c ?_
    unfold T.nc
    rw [he]
    exact (List.getElem?_eq_some_iff.1 hch).1

theorem mem_flags {f : Flag} {p : Path} {d : ND} (hp : p ∈ t.nodes) (hd : t.nd p = some d)
    (h : (∃ i < d.prims.length, f = .prim p i) ∨ (∃ a < d.abss.length, f = .abs p a) ∨
      (∃ a x, d.abss[a]? = some x ∧ ∃ m < (meths P x).length, f = .meth p a m) ∨
      (∃ i cs, i < d.prims.length ∧ d.causesP[i]? = some cs ∧ ∃ k < cs.length, f = .causeP p i k) ∨
      ∃ i cs, i < d.abss.length ∧ d.causesA[i]? = some cs ∧ ∃ k < cs.length, f = .causeA p i k) : f ∈ t.flags P := by
  unfold T.flags
  rw [List.mem_flatMap]
  refine ⟨p, hp, ?_⟩
  rw [hd]
  simp only [List.mem_append, List.mem_map, List.mem_flatMap, List.mem_range]
  rcases h with ⟨i, hi, rfl⟩ | ⟨a, ha, rfl⟩ | ⟨a, x, hx, m, hm, rfl⟩ | ⟨i, cs, hi, hcs, k, hk, rfl⟩ | ⟨i, cs, hi, hcs, k, hk, rfl⟩
  · exact .inl (.inl (.inl (.inl ⟨i, hi, rfl⟩)))
  · exact .inl (.inl (.inl (.inr ⟨a, ha, rfl⟩)))
  · exact .inl (.inl (.inr ⟨a, (List.getElem?_eq_some_iff.1 hx).1, m, by rw [getD_of hx]; exact hm, rfl⟩))
  · exact .inl (.inr ⟨i, hi, k, by rw [getD_of hcs]; exact hk, rfl⟩)
  · exact .inr ⟨i, hi, k, by rw [getD_of hcs]; exact hk, rfl⟩

/-- An entry of the mother that is set because of a cause. -/
theorem mother_mem (ht : t.OK P tot) {c : Nat} {q : Path} {ch : ND} (hch : t.nd (c :: q) = some ch) {b : Bool} {i : Nat}
    {cs : List Cause} (hcs : (ch.causes b)[i]? = some cs) {x : Cause} (hx : x ∈ cs) : motherFlag q x ∈ t.flags P := by
  obtain ⟨e, he, hc⟩ := (ht.child c q ch).1 hch
  obtain ⟨d, hd, -, -, hexp, -⟩ := ht.ex q e he
  obtain ⟨k, hk⟩ := List.mem_iff_getElem?.1 hx
  have hq := mem_nodes ht q d hd
  cases x with
  | meth a m =>
    obtain ⟨-, mm, y, hy, hm⟩ := hexp.cause_ptr c ch b i cs k a m hc hcs hk
    exact mem_flags hq hd (.inr (.inr (.inl ⟨a, y, hy, m, (List.getElem?_eq_some_iff.1 hm).1, rfl⟩)))
  | inh j =>
    obtain ⟨-, hpos⟩ := hexp.inh_pos c ch b i cs k j hc hcs hk
    have hlen := hexp.lenPos (by intro h0; rw [h0] at hc; simp at hc)
    exact mem_flags hq hd (.inl ⟨j, by rw [← hlen]; exact (List.getElem?_eq_some_iff.1 hpos).1, rfl⟩)

theorem item_mem (ht : t.OK P tot) {p : Path} {d : ND} (hd : t.nd p = some d) {S : Flags} {x : Nat × Flag}
    (hx : x ∈ items P t p d S) : x.2 ∈ t.flags P := by
  unfold items at hx
  cases he : t.ex p with
  | none => rw [he] at hx; simp at hx
  | some e =>
    rw [he] at hx
    simp only at hx
    obtain ⟨d', hd', -, -, hexp, -⟩ := ht.ex p e he
    rw [hd] at hd'
    obtain rfl := Option.some.inj hd'
    by_cases h0 : e.children = []
    · rw [if_pos h0] at hx; simp at hx
    · rw [if_neg h0] at hx
      rcases mem_ruleE.1 hx with ⟨i, _, _, c, j, k, hpos, rfl⟩ | ⟨a, _, m, _, _, c, hc, q, hq, rfl⟩
      · obtain ⟨ch, hch, -, cs, hcs, hk⟩ := hexp.pos_inh i c j k hpos
        have hnd := (ht.child c p ch).2 ⟨e, he, hch⟩
        refine mem_flags (mem_nodes ht _ _ hnd) hnd (.inr (.inr (.inr (.inl ⟨j, cs, ?_, hcs, k, (List.getElem?_eq_some_iff.1 hk).1, rfl⟩))))
        rw [← hexp.lenP c ch hch]
        exact (List.getElem?_eq_some_iff.1 hcs).1
      · obtain ⟨ch, hch, cs, hcs, hk⟩ := hexp.ptr_cause a m c q hq
        have hnd := (ht.child c p ch).2 ⟨e, he, hch⟩
        show causeFlag q.isPrim (c :: p) q.task q.cause ∈ _
        cases hb : q.isPrim with
        | true =>
          rw [hb] at hcs
          refine mem_flags (mem_nodes ht _ _ hnd) hnd (.inr (.inr (.inr (.inl ⟨q.task, cs, ?_, hcs, q.cause,
            (List.getElem?_eq_some_iff.1 hk).1, rfl⟩))))
          rw [← hexp.lenP c ch hch]
          exact (List.getElem?_eq_some_iff.1 hcs).1
        | false =>
          rw [hb] at hcs
          refine mem_flags (mem_nodes ht _ _ hnd) hnd (.inr (.inr (.inr (.inr ⟨q.task, cs, ?_, hcs, q.cause,
            (List.getElem?_eq_some_iff.1 hk).1, rfl⟩))))
          rw [← hexp.lenA c ch hch]
          exact (List.getElem?_eq_some_iff.1 hcs).1

theorem unset_mono {S S' : Flags} (h : ∀ f, S f = true → S' f = true) : unset P t S' ≤ unset P t S := by
  unfold unset
  refine List.Sublist.length_le (List.monotone_filter_right _ fun f hf => ?_)
  simp only [Bool.not_eq_true'] at hf ⊢
  by_contra hc
  rw [Bool.not_eq_false] at hc
  rw [h f hc] at hf
  exact absurd hf (by simp)

theorem unset_lt {S S' : Flags} (h : ∀ f, S f = true → S' f = true) {f : Flag} (hf : f ∈ t.flags P) (h0 : S f = false)
    (h1 : S' f = true) : unset P t S' < unset P t S := by
  unfold unset
  have hsub : ((t.flags P).filter fun f => !S' f).Sublist ((t.flags P).filter fun f => !S f) := by
    refine List.monotone_filter_right _ fun f hf => ?_
    simp only [Bool.not_eq_true'] at hf ⊢
    by_contra hc
    rw [Bool.not_eq_false] at hc
    rw [h f hc] at hf
    exact absurd hf (by simp)
  refine Nat.lt_of_le_of_ne hsub.length_le fun he => ?_
  have heq := hsub.eq_of_length he
  have : f ∈ (t.flags P).filter fun f => !S f := List.mem_filter.2 ⟨hf, by simp [h0]⟩
  rw [← heq, List.mem_filter] at this
  simp [h1] at this

/-- Vertices to be visited exist, and some entry was set for them. -/
theorem body_todo_mem (ht : t.OK P tot) {p : Path} {d : ND} (hd : t.nd p = some d) {S : Flags} {q : Path}
    (hq : q ∈ (body P t p d S).2) : (∃ dq, t.nd q = some dq) ∧
      ∃ f ∈ t.flags P, S f = false ∧ (body P t p d S).1 f = true := by
  have hS : ∀ f, own P p d (t.ex p).isSome S f = false → S f = false := by
    intro f h
    by_contra hc
    rw [Bool.not_eq_false] at hc
    rw [own_true.2 (.inl hc)] at h
    exact absurd h (by simp)
  simp only [body, List.mem_append, List.mem_map, List.mem_filter, List.mem_range] at hq
  rcases hq with ⟨c, ⟨hc, hany⟩, rfl⟩ | hq
  · refine ⟨?_, ?_⟩
    · unfold T.nc at hc
      cases he : t.ex p with
      | none => rw [he] at hc; simp at hc
      | some e =>
        rw [he] at hc
        exact ⟨_, (ht.child c p _).2 ⟨e, he, List.getElem?_eq_getElem hc⟩⟩
    · rw [List.any_eq_true] at hany
      obtain ⟨x, hx, hx'⟩ := hany
      simp only [Bool.and_eq_true, Bool.not_eq_true'] at hx'
      exact ⟨x.2, item_mem ht hd hx, hS _ hx'.2, body_true.2 (.inr (.inr (.inr ⟨x, hx, rfl⟩)))⟩
  · by_cases hany : ((ruleM p d (own P p d (t.ex p).isSome S)).any fun f => !own P p d (t.ex p).isSome S f) = true
    · rw [if_pos hany, List.mem_singleton] at hq
      subst hq
      rw [List.any_eq_true] at hany
      obtain ⟨f, hf, hf'⟩ := hany
      simp only [Bool.not_eq_true'] at hf'
      obtain ⟨c, r, rfl, hcase⟩ := mem_ruleM.1 hf
      obtain ⟨e, he, hch⟩ := (ht.child c r d).1 hd
      obtain ⟨dr, hdr, -, -, hexp, -⟩ := ht.ex r e he
      refine ⟨⟨dr, hdr⟩, f, ?_, hS _ hf', body_true.2 (.inr (.inr (.inl hf)))⟩
      rcases hcase with ⟨i, hi, -, x, hx, rfl⟩ | ⟨i, hi, -, x, hx, rfl⟩
      · have hi' : i < d.causesP.length := by rw [hexp.lenP c d hch]; exact hi
        have hcs : d.causesP[i]? = some (d.causesP[i]) := List.getElem?_eq_getElem hi'
        rw [getD_of hcs] at hx
        exact mother_mem ht hd (b := true) hcs hx
      · have hi' : i < d.causesA.length := by rw [hexp.lenA c d hch]; exact hi
        have hcs : d.causesA[i]? = some (d.causesA[i]) := List.getElem?_eq_getElem hi'
        rw [getD_of hcs] at hx
        exact mother_mem ht hd (b := false) hcs hx
    · rw [if_neg hany] at hq
      simp at hq

/-- What a call achieves. -/
structure PropOK (P : Problem) (t : T) (ps : List Path) (S S' : Flags) : Prop where
  mono : ∀ f, S f = true → S' f = true
  closed : ∀ D : Path → Prop, (∀ q, ¬ D q → q ∉ ps → LocalOK P t S q) → ∀ q, ¬ D q → LocalOK P t S' q
  inv : ∀ I : Flags → Prop, (∀ p d S, t.nd p = some d → I S → I (body P t p d S).1) → I S → I S'

mutual
theorem prop_ok (ht : t.OK P tot) : ∀ (f : Nat) (p : Path) (S : Flags), (∃ d, t.nd p = some d) → unset P t S < f →
    ∃ S', prop P t f p S = some S' ∧ PropOK P t [p] S S'
  | 0, _, _, _, h => absurd h (by omega)
  | f + 1, p, S, ⟨d, hd⟩, h => by
    have hsub : ∃ S', propAll P t f (body P t p d S).2 (body P t p d S).1 = some S' ∧
        PropOK P t (body P t p d S).2 (body P t p d S).1 S' := by
      cases htodo : (body P t p d S).2 with
      | nil =>
        refine ⟨(body P t p d S).1, by rw [propAll], fun _ h => h, fun D hD q hq => hD q hq (by simp), fun I _ h => h⟩
      | cons q qs =>
        rw [← htodo]
        refine propAll_ok ht f _ _ (fun r hr => (body_todo_mem ht hd hr).1) ?_
        obtain ⟨-, g, hg, h0, h1⟩ := body_todo_mem ht hd (S := S) (q := q) (by rw [htodo]; simp)
        have := unset_lt (P := P) (t := t) (S' := (body P t p d S).1) (fun f h => body_mono (P := P) (t := t) (p := p) (d := d) h) hg h0 h1
        omega
    obtain ⟨S', he, hok⟩ := hsub
    refine ⟨S', by rw [prop, hd]; exact he, fun g hg => hok.mono g (body_mono hg), fun D hD => hok.closed D fun q hq hq' => ?_,
      fun I hI hS => hok.inv I hI (hI p d S hd hS)⟩
    by_cases hqp : q = p
    · subst hqp; exact body_closed ht hd
    · exact body_other ht hd hqp hq' (hD q hq (by simpa using hqp))
termination_by f _ _ _ _ => (f, 0)
theorem propAll_ok (ht : t.OK P tot) : ∀ (f : Nat) (ps : List Path) (S : Flags), (∀ p ∈ ps, ∃ d, t.nd p = some d) → unset P t S < f →
    ∃ S', propAll P t f ps S = some S' ∧ PropOK P t ps S S'
  | f, [], S, _, _ => ⟨S, by rw [propAll], fun _ h => h, fun D hD q hq => hD q hq (by simp), fun I _ h => h⟩
  | f, p :: ps, S, hps, h => by
    obtain ⟨S1, e1, k1⟩ := prop_ok ht f p S (hps p (by simp)) h
    obtain ⟨S2, e2, k2⟩ := propAll_ok ht f ps S1 (fun q hq => hps q (by simp [hq])) (by
      have := unset_mono (P := P) (t := t) k1.mono
      omega)
    refine ⟨S2, by rw [propAll, e1]; exact e2, fun g hg => k2.mono g (k1.mono g hg), fun D hD => k2.closed D fun q hq hq' => ?_,
      fun I hI hS => k2.inv I hI (k1.inv I hI hS)⟩
    refine k1.closed (fun r => D r ∨ r ∈ ps) (fun r hr hr' => ?_) q (by
      rintro (h | h)
      · exact hq h
      · exact hq' h)
    exact hD r (fun h => hr (.inl h)) (by
      rw [List.mem_cons]
      rintro (h | h)
      · exact hr' (by simp [h])
      · exact hr (.inr h))
termination_by f ps _ _ _ => (f, ps.length + 1)
end

/-! ## Soundness -/

/-- The entry belongs to something that the selection uses. -/
def Used (t : T) (sel : Path → Sel) : Flag → Prop
  | .prim p i => sel p = .prim i
  | .abs p a => ∃ m, sel p = .abs a m
  | .meth p a m => sel p = .abs a m
  | .causeP p i k => sel p = .prim i ∧ ∃ c q d cs x, p = c :: q ∧ t.nd p = some d ∧ d.causesP[i]? = some cs ∧ cs[k]? = some x ∧
      (match x with
        | .meth a m => sel q = .abs a m
        | .inh j => sel q = .prim j)
  | .causeA p i k => (∃ m, sel p = .abs i m) ∧ ∃ c q d cs x, p = c :: q ∧ t.nd p = some d ∧ d.causesA[i]? = some cs ∧
      cs[k]? = some x ∧
      (match x with
        | .meth a m => sel q = .abs a m
        | .inh j => sel q = .prim j)

/-- The selection uses nothing that is pruned. -/
def Unpruned (t : T) (S : Flags) (sel : Path → Sel) : Prop := ∀ f, Used t sel f → S f = false

/-- The cause that a selection uses. -/
theorem active_cause (ht : t.OK P tot) {sel : Path → Sel} (hs : Consistent P t sel) {c : Nat} {q : Path} :
    (∀ i, sel (c :: q) = .prim i → ∃ ch cs k x, t.nd (c :: q) = some ch ∧ ch.causesP[i]? = some cs ∧ cs[k]? = some x ∧
      Used t sel (.causeP (c :: q) i k) ∧ Used t sel (motherFlag q x)) ∧
    ∀ a m, sel (c :: q) = .abs a m → ∃ ch cs k x, t.nd (c :: q) = some ch ∧ ch.causesA[a]? = some cs ∧ cs[k]? = some x ∧
      Used t sel (.causeA (c :: q) a k) ∧ Used t sel (motherFlag q x) := by
  have hex : ∀ ch, t.nd (c :: q) = some ch → ∃ e d, t.ex q = some e ∧ t.nd q = some d ∧ e.children[c]? = some ch ∧ ExpOK P tot d e := by
    intro ch hch
    obtain ⟨e, he, hc⟩ := (ht.child c q ch).1 hch
    obtain ⟨d, hd, -, -, hexp, -⟩ := ht.ex q e he
    exact ⟨e, d, he, hd, hc, hexp⟩
  refine ⟨fun i hi => ?_, fun a m hi => ?_⟩
  · obtain ⟨ch, x, hch, -⟩ := hs.prim _ i hi
    obtain ⟨e, d, he, hd, hc, hexp⟩ := hex ch hch
    cases hq : sel q with
    | none => rw [hs.none_child q c hq] at hi; exact absurd hi (by simp)
    | prim j =>
      obtain ⟨c', j', k, hpos, h1, h2⟩ := hs.prim_child q j e hq he
      by_cases hcc : c = c'
      · subst hcc
        rw [hi] at h1
        obtain rfl := Sel.prim.inj h1
        obtain ⟨ch', hch', -, cs, hcs, hk⟩ := hexp.pos_inh j c i k hpos
        rw [hc] at hch'
        obtain rfl := Option.some.inj hch'
        exact ⟨ch, cs, k, .inh j, hch, hcs, hk, ⟨hi, c, q, ch, cs, .inh j, rfl, hch, hcs, hk, hq⟩, hq⟩
      · rw [h2 c hcc] at hi; exact absurd hi (by simp)
    | abs a m =>
      have hc' := hs.abs_child q a m e hq he c
      cases hptr : e.ptr a m c with
      | none => rw [hc'.1 hptr] at hi; exact absurd hi (by simp)
      | some r =>
        have h := hc'.2 r hptr
        obtain ⟨ch', hch', cs, hcs, hk⟩ := hexp.ptr_cause a m c r hptr
        rw [hc] at hch'
        obtain rfl := Option.some.inj hch'
        cases hb : r.isPrim with
        | false =>
          rw [hb, if_neg (by simp)] at h
          obtain ⟨m', h⟩ := h
          rw [hi] at h; exact absurd h (by simp)
        | true =>
          rw [hb, if_pos rfl, hi] at h
          obtain rfl := Sel.prim.inj h
          rw [hb] at hcs
          exact ⟨ch, cs, r.cause, .meth a m, hch, hcs, hk, ⟨hi, c, q, ch, cs, .meth a m, rfl, hch, hcs, hk, hq⟩, hq⟩
  · obtain ⟨ch, _, _, hch, -⟩ := hs.abs _ a m hi
    obtain ⟨e, d, he, hd, hc, hexp⟩ := hex ch hch
    cases hq : sel q with
    | none => rw [hs.none_child q c hq] at hi; exact absurd hi (by simp)
    | prim j =>
      obtain ⟨c', j', k, hpos, h1, h2⟩ := hs.prim_child q j e hq he
      by_cases hcc : c = c'
      · subst hcc
        rw [hi] at h1; exact absurd h1 (by simp)
      · rw [h2 c hcc] at hi; exact absurd hi (by simp)
    | abs a' m' =>
      have hc' := hs.abs_child q a' m' e hq he c
      cases hptr : e.ptr a' m' c with
      | none => rw [hc'.1 hptr] at hi; exact absurd hi (by simp)
      | some r =>
        have h := hc'.2 r hptr
        obtain ⟨ch', hch', cs, hcs, hk⟩ := hexp.ptr_cause a' m' c r hptr
        rw [hc] at hch'
        obtain rfl := Option.some.inj hch'
        cases hb : r.isPrim with
        | true => rw [hb, if_pos rfl, hi] at h; exact absurd h (by simp)
        | false =>
          rw [hb, if_neg (by simp)] at h
          obtain ⟨m'', h⟩ := h
          rw [hi] at h
          obtain ⟨rfl, -⟩ := Sel.abs.inj h
          rw [hb] at hcs
          exact ⟨ch, cs, r.cause, .meth a' m', hch, hcs, hk, ⟨⟨m, hi⟩, c, q, ch, cs, .meth a' m', rfl, hch, hcs, hk, hq⟩, hq⟩

/-- If the mother uses a cause, the child uses the task. -/
theorem cause_used (ht : t.OK P tot) {sel : Path → Sel} (hs : Consistent P t sel) {c : Nat} {q : Path} {ch : ND}
    (hch : t.nd (c :: q) = some ch) {b : Bool} {i : Nat} {cs : List Cause} (hcs : (ch.causes b)[i]? = some cs) {x : Cause}
    (hx : x ∈ cs) (hu : Used t sel (motherFlag q x)) : if b then sel (c :: q) = .prim i else ∃ m, sel (c :: q) = .abs i m := by
  obtain ⟨e, he, hc⟩ := (ht.child c q ch).1 hch
  obtain ⟨d, hd, -, -, hexp, -⟩ := ht.ex q e he
  obtain ⟨k, hk⟩ := List.mem_iff_getElem?.1 hx
  cases x with
  | meth a m =>
    obtain ⟨hptr, -⟩ := hexp.cause_ptr c ch b i cs k a m hc hcs hk
    exact (hs.abs_child q a m e hu he c).2 _ hptr
  | inh j =>
    obtain ⟨rfl, hpos⟩ := hexp.inh_pos c ch b i cs k j hc hcs hk
    obtain ⟨c', j', k', hpos', h1, -⟩ := hs.prim_child q j e hu he
    rw [hpos] at hpos'
    simp only [Option.some.injEq, Prod.mk.injEq] at hpos'
    obtain ⟨rfl, rfl, -⟩ := hpos'
    rw [if_pos rfl]
    exact h1

/-- The body prunes nothing that a selection uses. -/
theorem body_sound (ht : t.OK P tot) {sel : Path → Sel} (hs : Consistent P t sel) {p : Path} {d : ND} (hd : t.nd p = some d)
    {S : Flags} (h : Unpruned t S sel) : Unpruned t (body P t p d S).1 sel := by
  have hown : ∀ d', t.nd p = some d' → d' = d := fun d' h => by rw [hd] at h; exact (Option.some.inj h).symm
  have hstep : ∀ (S : Flags) (l : List Flag), Unpruned t S sel → (∀ f ∈ l, ¬ Used t sel f) → Unpruned t (S.set l) sel := by
    intro S l h1 h2 f hf
    cases hc : S.set l f with
    | false => rfl
    | true =>
      rcases set_true.1 hc with h | h
      · rw [h1 f hf] at h; exact absurd h (by simp)
      · exact absurd hf (h2 f h)
  have hA : Unpruned t (S.set (ruleA P p d (t.ex p).isSome S)) sel := by
    refine hstep _ _ h ?_
    intro f hf hu
    obtain ⟨a, ha, rfl, hc⟩ := mem_ruleA.1 hf
    obtain ⟨m, hm⟩ := hu
    obtain ⟨d', e, x, hd', he, y, hy, hmi⟩ := hs.abs p a m hm
    obtain rfl := hown d' hd'
    rcases hc with hc | hc
    · rw [he] at hc; exact absurd hc (by simp)
    · rw [getD_of hy] at hc
      have := hc m (List.getElem?_eq_some_iff.1 hmi).1
      rw [h (.meth p a m) hm] at this
      exact absurd this (by simp)
  have hB : Unpruned t ((S.set (ruleA P p d (t.ex p).isSome S)).set (ruleB p d (S.set (ruleA P p d (t.ex p).isSome S)))) sel := by
    refine hstep _ _ hA ?_
    intro f hf hu
    obtain ⟨hp, ⟨i, hi, rfl, hc⟩ | ⟨i, hi, rfl, hc⟩⟩ := mem_ruleB.1 hf
    · cases p with
      | nil => exact hp rfl
      | cons c q =>
        obtain ⟨ch, cs, k, x, hch, hcs, hk, hu', -⟩ := (active_cause ht hs (c := c) (q := q)).1 i hu
        obtain rfl := hown ch hch
        rw [getD_of hcs] at hc
        have := hc k (List.getElem?_eq_some_iff.1 hk).1
        rw [hA _ hu'] at this
        exact absurd this (by simp)
    · obtain ⟨m, hu⟩ := hu
      cases p with
      | nil => exact hp rfl
      | cons c q =>
        obtain ⟨ch, cs, k, x, hch, hcs, hk, hu', -⟩ := (active_cause ht hs (c := c) (q := q)).2 i m hu
        obtain rfl := hown ch hch
        rw [getD_of hcs] at hc
        have := hc k (List.getElem?_eq_some_iff.1 hk).1
        rw [hA _ hu'] at this
        exact absurd this (by simp)
  have hC : Unpruned t (own P p d (t.ex p).isSome S) sel := by
    refine hstep _ _ hB ?_
    intro f hf hu
    obtain ⟨-, a, ha, hsa, m, hm, rfl⟩ := mem_ruleC.1 hf
    rw [hB (.abs p a) ⟨m, hu⟩] at hsa
    exact absurd hsa (by simp)
  intro f hf
  cases hc : (body P t p d S).1 f with
  | false => rfl
  | true =>
    exfalso
    rcases body_true.1 hc with h1 | h1 | h1 | ⟨x, hx, rfl⟩
    · rw [hC f hf] at h1; exact absurd h1 (by simp)
    · obtain ⟨hp, ⟨i, hi, hsi, k, -, rfl⟩ | ⟨i, hi, hsi, k, -, rfl⟩⟩ := mem_ruleD.1 h1
      · rw [hC (.prim p i) hf.1] at hsi
        exact absurd hsi (by simp)
      · rw [hC (.abs p i) hf.1] at hsi
        exact absurd hsi (by simp)
    · obtain ⟨c, q, rfl, ⟨i, hi, hsi, x, hx, rfl⟩ | ⟨i, hi, hsi, x, hx, rfl⟩⟩ := mem_ruleM.1 h1
      · obtain ⟨e, he, hch⟩ := (ht.child c q d).1 hd
        obtain ⟨dr, hdr, -, -, hexp, -⟩ := ht.ex q e he
        have hcs : d.causesP[i]? = some (d.causesP[i]'(by rw [hexp.lenP c d hch]; exact hi)) := List.getElem?_eq_getElem _
        rw [getD_of hcs] at hx
        have := cause_used ht hs hd (b := true) hcs hx hf
        rw [if_pos rfl] at this
        rw [hC (.prim (c :: q) i) this] at hsi
        exact absurd hsi (by simp)
      · obtain ⟨e, he, hch⟩ := (ht.child c q d).1 hd
        obtain ⟨dr, hdr, -, -, hexp, -⟩ := ht.ex q e he
        have hcs : d.causesA[i]? = some (d.causesA[i]'(by rw [hexp.lenA c d hch]; exact hi)) := List.getElem?_eq_getElem _
        rw [getD_of hcs] at hx
        have := cause_used ht hs hd (b := false) hcs hx hf
        rw [if_neg (by simp)] at this
        rw [hC (.abs (c :: q) i) this] at hsi
        exact absurd hsi (by simp)
    · unfold items at hx
      cases he : t.ex p with
      | none => rw [he] at hx; simp at hx
      | some e =>
        rw [he] at hx
        simp only at hx
        obtain ⟨d', hd', -, -, hexp, -⟩ := ht.ex p e he
        obtain rfl := hown d' hd'
        by_cases h0 : e.children = []
        · rw [if_pos h0] at hx; simp at hx
        · rw [if_neg h0] at hx
          rw [he] at hC
          have hmeth : ∀ (b : Bool) (c i k : Nat) (x : Cause) (ch : ND) (cs : List Cause), e.children[c]? = some ch →
              (ch.causes b)[i]? = some cs → cs[k]? = some x → Used t sel (causeFlag b (c :: p) i k) → Used t sel (motherFlag p x) := by
            intro b c i k x ch cs hch hcs hk hu
            have hnd := (ht.child c p ch).2 ⟨e, he, hch⟩
            cases b with
            | true =>
              obtain ⟨-, c', q', d'', cs', x', heq, hd'', hcs', hk', hu'⟩ := hu
              obtain ⟨rfl, rfl⟩ := List.cons.inj heq
              rw [hnd] at hd''
              obtain rfl := Option.some.inj hd''
              rw [show ch.causesP[i]? = some cs from hcs] at hcs'
              obtain rfl := Option.some.inj hcs'
              rw [hk] at hk'
              obtain rfl := Option.some.inj hk'
              cases x <;> exact hu'
            | false =>
              obtain ⟨-, c', q', d'', cs', x', heq, hd'', hcs', hk', hu'⟩ := hu
              obtain ⟨rfl, rfl⟩ := List.cons.inj heq
              rw [hnd] at hd''
              obtain rfl := Option.some.inj hd''
              rw [show ch.causesA[i]? = some cs from hcs] at hcs'
              obtain rfl := Option.some.inj hcs'
              rw [hk] at hk'
              obtain rfl := Option.some.inj hk'
              cases x <;> exact hu'
          rcases mem_ruleE.1 hx with ⟨i, _, hsi, c, j, k, hpos, rfl⟩ | ⟨a, _, m, _, hsm, c, hc, q, hq, rfl⟩
          · obtain ⟨ch, hch, -, cs, hcs, hk⟩ := hexp.pos_inh i c j k hpos
            have := hmeth true c j k (.inh i) ch cs hch hcs hk hf
            have h2 := hC (.prim p i) this
            have hsi' : own P p d' (some e).isSome S (.prim p i) = true := hsi
            rw [h2] at hsi'
            exact absurd hsi' (by simp)
          · obtain ⟨ch, hch, cs, hcs, hk⟩ := hexp.ptr_cause a m c q hq
            have := hmeth q.isPrim c q.task q.cause (.meth a m) ch cs hch hcs hk hf
            have h2 := hC (.meth p a m) this
            have hsm' : own P p d' (some e).isSome S (.meth p a m) = true := hsm
            rw [h2] at hsm'
            exact absurd hsm' (by simp)

/-- Propagation for a list of vertices: it terminates, everything is inferred, and nothing that a selection uses is
pruned unless it was before. -/
theorem propAll_spec (ht : t.OK P tot) {ps : List Path} (hps : ∀ p ∈ ps, ∃ d, t.nd p = some d) (S : Flags) :
    ∃ S', propAll P t (unset P t S + 1) ps S = some S' ∧ (∀ f, S f = true → S' f = true) ∧
      (∀ sel, Consistent P t sel → Unpruned t S sel → Unpruned t S' sel) ∧
      ((∀ q, q ∉ ps → LocalOK P t S q) → ∀ q, LocalOK P t S' q) := by
  obtain ⟨S', he, hok⟩ := propAll_ok ht (unset P t S + 1) ps S hps (by omega)
  refine ⟨S', he, hok.mono, fun sel hs h => hok.inv (fun S => Unpruned t S sel) (fun p d S hd h => body_sound ht hs hd h) h, fun h q => ?_⟩
  exact hok.closed (fun _ => False) (fun r _ hr => h r hr) q (by simp)

end

end Verif.Pdt
