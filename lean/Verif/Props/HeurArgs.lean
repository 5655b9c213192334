import Verif.HeurArgs

/-! # C93: specifications of heuristics

A heuristic is specified by a name with arguments in parentheses, separated by semicolons; an argument is a value, whose
meaning depends on its position, or has the form key=value (help text, src/SearchEngine.cpp 119-122).  If a heuristic is
specified twice, it is computed only once (src/options.ggo 33). -/

namespace Verif.Props

open HeurArgs

/-- An argument as given by the user. -/
inductive HArg where
  | pos (v : Str)
  | key (k v : Str)

/-- The text of an argument. -/
def HArg.text : HArg → Str
  | .pos v => v
  | .key k v => k ++ '=' :: v

/-- A part of an argument: not empty, without white space, semicolons and equals signs. -/
def PartOk (w : Str) : Prop := w ≠ [] ∧ ∀ c ∈ w, Parse.isWs c = false ∧ c ≠ ';' ∧ c ≠ '='

def HArg.Ok : HArg → Prop
  | .pos v => PartOk v
  | .key k v => PartOk k ∧ PartOk v

/-- The option which an argument in position `i` (from 1) sets, and its value. -/
def HArg.sets (i : Nat) : HArg → Str × Str
  | .pos v => ("arg".toList ++ (toString i).toList, v)
  | .key k v => (k, v)

/-- The text of a specification. -/
def specText (name : Str) (args : List HArg) : Str := name ++ '(' :: [';'].intercalate (args.map HArg.text) ++ [')']

theorem argKey_eq (i : Nat) : argKey i = "arg".toList ++ (toString i).toList := by
  rw [argKey, show toString i = i.repr from rfl, Nat.toList_repr]; rfl

theorem argKey_inj {i j : Nat} (h : argKey i = argKey j) : i = j := by
  simp only [argKey, List.cons.injEq, true_and] at h
  have := congrArg (fun l => Nat.ofDigitChars 10 l 0) h
  simpa [Nat.ofDigitChars_ten_toDigits] using this

theorem map_intercalate (f : Char → Char) : ∀ l : List Str, ([';'].intercalate l).map f = [f ';'].intercalate (l.map (·.map f))
  | [] => rfl
  | [w] => by simp [List.intercalate_singleton]
  | w :: w' :: l => by
    rw [List.intercalate_cons_cons, List.map_append, List.map_append, map_intercalate f (w' :: l)]
    simp [List.intercalate_cons_cons]

theorem text_ok {a : HArg} (h : a.Ok) : a.text ≠ [] ∧ ∀ c ∈ a.text, Parse.isWs c = false ∧ c ≠ ';' := by
  cases a with
  | pos v => exact ⟨h.1, fun c hc => ⟨(h.2 c hc).1, (h.2 c hc).2.1⟩⟩
  | key k v =>
    refine ⟨by simp [HArg.text], fun c hc => ?_⟩
    simp only [HArg.text, List.mem_append, List.mem_cons] at hc
    rcases hc with hc | rfl | hc
    · exact ⟨(h.1.2 c hc).1, (h.1.2 c hc).2.1⟩
    · exact ⟨by decide, by decide⟩
    · exact ⟨(h.2.2 c hc).1, (h.2.2 c hc).2.1⟩

theorem map_same {f : Char → Char} {w : Str} (h : ∀ c ∈ w, f c = c) : w.map f = w := by
  conv_rhs => rw [← List.map_id w]
  exact List.map_congr_left h

/-- The words of one argument after replacing the equals sign. -/
theorem arg_words {a : HArg} (h : a.Ok) : words (a.text.map fun c => if c = '=' then ' ' else c) =
    match a with | .pos v => [v] | .key k v => [k, v] := by
  have hp : ∀ w : Str, PartOk w → w.map (fun c => if c = '=' then ' ' else c) = w := fun w hw =>
    map_same fun c hc => if_neg (hw.2 c hc).2.2
  cases a with
  | pos v =>
    rw [HArg.text, hp v h]
    exact words_one h.1 fun c hc => (h.2 c hc).1
  | key k v =>
    rw [HArg.text, List.map_append, List.map_cons, hp k h.1, hp v h.2, if_pos rfl,
      words_cons h.1.1 fun c hc => (h.1.2 c hc).1, words_one h.2.1 fun c hc => (h.2.2 c hc).1]

theorem argLoop_spec : ∀ (args : List HArg) (i : Nat) (env : Env), (∀ a ∈ args, a.Ok) →
    ∃ env', argLoop (args.map HArg.text) i env = some env' ∧ ∀ k v, env' k = some v ↔
      (∃ (n : Nat) (a : HArg), args[n]? = some a ∧ a.sets (i + n) = (k, v) ∧
        ∀ (m : Nat) (b : HArg), n < m → args[m]? = some b → (b.sets (i + m)).1 ≠ k) ∨
      (env k = some v ∧ ∀ (m : Nat) (b : HArg), args[m]? = some b → (b.sets (i + m)).1 ≠ k)
  | [], i, env, _ => ⟨env, rfl, fun k v => by simp⟩
  | a :: as, i, env, h => by
    have ha := h a (.head _)
    have hstep : argLoop ((a :: as).map HArg.text) i env =
        argLoop (as.map HArg.text) (i + 1) (Function.update env (a.sets i).1 (some (a.sets i).2)) := by
      rw [List.map_cons, argLoop, arg_words ha]
      cases a with
      | pos v => simp only [HArg.sets, argKey_eq]
      | key k v => rfl
    obtain ⟨env', h1, h2⟩ := argLoop_spec as (i + 1) (Function.update env (a.sets i).1 (some (a.sets i).2)) fun b hb => h b (.tail _ hb)
    refine ⟨env', by rw [hstep, h1], fun k v => ?_⟩
    rw [h2]
    have hadd : ∀ n, i + 1 + n = i + (n + 1) := fun n => by omega
    simp only [hadd]
    constructor
    · rintro (⟨n, b, e1, e2, e3⟩ | ⟨e1, e2⟩)
      · refine .inl ⟨n + 1, b, by simpa using e1, e2, fun m c hm hc => ?_⟩
        obtain ⟨m, rfl⟩ : ∃ m', m = m' + 1 := ⟨m - 1, by omega⟩
        exact e3 m c (by omega) (by simpa using hc)
      · by_cases hk : k = (a.sets i).1
        · subst hk
          rw [Function.update_self] at e1
          refine .inl ⟨0, a, rfl, ?_, fun m c hm hc => ?_⟩
          · rw [← Option.some.inj e1]; rfl
          · obtain ⟨m, rfl⟩ : ∃ m', m = m' + 1 := ⟨m - 1, by omega⟩
            exact e2 m c (by simpa using hc)
        · rw [Function.update_of_ne hk] at e1
          refine .inr ⟨e1, fun m c hc => ?_⟩
          cases m with
          | zero =>
            obtain rfl : a = c := by simpa using hc
            exact Ne.symm hk
          | succ m => exact e2 m c (by simpa using hc)
    · rintro (⟨n, b, e1, e2, e3⟩ | ⟨e1, e2⟩)
      · cases n with
        | zero =>
          obtain rfl : a = b := by simpa using e1
          refine .inr ⟨?_, fun m c hc => e3 (m + 1) c (by omega) (by simpa using hc)⟩
          rw [Nat.add_zero] at e2
          rw [e2, Function.update_self]
        | succ n =>
          exact .inl ⟨n, b, by simpa using e1, e2, fun m c hm hc => e3 (m + 1) c (by omega) (by simpa using hc)⟩
      · refine .inr ⟨?_, fun m c hc => e2 (m + 1) c (by simpa using hc)⟩
        rw [Function.update_of_ne (Ne.symm (show (a.sets i).1 ≠ k from e2 0 a rfl))]
        exact e1

/-- C93: a specification with arguments is read exactly: the name is the text before the parenthesis, and an option has
the value given by the last argument which sets it. -/
theorem C93_parse_exact (name : Str) (args : List HArg) (hn : '(' ∉ name) (hne : args ≠ []) (hok : ∀ a ∈ args, a.Ok) :
    ∃ env, parseHeur (specText name args) = some (name, env) ∧ ∀ k v, env k = some v ↔
      ∃ (n : Nat) (a : HArg), args[n]? = some a ∧ a.sets (n + 1) = (k, v) ∧
        ∀ (m : Nat) (b : HArg), n < m → args[m]? = some b → (b.sets (m + 1)).1 ≠ k := by
  obtain ⟨env, h1, h2⟩ := argLoop_spec args 1 (fun _ => none) hok
  refine ⟨env, ?_, fun k v => ?_⟩
  · have htk : ∀ r : Str, (name ++ '(' :: r).takeWhile (fun c => c != '(') = name ∧
        (name ++ '(' :: r).dropWhile (fun c => c != '(') = '(' :: r := by
      intro r
      clear h1 h2
      induction name with
      | nil => simp
      | cons c n ih =>
        have hc : (c != '(') = true := by
          rw [bne_iff_ne]; rintro rfl; exact hn (.head _)
        obtain ⟨e1, e2⟩ := ih fun h => hn (.tail _ h)
        rw [List.cons_append, List.takeWhile_cons, List.dropWhile_cons, if_pos hc, if_pos hc, e1, e2]
        exact ⟨rfl, rfl⟩
    have htext : specText name args = name ++ '(' :: ([';'].intercalate (args.map HArg.text) ++ [')']) := by
      simp [specText]
    rw [parseHeur, htext]
    simp only [htk]
    have e1 : ([';'].intercalate (args.map HArg.text) ++ [')']).take (([';'].intercalate (args.map HArg.text) ++ [')']).length - 1) =
        [';'].intercalate (args.map HArg.text) := by
      rw [List.length_append, List.length_singleton, Nat.add_sub_cancel, List.take_left']
      rfl
    have e2 : ([';'].intercalate (args.map HArg.text)).map (fun c => if c = ';' then ' ' else c) = [' '].intercalate (args.map HArg.text) := by
      rw [map_intercalate, List.map_map, if_pos rfl]
      congr 1
      exact List.map_congr_left fun a ha => map_same fun c hc => if_neg ((text_ok (hok a ha)).2 c hc).2
    rw [e1, e2, words_join _ (by simpa using hne) (by
      intro w hw
      obtain ⟨a, ha, rfl⟩ := List.mem_map.1 hw
      exact ⟨(text_ok (hok a ha)).1, fun c hc => ((text_ok (hok a ha)).2 c hc).1⟩), h1]
    rfl
  · rw [h2]
    simp [Nat.add_comm]

/-- C93: without parentheses there are no arguments. -/
theorem C93_parse_plain (name : Str) (hn : '(' ∉ name) : ∃ env, parseHeur name = some (name, env) ∧ ∀ k, env k = none := by
  have h1 : name.takeWhile (fun c => c != '(') = name ∧ name.dropWhile (fun c => c != '(') = [] := by
    induction name with
    | nil => exact ⟨rfl, rfl⟩
    | cons c n ih =>
      have hc : (c != '(') = true := by
        rw [bne_iff_ne]; rintro rfl; exact hn (.head _)
      obtain ⟨e1, e2⟩ := ih fun h => hn (.tail _ h)
      rw [List.takeWhile_cons, List.dropWhile_cons, if_pos hc, if_pos hc, e1, e2]
      exact ⟨rfl, rfl⟩
  refine ⟨fun _ => none, ?_, fun _ => rfl⟩
  rw [parseHeur]
  simp only [h1]

/-- C93: the value of an option with key `key` and position `i`: the one given with the key if there is one (and only
one); else the value in position `i` if it is given without a key; else it is empty.  (Keys are not of the form
`arg1`.) -/
theorem C93_options (name : Str) (args : List HArg) (hn : '(' ∉ name) (hne : args ≠ []) (hok : ∀ a ∈ args, a.Ok)
    (harg : ∀ k v, HArg.key k v ∈ args → ∀ i : Nat, k ≠ "arg".toList ++ (toString i).toList)
    (key : Str) (hkey : ∀ i : Nat, key ≠ "arg".toList ++ (toString i).toList) (i : Nat) :
    ∃ env, parseHeur (specText name args) = some (name, env) ∧
      (∀ v, HArg.key key v ∈ args → (∀ w, HArg.key key w ∈ args → w = v) → opt env key i = v) ∧
      ((∀ w, HArg.key key w ∉ args) → ∀ v, args[i]? = some (.pos v) → opt env key (i + 1) = v) ∧
      ((∀ w, HArg.key key w ∉ args) → (∀ v, args[i]? ≠ some (.pos v)) → opt env key (i + 1) = []) := by
  obtain ⟨env, h1, h2⟩ := C93_parse_exact name args hn hne hok
  -- who sets the key
  have hset : ∀ (m : Nat) (b : HArg), (b.sets (m + 1)).1 = key → ∃ w, b = .key key w := by
    intro m b hb
    cases b with
    | pos v => exact absurd hb.symm (hkey _)
    | key k w => exact ⟨w, by rw [show k = key from hb]⟩
  have hnone : (∀ w, HArg.key key w ∉ args) → env key = none := by
    intro hno
    cases he : env key with
    | none => rfl
    | some v =>
      obtain ⟨n, a, e1, e2, -⟩ := (h2 key v).1 he
      obtain ⟨w, rfl⟩ := hset n a (by rw [e2])
      exact absurd (List.mem_of_getElem? e1) (hno w)
  -- who sets the position
  have hpos : ∀ (m : Nat) (b : HArg), args[m]? = some b → (b.sets (m + 1)).1 = argKey (i + 1) → m = i ∧ ∃ v, b = .pos v := by
    intro m b hb he
    cases b with
    | pos v =>
      have : argKey (m + 1) = argKey (i + 1) := by rw [argKey_eq (m + 1)]; exact he
      exact ⟨by have := argKey_inj this; omega, v, rfl⟩
    | key k w => exact absurd (by rw [← argKey_eq]; exact he) (harg k w (List.mem_of_getElem? hb) (i + 1))
  refine ⟨env, h1, fun v hv huniq => ?_, fun hno v hv => ?_, fun hno hv => ?_⟩
  · -- the last argument that sets the key
    have hex : ∃ v', env key = some v' := by
      by_contra hc
      have hc' : env key = none := by
        cases he : env key with
        | none => rfl
        | some v' => exact absurd ⟨v', he⟩ hc
      obtain ⟨n, hn'⟩ := List.mem_iff_getElem?.1 hv
      have hfin : ∀ d n w, args.length - n ≤ d → args[n]? = some (HArg.key key w) → False := by
        intro d
        induction d with
        | zero =>
          intro n w hd hn
          have := (List.getElem?_eq_some_iff.1 hn).1
          omega
        | succ d ih =>
          intro n w hd hn
          have hlast : ∃ (m : Nat) (b : HArg), n < m ∧ args[m]? = some b ∧ (b.sets (m + 1)).1 = key := by
            by_contra hno
            have := (h2 key w).2 ⟨n, _, hn, rfl, fun m b hm hb he => hno ⟨m, b, hm, hb, he⟩⟩
            rw [hc'] at this; simp at this
          obtain ⟨m, b, hm, hb, he⟩ := hlast
          obtain ⟨w', rfl⟩ := hset m b he
          have := (List.getElem?_eq_some_iff.1 hn).1
          exact ih m w' (by omega) hb
      exact hfin _ n v le_rfl hn'
    obtain ⟨v', hv'⟩ := hex
    obtain ⟨n, a, e1, e2, -⟩ := (h2 key v').1 hv'
    obtain ⟨w, rfl⟩ := hset n a (by rw [e2])
    have : w = v' := (Prod.mk.inj e2).2
    rw [opt, hv', ← this]
    exact huniq w (List.mem_of_getElem? e1)
  · have : env (argKey (i + 1)) = some v := by
      refine (h2 _ _).2 ⟨i, _, hv, by rw [argKey_eq]; rfl, fun m b hm hb he => ?_⟩
      have := (hpos m b hb he).1
      omega
    rw [opt, hnone hno]
    simp [this]
  · have : env (argKey (i + 1)) = none := by
      cases he : env (argKey (i + 1)) with
      | none => rfl
      | some v =>
        obtain ⟨n, a, e1, e2, -⟩ := (h2 _ v).1 he
        obtain ⟨rfl, w, rfl⟩ := hpos n a e1 (by rw [e2])
        exact absurd e1 (hv w)
    rw [opt, hnone hno]
    simp [this]

/-! ## Values of nodes -/

/-- C93: for the specifications `ss`, where `h s` is value and verdict ("may reach the goal") of the heuristic specified
by `s` for the node: no value is read before it is set, entry `n` becomes the value of the heuristic specified by entry
`n`, also if the specification occurred before, and "unreachable" if an earlier heuristic has refused the node; the node
is kept iff no heuristic refuses it. -/
theorem C93_values {α : Type} [DecidableEq α] (ss : List α) (h : α → Int × Bool) (obj : Nat → Int × Bool)
    (hobj : ∀ (p : Nat) (s : α), ss[p]? = some s → obj p = h s) :
    ∃ vals, evalHeur (buildHeur ss 0 []) obj = some (vals, ss.all fun s => (h s).2) ∧
      ∀ (n : Nat) (s : α), ss[n]? = some s →
        ((∀ (m : Nat) (t : α), m < n → ss[m]? = some t → (h t).2 = true) → vals n = some (h s).1) ∧
        ((∃ (m : Nat) (t : α), m < n ∧ ss[m]? = some t ∧ (h t).2 = false) → vals n = some 2147483647) := by
  obtain ⟨hlen, hb⟩ := buildHeur_first ss
  set hF := buildHeur ss 0 [] with hhF
  have hspec : ∀ (n p : Nat) (s : α), hF[n]? = some p → ss[n]? = some s → obj p = h s := by
    intro n p s hp hs
    obtain ⟨-, h2, -⟩ := hb n p hp
    exact hobj p s (by rw [h2, hs])
  have hfirst : ∀ n p : Nat, hF[n]? = some p → p ≤ n ∧ hF[p]? = some p := by
    intro n p hp
    obtain ⟨h1, h2, h3⟩ := hb n p hp
    have hn : n < hF.length := (List.getElem?_eq_some_iff.1 hp).1
    obtain ⟨q, hq⟩ : ∃ q, hF[p]? = some q := ⟨hF[p], List.getElem?_eq_getElem (by omega)⟩
    obtain ⟨g1, g2, g3⟩ := hb p q hq
    refine ⟨h1, ?_⟩
    rcases Nat.lt_or_ge q p with hlt | hge
    · exact absurd (g2.trans h2) (h3 q hlt)
    · obtain rfl : q = p := by omega
      exact hq
  obtain ⟨vals, e1, e2⟩ := evalLoop_spec (h := obj) hfirst hF 0 (fun _ => none) true rfl (by simp) (by simp)
  have hall : ∀ n ≤ ss.length, ((hF.take n).all fun p => (obj p).2) = (ss.take n).all fun s => (h s).2 := by
    intro n
    induction n with
    | zero => intro _; rfl
    | succ n ih =>
      intro hn
      obtain ⟨p, hp⟩ : ∃ p, hF[n]? = some p := ⟨hF[n], List.getElem?_eq_getElem (by omega)⟩
      obtain ⟨s, hs⟩ : ∃ s, ss[n]? = some s := ⟨ss[n], List.getElem?_eq_getElem (by omega)⟩
      rw [List.take_add_one, List.take_add_one, hp, hs, List.all_append, List.all_append, ih (by omega)]
      simp [hspec n p s hp hs]
  refine ⟨vals, ?_, fun n s hs => ?_⟩
  · rw [evalHeur, e1]
    have := hall ss.length le_rfl
    rw [List.take_of_length_le (by omega), List.take_of_length_le le_rfl] at this
    rw [this]
  · have hn : n < ss.length := (List.getElem?_eq_some_iff.1 hs).1
    obtain ⟨p, hp⟩ : ∃ p, hF[n]? = some p := ⟨hF[n], List.getElem?_eq_getElem (by omega)⟩
    have hv := e2 n (by omega)
    rw [wanted, hall n (by omega)] at hv
    constructor
    · intro hm
      rw [if_pos] at hv
      · rw [hv]
        simp [List.getD, hp, hspec n p s hp hs]
      · rw [List.all_eq_true]
        intro t ht
        obtain ⟨m, hm'⟩ := List.mem_iff_getElem?.1 ht
        rw [List.getElem?_take] at hm'
        split at hm'
        · exact hm m t (by assumption) hm'
        · simp at hm'
    · rintro ⟨m, t, hm, ht, hf⟩
      rw [if_neg] at hv
      · rw [hv]; rfl
      · intro hc
        rw [List.all_eq_true] at hc
        have := hc t (List.mem_of_getElem? (by rw [List.getElem?_take_of_lt hm]; exact ht))
        rw [hf] at this; simp at this

/-- C93: two entries share an object iff their specifications are the same; so a heuristic is computed once. -/
theorem C93_shared {α : Type} [DecidableEq α] (ss : List α) (n m : Nat) (hn : n < ss.length) (hm : m < ss.length) :
    (buildHeur ss 0 [])[n]? = (buildHeur ss 0 [])[m]? ↔ ss[n]? = ss[m]? := by
  obtain ⟨hlen, hb⟩ := buildHeur_first ss
  obtain ⟨p, hp⟩ : ∃ p, (buildHeur ss 0 [])[n]? = some p := ⟨_, List.getElem?_eq_getElem (by omega)⟩
  obtain ⟨q, hq⟩ : ∃ q, (buildHeur ss 0 [])[m]? = some q := ⟨_, List.getElem?_eq_getElem (by omega)⟩
  obtain ⟨-, p2, p3⟩ := hb n p hp
  obtain ⟨-, q2, q3⟩ := hb m q hq
  rw [hp, hq, Option.some.injEq]
  constructor
  · rintro rfl
    exact p2.symm.trans q2
  · intro h
    rcases Nat.lt_trichotomy p q with hlt | heq | hlt
    · exact absurd (p2.trans h) (q3 p hlt)
    · exact heq
    · exact absurd (q2.trans h.symm) (p3 q hlt)

/-! ## What is wrong -/

theorem not_arg {c : Char} {r : Str} (h : c ≠ 'a') (i : Nat) : c :: r ≠ "arg".toList ++ (toString i).toList := by
  intro he
  rw [show "arg".toList = 'a' :: ['r', 'g'] from rfl, List.cons_append] at he
  exact h (List.cons.inj he).1

/-- One argument with a key: its option has the value, other options are empty. -/
theorem one_key (name : Str) (hn : '(' ∉ name) (c : Char) (k v : Str) (hc : c ≠ 'a') (hk : PartOk (c :: k)) (hv : PartOk v) :
    ∃ env, parseHeur (specText name [.key (c :: k) v]) = some (name, env) ∧ (∀ i, opt env (c :: k) i = v) ∧
      ∀ (d : Char) (l : Str) (i : Nat), d ≠ 'a' → d :: l ≠ c :: k → opt env (d :: l) (i + 1) = [] := by
  have hok : ∀ a ∈ [HArg.key (c :: k) v], a.Ok := by
    intro a ha; obtain rfl := List.mem_singleton.1 ha; exact ⟨hk, hv⟩
  have harg : ∀ k' v', HArg.key k' v' ∈ [HArg.key (c :: k) v] → ∀ i : Nat, k' ≠ "arg".toList ++ (toString i).toList := by
    intro k' v' h i
    obtain ⟨rfl, rfl⟩ := HArg.key.inj (List.mem_singleton.1 h)
    exact not_arg hc i
  obtain ⟨env, h1, -⟩ := C93_options name [.key (c :: k) v] hn (by simp) hok harg (c :: k) (not_arg hc) 0
  refine ⟨env, h1, fun i => ?_, fun d l i hd hne => ?_⟩
  · obtain ⟨env', h1', h2, -⟩ := C93_options name [.key (c :: k) v] hn (by simp) hok harg (c :: k) (not_arg hc) i
    obtain rfl : env = env' := by rw [h1] at h1'; exact (Prod.mk.inj (Option.some.inj h1')).2
    exact h2 v (List.mem_singleton.2 rfl) fun w hw => (HArg.key.inj (List.mem_singleton.1 hw)).2
  · obtain ⟨env', h1', -, -, h2⟩ := C93_options name [.key (c :: k) v] hn (by simp) hok harg (d :: l) (not_arg hd) i
    obtain rfl : env = env' := by rw [h1] at h1'; exact (Prod.mk.inj (Option.some.inj h1')).2
    refine h2 (fun w hw => hne (HArg.key.inj (List.mem_singleton.1 hw)).1) fun w => ?_
    cases i <;> simp

theorem partOk_iff {w : Str} : PartOk w ↔ w ≠ [] ∧ (w.all fun c => !Parse.isWs c && c != ';' && c != '=') = true := by
  simp [PartOk, List.all_eq_true, and_assoc]

/-- The relaxed planning graph, which the help text offers, is not chosen by `pg=relaxed`; it is chosen by `tdg=relaxed`. -/
theorem C93_pg_violated : (∃ env, parseHeur "dof(pg=relaxed)".toList = some ("dof".toList, env) ∧ dofPg env = .none) ∧
    ∃ env, parseHeur "dof(tdg=relaxed)".toList = some ("dof".toList, env) ∧ dofPg env = .relaxed := by
  constructor
  · obtain ⟨env, h1, h2, h3⟩ := one_key "dof".toList (by decide) 'p' ['g'] "relaxed".toList (by decide) (partOk_iff.2 (by decide)) (partOk_iff.2 (by decide))
    refine ⟨env, h1, ?_⟩
    rw [dofPg, show "pg".toList = 'p' :: ['g'] from rfl, h2, show "tdg".toList = 't' :: ['d', 'g'] from rfl, h3 't' _ 2 (by decide) (by decide)]
    decide
  · obtain ⟨env, h1, h2, h3⟩ := one_key "dof".toList (by decide) 't' ['d', 'g'] "relaxed".toList (by decide) (partOk_iff.2 (by decide)) (partOk_iff.2 (by decide))
    refine ⟨env, h1, ?_⟩
    rw [dofPg, show "tdg".toList = 't' :: ['d', 'g'] from rfl, h2, show "pg".toList = 'p' :: ['g'] from rfl, h3 'p' _ 3 (by decide) (by decide)]
    decide

/-- If the closing parenthesis is missing, the last character of the last value is dropped without a message: with
`rc2(h=lmc` the FF heuristic is used instead of LM-cut, which is not admissible. -/
theorem C93_unclosed_violated : (∃ env, parseHeur "rc2(h=lmc".toList = some ("rc2".toList, env) ∧ rc2Inner env = .ff) ∧
    ∃ env, parseHeur "rc2(h=lmc)".toList = some ("rc2".toList, env) ∧ rc2Inner env = .lmc := by
  constructor
  · obtain ⟨env, h1, h2, -⟩ := one_key "rc2".toList (by decide) 'h' [] "lm".toList (by decide) (partOk_iff.2 (by decide)) (partOk_iff.2 (by decide))
    refine ⟨env, ?_, ?_⟩
    · rw [← h1]; rfl
    · rw [rc2Inner, show "h".toList = ['h'] from rfl, h2]
      decide
  · obtain ⟨env, h1, h2, -⟩ := one_key "rc2".toList (by decide) 'h' [] "lmc".toList (by decide) (partOk_iff.2 (by decide)) (partOk_iff.2 (by decide))
    refine ⟨env, h1, ?_⟩
    rw [rc2Inner, show "h".toList = ['h'] from rfl, h2]
    decide

/-! ## Concrete cases -/

/-- `rc2(lmc;est=cost;no)`: the third argument is option `taskcount`, whatever form the second one has. -/
example : ∃ env, parseHeur "rc2(lmc;est=cost;no)".toList = some ("rc2".toList, env) ∧ opt env "taskcount".toList 3 = "no".toList := by
  have hok : ∀ a ∈ [HArg.pos "lmc".toList, .key "est".toList "cost".toList, .pos "no".toList], a.Ok := by
    intro a ha
    simp only [List.mem_cons, List.not_mem_nil, or_false] at ha
    rcases ha with rfl | rfl | rfl
    · exact partOk_iff.2 (by decide)
    · exact ⟨partOk_iff.2 (by decide), partOk_iff.2 (by decide)⟩
    · exact partOk_iff.2 (by decide)
  obtain ⟨env, h1, -, h2, -⟩ := C93_options "rc2".toList _ (by decide) (by simp) hok (by
    intro k v h i
    simp only [List.mem_cons, reduceCtorEq, HArg.key.injEq, List.not_mem_nil, or_false, false_or] at h
    rw [h.1]; exact not_arg (by decide) i) "taskcount".toList (not_arg (by decide)) 2
  exact ⟨env, h1, h2 (by simp) _ rfl⟩

/-- Three heuristics, the third one is the first one again: it is computed once and its value is copied. -/
example : buildHeur ["rc2", "zero", "rc2"] 0 [] = [0, 1, 0] ∧
    (evalHeur [0, 1, 0] fun p => (if p = 0 then 5 else 0, true)).map (fun r => (r.1 0, r.1 1, r.1 2, r.2)) = some (some 5, some 0, some 5, true) := by
  decide +kernel

end Verif.Props
