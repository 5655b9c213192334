import Verif.Parse
import Mathlib.Data.List.Basic
import Mathlib.Logic.Function.Basic

/-! # Model of the specification of heuristics (src/SearchEngine.cpp 49-98, 277-411) and of their evaluation for a node
(src/search/PriorityQueueSearch.h 115-132)

Strings are lists of characters.  A `map<string,string>` is a function to `Option`. -/

namespace Verif.HeurArgs

open Verif.Parse (isWs)

abbrev Str := List Char
abbrev Env := Str → Option Str

/-- `parse_list_of_strings` (src/SearchEngine.cpp 49-58): words are read until the end of the stream was met.  If only
white space is left, an empty string is added. -/
def words (l : Str) : List Str :=
  match l.dropWhile isWs with
  | [] => [[]]
  | c :: r =>
    if isWs c then [] -- never, see `words_step`
    else
      match r.dropWhile fun x => !isWs x with
      | [] => [c :: r.takeWhile fun x => !isWs x]
      | d :: r' => if (d :: r').length < l.length then (c :: r.takeWhile fun x => !isWs x) :: words (d :: r') else []
termination_by l.length

/-- `"arg" + to_string(position)` (line 86). -/
def argKey (i : Nat) : Str := 'a' :: 'r' :: 'g' :: Nat.toDigits 10 i

/-- The loop over the arguments (lines 81-94); `none`: exit(1). -/
def argLoop : List Str → Nat → Env → Option Env
  | [], _, env => some env
  | a :: as, i, env =>
    match words (a.map fun c => if c = '=' then ' ' else c) with
    | [v] => argLoop as (i + 1) (Function.update env (argKey i) (some v))
    | [k, v] => argLoop as (i + 1) (Function.update env k (some v))
    | _ => none

/-- `parse_heuristic_with_arguments_from_braced_expression` (lines 66-98).  With `(` as last character the length given
to `substr` is the largest number; the result is empty as here. -/
def parseHeur (s : Str) : Option (Str × Env) :=
  let name := s.takeWhile fun c => c != '('
  match s.dropWhile fun c => c != '(' with
  | [] => some (name, fun _ => none)
  | _ :: r => (argLoop (words ((r.take (r.length - 1)).map fun c => if c = ';' then ' ' else c)) 1 fun _ => none).map fun e => (name, e)

/-- `(args.count(key))?args[key]:args["arg"+i]`, used for all options (lines 302-396). -/
def opt (env : Env) (key : Str) (i : Nat) : Str :=
  match env key with
  | some v => v
  | none => (env (argKey i)).getD []

/-- The inner heuristics of `rc2`. -/
inductive Inner where
  | lmc | add | ff | filter
deriving DecidableEq

/-- The choice of the inner heuristic (lines 320, 334-348). -/
def rc2Inner (env : Env) : Inner :=
  let s := opt env "h".toList 1
  if s = "lmc".toList then .lmc else if s = "add".toList then .add else if s = "ff".toList then .ff
  else if s = "filter".toList then .filter else .ff

/-- `csPg`. -/
inductive PgOpt where
  | none | full | relaxed
deriving DecidableEq

/-- The choice for the planning graph in `dof` (lines 364, 371-376). -/
def dofPg (env : Env) : PgOpt :=
  let tdg := opt env "tdg".toList 3
  let pg := opt env "pg".toList 4
  if pg = "full".toList then .full else if tdg = "relaxed".toList then .relaxed else .none

/-! ## Heuristics and their values -/

/-- `heuristics_so_far` (lines 288-297): entry `i` of the result is the number of the object at `heuristics[i]`; the object
created in round `i` has number and index `i`.  `done` has the specifications seen, with the rounds. -/
def buildHeur {α : Type} [DecidableEq α] : List α → Nat → List (α × Nat) → List Nat
  | [], _, _ => []
  | s :: ss, i, done =>
    match done.find? fun p => p.1 == s with
    | some p => p.2 :: buildHeur ss (i + 1) done
    | none => i :: buildHeur ss (i + 1) ((s, i) :: done)

/-- `UNREACHABLE`. -/
def unreachable : Int := 2147483647

/-- The inner loop over `jh` (PriorityQueueSearch.h 119-125): the value copied, `none` inside for a value not set. -/
def copyFrom (hF : List Nat) (p : Nat) (vals : Nat → Option Int) : List Nat → Option (Option Int) → Option (Option Int)
  | [], r => r
  | j :: js, r => copyFrom hF p vals js (if hF[j]? = some p then some (vals j) else r)

/-- The loop over the heuristics (PriorityQueueSearch.h 117-132; 182-197 is the same).  `h p` is what object `p` computes
for the node: value and new flag `goalReachable`; object `p` writes to entry `p`.  `none`: a value that was not set is
read. -/
def evalLoop (hF : List Nat) (h : Nat → Int × Bool) : List (Nat × Nat) → (Nat → Option Int) → Bool →
    Option ((Nat → Option Int) × Bool)
  | [], vals, g => some (vals, g)
  | (p, i) :: rest, vals, g =>
    if g then
      match copyFrom hF p vals (List.range i) none with
      | some (some v) => evalLoop hF h rest (Function.update vals i (some v)) g
      | some none => none
      | none => evalLoop hF h rest (Function.update vals p (some (h p).1)) (h p).2
    else evalLoop hF h rest (Function.update vals i (some unreachable)) g

/-- The evaluation of a new node with `goalReachable` set. -/
def evalHeur (hF : List Nat) (h : Nat → Int × Bool) : Option ((Nat → Option Int) × Bool) :=
  evalLoop hF h hF.zipIdx (fun _ => none) true

/-! ## Words -/

theorem dropWhile_head {p : Char → Bool} {l : Str} {c : Char} {r : Str} (h : l.dropWhile p = c :: r) : p c = false := by
  induction l with
  | nil => simp at h
  | cons a l ih =>
    rw [List.dropWhile_cons] at h
    split at h
    · exact ih h
    · rename_i ha
      obtain ⟨rfl, -⟩ := List.cons.inj h
      simpa using ha

/-- The function without the guards for termination. -/
theorem words_step (l : Str) : words l =
    match l.dropWhile isWs with
    | [] => [[]]
    | c :: r =>
      match r.dropWhile fun x => !isWs x with
      | [] => [c :: r.takeWhile fun x => !isWs x]
      | d :: r' => (c :: r.takeWhile fun x => !isWs x) :: words (d :: r') := by
  rw [words]
  cases h : l.dropWhile isWs with
  | nil => rfl
  | cons c r =>
    have h1 := dropWhile_head h
    have h2 : (c :: r).length ≤ l.length := by rw [← h]; exact (List.dropWhile_sublist _).length_le
    simp only [h1, Bool.false_eq_true, if_false]
    cases h' : r.dropWhile fun x => !isWs x with
    | nil => rfl
    | cons d r' =>
      have h3 : (d :: r').length ≤ r.length := by rw [← h']; exact (List.dropWhile_sublist _).length_le
      simp only [List.length_cons] at h2 h3 ⊢
      rw [if_pos (by omega)]

theorem words_space (l : Str) : words (' ' :: l) = words l := by
  rw [words_step, words_step l, List.dropWhile_cons_of_pos (by decide)]

theorem dropWhile_word {w r : Str} (h : ∀ c ∈ w, isWs c = false) : (w ++ r).dropWhile (fun x => !isWs x) = r.dropWhile fun x => !isWs x := by
  induction w with
  | nil => rfl
  | cons a w ih =>
    rw [List.cons_append, List.dropWhile_cons_of_pos (by simp [h a (.head _)]), ih fun c hc => h c (.tail _ hc)]

theorem takeWhile_word {w r : Str} (h : ∀ c ∈ w, isWs c = false) :
    (w ++ r).takeWhile (fun x => !isWs x) = w ++ r.takeWhile fun x => !isWs x := by
  induction w with
  | nil => rfl
  | cons a w ih =>
    rw [List.cons_append, List.takeWhile_cons_of_pos (by simp [h a (.head _)]), ih fun c hc => h c (.tail _ hc)]; rfl

theorem words_one {w : Str} (h0 : w ≠ []) (h : ∀ c ∈ w, isWs c = false) : words w = [w] := by
  obtain ⟨c, r, rfl⟩ := List.exists_cons_of_ne_nil h0
  have e1 := dropWhile_word (w := r) (r := []) fun x hx => h x (.tail _ hx)
  have e2 := takeWhile_word (w := r) (r := []) fun x hx => h x (.tail _ hx)
  simp only [List.append_nil, List.dropWhile_nil, List.takeWhile_nil] at e1 e2
  rw [words_step, List.dropWhile_cons_of_neg (by simp [h c (.head _)])]
  simp only [e1, e2]

theorem words_cons {w l : Str} (h0 : w ≠ []) (h : ∀ c ∈ w, isWs c = false) : words (w ++ ' ' :: l) = w :: words l := by
  obtain ⟨c, r, rfl⟩ := List.exists_cons_of_ne_nil h0
  have e1 := dropWhile_word (w := r) (r := ' ' :: l) fun x hx => h x (.tail _ hx)
  have e2 := takeWhile_word (w := r) (r := ' ' :: l) fun x hx => h x (.tail _ hx)
  rw [List.dropWhile_cons_of_neg (by decide)] at e1
  rw [List.takeWhile_cons_of_neg (by decide), List.append_nil] at e2
  rw [words_step, List.cons_append, List.dropWhile_cons_of_neg (by simp [h c (.head _)])]
  simp only [e1, e2, words_space]

theorem words_join : ∀ (ws : List Str), ws ≠ [] → (∀ w ∈ ws, w ≠ [] ∧ ∀ c ∈ w, isWs c = false) → words ([' '].intercalate ws) = ws
  | [], h, _ => absurd rfl h
  | [w], _, h => by
    rw [List.intercalate_singleton]
    exact words_one (h w (.head _)).1 (h w (.head _)).2
  | w :: w' :: ws, _, h => by
    rw [List.intercalate_cons_cons, List.append_assoc, List.singleton_append, words_cons (h w (.head _)).1 (h w (.head _)).2,
      words_join (w' :: ws) (by simp) fun x hx => h x (.tail _ hx)]

/-! ## Values -/

section

variable {α : Type} [DecidableEq α]

theorem buildHeur_spec : ∀ (ss : List α) (i : Nat) (done : List (α × Nat)) (pre : List α), pre.length = i →
    (∀ (s : α) (j : Nat), done.find? (fun p => p.1 == s) = some (s, j) ↔ pre[j]? = some s ∧ ∀ k < j, pre[k]? ≠ some s) →
    (buildHeur ss i done).length = ss.length ∧ ∀ n p : Nat, (buildHeur ss i done)[n]? = some p →
      p ≤ i + n ∧ (pre ++ ss)[p]? = ss[n]? ∧ ∀ k < p, (pre ++ ss)[k]? ≠ ss[n]?
  | [], i, done, pre, _, _ => ⟨rfl, fun n p h => by simp [buildHeur] at h⟩
  | s :: ss, i, done, pre, hl, hd => by
    have happ : pre ++ s :: ss = (pre ++ [s]) ++ ss := by simp
    have hl' : (pre ++ [s]).length = i + 1 := by simp [hl]
    rw [buildHeur]
    cases hf : done.find? fun p => p.1 == s with
    | some q =>
      obtain ⟨a, j⟩ := q
      have ha : a = s := by simpa using List.find?_some hf
      subst ha
      obtain ⟨h1, h2⟩ := (hd a j).1 hf
      have hj : j < pre.length := (List.getElem?_eq_some_iff.1 h1).1
      obtain ⟨k1, k2⟩ := buildHeur_spec ss (i + 1) done (pre ++ [a]) hl' (fun t m => by
        rw [hd t m]
        constructor
        · rintro ⟨g1, g2⟩
          have hm : m < pre.length := (List.getElem?_eq_some_iff.1 g1).1
          exact ⟨by rw [List.getElem?_append_left hm]; exact g1, fun k hk => by
            rw [List.getElem?_append_left (by omega)]; exact g2 k hk⟩
        · rintro ⟨g1, g2⟩
          by_cases hm : m < pre.length
          · rw [List.getElem?_append_left hm] at g1
            exact ⟨g1, fun k hk => by have := g2 k hk; rwa [List.getElem?_append_left (by omega)] at this⟩
          · have hm' : m < (pre ++ [a]).length := (List.getElem?_eq_some_iff.1 g1).1
            obtain rfl : m = pre.length := by simp at hm'; omega
            simp at g1
            subst g1
            exact absurd (by rw [List.getElem?_append_left hj]; exact h1) (g2 j hj))
      refine ⟨by simp [k1], fun n p hp => ?_⟩
      cases n with
      | zero =>
        obtain rfl : j = p := by simpa using hp
        refine ⟨by omega, by rw [List.getElem?_append_left hj, h1]; simp, fun k hk => ?_⟩
        rw [List.getElem?_append_left (by omega)]
        simpa using h2 k hk
      | succ n =>
        have := k2 n p (by simpa using hp)
        rw [happ]
        refine ⟨by omega, by simpa using this.2.1, fun k hk => by simpa using this.2.2 k hk⟩
    | none =>
      have hnot : ∀ k : Nat, pre[k]? ≠ some s := by
        intro k hk
        -- take the first one
        have hex : ∃ k : Nat, pre[k]? = some s := ⟨k, hk⟩
        have := (hd s (Nat.find hex)).2 ⟨Nat.find_spec hex, fun m hm => Nat.find_min hex hm⟩
        rw [hf] at this; simp at this
      obtain ⟨k1, k2⟩ := buildHeur_spec ss (i + 1) ((s, i) :: done) (pre ++ [s]) hl' (fun t m => by
        rw [List.find?_cons]
        by_cases ht : s = t
        · subst ht
          simp only [beq_self_eq_true, Option.some.injEq, Prod.mk.injEq, true_and]
          constructor
          · rintro rfl
            exact ⟨by simp [← hl], fun k hk => by rw [List.getElem?_append_left (by omega)]; exact hnot k⟩
          · rintro ⟨g1, g2⟩
            by_cases hm : m < pre.length
            · rw [List.getElem?_append_left hm] at g1
              exact absurd g1 (hnot m)
            · have hm' : m < (pre ++ [s]).length := (List.getElem?_eq_some_iff.1 g1).1
              simp at hm'; omega
        · have : ((s, i).1 == t) = false := by simpa using ht
          simp only [this]
          rw [hd t m]
          constructor
          · rintro ⟨g1, g2⟩
            have hm : m < pre.length := (List.getElem?_eq_some_iff.1 g1).1
            exact ⟨by rw [List.getElem?_append_left hm]; exact g1, fun k hk => by
              rw [List.getElem?_append_left (by omega)]; exact g2 k hk⟩
          · rintro ⟨g1, g2⟩
            by_cases hm : m < pre.length
            · rw [List.getElem?_append_left hm] at g1
              exact ⟨g1, fun k hk => by have := g2 k hk; rwa [List.getElem?_append_left (by omega)] at this⟩
            · have hm' : m < (pre ++ [s]).length := (List.getElem?_eq_some_iff.1 g1).1
              obtain rfl : m = pre.length := by simp at hm'; omega
              simp at g1
              exact absurd g1 ht)
      refine ⟨by simp [k1], fun n p hp => ?_⟩
      cases n with
      | zero =>
        obtain rfl : i = p := by simpa using hp
        refine ⟨by omega, by simp [← hl], fun k hk => ?_⟩
        rw [List.getElem?_append_left (by omega)]
        simpa using hnot k
      | succ n =>
        have := k2 n p (by simpa using hp)
        rw [happ]
        refine ⟨by omega, by simpa using this.2.1, fun k hk => by simpa using this.2.2 k hk⟩

end

/-- The array made from the specifications: entry `n` is the first specification that is the same. -/
theorem buildHeur_first {α : Type} [DecidableEq α] (ss : List α) : (buildHeur ss 0 []).length = ss.length ∧
    ∀ n p : Nat, (buildHeur ss 0 [])[n]? = some p → p ≤ n ∧ ss[p]? = ss[n]? ∧ ∀ k < p, ss[k]? ≠ ss[n]? := by
  have := buildHeur_spec ss 0 [] [] rfl (fun s j => by simp)
  simpa using this

theorem copyFrom_spec (hF : List Nat) (p : Nat) (vals : Nat → Option Int) : ∀ (js : List Nat) (r : Option (Option Int)),
    (copyFrom hF p vals js r = r ∧ ∀ j ∈ js, hF[j]? ≠ some p) ∨ ∃ j ∈ js, hF[j]? = some p ∧ copyFrom hF p vals js r = some (vals j)
  | [], r => .inl ⟨rfl, by simp⟩
  | j :: js, r => by
    rw [copyFrom]
    rcases copyFrom_spec hF p vals js (if hF[j]? = some p then some (vals j) else r) with ⟨h1, h2⟩ | ⟨k, hk, h1, h2⟩
    · by_cases hj : hF[j]? = some p
      · rw [if_pos hj] at h1 ⊢
        exact .inr ⟨j, .head _, hj, h1⟩
      · rw [if_neg hj] at h1 ⊢
        refine .inl ⟨h1, fun x hx => ?_⟩
        rcases List.mem_cons.1 hx with rfl | hx
        · exact hj
        · exact h2 x hx
    · exact .inr ⟨k, .tail _ hk, h1, h2⟩

/-- What entry `i` has to be: the value of object `hF[i]`, or unreachable behind an object that says so. -/
def wanted (hF : List Nat) (h : Nat → Int × Bool) (i : Nat) : Int :=
  if (hF.take i).all fun p => (h p).2 then (h (hF.getD i 0)).1 else unreachable

theorem evalLoop_spec {hF : List Nat} {h : Nat → Int × Bool}
    (hfirst : ∀ n p : Nat, hF[n]? = some p → p ≤ n ∧ hF[p]? = some p) : ∀ (rest : List Nat) (i : Nat) (vals : Nat → Option Int) (g : Bool),
    hF.drop i = rest → (∀ j < i, vals j = some (wanted hF h j)) → (g = (hF.take i).all fun p => (h p).2) →
    ∃ vals', evalLoop hF h (rest.zipIdx i) vals g = some (vals', hF.all fun p => (h p).2) ∧
      ∀ j < hF.length, vals' j = some (wanted hF h j)
  | [], i, vals, g, hr, hv, hg => by
    have hle : hF.length ≤ i := List.drop_eq_nil_iff.1 hr
    refine ⟨vals, ?_, fun j hj => hv j (by omega)⟩
    rw [List.zipIdx_nil, evalLoop, hg, List.take_of_length_le hle]
  | p :: rest, i, vals, g, hr, hv, hg => by
    have hi : hF[i]? = some p := by
      have : (hF.drop i)[0]? = some p := by rw [hr]; rfl
      simpa using this
    have hlen : i < hF.length := (List.getElem?_eq_some_iff.1 hi).1
    have hdrop : hF.drop (i + 1) = rest := by
      rw [← List.drop_drop, hr]; rfl
    have htake : hF.take (i + 1) = hF.take i ++ [p] := by
      rw [List.take_add_one, hi]; rfl
    have hget : hF.getD i 0 = p := by simp [List.getD, hi]
    have step : ∀ (vals' : Nat → Option Int) (g' : Bool), vals' i = some (wanted hF h i) → (∀ j < i, vals' j = vals j) →
        (g' = (g && (h p).2)) → ∃ v, evalLoop hF h (rest.zipIdx (i + 1)) vals' g' = some (v, hF.all fun p => (h p).2) ∧
        ∀ j < hF.length, v j = some (wanted hF h j) := by
      intro vals' g' h1 h2 h3
      refine evalLoop_spec hfirst rest (i + 1) vals' g' hdrop (fun j hj => ?_) ?_
      · rcases Nat.lt_or_ge j i with hj' | hj'
        · rw [h2 j hj', hv j hj']
        · obtain rfl : j = i := by omega
          exact h1
      · rw [h3, hg, htake, List.all_append]; simp
    rw [List.zipIdx_cons, evalLoop]
    cases g with
    | false =>
      simp only [Bool.false_eq_true, if_false]
      refine step _ _ ?_ (fun j hj => Function.update_of_ne (by omega) _ _) rfl
      rw [Function.update_self, wanted, ← hg]; rfl
    | true =>
      simp only [if_true]
      have hw : wanted hF h i = (h p).1 := by rw [wanted, ← hg, hget]; rfl
      rcases copyFrom_spec hF p vals (List.range i) none with ⟨h1, h2⟩ | ⟨j, hj, h1, h2⟩
      · have hpi : p = i := by
          obtain ⟨f1, f2⟩ := hfirst i p hi
          rcases Nat.lt_or_ge p i with hlt | hge
          · exact absurd f2 (h2 p (List.mem_range.2 hlt))
          · omega
        rw [h1]
        simp only
        rw [hpi]
        refine step _ _ ?_ (fun j hj => Function.update_of_ne (by omega) _ _) (by rw [hpi]; simp)
        rw [Function.update_self, hw, hpi]
      · have hji := List.mem_range.1 hj
        rw [h2, hv j hji]
        simp only
        have hall : ((hF.take i).all fun p => (h p).2) = true := hg.symm
        have hpj : (h p).2 = true := List.all_eq_true.1 hall p (List.mem_of_getElem? (by rw [List.getElem?_take_of_lt hji]; exact h1))
        refine step _ _ ?_ (fun k hk => Function.update_of_ne (by omega) _ _) (by rw [hpj]; rfl)
        rw [Function.update_self, hw, wanted]
        have : ((hF.take j).all fun p => (h p).2) = true := by
          rw [List.all_eq_true] at hall ⊢
          exact fun x hx => hall x ((List.take_subset_take_left _ (by omega)) hx)
        rw [this]
        simp [List.getD, h1]

end Verif.HeurArgs
