import Verif.Automaton

/-! # What the symbolic search is about

The contract of the BDD operations, and the decompositions of a problem whose methods have at most two subtasks over an
abstract transition system. -/

namespace Verif.Sym

open Verif.Htn

/-- The BDD operations compute what they should: `mem x a b c` says that the assignment of the three copies `v`, `v'` and `v''`
with `a`, `b` and `c` satisfies `x`; `tr t` is the transition relation of the action `t`, `ini` and `gl` are the initial states
and the goal states.  `image` is only required to be right for BDDs that do not depend on `v'`. -/
structure Lawful {B σ : Type} (O : Ops B) (mem : B → σ → σ → σ → Prop) (tr : Nat → σ → σ → Prop) (ini gl : σ → Prop) : Prop where
  zero : ∀ a b c, ¬ mem O.zero a b c
  and : ∀ x y a b c, mem (O.and x y) a b c ↔ mem x a b c ∧ mem y a b c
  or : ∀ x y a b c, mem (O.or x y) a b c ↔ mem x a b c ∨ mem y a b c
  not : ∀ x a b c, mem (O.not x) a b c ↔ ¬ mem x a b c
  isEq : ∀ x y, O.isEq x y = true ↔ ∀ a b c, mem x a b c ↔ mem y a b c
  swapEA : ∀ x a b c, mem (O.swapEA x) a b c ↔ mem x a c b
  swapPE : ∀ x a b c, mem (O.swapPE x) a b c ↔ mem x b a c
  exP : ∀ x a b c, mem (O.exP x) a b c ↔ ∃ a', mem x a' b c
  exE : ∀ x a b c, mem (O.exE x) a b c ↔ ∃ b', mem x a b' c
  exA : ∀ x a b c, mem (O.exA x) a b c ↔ ∃ c', mem x a b c'
  image : ∀ t x, (∀ a b b' c, mem x a b c → mem x a b' c) → ∀ a b c, mem (O.image t x) a b c ↔ ∃ a', mem x a' b c ∧ tr t a' a
  biimp : ∀ a b c, mem O.biimp a b c ↔ a = c
  init : ∀ a b c, mem O.init a b c ↔ ini a
  goal : ∀ a b c, mem O.goal a b c ↔ gl a

/-- The task `t` can be decomposed, and the primitive tasks be executed in their order, from `x` to `y`. -/
inductive Full (P : Problem) {σ : Type} (tr : Nat → σ → σ → Prop) : Nat → σ → List Nat → σ → Prop
  | act {a : Nat} {x y : σ} (hp : P.prim a = true) (h : tr a x y) : Full P tr a x [a] y
  | one {m t : Nat} {x y : σ} {π : List Nat} (hm : m < P.numMethods) (hs : P.sub m = [t]) (h : Full P tr t x π y) :
      Full P tr (P.head m) x π y
  | two {m t u : Nat} {x y z : σ} {π ρ : List Nat} (hm : m < P.numMethods) (hs : P.sub m = [t, u]) (h₁ : Full P tr t x π y)
      (h₂ : Full P tr u y ρ z) : Full P tr (P.head m) x (π ++ ρ) z

end Verif.Sym
