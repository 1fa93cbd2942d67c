import Mathlib.Data.List.Basic
import Mathlib.Data.List.Perm.Basic
import Mathlib.Algebra.Order.Field.Rat
import Mathlib.Data.List.Sort

/-!
# Prelude of the model

Result type of a Rust call, vectors, error type and the interface of a random number generator.
-/

namespace Verif

/-- Outcome of a Rust call in a debug build.  `panic`: the call panics.  `diverge`: the loop bound handed
to the model was used up before the Rust loop ended. -/
inductive Res (α : Type) where
  | ok : α → Res α
  | panic : Res α
  | diverge : Res α
deriving DecidableEq, Repr

namespace Res

def bind {α β : Type} (x : Res α) (f : α → Res β) : Res β :=
  match x with
  | ok a => f a
  | panic => panic
  | diverge => diverge

instance : Monad Res where
  pure := ok
  bind := bind

/-- `assert!` / `debug_assert!`: panics if the condition is false. -/
def assert (b : Bool) : Res Unit := if b then ok () else panic

/-- `Option::unwrap` / `expect`. -/
def unwrap {α : Type} : Option α → Res α
  | some a => ok a
  | none => panic

/-- `usize` subtraction in a debug build: panics on underflow. -/
def sub (a b : Nat) : Res Nat := if b ≤ a then ok (a - b) else panic

end Res

/-- `GraphErrors` (src/traits/graph_traits.rs:27-34). -/
inductive GraphErr where
  | edgeExists
  | edgeDoesNotExist
deriving DecidableEq, Repr

namespace Vec

/-- `vec[i]`: panics when out of range (std). -/
def idx {α : Type} (l : List α) (i : Nat) : Res α :=
  match l[i]? with
  | some a => .ok a
  | none => .panic

/-- `vec[i] = a`: panics when out of range (std). -/
def put {α : Type} (l : List α) (i : Nat) (a : α) : Res (List α) :=
  if i < l.length then .ok (l.set i a) else .panic

/-- `Vec::swap_remove(i)` (std): returns element `i`, replaces it by the last element, shortens the vector;
panics when out of range. -/
def swapRemove {α : Type} (l : List α) (i : Nat) : Res (α × List α) :=
  match l[i]?, l.getLast? with
  | some x, some y => .ok (x, (l.set i y).dropLast)
  | _, _ => .panic

/-- `slice.swap(i, j)` (std): panics when out of range. -/
def swap {α : Type} (l : List α) (i j : Nat) : Res (List α) :=
  match l[i]?, l[j]? with
  | some x, some y => .ok ((l.set i y).set j x)
  | _, _ => .panic

end Vec

/-- The contract of the random number generator as used by the crate (`rand` crate, external code).
`R` is the state of the generator.
* `genRange r h` models `rng.gen_range(0..h)` for `h > 0` (for `h = 0` the caller must model the panic),
* `genUnit r` models `rng.gen::<f64>()`, the value being `u / 2^53` for the returned `u`,
* `shuffle r l` models `l.shuffle(rng)`.
No distribution is assumed: theorems hold for every behaviour that satisfies the contract. -/
class Rng (R : Type) where
  genRange : R → Nat → Nat × R
  genRange_lt : ∀ r h, 0 < h → (genRange r h).1 < h
  genUnit : R → Nat × R
  genUnit_lt : ∀ r, (genUnit r).1 < 2 ^ 53
  shuffle : {α : Type} → R → List α → List α × R
  shuffle_perm : ∀ {α : Type} (r : R) (l : List α), ((shuffle r l).1).Perm l

/-- `rng.gen_range(0..h)`: panics on an empty range (rand crate). -/
def genRange {R : Type} [Rng R] (r : R) (h : Nat) : Res (Nat × R) :=
  if 0 < h then .ok (Rng.genRange r h) else .panic

/-- `rng.gen::<f64>() <= p` with a rational `p` in place of the `f64`. -/
def coin {R : Type} [Rng R] (r : R) (p : ℚ) : Bool × R :=
  let (u, r') := Rng.genUnit r
  (decide ((u : ℚ) / 2 ^ 53 ≤ p), r')

end Verif
