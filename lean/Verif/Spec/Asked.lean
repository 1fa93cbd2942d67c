import Verif.Model.Prelude

/-!
# What is asked of the generator

A generator that answers like another one and keeps a record of what it was asked.
-/

set_option linter.unusedSectionVars false

namespace Verif

/-- A request to the generator: a number below `h`, a number in `[0, 1)`, a permutation of a slice of the given length. -/
inductive Ask where
  | range (h : ℕ)
  | unit
  | shuffle (len : ℕ)
deriving DecidableEq, Repr

/-- A generator together with the requests so far, the latest one at the end. -/
structure Recorder (R : Type) where
  inner : R
  asked : List Ask

instance {R : Type} [Rng R] : Rng (Recorder R) where
  genRange r h := ((Rng.genRange r.inner h).1, ⟨(Rng.genRange r.inner h).2, r.asked ++ [.range h]⟩)
  genRange_lt r h hh := Rng.genRange_lt r.inner h hh
  genUnit r := ((Rng.genUnit r.inner).1, ⟨(Rng.genUnit r.inner).2, r.asked ++ [.unit]⟩)
  genUnit_lt r := Rng.genUnit_lt r.inner
  shuffle r l := ((Rng.shuffle r.inner l).1, ⟨(Rng.shuffle r.inner l).2, r.asked ++ [.shuffle l.length]⟩)
  shuffle_perm r l := Rng.shuffle_perm r.inner l

/-- A call made `k` times. -/
def times {E : Type} (call : E → Res E) : ℕ → E → Res E
  | 0, e => .ok e
  | k + 1, e => do
    let e ← call e
    times call k e

/-- The requests of one proposal of a small-world network with `n` vertices; `b`: the edge is to be rewired. -/
def proposalAsks (n : ℕ) (b : Bool) : List Ask := if b then [.unit, .range (n - 1)] else [.unit]

end Verif
