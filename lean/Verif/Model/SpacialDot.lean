import Verif.Model.Dot
import Verif.Model.Spacial
import Mathlib.Data.Rat.Floor
import Mathlib.Algebra.Order.Field.Rat

/-!
# The dot writers of the spatial ensembles

`{:.2}` (std) prints the decimal expansion of the number rounded to two digits after the point, halves to the even digit.  The
multiplication by `100.0` is exact here.
-/

namespace Verif

/-- Rounding a number that is not negative to an integer, halves to the even one (std, `fmt` with precision). -/
def roundEven (q : ℚ) : Nat :=
  let f := ⌊q⌋₊
  if q - f < 1 / 2 then f
  else if 1 / 2 < q - f then f + 1
  else if f % 2 = 0 then f else f + 1

/-- `format!("{:.2}", q)` (std) for a number or NaN. -/
def fmt2 : Option ℚ → String
  | none => "NaN"
  | some q =>
    let k := roundEven (|q| * 100)
    (if q < 0 then "-" else "") ++ toString (k / 100) ++ "." ++ toString (k / 10 % 10) ++ toString (k % 10)

/-- The closure that makes the labels (src/spacial/spacial_ensemble.rs:270-277, src/spacial/dog_networks.rs:31-38).  `container(index)`
would panic for an index out of range; the closure is called for the indices of the vertices only. -/
def posLabel {T : Type} (g : SpacialGraph T) (f : Nat → String) (i : Nat) : String :=
  match g.vertices[i]? with
  | none => f i
  | some c => f i ++ "\" pos=\"" ++ fmt2 (c.x.map (· * 100)) ++ "," ++ fmt2 (c.y.map (100 * ·)) ++ "!"

variable {T R σ ε : Type}

/-- `dot_from_indices` (src/spacial/spacial_ensemble.rs:260-279). -/
def Spacial.dotFromIndices (e : Spacial T R) (put : σ → String → Except ε Unit × σ) (dotOptions : String) (f : Nat → String) :
    DotM σ ε Unit := e.graph.dotFromIndices put dotOptions (posLabel e.graph f)

/-- `dot_with_indices` (src/traits/dot_traits.rs:180-195). -/
def Spacial.dotWithIndices (e : Spacial T R) (put : σ → String → Except ε Unit × σ) (dotOptions : String) : DotM σ ε Unit :=
  e.dotFromIndices put dotOptions (fun index => toString index)

/-- `dot` (src/traits/dot_traits.rs:212-224). -/
def Spacial.dot (e : Spacial T R) (put : σ → String → Except ε Unit × σ) (dotOptions : String) : DotM σ ε Unit :=
  e.dotFromIndices put dotOptions (fun _ => "")

/-- `dot_from_indices` (src/spacial/dog_networks.rs:21-40). -/
def Dog.dotFromIndices (e : Dog T R) (put : σ → String → Except ε Unit × σ) (dotOptions : String) (f : Nat → String) :
    DotM σ ε Unit := e.graph.dotFromIndices put dotOptions (posLabel e.graph f)

/-- `dot_with_indices` (src/traits/dot_traits.rs:180-195). -/
def Dog.dotWithIndices (e : Dog T R) (put : σ → String → Except ε Unit × σ) (dotOptions : String) : DotM σ ε Unit :=
  e.dotFromIndices put dotOptions (fun index => toString index)

/-- `dot` (src/traits/dot_traits.rs:212-224). -/
def Dog.dot (e : Dog T R) (put : σ → String → Except ε Unit × σ) (dotOptions : String) : DotM σ ε Unit :=
  e.dotFromIndices put dotOptions (fun _ => "")

end Verif
