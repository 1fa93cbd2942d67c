import Verif.Spec.Traverse
import Mathlib.Algebra.BigOperators.Field
import Mathlib.Algebra.Order.BigOperators.Group.Finset

/-!
# Specification of vertex_load

Every vertex reachable from `s` sends one unit towards `s`; a vertex passes on what it sends and receives in equal parts to its
neighbours that are closer to `s`.
-/

namespace Verif
open AdjContainer

section
variable {T A : Type} [AdjContainer T A]

open Classical in
/-- The neighbours of `v` that are closer to `s`. -/
noncomputable def closer (g : GenericGraph T A) (s v : Nat) : Finset ℕ :=
  (Finset.range g.vertexCount).filter (fun u => g.toSimple.Adj u v ∧ g.toSimple.dist s u + 1 = g.toSimple.dist s v)

open Classical in
/-- The neighbours of `v` that are farther from `s`. -/
noncomputable def farther (g : GenericGraph T A) (s v : Nat) : Finset ℕ :=
  (Finset.range g.vertexCount).filter (fun w => g.toSimple.Adj v w ∧ g.toSimple.dist s v + 1 = g.toSimple.dist s w)

/-- `F v` is the flow through `v` towards `s`: the unit of `v` and the parts received from the vertices farther away. -/
def IsFlow (g : GenericGraph T A) (s : Nat) (F : ℕ → ℚ) : Prop :=
  ∀ v, g.toSimple.Reachable s v → F v = 1 + ∑ w ∈ farther g s v, F w / ((closer g s w).card : ℚ)

open Classical in
/-- The sources other than `v` that reach `v`. -/
noncomputable def sources (g : GenericGraph T A) (v : Nat) : Finset ℕ :=
  (Finset.range g.vertexCount).filter (fun s => s ≠ v ∧ g.toSimple.Reachable s v)

end

end Verif
