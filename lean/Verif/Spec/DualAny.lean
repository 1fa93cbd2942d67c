import Verif.Spec.Dual

/-!
# Specification of dual graphs with arbitrary cross lists

After a member graph was exchanged through `graph_1_mut` or `graph_2_mut` the lists of cross edges may name vertices that do
not exist, may be too short, and need not be inverse to each other.  The searches then follow a directed relation.
-/

set_option linter.unusedSectionVars false

namespace Verif
open AdjContainer GenericGraph

variable {J T1 A1 T2 A2 : Type} [AdjTrait J] [AdjContainer T1 A1] [AdjContainer T2 A2]

namespace DualGraph

/-- `w` is stored as neighbour or cross partner of `v`. -/
def Succ (d : DualGraph J T1 A1 T2 A2) : DualIndex → DualIndex → Prop
  | .graph1 i, .graph1 j => d.graph1.toSimple.Adj i j
  | .graph1 i, .graph2 j => j ∈ d.list1 i
  | .graph2 j, .graph1 i => i ∈ d.list2 j
  | .graph2 i, .graph2 j => d.graph2.toSimple.Adj i j

/-- There is a list of cross partners for `v`. -/
def HasList (d : DualGraph J T1 A1 T2 A2) : DualIndex → Prop
  | .graph1 i => i < d.adj1.length
  | .graph2 i => i < d.adj2.length

/-- `v` has a list of cross partners, and everything stored for `v` exists. -/
def Sound (d : DualGraph J T1 A1 T2 A2) (v : DualIndex) : Prop :=
  d.HasList v ∧ ∀ w, d.Succ v w → d.IsVertex w

/-- A walk of `n` steps. -/
def Steps (d : DualGraph J T1 A1 T2 A2) : Nat → DualIndex → DualIndex → Prop
  | 0, v, w => w = v
  | n + 1, v, w => ∃ y, Steps d n v y ∧ d.Succ y w

/-- `n` steps lead from `v` to `w`, and not less. -/
def Far (d : DualGraph J T1 A1 T2 A2) (v w : DualIndex) (n : Nat) : Prop :=
  d.Steps n v w ∧ ∀ m < n, ¬ d.Steps m v w

/-- The items of a breadth first search: everything reachable from `v` once, with the number of steps, in that order. -/
structure Layers (d : DualGraph J T1 A1 T2 A2) (v : DualIndex) (L : List (DualIndex × Nat)) : Prop where
  nodup : (L.map (·.1)).Nodup
  mem : ∀ w, w ∈ L.map (·.1) ↔ Relation.ReflTransGen d.Succ v w
  far : ∀ p ∈ L, d.Far v p.1 p.2
  sorted : (L.map (·.2)).Pairwise (· ≤ ·)

end DualGraph
end Verif
