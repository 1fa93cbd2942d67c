import Mathlib.Algebra.BigOperators.Group.Finset.Basic
import Mathlib.Data.Nat.Choose.Basic
import Mathlib.Data.Fintype.Basic
import Mathlib.Data.Rat.Defs
import Mathlib.Algebra.Order.Ring.Rat
import Mathlib.Combinatorics.SimpleGraph.Connectivity.Connected
import Mathlib.Data.Finset.Powerset

/-!
# How many graphs are connected: specification for C109

Textbook recursions, without reference to the model.  The argument `n` stands for `n + 1` vertices, so that the recursions start with one
vertex: the component of a given vertex has `k + 1` vertices, `k` of which are chosen among the `n` others.
-/

namespace Verif

/-- Gilbert's recursion: the probability that a graph with `n + 1` vertices, of which all pairs are joined independently with
probability `p`, is connected. -/
def gilbert (p : ℚ) (n : ℕ) : ℚ :=
  1 - ∑ k : Fin n, n.choose k * gilbert p k * (1 - p) ^ ((k + 1) * (n - k))
termination_by n
decreasing_by exact k.2

/-- The number of pairs of `n` vertices. -/
def pairCount (n : ℕ) : ℕ := n * (n - 1) / 2

/-- The number of connected graphs with the vertices `0 … n` and exactly `m` edges: all graphs, less those in which the component of the
vertex `0` has `k + 1 ≤ n` vertices and `j` edges. -/
def connectedGraphs (n m : ℕ) : ℕ :=
  (pairCount (n + 1)).choose m -
    ∑ k : Fin n, n.choose k * ∑ j : Fin (m + 1), connectedGraphs k j * (pairCount (n - k)).choose (m - j)
termination_by n
decreasing_by exact k.2

/-- The graph with the edges `E`. -/
abbrev ofEdges (E : Finset (Sym2 ℕ)) : SimpleGraph ℕ := SimpleGraph.fromEdgeSet (E : Set (Sym2 ℕ))

/-- `E` connects the vertices `U`. -/
def Connects (U : Finset ℕ) (E : Finset (Sym2 ℕ)) : Prop := ∀ x ∈ U, ∀ y ∈ U, (ofEdges E).Reachable x y

/-- `K` is a cluster (connected component) of the graph with the vertices `U` and the edges `E`. -/
def IsCluster (U : Finset ℕ) (E : Finset (Sym2 ℕ)) (K : Finset ℕ) : Prop :=
  K ⊆ U ∧ K.Nonempty ∧ ∀ x ∈ K, ∀ y ∈ U, y ∈ K ↔ (ofEdges E).Reachable x y

open Classical in
/-- The number of clusters with `s` vertices. -/
noncomputable def clusterCount (U : Finset ℕ) (s : ℕ) (E : Finset (Sym2 ℕ)) : ℕ := ((U.powersetCard s).filter (IsCluster U E)).card

end Verif
