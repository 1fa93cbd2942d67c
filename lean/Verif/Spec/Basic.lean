import Verif.Lemmas.Lawful
import Mathlib.Combinatorics.SimpleGraph.Basic
import Mathlib.Combinatorics.SimpleGraph.Metric
import Mathlib.Data.Sym.Sym2
import Mathlib.Data.Finset.Union
import Mathlib.Data.Finset.Image
import Mathlib.Algebra.BigOperators.Group.Finset.Basic
import Mathlib.Algebra.BigOperators.Group.Finset.Piecewise

/-!
# Specification vocabulary

What a user can observe of a graph, the representation invariant, and the abstract graph.
-/

namespace Verif
open AdjContainer
open scoped BigOperators

namespace GenericGraph
variable {T A : Type} [AdjContainer T A]

/-- The neighbours listed by vertex `i` (`container(i).neighbors()`); no neighbours for a non-existing vertex. -/
def nbrs (g : GenericGraph T A) (i : Nat) : List Nat :=
  match g.vertices[i]? with
  | some a => neighbors a
  | none => []

/-- The data stored at the vertices, in order. -/
def data (g : GenericGraph T A) : List T := g.vertices.map contained

/-- The abstract graph: `i` and `j` are adjacent iff they are different and one lists the other. -/
def toSimple (g : GenericGraph T A) : SimpleGraph ℕ := SimpleGraph.fromRel (fun i j => j ∈ g.nbrs i)

/-- The representation invariant of a graph. -/
structure WF [LawfulAdj T A] (g : GenericGraph T A) : Prop where
  /-- the vertex counter is the number of vertices -/
  len : g.vertices.length = g.nextId
  /-- vertex `i` carries id `i` -/
  ids : ∀ (i : Nat) (a : A), g.vertices[i]? = some a → AdjContainer.id a = i
  /-- every container satisfies its own invariant -/
  inv : ∀ a ∈ g.vertices, LawfulAdj.inv a
  /-- neighbour lists mention only existing vertices -/
  lt : ∀ i j, j ∈ g.nbrs i → j < g.nextId
  /-- no self loops -/
  irrefl : ∀ i, i ∉ g.nbrs i
  /-- no repeated entries -/
  nodup : ∀ i, (g.nbrs i).Nodup
  /-- adjacency is symmetric -/
  symm : ∀ i j, j ∈ g.nbrs i → i ∈ g.nbrs j
  /-- the edge counter is half the degree sum -/
  count : ∑ i ∈ Finset.range g.nextId, (g.nbrs i).length = 2 * g.edgeCount

/-- The edge set: all unordered pairs `{i, j}` such that `i` lists `j`. -/
def edges (g : GenericGraph T A) : Finset (Sym2 ℕ) :=
  (Finset.range g.nextId).biUnion (fun i => (g.nbrs i).toFinset.image (fun j => s(i, j)))

end GenericGraph

end Verif
