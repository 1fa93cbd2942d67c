import Verif.Spec.Basic
import Mathlib.Combinatorics.SimpleGraph.Metric
import Mathlib.Combinatorics.SimpleGraph.Connectivity.Connected

/-!
# Specification of the traversals

Only the adjacency relation `toSimple` and the stored data of the graph are used.
-/

set_option linter.unusedSectionVars false

namespace Verif
open AdjContainer GenericGraph

section
variable {T A : Type} [AdjContainer T A]

/-- What a depth first search from `v` has to yield: every vertex reachable from `v` exactly once and nothing else,
`v` first, every later vertex adjacent to an earlier one. -/
structure DfsOrder (g : GenericGraph T A) (v : Nat) (L : List Nat) : Prop where
  nodup : L.Nodup
  mem : ∀ w, w ∈ L ↔ g.toSimple.Reachable v w
  head : L.head? = some v
  chain : ∀ L1 x L2, L = L1 ++ x :: L2 → L1 ≠ [] → ∃ y ∈ L1, g.toSimple.Adj y x

/-- What a breadth first search from `v` in the graph `G` (the graph itself or a filtered one) has to yield: triples
(index, data, depth); every vertex reachable from `v` exactly once, `v` first, the depth is the distance in `G`, the
depths never decrease. -/
structure BfsOrder (g : GenericGraph T A) (G : SimpleGraph ℕ) (v : Nat) (L : List (Nat × T × Nat)) : Prop where
  nodup : (L.map (·.1)).Nodup
  mem : ∀ w, w ∈ L.map (·.1) ↔ G.Reachable v w
  head : (L.map (·.1)).head? = some v
  data : ∀ p ∈ L, g.getContained p.1 = some p.2.1
  dist : ∀ p ∈ L, p.2.2 = G.dist v p.1
  sorted : (L.map (·.2.2)).Pairwise (· ≤ ·)

/-- The vertices accepted by the filter. -/
def Accepted (g : GenericGraph T A) (f : T → Nat → Bool) (k : Nat) : Prop :=
  ∃ t, g.getContained k = some t ∧ f t k = true

/-- The subgraph induced by the accepted vertices. -/
def filteredGraph (g : GenericGraph T A) (f : T → Nat → Bool) : SimpleGraph ℕ where
  Adj v w := g.toSimple.Adj v w ∧ Accepted g f v ∧ Accepted g f w
  symm := ⟨fun _ _ h => ⟨h.1.symm, h.2.2, h.2.1⟩⟩
  loopless := ⟨fun _ h => g.toSimple.loopless.irrefl _ h.1⟩

/-- The components that contain a vertex of the graph. -/
noncomputable def componentSet (g : GenericGraph T A) : Finset g.toSimple.ConnectedComponent := by
  classical exact (Finset.range g.vertexCount).image g.toSimple.connectedComponentMk

/-- The number of vertices in a component. -/
noncomputable def componentSize (g : GenericGraph T A) (c : g.toSimple.ConnectedComponent) : Nat := by
  classical exact ((Finset.range g.vertexCount).filter (fun v => g.toSimple.connectedComponentMk v = c)).card

/-- The subgraph induced by a set of vertices. -/
def inducedOn (g : GenericGraph T A) (K : Finset ℕ) : SimpleGraph ℕ where
  Adj v w := g.toSimple.Adj v w ∧ v ∈ K ∧ w ∈ K
  symm := ⟨fun _ _ h => ⟨h.1.symm, h.2.2, h.2.1⟩⟩
  loopless := ⟨fun _ h => g.toSimple.loopless.irrefl _ h.1⟩

open Classical in
/-- A set of vertices in which every vertex has at least `q` neighbours within the set. -/
def QSet (g : GenericGraph T A) (q : Nat) (S : Finset ℕ) : Prop :=
  ∀ v ∈ S, v < g.vertexCount ∧ q ≤ (S.filter (fun w => g.toSimple.Adj v w)).card

open Classical in
/-- The number of vertices of `K` that can be reached from `v` within `K`. -/
noncomputable def sizeWithin (g : GenericGraph T A) (K : Finset ℕ) (v : Nat) : Nat :=
  (K.filter (fun w => (inducedOn g K).Reachable v w)).card

end

section
variable {T : Type}

/-- The data after the writes `upd 0, upd 1, …` at the vertices `D[0], D[1], …`. -/
def Written (upd : Nat → T → T) (old new : List T) (D : List Nat) : Prop :=
  new.length = old.length ∧ (∀ k i : Nat, D[k]? = some i → new[i]? = (old[i]?).map (upd k)) ∧
    (∀ i, i ∉ D → new[i]? = old[i]?)

end

end Verif
