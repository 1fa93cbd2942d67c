import Verif.Spec.Basic
import Mathlib.Combinatorics.SimpleGraph.Connectivity.Connected
import Mathlib.Data.Set.Card

/-!
# Specification of biconnected components

The definition of the documentation (src/generic_graph/generic_graph.rs:1153-1159): a maximal set of vertices from which any one
vertex can be removed such that the remaining ones are still connected; two vertices must be joined by an edge.
-/

namespace Verif

/-- The vertices of `K` are connected within `K`. -/
def ConnOn (G : SimpleGraph ℕ) (K : Finset ℕ) : Prop := (G.induce (K : Set ℕ)).Preconnected

/-- A set of at least two vertices that is connected and stays connected if any one vertex is removed. -/
structure BiSet (G : SimpleGraph ℕ) (S : Finset ℕ) : Prop where
  two : 2 ≤ S.card
  conn : ConnOn G S
  del : ∀ v ∈ S, ConnOn G (S.erase v)

/-- A biconnected component: a maximal such set. -/
def Block (G : SimpleGraph ℕ) (S : Finset ℕ) : Prop := BiSet G S ∧ ∀ S', BiSet G S' → S ⊆ S' → S' = S

/-- `r` lists the sizes of the biconnected components in descending order. -/
def IsBlockSizes (G : SimpleGraph ℕ) (r : List ℕ) : Prop :=
  r.Pairwise (fun a b => b ≤ a) ∧
  ∃ blocks : List (Finset ℕ), blocks.Nodup ∧ (∀ S, Block G S ↔ S ∈ blocks) ∧ r.Perm (blocks.map Finset.card)

/-- The parts contain every edge exactly once. -/
def PartitionsEdges (E : Finset (Sym2 ℕ)) (parts : List (List (ℕ × ℕ))) : Prop :=
  (∀ c ∈ parts, c ≠ []) ∧ (parts.flatten.map (fun e => s(e.1, e.2))).Nodup ∧ ∀ e, e ∈ E ↔ e ∈ parts.flatten.map (fun e => s(e.1, e.2))

/-- The end points of some edges. -/
def endPoints (c : List (ℕ × ℕ)) : Finset ℕ := (c.flatMap (fun e => [e.1, e.2])).toFinset

end Verif
