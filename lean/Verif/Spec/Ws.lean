import Verif.Model.Ws
import Verif.Spec.Basic

/-!
# Specification vocabulary of the Watts-Strogatz ensemble
-/

namespace Verif

namespace WSGraph
variable {T : Type}

/-- The entries of vertex `i`: neighbour together with the stored original edge. -/
def entries (g : WSGraph T) (i : Nat) : List (Nat × OriginalEdge) :=
  match g.vertices[i]? with
  | some c => c.dst.zip c.original
  | none => []

end WSGraph

/-- The original edge as an unordered pair. -/
def OriginalEdge.pair (o : OriginalEdge) : Sym2 ℕ := s(o.from_, o.dst)

/-- The edges of the ring of `n` vertices in which every vertex is connected to the `d` next ones on both sides. -/
def ringSet (n d : Nat) : Finset (Sym2 ℕ) :=
  (Finset.range n ×ˢ Finset.Icc 1 d).image (fun p : ℕ × ℕ => s(p.1, (p.1 + p.2) % n))

/-- A valid Watts-Strogatz network: a simple graph with `n * d` edges; each edge is marked as being at its origin exactly if it
is a ring edge in its own place, both ends of an edge store the same original edge, and storing is a bijection between the
edges of the graph and the edges of the ring. -/
structure WsValid {T : Type} (d : Nat) (g : WSGraph T) : Prop where
  wf : g.WF
  count : g.edgeCount = g.vertexCount * d
  flag : ∀ u, ∀ z ∈ WSGraph.entries g u, (z.2.isAtOrigin = true ↔ z.2.pair = s(u, z.1))
  mirror : ∀ u, ∀ z ∈ WSGraph.entries g u, ∀ z' ∈ WSGraph.entries g z.1, z'.1 = u → z'.2.pair = z.2.pair
  origin : ∀ u, ∀ z ∈ WSGraph.entries g u, z.2.pair ∈ ringSet g.vertexCount d
  onto : ∀ r ∈ ringSet g.vertexCount d, ∃ u, ∃ z ∈ WSGraph.entries g u, z.2.pair = r
  inj : ∀ u, ∀ z ∈ WSGraph.entries g u, ∀ u', ∀ z' ∈ WSGraph.entries g u', z.2.pair = z'.2.pair → s(u, z.1) = s(u', z'.1)

/-- The state of a generator after `k` draws of a unit number. -/
def unitState {R : Type} [Rng R] (k : Nat) (r : R) : R := (fun r => (Rng.genUnit r).2)^[k] r

/-- The outcome of throw number `k` of the coin. -/
def throwAt {R : Type} [Rng R] (p : ℚ) (r : R) (k : Nat) : Bool := (coin (unitState k r) p).1

/-- Every throw of a coin of probability `p` succeeds: the largest number that can be drawn, `1 - 2^-53`, is at most `p`. -/
def AllHeads (p : ℚ) : Prop := ((2 ^ 53 - 1 : ℕ) : ℚ) / 2 ^ 53 ≤ p

end Verif
