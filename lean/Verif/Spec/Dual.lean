import Verif.Model.Dual
import Verif.Spec.Traverse

/-!
# Specification of dual graphs

The cross edges are a set of pairs (vertex of graph 1, vertex of graph 2); both graphs and the cross edges together form one
simple graph on the indices `DualIndex`.
-/

set_option linter.unusedSectionVars false

namespace Verif
open AdjContainer GenericGraph

variable {J T1 A1 T2 A2 : Type} [AdjTrait J] [AdjContainer T1 A1] [AdjContainer T2 A2]

namespace DualGraph

/-- The indices stored for vertex `i` of graph 1. -/
def list1 (d : DualGraph J T1 A1 T2 A2) (i : Nat) : List Nat :=
  match d.adj1[i]? with
  | some a => AdjTrait.slice a
  | none => []

/-- The indices stored for vertex `j` of graph 2. -/
def list2 (d : DualGraph J T1 A1 T2 A2) (j : Nat) : List Nat :=
  match d.adj2[j]? with
  | some a => AdjTrait.slice a
  | none => []

/-- The cross edges. -/
def cross (d : DualGraph J T1 A1 T2 A2) : Set (ℕ × ℕ) := {p | p.2 ∈ d.list1 p.1}

/-- Both graphs are valid and the two lists of cross edges are inverse to each other, without repetition. -/
structure WF [LawfulAdj T1 A1] [LawfulAdj T2 A2] (d : DualGraph J T1 A1 T2 A2) : Prop where
  wf1 : d.graph1.WF
  wf2 : d.graph2.WF
  len1 : d.adj1.length = d.graph1.vertexCount
  len2 : d.adj2.length = d.graph2.vertexCount
  inv : ∀ i j, j ∈ d.list1 i ↔ i ∈ d.list2 j
  nodup1 : ∀ i, (d.list1 i).Nodup
  nodup2 : ∀ j, (d.list2 j).Nodup

/-- The union of both graphs and the cross edges. -/
def union (d : DualGraph J T1 A1 T2 A2) : SimpleGraph DualIndex where
  Adj
    | .graph1 i, .graph1 j => d.graph1.toSimple.Adj i j
    | .graph1 i, .graph2 j => (i, j) ∈ d.cross
    | .graph2 j, .graph1 i => (i, j) ∈ d.cross
    | .graph2 i, .graph2 j => d.graph2.toSimple.Adj i j
  symm := ⟨by
    rintro (i | i) (j | j) h
    · exact d.graph1.toSimple.symm.symm _ _ h
    · exact h
    · exact h
    · exact d.graph2.toSimple.symm.symm _ _ h⟩
  loopless := ⟨by
    rintro (i | i) h
    · exact d.graph1.toSimple.loopless.irrefl _ h
    · exact d.graph2.toSimple.loopless.irrefl _ h⟩

/-- The vertices of both graphs. -/
def IsVertex (d : DualGraph J T1 A1 T2 A2) : DualIndex → Prop
  | .graph1 i => i < d.graph1.vertexCount
  | .graph2 i => i < d.graph2.vertexCount

/-- The data of a vertex. -/
def dataAt {J T A1 A2 : Type} [AdjContainer T A1] [AdjContainer T A2] (d : DualGraph J T A1 T A2) : DualIndex → Option T
  | .graph1 i => d.graph1.data[i]?
  | .graph2 i => d.graph2.data[i]?

/-- `d'` is `d` after writing `upd k` to the data of the `k`-th vertex of `L`; the topology is the same. -/
structure WrittenTo {J T A1 A2 : Type} [AdjTrait J] [AdjContainer T A1] [AdjContainer T A2] (d d' : DualGraph J T A1 T A2)
    (upd : Nat → T → T) (L : List DualIndex) : Prop where
  union : d'.union = d.union
  cross : d'.adj1 = d.adj1 ∧ d'.adj2 = d.adj2
  count : d'.graph1.vertexCount = d.graph1.vertexCount ∧ d'.graph2.vertexCount = d.graph2.vertexCount
  written : ∀ k w, L[k]? = some w → d'.dataAt w = (d.dataAt w).map (upd k)
  other : ∀ w, w ∉ L → d'.dataAt w = d.dataAt w

end DualGraph

/-- What a depth first search from `v` in `G` has to yield, see `DfsOrder`. -/
structure SearchOrder {V : Type} (G : SimpleGraph V) (v : V) (L : List V) : Prop where
  nodup : L.Nodup
  mem : ∀ w, w ∈ L ↔ G.Reachable v w
  head : L.head? = some v
  chain : ∀ L1 x L2, L = L1 ++ x :: L2 → L1 ≠ [] → ∃ y ∈ L1, G.Adj y x

/-- What a breadth first search from `v` in `G` has to yield, see `BfsOrder`. -/
structure LayerOrder {V : Type} (G : SimpleGraph V) (v : V) (L : List (V × Nat)) : Prop where
  nodup : (L.map (·.1)).Nodup
  mem : ∀ w, w ∈ L.map (·.1) ↔ G.Reachable v w
  head : (L.map (·.1)).head? = some v
  dist : ∀ p ∈ L, p.2 = G.dist v p.1
  sorted : (L.map (·.2)).Pairwise (· ≤ ·)

/-- What one call of `add_edge` has to do to the set of cross edges of a `MultiDualGraph` with `n1` and `n2` vertices. -/
def crossStep (n1 n2 : Nat) (S : Finset (ℕ × ℕ)) (p : ℕ × ℕ) : Except AddEdgeError Unit × Finset (ℕ × ℕ) :=
  if n1 ≤ p.1 ∨ n2 ≤ p.2 then (.error .indexOutOfBounds, S)
  else if p ∈ S then (.error .edgeExists, S)
  else (.ok (), insert p S)

/-- What one call of `add_edge` has to do to the set of cross edges of a `SingleDualGraph`: every vertex has at most one cross
edge. -/
def matchStep (n1 n2 : Nat) (S : Finset (ℕ × ℕ)) (p : ℕ × ℕ) : Except AddEdgeError Unit × Finset (ℕ × ℕ) :=
  if n1 ≤ p.1 ∨ n2 ≤ p.2 then (.error .indexOutOfBounds, S)
  else if ∃ q ∈ S, q.1 = p.1 ∨ q.2 = p.2 then (.error .edgeExists, S)
  else (.ok (), insert p S)

/-- A sequence of calls. -/
def stepRun {σ ρ π : Type} (step : σ → π → ρ × σ) : σ → List π → List ρ × σ
  | s, [] => ([], s)
  | s, p :: ps => ((step s p).1 :: (stepRun step (step s p).2 ps).1, (stepRun step (step s p).2 ps).2)

end Verif
