import Verif.Model.Measures

/-!
# `cloned_subgraph` and the dot writers
-/

namespace Verif
open AdjContainer

variable {T A : Type} [AdjContainer T A]

/-- `Vec::dedup` (std): removes repeated neighbouring elements. -/
def dedupAdj : List Nat → List Nat
  | [] => []
  | [a] => [a]
  | a :: b :: l => if a = b then dedupAdj (b :: l) else a :: dedupAdj (b :: l)

namespace GenericGraph

/-- The closure building one vertex (src/generic_graph/generic_graph.rs:1484-1500).  `map.get(n)`, a `HashMap` from the
kept indices to their positions, is `idxOf?` on the duplicate free list of kept indices. -/
def subgraphVertex (g : GenericGraph T A) (nodeList : List Nat) (p : Nat × Nat) : Res (NodeContainer T) := do
  let c ← g.container p.1
  return { id := p.2, adj := (neighbors c).filterMap (fun n => nodeList.idxOf? n), node := contained c }

/-- `cloned_subgraph` (src/generic_graph/generic_graph.rs:1457-1515). -/
def clonedSubgraph (g : GenericGraph T A) (nodeList : List Nat) : Res (Option (Graph T)) :=
  let nodeList := sortBy (fun a => a) nodeList
  match nodeList.getLast? with
  | none => .ok none
  | some last =>
    if last ≥ g.vertexCount then .ok none
    else do
      let nodeList := dedupAdj nodeList
      let vertices ← nodeList.zipIdx.mapM (subgraphVertex g nodeList)
      let edgeCount := (vertices.map (fun c => AdjContainer.degree c)).sum / 2
      return some { nextId := vertices.length, edgeCount, vertices }

end GenericGraph
end Verif
