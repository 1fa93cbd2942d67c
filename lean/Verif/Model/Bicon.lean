import Verif.Model.Measures

/-!
# vertex_biconnected_components

Model of `GenericGraph::vertex_biconnected_components` (src/generic_graph/generic_graph.rs:1172-1291).
-/

set_option linter.unusedSectionVars false

namespace Verif
open AdjContainer

/-- The variables of `vertex_biconnected_components` (src/generic_graph/generic_graph.rs:1174-1179) including the consumed graph.  The two
stacks have their top at the head of the list. -/
structure BiState (T A : Type) [AdjContainer T A] where
  graph : GenericGraph T A
  low : List Nat
  number : List Nat
  handled : List Bool
  edgeStack : List (Nat × Nat)
  vertexStack : List Nat
  components : List (List (Nat × Nat))

/-- `while let Some(current_edge) = edge_stack.last()` (src/generic_graph/generic_graph.rs:1238-1246): returns `tmp_component` and the
remaining stack. -/
def popEdges (number : List Nat) (bound : Nat) : List (Nat × Nat) → Res (List (Nat × Nat) × List (Nat × Nat))
  | [] => .ok ([], [])
  | e :: rest => do
    let n1 ← Vec.idx number e.2
    if n1 < bound then return ([], e :: rest)
    else do
      let n0 ← Vec.idx number e.1
      if n0 < bound then return ([], e :: rest)
      else do
        let (tmp, rest) ← popEdges number bound rest
        return (e :: tmp, rest)

namespace GenericGraph
variable {T A : Type} [AdjContainer T A]

/-- The branch for a vertex with a remaining edge (src/generic_graph/generic_graph.rs:1196-1228). -/
def biForward (s : BiState T A) (top : Nat) : Res (BiState T A) := do
  let c ← s.graph.container top
  let next ← Res.unwrap (getAdjFirst c)
  let (r, graph) ← s.graph.removeEdge top next
  match r with
  | .error _ => .panic
  | .ok () => do
    let s := { s with graph := graph, edgeStack := (top, next) :: s.edgeStack }
    let h ← Vec.idx s.handled next
    if !h then do
      let number ← Vec.put s.number next s.vertexStack.length
      let n ← Vec.idx number top
      let low ← Vec.put s.low next n
      let handled ← Vec.put s.handled next true
      return { s with number := number, low := low, handled := handled, vertexStack := next :: s.vertexStack }
    else do
      let n ← Vec.idx s.number next
      let l ← Vec.idx s.low top
      if n < l then do
        let low ← Vec.put s.low top n
        return { s with low := low }
      else return s

/-- The branch for a vertex without a remaining edge (src/generic_graph/generic_graph.rs:1231-1258), `stack` is the vertex stack after
the `pop`, `next` its top. -/
def biBackward (s : BiState T A) (top next : Nat) (stack : List Nat) : Res (BiState T A) := do
  let s := { s with vertexStack := stack }
  let l ← Vec.idx s.low top
  let n ← Vec.idx s.number next
  if l = n then do
    let (tmp, rest) ← popEdges s.number n s.edgeStack
    if !tmp.isEmpty then return { s with edgeStack := rest, components := s.components ++ [tmp] }
    else return { s with edgeStack := rest }
  else do
    let ln ← Vec.idx s.low next
    if l < ln then do
      let low ← Vec.put s.low next l
      return { s with low := low }
    else return s

/-- `while let Some(&top_vertex) = vertex_stack.last()` (src/generic_graph/generic_graph.rs:1193-1265). -/
def biLoop : Nat → BiState T A → Res (BiState T A)
  | 0, _ => .diverge
  | fuel + 1, s =>
    match s.vertexStack with
    | [] => .ok s
    | top :: stack => do
      let d ← Res.unwrap (s.graph.degree top)
      if d > 0 then do
        let s ← biForward s top
        biLoop fuel s
      else
        match stack with
        | next :: _ => do
          let s ← biBackward s top next stack
          biLoop fuel s
        | [] => .ok { s with vertexStack := [] }

/-- The loop body for one pivot (src/generic_graph/generic_graph.rs:1183-1266). -/
def biPivot (fuel : Nat) (s : BiState T A) (pivot : Nat) : Res (BiState T A) := do
  let h ← Vec.idx s.handled pivot
  if h then return s
  else do
    let low ← Vec.put s.low pivot 0
    let number ← Vec.put s.number pivot 0
    let handled ← Vec.put s.handled pivot true
    biLoop fuel { s with low := low, number := number, handled := handled, vertexStack := pivot :: s.vertexStack }

/-- The number of vertices of a component: size of the `HashSet` of its end points (src/generic_graph/generic_graph.rs:1269-1276). -/
def biSize (c : List (Nat × Nat)) : Nat := (c.flatMap (fun e => [e.1, e.2])).dedup.length

/-- The components found by `vertex_biconnected_components` (src/generic_graph/generic_graph.rs:1172-1266); the `while` loop gets enough
fuel for every edge and every vertex. -/
def biComponents (g : GenericGraph T A) : Res (List (List (Nat × Nat))) := do
  let n := g.vertexCount
  let s ← (List.range n).foldlM (biPivot (g.edgeCount + n + 1))
    (⟨g, List.replicate n 0, List.replicate n 0, List.replicate n false, [], [], []⟩ : BiState T A)
  return s.components

/-- `vertex_biconnected_components` (src/generic_graph/generic_graph.rs:1172-1291). -/
def vertexBiconnectedComponents (g : GenericGraph T A) (alternative_definition : Bool) : Res (List Nat) := do
  let components ← g.biComponents
  let result := components.map biSize
  let result := if alternative_definition then result.filter (fun val => decide (val > 2)) else result
  return sortDesc result

end GenericGraph
end Verif
