import Verif.Model.GenericGraph

/-!
# Watts-Strogatz ensemble

Model of src/watts_strogatz/ensemble.rs.  The `u32` values of the source are natural numbers; the casts of vertex indices to
`u32` happen in `WSContainer::push` (`asU32`) and in the draws, where `n as u32` is `asU32 n`.
-/

namespace Verif
open AdjContainer

/-- `SmallWorldWS` (src/watts_strogatz/ensemble.rs:42-48). -/
structure Ws (T R : Type) where
  graph : WSGraph T
  rewireProb : ℚ
  rng : R
  neighborDistance : Nat

/-- `WSCreationError` (src/watts_strogatz/ensemble.rs:80-90). -/
inductive WSCreationError where
  | impossibleRingRequest
  | impossibleEdgeRequest
deriving DecidableEq, Repr

/-- `set_origin_false` (src/watts_strogatz/ws_container.rs:45-48). -/
def OriginalEdge.setOriginFalse (e : OriginalEdge) : OriginalEdge := { e with isAtOrigin := false }

namespace Ws

variable {T R : Type} [Rng R]

/-- The loop of `add_random_edge` that looks for a free pair (src/watts_strogatz/ensemble.rs:138-158). -/
def pickPair (g : WSGraph T) (o : OriginalEdge) : Nat → R → Res (Nat × Nat × R)
  | 0, _ => .diverge
  | fuel + 1, rng => do
    let (first, rng) ← genRange rng (asU32 g.vertexCount)
    let (second, rng) ← genRange rng (asU32 g.vertexCount)
    if first == second || (first == o.from_ && second == o.dst) || (first == o.dst && second == o.from_) then
      pickPair g o fuel rng
    else
      let c ← Vec.idx g.vertices first
      if isAdjacent c second then pickPair g o fuel rng
      else return (first, second, rng)

/-- The closure `create_edge` (src/watts_strogatz/ensemble.rs:160-176). -/
def createEdge (g : WSGraph T) (src tgt : Nat) (edge : OriginalEdge) : Res (WSGraph T) := do
  let edge := edge.setOriginFalse
  let (a, b) ← g.get2 src tgt
  return g.put2 src tgt { a with dst := a.dst ++ [tgt], original := a.original ++ [edge] }
    { b with dst := b.dst ++ [src], original := b.original ++ [edge.swapDirection] }

/-- `add_random_edge` (src/watts_strogatz/ensemble.rs:136-184). -/
def addRandomEdge (fuel : Nat) (st : WSGraph T × R) (o : OriginalEdge) : Res (WSGraph T × R) := do
  let (g, rng) := st
  let (first, second, rng) ← pickPair g o fuel rng
  if first == o.dst || second == o.from_ then
    let g ← createEdge g second first o.swapDirection
    return (g, rng)
  else
    let g ← createEdge g first second o
    return (g, rng)

/-- The loop `for j in (0..len).rev()` of `randomize` (src/watts_strogatz/ensemble.rs:237-247), first argument: number of
entries still to be looked at. -/
def testLoop (p : ℚ) : Nat → List Nat → List OriginalEdge → List OriginalEdge → R →
    Res (List Nat × List OriginalEdge × List OriginalEdge × R)
  | 0, tos, original, rewire, rng => .ok (tos, original, rewire, rng)
  | j + 1, tos, original, rewire, rng => do
    let o ← Vec.idx original j
    if o.isAtOrigin then
      let (b, rng) := coin rng p
      if b then
        let (edge, original) ← Vec.swapRemove original j
        let (_, tos) ← Vec.swapRemove tos j
        testLoop p j tos original (rewire ++ [edge]) rng
      else testLoop p j tos original rewire rng
    else testLoop p j tos original rewire rng

/-- Remove the other direction of an edge that is to be rewired (src/watts_strogatz/ensemble.rs:250-259). -/
def removeOther (g : WSGraph T) (edge : OriginalEdge) : Res (WSGraph T) := do
  let c ← Vec.idx g.vertices edge.dst
  let c ← c.swapRemoveElem edge.from_
  return { g with vertices := g.vertices.set edge.dst c }

/-- First part of the loop body of `randomize`: decide about the edges of vertex `i` and remove the chosen ones from both ends
(src/watts_strogatz/ensemble.rs:230-259). -/
def removeStage (p : ℚ) (g : WSGraph T) (rng : R) (i : Nat) : Res (WSGraph T × List OriginalEdge × R) := do
  let c ← Vec.idx g.vertices i
  Res.assert (c.original.length == c.dst.length)
  let (tos, original, rewire, rng) ← testLoop p c.original.length c.dst c.original [] rng
  let g : WSGraph T := { g with vertices := g.vertices.set i { c with dst := tos, original := original } }
  let g ← rewire.foldlM removeOther g
  return (g, rewire, rng)

/-- The loop body of `randomize` (src/watts_strogatz/ensemble.rs:229-265). -/
def rewireBody (p : ℚ) (fuel : Nat) (st : WSGraph T × R) (i : Nat) : Res (WSGraph T × R) := do
  let (g, rng) := st
  let (g, rewire, rng) ← removeStage p g rng i
  rewire.foldlM (addRandomEdge fuel) (g, rng)

/-- `randomize` (src/watts_strogatz/ensemble.rs:224-267); `fuel` bounds the rounds of each search for a free pair. -/
def randomize (fuel : Nat) (e : Ws T R) : Res (Ws T R) := do
  let (r, graph) ← e.graph.initRing e.neighborDistance
  match r with
  | .error _ => .panic
  | .ok () =>
    let (graph, rng) ← (List.range graph.vertexCount).foldlM (rewireBody e.rewireProb fuel) (graph, e.rng)
    return { e with graph, rng }

/-- `WS::new` (src/watts_strogatz/ensemble.rs:101-129). -/
def new [Node T] (fuel n d : Nat) (p : ℚ) (rng : R) : Res (Except WSCreationError (Ws T R)) := do
  if n < 1 + 2 * d then return .error .impossibleRingRequest
  let graph : WSGraph T := GenericGraph.new n
  let (r, graph) ← graph.initRing d
  match r with
  | .error _ => return .error .impossibleEdgeRequest
  | .ok () =>
    let s ← randomize fuel { graph, rewireProb := p, rng, neighborDistance := d }
    return .ok s

end Ws
end Verif
