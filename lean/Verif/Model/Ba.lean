import Verif.Model.GenericGraph

/-!
# Barabási-Albert ensemble

Model of src/barabasi_albert.rs.
-/

namespace Verif
open AdjContainer

/-- `BAensemble` (src/barabasi_albert.rs:28-36). -/
structure Ba (T R : Type) where
  source : Graph T
  graph : Graph T
  rng : R
  m : Nat
  weights : List Nat

/-- The index chosen by `WeightedIndex` for the drawn number `t` (rand crate): the number of cumulative weights that are
at most `t`, written as a recursion. -/
def weightedPick : List Nat → Nat → Nat
  | [], _ => 0
  | w :: ws, t => if t < w then 0 else weightedPick ws (t - w) + 1

/-- `WeightedIndex::new(&weights).unwrap()` (rand crate): panics if there is no positive weight. -/
def weightedIndexNew (weights : List Nat) : Res Unit := Res.assert (decide (0 < weights.sum))

/-- `dist.sample(&mut rng)` (rand crate): a uniform number below the sum of the weights decides about the index. -/
def weightedSample {R : Type} [Rng R] (rng : R) (weights : List Nat) : Res (Nat × R) := do
  let (t, rng) ← genRange rng weights.sum
  return (weightedPick weights t, rng)

namespace Ba

variable {T R : Type} [Rng R]

/-- The `while` loop of `randomize` (src/barabasi_albert.rs:216-221). -/
def attach (weights : List Nat) (i m : Nat) : Nat → Graph T → R → Res (Graph T × R)
  | 0, _, _ => .diverge
  | fuel + 1, g, rng => do
    let c ← g.container i
    if AdjContainer.degree c < m then
      let (index, rng) ← weightedSample rng weights
      let (_, g) ← g.addEdge i index
      attach weights i m fuel g rng
    else return (g, rng)

/-- `for &index in ... { self.weights[index] += 1 }` (src/barabasi_albert.rs:225-227). -/
def bumpAll (weights nb : List Nat) : Res (List Nat) :=
  nb.foldlM (fun w index => do
    let x ← Vec.idx w index
    Vec.put w index (x + 1)) weights

/-- Body of the loop over the random order (src/barabasi_albert.rs:214-228). -/
def growBody (m fuel : Nat) (st : Graph T × List Nat × R) (i : Nat) : Res (Graph T × List Nat × R) := do
  let (g, weights, rng) := st
  weightedIndexNew weights
  let (g, rng) ← attach weights i m fuel g rng
  let c ← g.container i
  let weights ← Vec.put weights i (AdjContainer.degree c)
  let c ← g.container i
  let weights ← bumpAll weights (neighbors c)
  return (g, weights, rng)

/-- The initialisation of the weights (src/barabasi_albert.rs:206-211). -/
def initWeights (source : Graph T) (n : Nat) (weights : List Nat) : Res (List Nat) := do
  let weights ← (List.range source.vertexCount).foldlM (fun w i => do
    let c ← Vec.idx source.vertices i
    Vec.put w i (AdjContainer.degree c)) weights
  (List.range' source.vertexCount (n - source.vertexCount)).foldlM (fun w i => Vec.put w i 0) weights

/-- `randomize` (src/barabasi_albert.rs:199-229); `fuel` bounds the number of rounds of the `while` loop of each vertex. -/
def randomize (fuel : Nat) (e : Ba T R) : Res (Ba T R) := do
  let graph ← e.graph.resetFromGraph e.source
  let order := List.range' e.source.vertexCount (graph.vertexCount - e.source.vertexCount)
  let (order, rng) := Rng.shuffle e.rng order
  let weights ← initWeights e.source graph.vertexCount e.weights
  let (graph, weights, rng) ← order.foldlM (growBody e.m fuel) (graph, weights, rng)
  return { e with graph, weights, rng }

/-- `new` (src/barabasi_albert.rs:89-103). -/
def new [Node T] (fuel n : Nat) (rng : R) (m sourceN : Nat) : Res (Ba T R) := do
  Res.assert (decide (2 ≤ sourceN))
  Res.assert (decide (sourceN < n))
  let source ← GenericGraph.completeGraph sourceN
  randomize fuel { source, graph := GenericGraph.new n, rng, m, weights := List.replicate n 0 }

/-- Copying of the node data (src/barabasi_albert.rs:119-121, 150-152). -/
def copyData (source : Graph T) (g : Graph T) : Res (Graph T) :=
  (List.range source.vertexCount).foldlM (fun g i => do
    let t ← source.at_ i
    g.setAt i t) g

/-- `new_from_graph` (src/barabasi_albert.rs:110-131). -/
def newFromGraph [Node T] (fuel n : Nat) (rng : R) (m : Nat) (source : Graph T) : Res (Ba T R) := do
  Res.assert (source.vertices.all (fun c => AdjContainer.degree c > 0))
  Res.assert (decide (source.vertexCount < n))
  let graph ← copyData source (GenericGraph.new n)
  randomize fuel { source, graph, rng, m, weights := List.replicate n 0 }

/-- `new_from_generic_graph` (src/barabasi_albert.rs:138-163). -/
def newFromGenericGraph {A : Type} [AdjContainer T A] [Node T] (fuel n : Nat) (rng : R) (m : Nat)
    (generic : GenericGraph T A) : Res (Ba T R) := do
  Res.assert (generic.vertices.all (fun c => AdjContainer.degree c > 0))
  Res.assert (decide (generic.vertexCount < n))
  let source := generic.toGraph
  let graph ← copyData source (GenericGraph.new n)
  randomize fuel { source, graph, rng, m, weights := List.replicate n 0 }

end Ba

end Verif
