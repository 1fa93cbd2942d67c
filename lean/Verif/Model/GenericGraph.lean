import Verif.Model.Containers

/-!
# `GenericGraph`: construction, editing, degrees

Model of the non-traversal part of src/generic_graph/generic_graph.rs and of src/graph.rs.
-/

namespace Verif

/-- Trait `Node` (src/traits/graph_traits.rs:16-20). -/
class Node (T : Type) where
  newFromIndex : Nat → T

/-- `GenericGraph<T, A>` (src/generic_graph/generic_graph.rs:33-39) without the phantom marker. -/
structure GenericGraph (T A : Type) where
  nextId : Nat
  edgeCount : Nat
  vertices : List A
deriving DecidableEq, Repr

/-- `Graph<T>` (src/graph.rs:309). -/
abbrev Graph (T : Type) := GenericGraph T (NodeContainer T)

/-- `SwGraph<T>` (src/sw_graph.rs:446). -/
abbrev SwGraph (T : Type) := GenericGraph T (SwContainer T)

/-- `WSGraph<T>` (src/watts_strogatz/ensemble.rs:36). -/
abbrev WSGraph (T : Type) := GenericGraph T (WSContainer T)

/-- `SpacialGraph<T>` (src/spacial/spacial_graph.rs:158). -/
abbrev SpacialGraph (T : Type) := GenericGraph T (SpacialNodeContainer T)

namespace GenericGraph
variable {T A : Type}

section
variable [AdjContainer T A]
open AdjContainer

/-- `GenericGraph::new` (src/generic_graph/generic_graph.rs:46-58). -/
def new [Node T] (size : Nat) : GenericGraph T A :=
  { vertices := (List.range size).map (fun i => AdjContainer.new i (Node.newFromIndex i)),
    nextId := size,
    edgeCount := 0 }

/-- `from_vec` (src/generic_graph/generic_graph.rs:116-129); also `FromIterator` (src/graph.rs:311-326). -/
def fromVec (contained : List T) : GenericGraph T A :=
  let vertices := contained.zipIdx.map (fun (t, i) => AdjContainer.new i t)
  { nextId := vertices.length, vertices := vertices, edgeCount := 0 }

/-- `clone_topology` (src/generic_graph/generic_graph.rs:63-87); the closure is a pure function here. -/
def cloneTopology {T2 : Type} (g : GenericGraph T A) (map : T → T2) : Graph T2 :=
  let nodes := g.vertices.zipIdx.map (fun (node, index) =>
    ({ id := index, adj := neighbors node, node := map (contained node) } : NodeContainer T2))
  { nextId := nodes.length, edgeCount := g.edgeCount, vertices := nodes }

/-- `vertex_count` (src/generic_graph/generic_graph.rs:351-353). -/
def vertexCount (g : GenericGraph T A) : Nat := g.nextId

/-- `clear_edges` (src/generic_graph/generic_graph.rs:139-146): only acts if `edge_count != 0`. -/
def clearEdges (g : GenericGraph T A) : GenericGraph T A :=
  if g.edgeCount != 0 then
    { g with edgeCount := 0, vertices := g.vertices.map AdjContainer.clearEdges }
  else g

/-- `get_2_mut` (src/generic_graph/generic_graph.rs:371-402) in a debug build.  The raw pointer access is
modelled as a checked access (`Vec.idx`). -/
def get2 (g : GenericGraph T A) (i j : Nat) : Res (A × A) := do
  Res.assert (decide (i < g.nextId) && decide (j < g.nextId))
  Res.assert (i != j)
  let a ← Vec.idx g.vertices i
  let b ← Vec.idx g.vertices j
  return (a, b)

/-- `get_3_mut` (src/generic_graph/generic_graph.rs:408-436) in a debug build. -/
def get3 (g : GenericGraph T A) (i j k : Nat) : Res (A × A × A) := do
  Res.assert (decide (i < g.nextId) && decide (j < g.nextId) && decide (k < g.nextId))
  Res.assert (i != j && j != k && k != i)
  let a ← Vec.idx g.vertices i
  let b ← Vec.idx g.vertices j
  let c ← Vec.idx g.vertices k
  return (a, b, c)

/-- Writing through the two references of `get_2_mut`. -/
def put2 (g : GenericGraph T A) (i j : Nat) (a b : A) : GenericGraph T A :=
  { g with vertices := (g.vertices.set i a).set j b }

/-- `add_edge` (src/generic_graph/generic_graph.rs:487-492). -/
def addEdge (g : GenericGraph T A) (i j : Nat) : Res (Except GraphErr Unit × GenericGraph T A) := do
  let (r1, r2) ← g.get2 i j
  let (res, r1, r2) ← push r1 r2
  let g := g.put2 i j r1 r2
  match res with
  | .error e => return (.error e, g)
  | .ok () => return (.ok (), { g with edgeCount := g.edgeCount + 1 })

/-- `remove_edge` (src/generic_graph/generic_graph.rs:503-508). -/
def removeEdge (g : GenericGraph T A) (i j : Nat) : Res (Except GraphErr Unit × GenericGraph T A) := do
  let (r1, r2) ← g.get2 i j
  let (res, r1, r2) ← remove r1 r2
  let g := g.put2 i j r1 r2
  match res with
  | .error e => return (.error e, g)
  | .ok () => do
    let ec ← Res.sub g.edgeCount 1
    return (.ok (), { g with edgeCount := ec })

/-- Inner loop of `init_ring` (src/generic_graph/generic_graph.rs:158-166) over the remaining values of
`add`; `?` returns early on an error. -/
def initRingInner (n i : Nat) : List Nat → GenericGraph T A → Res (Except GraphErr Unit × GenericGraph T A)
  | [], g => .ok (.ok (), g)
  | add :: rest, g => do
    let sum := i + add
    let index2 := if sum ≥ n then sum - n else sum
    let (res, g) ← g.addEdge i index2
    match res with
    | .error e => return (.error e, g)
    | .ok () => initRingInner n i rest g

/-- Outer loop of `init_ring` (src/generic_graph/generic_graph.rs:156-168). -/
def initRingOuter (n distance : Nat) : List Nat → GenericGraph T A → Res (Except GraphErr Unit × GenericGraph T A)
  | [], g => .ok (.ok (), g)
  | i :: rest, g => do
    let (res, g) ← initRingInner n i (List.range' 1 distance) g
    match res with
    | .error e => return (.error e, g)
    | .ok () => initRingOuter n distance rest g

/-- `init_ring` (src/generic_graph/generic_graph.rs:151-169); `distance : NonZeroUsize` is a `Nat` here. -/
def initRing (g : GenericGraph T A) (distance : Nat) : Res (Except GraphErr Unit × GenericGraph T A) :=
  let g := g.clearEdges
  let n := g.vertexCount
  initRingOuter n distance (List.range n) g

/-- `sort_adj` (src/generic_graph/generic_graph.rs:178-182). -/
def sortAdj (g : GenericGraph T A) : Res (GenericGraph T A) := do
  let vs ← g.vertices.mapM AdjContainer.sortAdj
  return { g with vertices := vs }

/-- Loop of `shuffle_adjs` (src/generic_graph/generic_graph.rs:187-194). -/
def shuffleAdjsAux {R : Type} [Rng R] : List A → R → Res (List A × R)
  | [], r => .ok ([], r)
  | a :: as, r => do
    let (a, r) ← AdjContainer.shuffleAdj a r
    let (as, r) ← shuffleAdjsAux as r
    return (a :: as, r)

/-- `shuffle_adjs` (src/generic_graph/generic_graph.rs:187-194). -/
def shuffleAdjs {R : Type} [Rng R] (g : GenericGraph T A) (r : R) : Res (GenericGraph T A × R) := do
  let (vs, r) ← shuffleAdjsAux g.vertices r
  return ({ g with vertices := vs }, r)

/-- `shuffle_adj` (src/generic_graph/generic_graph.rs:200-203). -/
def shuffleAdj {R : Type} [Rng R] (g : GenericGraph T A) (r : R) (index : Nat) : Res (GenericGraph T A × R) := do
  let a ← Vec.idx g.vertices index
  let (a, r) ← AdjContainer.shuffleAdj a r
  return ({ g with vertices := g.vertices.set index a }, r)

/-- `container` (src/generic_graph/generic_graph.rs:208-210). -/
def container (g : GenericGraph T A) (i : Nat) : Res A := Vec.idx g.vertices i

/-- `at` (src/generic_graph/generic_graph.rs:329-331). -/
def at_ (g : GenericGraph T A) (i : Nat) : Res T := do
  let c ← g.container i
  return contained c

/-- `at_checked` / `get_contained` (src/generic_graph/generic_graph.rs:336-340, 439-444). -/
def getContained (g : GenericGraph T A) (i : Nat) : Option T := (g.vertices[i]?).map contained

/-- Assignment through `at_mut` (src/generic_graph/generic_graph.rs:346-348). -/
def setAt (g : GenericGraph T A) (i : Nat) (t : T) : Res (GenericGraph T A) := do
  let c ← g.container i
  return { g with vertices := g.vertices.set i (setContained c t) }

/-- `degree` (src/generic_graph/generic_graph.rs:517-524). -/
def degree (g : GenericGraph T A) (i : Nat) : Option Nat := (g.vertices[i]?).map AdjContainer.degree

/-- `degree_iter`, `degree_vec` (src/generic_graph/generic_graph.rs:528-543). -/
def degreeVec (g : GenericGraph T A) : List Nat := g.vertices.map AdjContainer.degree

/-- `average_degree` (src/generic_graph/generic_graph.rs:357-359), `f32` replaced by `ℚ`; `None` stands for
the division by zero (NaN). -/
def averageDegree (g : GenericGraph T A) : Option ℚ :=
  if g.vertexCount = 0 then none else some ((2 * g.edgeCount : ℚ) / (g.vertexCount : ℚ))

/-- `leaf_count` (src/generic_graph/generic_graph.rs:935-940). -/
def leafCount (g : GenericGraph T A) : Nat := (g.vertices.filter (fun a => AdjContainer.degree a == 1)).length

/-- `HistUsizeFast` of the external `sampling` crate: bins `left ..= right`. -/
structure Hist where
  left : Nat
  right : Nat
  bins : List Nat
deriving DecidableEq, Repr

/-- `HistUsizeFast::count_val` (external): `none` outside of the borders. -/
def Hist.countVal (h : Hist) (v : Nat) : Option Hist :=
  if h.left ≤ v ∧ v ≤ h.right then
    some { h with bins := h.bins.modify (v - h.left) (· + 1) }
  else none

/-- Min/max loop of `degree_histogram` (src/generic_graph/generic_graph.rs:555-566). -/
def histMinMax : List Nat → Nat × Nat → Nat × Nat
  | [], mm => mm
  | v :: rest, (min, max) =>
    histMinMax rest (if v < min then (v, max) else if v > max then (min, v) else (min, max))

/-- Counting loop of `degree_histogram` (src/generic_graph/generic_graph.rs:574-584); `Err` is
`unreachable!()`. -/
def histFill : List Nat → Hist → Res Hist
  | [], h => .ok h
  | v :: rest, h => match h.countVal v with
    | some h' => histFill rest h'
    | none => .panic

/-- `degree_histogram` (src/generic_graph/generic_graph.rs:549-587). -/
def degreeHistogram (g : GenericGraph T A) : Res Hist :=
  match g.degreeVec with
  | [] => .panic
  | first :: rest =>
    let (min, max) := histMinMax rest (first, first)
    if min ≤ max then
      histFill g.degreeVec { left := min, right := max, bins := List.replicate (max - min + 1) 0 }
    else .panic

/-- `impl From<&GenericGraph<T, A>> for Graph<T>` (src/graph.rs:370-391). -/
def toGraph (g : GenericGraph T A) : Graph T :=
  { nextId := g.nextId,
    edgeCount := g.edgeCount,
    vertices := g.vertices.map (fun c => { id := AdjContainer.id c, node := contained c, adj := neighbors c }) }

end

/-- `complete_graph` (src/graph.rs:332-356): `n - 1` underflows for `n = 0` in the edge count. -/
def completeGraph [Node T] (n : Nat) : Res (Graph T) := do
  let n1 ← Res.sub n 1
  return { nextId := n,
           edgeCount := n * n1 / 2,
           vertices := (List.range n).map (fun i =>
             { id := i, node := Node.newFromIndex i, adj := List.range i ++ List.range' (i + 1) (n - (i + 1)) }) }

/-- Loop of `reset_from_graph` (src/graph.rs:362-364). -/
def resetLoop (other : List (NodeContainer T)) : List Nat → List (NodeContainer T) → Res (List (NodeContainer T))
  | [], vs => .ok vs
  | i :: rest, vs => do
    let a ← Vec.idx vs i
    let o ← Vec.idx other i
    resetLoop other rest (vs.set i { a with adj := a.adj ++ o.adj })

/-- `reset_from_graph` (src/graph.rs:358-367). -/
def resetFromGraph (g other : Graph T) : Res (Graph T) := do
  Res.assert (decide (other.vertexCount ≤ g.vertexCount))
  let g := g.clearEdges
  let vs ← resetLoop other.vertices (List.range other.vertexCount) g.vertices
  return { g with vertices := vs, edgeCount := other.edgeCount }

end GenericGraph

end Verif
