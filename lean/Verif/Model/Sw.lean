import Verif.Model.Measures
import Verif.Model.Er

/-!
# Small-world ensemble

Model of src/sw_graph.rs (rewiring and resetting) and src/sw.rs.
-/

namespace Verif

/-- `SwChangeState` (src/sw.rs:30-43). -/
inductive SwChange where
  | invalidAdjecency
  | blockedByExistingEdge
  | nothing
  | rewire (root old new : Nat)
  | reset (root old new : Nat)
  | gError (e : GraphErr)
deriving DecidableEq, Repr

/-- `is_valid` (src/sw.rs:70-79). -/
def SwChange.isValid : SwChange → Bool
  | .rewire .. | .reset .. | .nothing | .blockedByExistingEdge => true
  | .invalidAdjecency | .gError _ => false

namespace SwContainer
variable {T : Type}

/-- `iter_raw_edges` (src/sw_graph.rs:332-334). -/
def iterRawEdges (c : SwContainer T) : List SwEdge := c.adj

/-- `count_root` (src/sw_graph.rs:323-328). -/
def countRoot (c : SwContainer T) : Nat := (c.adj.filter SwEdge.isRoot).length

/-- `push_single` (src/sw_graph.rs:341-348). -/
def pushSingle (c : SwContainer T) (otherId : Nat) : Res (SwContainer T) := do
  Res.assert (!c.isAdjacent otherId)
  return { c with adj := c.adj ++ [{ dst := otherId, originallyTo := none }] }

/-- `rewire` (src/sw_graph.rs:350-392), all three containers are returned. -/
def rewire (self toDisconnect toRewire : SwContainer T) :
    Res (SwChange × SwContainer T × SwContainer T × SwContainer T) :=
  match self.adjPosition toDisconnect.id with
  | none => .ok (.invalidAdjecency, self, toDisconnect, toRewire)
  | some selfEdgeIndex =>
    if self.isAdjacent toRewire.id then .ok (.blockedByExistingEdge, self, toDisconnect, toRewire)
    else do
      let edge ← Vec.idx self.adj selfEdgeIndex
      Res.assert edge.isRoot
      let index ← Res.unwrap (toDisconnect.adjPosition self.id)
      let (_, adj1) ← Vec.swapRemove toDisconnect.adj index
      let adj0 ← Vec.put self.adj selfEdgeIndex { edge with dst := toRewire.id }
      return (.rewire self.id toDisconnect.id toRewire.id, { self with adj := adj0 }, { toDisconnect with adj := adj1 },
        { toRewire with adj := toRewire.adj ++ [{ dst := self.id, originallyTo := none }] })

/-- `reset` (src/sw_graph.rs:398-442); `get_unchecked` after the assertion is a checked access. -/
def reset (self other : SwContainer T) : Res (Except SwChange Nat × SwContainer T × SwContainer T) :=
  match self.adjPosition other.id with
  | none => .ok (.error (.gError .edgeDoesNotExist), self, other)
  | some selfIndex => do
    let otherIndex ← Res.unwrap (other.adjPosition self.id)
    let selfEdge ← Vec.idx self.adj selfIndex
    let otherEdge ← Vec.idx other.adj otherIndex
    Res.assert (!otherEdge.isRoot)
    if selfEdge.isAtRoot then return (.error .nothing, self, other)
    else do
      let orig ← Res.unwrap selfEdge.originallyTo
      if self.isAdjacent orig then return (.error .blockedByExistingEdge, self, other)
      else do
        let adj0 ← Vec.put self.adj selfIndex { selfEdge with dst := orig }
        let (_, adj1) ← Vec.swapRemove other.adj otherIndex
        return (.ok orig, { self with adj := adj0 }, { other with adj := adj1 })

end SwContainer

namespace SwGraph
variable {T : Type}

/-- `reset_edge` (src/sw_graph.rs:453-468). -/
def resetEdge (g : SwGraph T) (index0 index1 : Nat) : Res (SwChange × SwGraph T) := do
  let (e1, e2) ← g.get2 index0 index1
  let (r, e1, e2) ← e1.reset e2
  let g := g.put2 index0 index1 e1 e2
  match r with
  | .error s => return (s, g)
  | .ok vertexIndex => do
    let c ← Vec.idx g.vertices vertexIndex
    let c ← c.pushSingle index0
    return (.reset index0 index1 vertexIndex, { g with vertices := g.vertices.set vertexIndex c })

/-- `rewire_edge` (src/sw_graph.rs:476-483). -/
def rewireEdge (g : SwGraph T) (index0 index1 index2 : Nat) : Res (SwChange × SwGraph T) :=
  if index1 = index2 then .ok (.nothing, g)
  else do
    let (c0, c1, c2) ← g.get3 index0 index1 index2
    let (s, c0, c1, c2) ← c0.rewire c1 c2
    return (s, { g with vertices := ((g.vertices.set index0 c0).set index1 c1).set index2 c2 })

/-- `init_ring_2` (src/sw_graph.rs:488-492). -/
def initRing2 (g : SwGraph T) : Res (SwGraph T) := do
  let (r, g) ← g.initRing 2
  unwrapOk (r, g)

/-- `count_long_ranging_edges` (src/sw_graph.rs:535-546). -/
def countLongRangingEdges (g : SwGraph T) : Nat :=
  ((g.vertices.flatMap (fun c => c.adj)).filter SwEdge.isLongRangingRoot).length

/-- `count_nodes_with_long_ranging_edges` (src/sw_graph.rs:499-520). -/
def countNodesWithLongRangingEdges (g : SwGraph T) : Res Nat := do
  let marks ← g.vertices.zipIdx.foldlM (fun (marks : List Bool) (c, index) =>
    (c.iterRawEdges.filter SwEdge.isLongRangingRoot).foldlM (fun marks e => do
      let marks ← Vec.put marks index true
      Vec.put marks e.dst true) marks) (List.replicate g.vertexCount false)
  return (marks.filter (fun b => b)).length

/-- `frac_long_ranging_edges` (src/sw_graph.rs:552-556), `f64` replaced by `ℚ`, `none` for the NaN of `0 / 0`. -/
def fracLongRangingEdges (g : SwGraph T) : Option ℚ :=
  if g.edgeCount = 0 then none else some ((countLongRangingEdges g : ℚ) / (g.edgeCount : ℚ))

/-- `frac_nodes_wlre` (src/sw_graph.rs:525-530), `f64` replaced by `ℚ`, `none` for the NaN of `0 / 0`. -/
def fracNodesWlre (g : SwGraph T) : Res (Option ℚ) := do
  let vc := g.vertexCount
  let lrn ← countNodesWithLongRangingEdges g
  return if vc = 0 then none else some ((lrn : ℚ) / (vc : ℚ))

end SwGraph

/-- `SwEnsemble` (src/sw.rs:198-203), `f64` replaced by `ℚ`. -/
structure SwEns (T R : Type) where
  graph : SwGraph T
  rProb : ℚ
  rng : R

/-- `draw_remaining` (src/sw.rs:288-296). -/
def drawRemaining {R : Type} [Rng R] (rng : R) (index high : Nat) : Res (Nat × R) := do
  let (num, rng) ← genRange rng high
  if num < index then return (num, rng) else return (num + 1, rng)

namespace SwEns
variable {T R : Type} [Rng R]

/-- `randomize_edge` (src/sw.rs:299-309). -/
def randomizeEdge (e : SwEns T R) (index0 index1 : Nat) : Res (SwChange × SwEns T R) := do
  let vertexCount := e.graph.vertexCount
  let (b, rng) := coin e.rng e.rProb
  if b then do
    let high ← Res.sub vertexCount 1
    let (rewireIndex, rng) ← drawRemaining rng index0 high
    let (s, graph) ← SwGraph.rewireEdge e.graph index0 index1 rewireIndex
    return (s, { e with graph, rng })
  else do
    let (s, graph) ← SwGraph.resetEdge e.graph index0 index1
    return (s, { e with graph, rng })

/-- `debug_error_check` (src/sw.rs:312-318). -/
def debugErrorCheck (s : SwChange) : Res Unit :=
  match s with
  | .gError _ => .panic
  | .invalidAdjecency => .panic
  | _ => .ok ()

/-- `draw_edge` (src/sw.rs:325-343). -/
def drawEdge (e : SwEns T R) : Res ((Nat × Nat) × SwEns T R) := do
  let (rngNum, rng) ← genRange e.rng e.graph.edgeCount
  let vIndex := rngNum / 2
  let eIndex := rngNum % 2
  let c ← e.graph.container vIndex
  let edge ← Res.unwrap ((c.iterRawEdges.filter SwEdge.isRoot)[eIndex]?)
  return ((vIndex, edge.dst), { e with rng })

/-- Loop body of `randomize` (src/sw.rs:467-485). -/
def randomizeVertex (e : SwEns T R) (i : Nat) : Res (SwEns T R) := do
  let vertex ← Vec.idx e.graph.vertices i
  let roots := (vertex.iterRawEdges.filter SwEdge.isRoot).map (·.dst)
  let first ← Res.unwrap roots[0]?
  let second ← Res.unwrap roots[1]?
  Res.assert roots[2]?.isNone
  let (s, e) ← e.randomizeEdge i first
  debugErrorCheck s
  let (s, e) ← e.randomizeEdge i second
  debugErrorCheck s
  return e

/-- `randomize` (src/sw.rs:463-487). -/
def randomize (e : SwEns T R) : Res (SwEns T R) :=
  (List.range e.graph.vertexCount).foldlM randomizeVertex e

/-- `new` (src/sw.rs:214-225). -/
def new [Node T] (n : Nat) (rProb : ℚ) (rng : R) : Res (SwEns T R) := do
  let graph : SwGraph T := GenericGraph.new n
  let graph ← SwGraph.initRing2 graph
  randomize { graph, rProb, rng }

/-- `new_with_distance` (src/sw.rs:234-245). -/
def newWithDistance [Node T] (n distance : Nat) (rProb : ℚ) (rng : R) : Res (Except GraphErr (SwEns T R)) := do
  let graph : SwGraph T := GenericGraph.new n
  let (r, graph) ← graph.initRing distance
  match r with
  | .error e => return .error e
  | .ok () => do
    let e ← randomize { graph, rProb, rng }
    return .ok e

/-- `m_step` (src/sw.rs:501-504). -/
def mStep (e : SwEns T R) : Res (SwChange × SwEns T R) := do
  let (edge, e) ← e.drawEdge
  e.randomizeEdge edge.1 edge.2

/-- `undo_step` (src/sw.rs:514-523). -/
def undoStep (e : SwEns T R) (step : SwChange) : Res (SwChange × SwEns T R) :=
  match step with
  | .rewire root oldTo newTo | .reset root oldTo newTo => do
    let (s, graph) ← SwGraph.rewireEdge e.graph root newTo oldTo
    return (s, { e with graph })
  | .nothing | .blockedByExistingEdge | .invalidAdjecency | .gError _ => .ok (step, e)

/-- `undo_step_quiet` (src/sw.rs:532-547). -/
def undoStepQuiet (e : SwEns T R) (step : SwChange) : Res (SwEns T R) :=
  match step with
  | .rewire root oldTo newTo | .reset root oldTo newTo => do
    let (s, graph) ← SwGraph.rewireEdge e.graph root newTo oldTo
    Res.assert s.isValid
    return { e with graph }
  | .nothing | .blockedByExistingEdge => .ok e
  | .invalidAdjecency | .gError _ => .panic

/-- Body of the `for` loop of `make_connected` (src/sw.rs:262-281).  `min as usize` of a negative number would be an index out
of range, i.e. a panic. -/
def connectBody (ids : List Int) (s : SwGraph T × List Bool) (index : Nat) : Res (SwGraph T × List Bool) := do
  let (g, newConnection) := s
  let vc := g.vertexCount
  let a ← Vec.idx ids index
  let b ← Vec.idx ids ((index + 1) % vc)
  let m ← GenericGraph.toUsize (min a b)
  let done ← Vec.idx newConnection m
  if done = false ∧ a ≠ b then do
    let newConnection ← Vec.put newConnection m true
    let c ← Vec.idx g.vertices index
    let edge ← Res.unwrap (c.iterRawEdges.find? (fun edge => edge.originallyTo == some ((index + 1) % vc)))
    let (_, g) ← SwGraph.resetEdge g index edge.dst
    return (g, newConnection)
  else return (g, newConnection)

/-- The `while` loop of `make_connected` (src/sw.rs:257-282). -/
def connectLoop : Nat → SwGraph T → Res (SwGraph T)
  | 0, _ => .diverge
  | fuel + 1, g => do
    let c ← g.isConnected
    if c.getD true then return g
    else do
      let (num, ids) ← g.connectedComponentsIds
      let (g, _) ← (List.range g.vertexCount).foldlM (connectBody ids) (g, List.replicate num false)
      connectLoop fuel g

/-- `make_connected` (src/sw.rs:255-285); the loop gets one round more than there are vertices. -/
def makeConnected (e : SwEns T R) : Res (SwEns T R) := do
  let graph ← connectLoop (e.graph.vertexCount + 1) e.graph
  return { e with graph }

end SwEns

end Verif
