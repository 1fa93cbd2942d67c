import Verif.Model.Measures

/-!
# Erdős–Rényi ensembles

`ErEnsembleM` (src/er_m.rs) and `ErEnsembleC` (src/er_c.rs).
-/

namespace Verif
open AdjContainer

/-- `result.unwrap()` on the result of an editing call. -/
def unwrapOk {G : Type} (p : Except GraphErr Unit × G) : Res G :=
  match p.1 with
  | .ok () => .ok p.2
  | .error _ => .panic

/-! ## ErEnsembleM -/

/-- `ErStepM` (src/er_m.rs:22-28). -/
structure ErStepM where
  removed : Nat × Nat
  iRemoved : Nat
  inserted : Nat × Nat
  iInserted : Nat
deriving DecidableEq, Repr

/-- `inverted` (src/er_m.rs:39-46). -/
def ErStepM.inverted (s : ErStepM) : ErStepM :=
  { removed := s.inserted, inserted := s.removed, iInserted := s.iInserted, iRemoved := s.iRemoved }

/-- `ErEnsembleM` (src/er_m.rs:101-109). -/
structure ErM (T R : Type) where
  graph : Graph T
  m : Nat
  rng : R
  allEdges : List (Nat × Nat)
  possibleEdges : List (Nat × Nat)
  currentEdges : List (Nat × Nat)

/-- `dst.copy_from_slice(src)` (std): panics if the lengths differ. -/
def copyFromSlice {α : Type} (dst src : List α) : Res (List α) :=
  if dst.length = src.length then .ok src else .panic

namespace ErM
variable {T R : Type} [Rng R]

/-- `randomize` (src/er_m.rs:157-176) with `shuffle_all_edges` (src/er_m.rs:289-292).  Slicing beyond the end panics. -/
def randomize (e : ErM T R) : Res (ErM T R) := do
  let graph := e.graph.clearEdges
  let (allEdges, rng) := Rng.shuffle e.rng e.allEdges
  Res.assert (decide (e.m ≤ allEdges.length))
  let currentEdges ← copyFromSlice e.currentEdges (allEdges.take e.m)
  let graph ← currentEdges.foldlM (fun g edge => do
    let p ← g.addEdge edge.1 edge.2
    unwrapOk p) graph
  let possibleEdges ← copyFromSlice e.possibleEdges (allEdges.drop e.m)
  return { e with graph, rng, allEdges, currentEdges, possibleEdges }

/-- `step` (src/er_m.rs:223-236). -/
def step (e : ErM T R) (s : ErStepM) : Res (ErM T R) := do
  let p ← e.graph.removeEdge s.removed.1 s.removed.2
  let graph ← unwrapOk p
  let p ← graph.addEdge s.inserted.1 s.inserted.2
  let graph ← unwrapOk p
  let c ← Vec.idx e.currentEdges s.iRemoved
  let q ← Vec.idx e.possibleEdges s.iInserted
  return { e with graph,
                  currentEdges := e.currentEdges.set s.iRemoved q,
                  possibleEdges := e.possibleEdges.set s.iInserted c }

/-- `undo_step` (src/er_m.rs:186-190). -/
def undoStep (e : ErM T R) (s : ErStepM) : Res (ErStepM × ErM T R) := do
  let s := s.inverted
  let e ← e.step s
  return (s, e)

/-- `undo_step_quiet` (src/er_m.rs:194-197). -/
def undoStepQuiet (e : ErM T R) (s : ErStepM) : Res (ErM T R) := e.step s.inverted

/-- `m_step` (src/er_m.rs:202-216). -/
def mStep (e : ErM T R) : Res (ErStepM × ErM T R) := do
  let (indexCurrent, rng) ← genRange e.rng e.currentEdges.length
  let (indexPossible, rng) ← genRange rng e.possibleEdges.length
  let e := { e with rng }
  let removed ← Vec.idx e.currentEdges indexCurrent
  let inserted ← Vec.idx e.possibleEdges indexPossible
  let s : ErStepM := { removed, iRemoved := indexCurrent, inserted, iInserted := indexPossible }
  let e ← e.step s
  return (s, e)

/-- `new` (src/er_m.rs:245-278): `n * (n - 1)` underflows for `n = 0`; the nested loops list all pairs `i < j`. -/
def new [Node T] (n m : Nat) (rng : R) : Res (ErM T R) := do
  let graph : Graph T := GenericGraph.new n
  let n1 ← Res.sub n 1
  let pEdges := n * n1 / 2
  Res.assert (decide (m ≤ pEdges))
  let vec := (List.range n).flatMap (fun i => (List.range' (i + 1) (n - (i + 1))).map (fun j => (i, j)))
  let e : ErM T R := { graph, m, rng, allEdges := vec, possibleEdges := List.replicate (pEdges - m) (0, 0),
                       currentEdges := List.replicate m (0, 0) }
  e.randomize

end ErM

/-! ## ErEnsembleC -/

/-- `ErStepC` (src/er_c.rs:29-38). -/
inductive ErStepC where
  | nothing
  | addedEdge (e : Nat × Nat)
  | removedEdge (e : Nat × Nat)
  | gError (e : GraphErr)
deriving DecidableEq, Repr

/-- `ErEnsembleC` (src/er_c.rs:73-80), `f64` replaced by `ℚ`. -/
structure ErC (T R : Type) where
  graph : Graph T
  prob : ℚ
  cTarget : ℚ
  rng : R

/-- `draw_two_from_range` (src/er_c.rs:349-358). -/
def drawTwoFromRange {R : Type} [Rng R] (rng : R) (high : Nat) : Res ((Nat × Nat) × R) := do
  let (first, rng) ← genRange rng high
  let h1 ← Res.sub high 1
  let (second, rng) ← genRange rng h1
  if second < first then return ((first, second), rng) else return ((first, second + 1), rng)

namespace ErC
variable {T R : Type} [Rng R]

/-- The body of the inner loop of `randomize` (src/er_c.rs:132-140): pushes directly into the two adjacency lists. -/
def randBody (prob : ℚ) (i : Nat) (s : Graph T × R) (j : Nat) : Res (Graph T × R) := do
  let (b, rng) := coin s.2 prob
  if b then
    let vs := s.1.vertices
    let a ← Vec.idx vs i
    let vs := vs.set i { a with adj := a.adj ++ [j] }
    let c ← Vec.idx vs j
    let vs := vs.set j { c with adj := c.adj ++ [i] }
    return ({ s.1 with vertices := vs, edgeCount := s.1.edgeCount + 1 }, rng)
  else return (s.1, rng)

/-- `randomize` (src/er_c.rs:128-143). -/
def randomize (e : ErC T R) : Res (ErC T R) := do
  let graph := e.graph.clearEdges
  let n := graph.vertexCount
  let s ← (List.range n).foldlM (fun s i => (List.range' (i + 1) (n - (i + 1))).foldlM (randBody e.prob i) s) (graph, e.rng)
  return { e with graph := s.1, rng := s.2 }

/-- `m_step` (src/er_c.rs:154-174). -/
def mStep (e : ErC T R) : Res (ErStepC × ErC T R) := do
  let (edge, rng) ← drawTwoFromRange e.rng e.graph.vertexCount
  let (b, rng) := coin rng e.prob
  if b then
    let (success, graph) ← e.graph.addEdge edge.1 edge.2
    let e := { e with graph, rng }
    match success with
    | .ok () => return (.addedEdge edge, e)
    | .error _ => return (.nothing, e)
  else
    let (success, graph) ← e.graph.removeEdge edge.1 edge.2
    let e := { e with graph, rng }
    match success with
    | .ok () => return (.removedEdge edge, e)
    | .error _ => return (.nothing, e)

/-- `undo_step` (src/er_c.rs:182-201). -/
def undoStep (e : ErC T R) (step : ErStepC) : Res (ErStepC × ErC T R) :=
  match step with
  | .addedEdge edge => do
    let (res, graph) ← e.graph.removeEdge edge.1 edge.2
    let e := { e with graph }
    match res with
    | .error err => return (.gError err, e)
    | .ok () => return (.removedEdge edge, e)
  | .removedEdge edge => do
    let (res, graph) ← e.graph.addEdge edge.1 edge.2
    let e := { e with graph }
    match res with
    | .error err => return (.gError err, e)
    | .ok () => return (.addedEdge edge, e)
  | .nothing => .ok (step, e)
  | .gError _ => .ok (step, e)

/-- `undo_step_quiet` (src/er_c.rs:209-225). -/
def undoStepQuiet (e : ErC T R) (step : ErStepC) : Res (ErC T R) :=
  match step with
  | .addedEdge edge => do
    let p ← e.graph.removeEdge edge.1 edge.2
    let graph ← unwrapOk p
    return { e with graph }
  | .removedEdge edge => do
    let p ← e.graph.addEdge edge.1 edge.2
    let graph ← unwrapOk p
    return { e with graph }
  | .nothing => .ok e
  | .gError _ => .panic

/-- `new` (src/er_c.rs:239-250): `n - 1` underflows for `n = 0`; for `n = 1` the `f64` division gives an infinity or NaN
that is never used, here `0`. -/
def new [Node T] (n : Nat) (cTarget : ℚ) (rng : R) : Res (ErC T R) := do
  let n1 ← Res.sub n 1
  let e : ErC T R := { graph := GenericGraph.new n, cTarget, prob := cTarget / (n1 : ℚ), rng }
  e.randomize

/-- The loop of `make_connected` (src/er_c.rs:264-267); `suggestions` is the list in the order in which `pop` returns it. -/
def connectLoop : List Nat → Nat → Graph T → Res (Graph T)
  | [], _, g => .ok g
  | suggestion :: rest, last, g => do
    let p ← g.addEdge last suggestion
    let g ← unwrapOk p
    connectLoop rest suggestion g

/-- `make_connected` (src/er_c.rs:261-268): `Vec::pop` takes from the end. -/
def makeConnected (e : ErC T R) : Res (ErC T R) := do
  let suggestions ← e.graph.suggestConnections
  match suggestions.reverse with
  | [] => .panic
  | last :: rest => do
    let graph ← connectLoop rest last e.graph
    return { e with graph }

/-- `set_target_connectivity` (src/er_c.rs:286-290). -/
def setTargetConnectivity (e : ErC T R) (cTarget : ℚ) : Res (ErC T R) := do
  let n1 ← Res.sub e.graph.vertexCount 1
  return { e with prob := cTarget / (n1 : ℚ), cTarget }

end ErC

end Verif
