import Verif.Model.Release

/-!
# Constructors with the arithmetic of the machine

In the other files numbers are not bounded.  Here the constructors are written with `usize` (64 bits): a debug build panics on an
overflow, a release build computes modulo `2 ^ 64`.
-/

namespace Verif

/-- `a + b` on `usize` in a debug build (std). -/
def Res.add64 (a b : Nat) : Res Nat := if a + b < 2 ^ 64 then .ok (a + b) else .panic

/-- `a * b` on `usize` in a debug build (std). -/
def Res.mul64 (a b : Nat) : Res Nat := if a * b < 2 ^ 64 then .ok (a * b) else .panic

/-- `a + b` on `usize` in a release build (std). -/
def Rel.add64 (a b : Nat) : Nat := (a + b) % 2 ^ 64

/-- `a * b` on `usize` in a release build (std). -/
def Rel.mul64 (a b : Nat) : Nat := (a * b) % 2 ^ 64

namespace SwGraph
variable {T : Type}

/-- `init_ring_2` (src/sw_graph.rs:488-492) in a release build. -/
def initRing2R (g : SwGraph T) : Rel (SwGraph T) := do
  let (r, g) ← g.initRingR 2
  Rel.ofRes (unwrapOk (r, g))

end SwGraph

namespace SwEns
variable {T R : Type} [Rng R]

/-- `new` (src/sw.rs:214-225) in a release build. -/
def newR [Node T] (n : Nat) (rProb : ℚ) (rng : R) : Rel (SwEns T R) := do
  let graph : SwGraph T := GenericGraph.new n
  let graph ← SwGraph.initRing2R graph
  randomizeR { graph, rProb, rng }

/-- `new_with_distance` (src/sw.rs:234-245) in a release build. -/
def newWithDistanceR [Node T] (n distance : Nat) (rProb : ℚ) (rng : R) : Rel (Except GraphErr (SwEns T R)) := do
  let graph : SwGraph T := GenericGraph.new n
  let (r, graph) ← graph.initRingR distance
  match r with
  | .error e => return .error e
  | .ok () => do
    let e ← randomizeR { graph, rProb, rng }
    return .ok e

end SwEns

namespace Ws
variable {T R : Type} [Rng R]

/-- `WS::new` (src/watts_strogatz/ensemble.rs:101-129) in a debug build, with the overflow checks of `1 + 2 * neighbor_distance`.  The
sums in `init_ring` are at most `2 * n` for the arguments that get there. -/
def newChecked [Node T] (fuel n d : Nat) (p : ℚ) (rng : R) : Res (Except WSCreationError (Ws T R)) := do
  let twice ← Res.mul64 2 d
  let minimumN ← Res.add64 1 twice
  if n < minimumN then return .error .impossibleRingRequest
  let graph : WSGraph T := GenericGraph.new n
  let (r, graph) ← graph.initRing d
  match r with
  | .error _ => return .error .impossibleEdgeRequest
  | .ok () =>
    let s ← randomize fuel { graph, rewireProb := p, rng, neighborDistance := d }
    return .ok s

/-- `WS::new` (src/watts_strogatz/ensemble.rs:101-129) in a release build. -/
def newR [Node T] (fuel n d : Nat) (p : ℚ) (rng : R) : Rel (Except WSCreationError (Ws T R)) := do
  let minimumN := Rel.add64 1 (Rel.mul64 2 d)
  if n < minimumN then return .error .impossibleRingRequest
  let graph : WSGraph T := GenericGraph.new n
  let (r, graph) ← graph.initRingR d
  match r with
  | .error _ => return .error .impossibleEdgeRequest
  | .ok () =>
    let s ← randomizeR fuel { graph, rewireProb := p, rng, neighborDistance := d }
    return .ok s

end Ws

namespace ErM
variable {T R : Type} [Rng R]

/-- `new` (src/er_m.rs:245-278) in a debug build, with the overflow check of `n * (n - 1)`. -/
def newChecked [Node T] (n m : Nat) (rng : R) : Res (ErM T R) := do
  let graph : Graph T := GenericGraph.new n
  let n1 ← Res.sub n 1
  let prod ← Res.mul64 n n1
  let pEdges := prod / 2
  Res.assert (decide (m ≤ pEdges))
  let vec := (List.range n).flatMap (fun i => (List.range' (i + 1) (n - (i + 1))).map (fun j => (i, j)))
  let e : ErM T R := { graph, m, rng, allEdges := vec, possibleEdges := List.replicate (pEdges - m) (0, 0),
                       currentEdges := List.replicate m (0, 0) }
  e.randomize

/-- `new` (src/er_m.rs:245-278) in a release build: `n - 1` and the product wrap. -/
def newR [Node T] (n m : Nat) (rng : R) : Rel (ErM T R) := do
  let graph : Graph T := GenericGraph.new n
  let pEdges := Rel.mul64 n (Rel.decr n) / 2
  Rel.ofRes (Res.assert (decide (m ≤ pEdges)))
  let vec := (List.range n).flatMap (fun i => (List.range' (i + 1) (n - (i + 1))).map (fun j => (i, j)))
  let e : ErM T R := { graph, m, rng, allEdges := vec, possibleEdges := List.replicate (pEdges - m) (0, 0),
                       currentEdges := List.replicate m (0, 0) }
  e.randomizeR

end ErM

/-- `ErEnsembleC::new` (src/er_c.rs:239-250) in a release build: `n - 1` wraps.  `(n - 1) as f64` is the exact number, as in `ErC.new`.
`randomize` uses checked accesses only. -/
def ErC.newR {T R : Type} [Rng R] [Node T] (n : Nat) (cTarget : ℚ) (rng : R) : Rel (ErC T R) :=
  let e : ErC T R := { graph := GenericGraph.new n, cTarget, prob := cTarget / (Rel.decr n : ℚ), rng }
  Rel.ofRes e.randomize

/-- `complete_graph` (src/graph.rs:332-356) in a debug build, with the overflow check of `n * (n - 1)`. -/
def GenericGraph.completeGraphChecked {T : Type} [Node T] (n : Nat) : Res (Graph T) := do
  let n1 ← Res.sub n 1
  let prod ← Res.mul64 n n1
  return { nextId := n,
           edgeCount := prod / 2,
           vertices := (List.range n).map (fun i =>
             { id := i, node := Node.newFromIndex i, adj := List.range i ++ List.range' (i + 1) (n - (i + 1)) }) }

/-- `complete_graph` (src/graph.rs:332-356) in a release build. -/
def GenericGraph.completeGraphR {T : Type} [Node T] (n : Nat) : Graph T :=
  { nextId := n,
    edgeCount := Rel.mul64 n (Rel.decr n) / 2,
    vertices := (List.range n).map (fun i =>
      { id := i, node := Node.newFromIndex i, adj := List.range i ++ List.range' (i + 1) (n - (i + 1)) }) }

namespace Config
variable {T R : Type} [Rng R]

/-- `from_vec_unchecked` (src/configuration_model.rs:125-138) in a release build. -/
def fromVecUncheckedR [Node T] (fuel : Nat) (degreeVec : List Nat) (rng : R) : Rel (Config T R) := do
  let e : Config T R := { graph := GenericGraph.new degreeVec.length, degreeVec, rng, halfs := [], backup := [] }
  let e ← e.initEdgeHalfsR
  e.randomizeR fuel

/-- `from_const` (src/configuration_model.rs:62-74) in a debug build, with the overflow check of `size * constant`, which is computed
only if the first condition is false. -/
def fromConstChecked [Node T] (fuel : Nat) (constant size : Nat) (rng : R) : Res (Option (Config T R)) := do
  let s1 ← Res.sub size 1
  if constant ≥ s1 then return none
  let prod ← Res.mul64 size constant
  if prod % 2 ≠ 0 then return none
  else do
    let e ← fromVecUnchecked fuel (List.replicate size constant) rng
    return some e

/-- `from_const` (src/configuration_model.rs:62-74) in a release build. -/
def fromConstR [Node T] (fuel : Nat) (constant size : Nat) (rng : R) : Rel (Option (Config T R)) :=
  if constant ≥ Rel.decr size ∨ Rel.mul64 size constant % 2 ≠ 0 then return none
  else do
    let e ← fromVecUncheckedR fuel (List.replicate size constant) rng
    return some e

end Config

namespace GenericGraph
variable {T A : Type} [AdjContainer T A]

/-- Loop body of `suggest_connections` (src/generic_graph/generic_graph.rs:917-930) in a debug build with the check of `current_id += 1`,
which is an `i32`. -/
def scBodyChecked (g : GenericGraph T A) (s : List Nat × List Int × Int) (i : Nat) : Res (List Nat × List Int × Int) := do
  let (sugg, comp, cur) := s
  let c ← Vec.idx comp i
  if c ≠ -1 then return (sugg, comp, cur)
  else do
    let l ← g.dfsWithIndex i (g.vertexCount + 1)
    let comp ← labelAll cur l comp
    if cur + 1 < 2 ^ 31 then return (sugg ++ [i], comp, cur + 1) else .panic

/-- `suggest_connections` (src/generic_graph/generic_graph.rs:912-932) with ids of type `i32`, in a debug build. -/
def suggestConnectionsChecked (g : GenericGraph T A) : Res (List Nat) := do
  let (sugg, _, _) ← (List.range g.vertexCount).foldlM (scBodyChecked g) ([], List.replicate g.vertexCount (-1), 0)
  return sugg

end GenericGraph
end Verif
