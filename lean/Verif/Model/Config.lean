import Verif.Model.Measures
import Verif.Model.Er

/-!
# Configuration model

Model of src/configuration_model.rs.
-/

namespace Verif

/-- `ConfigurationModel` (src/configuration_model.rs:30-38). -/
structure Config (T R : Type) where
  graph : Graph T
  degreeVec : List Nat
  rng : R
  halfs : List Nat
  backup : List Nat

/-- `ConfigurationModelStep` (src/configuration_model.rs:393-400). -/
inductive ConfigStep where
  | error
  | added (e1 e2 : Nat × Nat)
deriving DecidableEq, Repr

/-- `UndoStepErrorCM` (src/configuration_model.rs:405-411). -/
inductive UndoErrCM where
  | unableToAddEdge (e : Nat × Nat) (err : GraphErr)
  | unableToRemoveEdge (e : Nat × Nat) (err : GraphErr)
deriving DecidableEq, Repr

/-- `slice.choose_multiple(rng, 2)` collected into a vector (rand crate): the elements at two different positions in random
order; everything if the slice is shorter.  The crate may draw the positions by another method than the two draws used here. -/
def chooseTwo {R : Type} [Rng R] (rng : R) (l : List Nat) : Res (List Nat × R) :=
  if l.length < 2 then .ok (l, rng)
  else do
    let (p, rng) ← drawTwoFromRange rng l.length
    let a ← Vec.idx l p.1
    let b ← Vec.idx l p.2
    return ([a, b], rng)

/-- `slice.choose(rng).unwrap()` (rand crate). -/
def chooseOne {R : Type} [Rng R] (rng : R) (l : List Nat) : Res (Nat × R) := do
  let (i, rng) ← genRange rng l.length
  let a ← Vec.idx l i
  return (a, rng)

namespace Config

/-- `degree_vec_is_valid` (src/configuration_model.rs:144-160). -/
def degreeVecIsValid (d : List Nat) : Bool :=
  if d.length ≤ 1 then false
  else if !(d.all (fun degree => degree < d.length - 1)) then false
  else d.sum % 2 == 0

/-- `assert_degree_vec_valid` (src/configuration_model.rs:165-184). -/
def assertDegreeVecValid (d : List Nat) : Res Unit := do
  Res.assert (decide (d.length > 1))
  Res.assert (d.all (fun degree => degree < d.length - 1))
  Res.assert (d.sum % 2 == 0)

variable {T R : Type} [Rng R]

/-- `init_edge_halfs` (src/configuration_model.rs:229-245). -/
def initEdgeHalfs (e : Config T R) : Config T R :=
  { e with backup := (List.range e.degreeVec.length).flatMap (fun i => List.replicate (e.degreeVec.getD i 0) i) }

/-- The part of the loop of `add_multiple_random_edges` that skips edge halves of the same vertex
(src/configuration_model.rs:364-370): the position of the partner, `none` for `break false`. -/
def findPartner (halfs : List Nat) (node1 : Nat) : Nat → Res (Option Nat)
  | 0 => do
    let x ← Vec.idx halfs 0
    if node1 == x then return none else return some 0
  | counter + 1 => do
    let x ← Vec.idx halfs (counter + 1)
    if node1 == x then findPartner halfs node1 counter else return some (counter + 1)

/-- `add_multiple_random_edges` (src/configuration_model.rs:359-387).  The `pop`s before the loop and at the end of the loop body
are the same expressions, hence one recursive function. -/
def addMultiple : Nat → Graph T → List Nat → Res (Bool × Graph T × List Nat)
  | 0, _, _ => .diverge
  | fuel + 1, g, halfs => do
    let node1 ← Res.unwrap halfs.getLast?
    let halfs := halfs.dropLast
    let counter ← Res.sub halfs.length 1
    match ← findPartner halfs node1 counter with
    | none => return (false, g, halfs)
    | some c => do
      let (node2, halfs) ← Vec.swapRemove halfs c
      let (r, g) ← g.addEdge node1 node2
      match r with
      | .error _ => return (false, g, halfs)
      | .ok () => if halfs.length > 1 then addMultiple fuel g halfs else return (true, g, halfs)

/-- The `while` loop of `randomize` (src/configuration_model.rs:340-349). -/
def randLoop : Nat → Config T R → Res (Config T R)
  | 0, _ => .diverge
  | fuel + 1, e =>
    if e.halfs.isEmpty then .ok e
    else do
      let (added, graph, halfs) ← addMultiple (e.halfs.length + 1) e.graph e.halfs
      if added then randLoop fuel { e with graph, halfs }
      else
        let (backup, rng) := Rng.shuffle e.rng e.backup
        randLoop fuel { e with graph := graph.clearEdges, rng, backup, halfs := backup }

/-- `randomize` (src/configuration_model.rs:334-350); `fuel` bounds the number of rounds of the `while` loop. -/
def randomize (fuel : Nat) (e : Config T R) : Res (Config T R) :=
  let graph := e.graph.clearEdges
  let (backup, rng) := Rng.shuffle e.rng e.backup
  randLoop fuel { e with graph, rng, backup, halfs := backup }

/-- `from_vec_unchecked` (src/configuration_model.rs:125-138). -/
def fromVecUnchecked [Node T] (fuel : Nat) (degreeVec : List Nat) (rng : R) : Res (Config T R) :=
  let e : Config T R := { graph := GenericGraph.new degreeVec.length, degreeVec, rng, halfs := [], backup := [] }
  randomize fuel e.initEdgeHalfs

/-- `from_vec` (src/configuration_model.rs:112-120). -/
def fromVec [Node T] (fuel : Nat) (degreeVec : List Nat) (rng : R) : Res (Option (Config T R)) :=
  if degreeVecIsValid degreeVec then do
    let e ← fromVecUnchecked fuel degreeVec rng
    return some e
  else .ok none

/-- `from_const` (src/configuration_model.rs:62-74): `size - 1` underflows for `size = 0`. -/
def fromConst [Node T] (fuel : Nat) (constant size : Nat) (rng : R) : Res (Option (Config T R)) := do
  let s1 ← Res.sub size 1
  if constant ≥ s1 ∨ size * constant % 2 ≠ 0 then return none
  else do
    let e ← fromVecUnchecked fuel (List.replicate size constant) rng
    return some e

/-- `from_generic_graph` (src/configuration_model.rs:78-83). -/
def fromGenericGraph [Node T] {T1 A1 : Type} [AdjContainer T1 A1] (fuel : Nat) (g : GenericGraph T1 A1) (rng : R) :
    Res (Config T R) := fromVecUnchecked fuel g.degreeVec rng

/-- `clone_from_generic_graph` (src/configuration_model.rs:92-106). -/
def cloneFromGenericGraph {A : Type} [AdjContainer T A] (g : GenericGraph T A) (rng : R) : Config T R :=
  initEdgeHalfs { graph := g.toGraph, degreeVec := g.degreeVec, rng, halfs := [], backup := [] }

/-- `swap_degree_vec_unchecked` (src/configuration_model.rs:200-209). -/
def swapDegreeVecUnchecked (fuel : Nat) (e : Config T R) (d : List Nat) : Res (List Nat × Config T R) := do
  Res.assert (e.degreeVec.length == d.length)
  let old := e.degreeVec
  let e ← randomize fuel (initEdgeHalfs { e with degreeVec := d })
  return (old, e)

/-- `swap_degree_vec` (src/configuration_model.rs:191-195). -/
def swapDegreeVec (fuel : Nat) (e : Config T R) (d : List Nat) : Res (List Nat × Config T R) := do
  assertDegreeVecValid d
  e.swapDegreeVecUnchecked fuel d

/-- `degree_vec_from_generic_graph` (src/configuration_model.rs:216-226); the loop copies the degrees one by one. -/
def degreeVecFromGenericGraph {T1 A1 : Type} [AdjContainer T1 A1] (fuel : Nat) (e : Config T R) (g : GenericGraph T1 A1) :
    Res (Config T R) := do
  Res.assert (e.degreeVec.length == g.vertices.length)
  randomize fuel (initEdgeHalfs { e with degreeVec := g.degreeVec })

/-- The `while` loop of `m_step` that draws two vertices (src/configuration_model.rs:430-437). -/
def drawVertices : Nat → R → List Nat → Res ((Nat × Nat) × R)
  | 0, _, _ => .diverge
  | fuel + 1, rng, backup => do
    let (l, rng) ← chooseTwo rng backup
    let a ← Vec.idx l 0
    let b ← Vec.idx l 1
    if a == b then drawVertices fuel rng backup else return ((a, b), rng)

/-- `m_step` (src/configuration_model.rs:428-464); `fuel` bounds the number of draws. -/
def mStep (fuel : Nat) (e : Config T R) : Res (ConfigStep × Config T R) := do
  let ((a, b), rng) ← drawVertices fuel e.rng e.backup
  let ca ← Vec.idx e.graph.vertices a
  let (a1, rng) ← chooseOne rng ca.adj
  let cb ← Vec.idx e.graph.vertices b
  let (b1, rng) ← chooseOne rng cb.adj
  let e := { e with rng }
  let edge1 := (a, a1)
  let edge2 := (b, b1)
  if edge2.1 == edge1.1 || edge1.2 == edge2.2 then return (.error, e)
  else do
    let (r, graph) ← e.graph.addEdge edge1.1 edge2.1
    match r with
    | .error _ => return (.error, { e with graph })
    | .ok () => do
      let (r, graph) ← graph.addEdge edge1.2 edge2.2
      match r with
      | .error _ => do
        let p ← graph.removeEdge edge1.1 edge2.1
        let graph ← unwrapOk p
        return (.error, { e with graph })
      | .ok () => do
        let p ← graph.removeEdge edge1.1 edge1.2
        let graph ← unwrapOk p
        let p ← graph.removeEdge edge2.1 edge2.2
        let graph ← unwrapOk p
        return (.added edge1 edge2, { e with graph })

/-- `undo_step` (src/configuration_model.rs:474-513). -/
def undoStep (e : Config T R) (step : ConfigStep) : Res (Except UndoErrCM Unit × Config T R) :=
  match step with
  | .error => .ok (.ok (), e)
  | .added e1 e2 => do
    let (r, graph) ← e.graph.addEdge e2.1 e2.2
    match r with
    | .error err => return (.error (.unableToAddEdge e2 err), { e with graph })
    | .ok () => do
      let (r, graph) ← graph.addEdge e1.1 e1.2
      match r with
      | .error err => do
        let p ← graph.removeEdge e2.1 e2.2
        let graph ← unwrapOk p
        return (.error (.unableToAddEdge e1 err), { e with graph })
      | .ok () => do
        let (r, graph) ← graph.removeEdge e1.2 e2.2
        match r with
        | .error err => do
          let p ← graph.removeEdge e2.1 e2.2
          let graph ← unwrapOk p
          let p ← graph.removeEdge e1.1 e1.2
          let graph ← unwrapOk p
          return (.error (.unableToRemoveEdge (e1.2, e2.2) err), { e with graph })
        | .ok () => do
          let (r, graph) ← graph.removeEdge e1.1 e2.1
          match r with
          | .error err => do
            let p ← graph.removeEdge e2.1 e2.2
            let graph ← unwrapOk p
            let p ← graph.removeEdge e1.1 e1.2
            let graph ← unwrapOk p
            let p ← graph.addEdge e1.2 e2.2
            let graph ← unwrapOk p
            return (.error (.unableToRemoveEdge (e1.1, e2.1) err), { e with graph })
          | .ok () => return (.ok (), { e with graph })

/-- `undo_step_quiet` (src/configuration_model.rs:520-529). -/
def undoStepQuiet (e : Config T R) (step : ConfigStep) : Res (Config T R) :=
  match step with
  | .error => .ok e
  | .added e1 e2 => do
    let p ← e.graph.addEdge e2.1 e2.2
    let graph ← unwrapOk p
    let p ← graph.addEdge e1.1 e1.2
    let graph ← unwrapOk p
    let p ← graph.removeEdge e1.2 e2.2
    let graph ← unwrapOk p
    let p ← graph.removeEdge e1.1 e2.1
    let graph ← unwrapOk p
    return { e with graph }

end Config

end Verif
