import Verif.Model.Iterators

/-!
# vertex_load

Model of `GenericGraph::vertex_load` (src/generic_graph/generic_graph.rs:1310-1385).  The `f64` values are rationals (exact
arithmetic).
-/

set_option linter.unusedSectionVars false

namespace Verif
open AdjContainer

/-- The variables of `vertex_load` (src/generic_graph/generic_graph.rs:1312-1318) apart from the result `b`.  `ordering` is a stack,
its top is the head of the list. -/
structure LoadBuf where
  queue0 : List Nat
  queue1 : List Nat
  ordering : List Nat
  bk : List ℚ
  distance : List (Option Nat)
  predecessor : List (List Nat)
deriving DecidableEq

/-- `predecessor[neighbor].push(index)`. -/
def pushPred (predecessor : List (List Nat)) (neighbor index : Nat) : Res (List (List Nat)) := do
  let p ← Vec.idx predecessor neighbor
  Vec.put predecessor neighbor (p ++ [index])

/-- The loop over the neighbours (src/generic_graph/generic_graph.rs:1344-1356). -/
def loadVisit (index depth : Nat) : List Nat → LoadBuf → Res LoadBuf
  | [], s => .ok s
  | neighbor :: rest, s => do
    match ← Vec.idx s.distance neighbor with
    | some d =>
      if d = depth + 1 then do
        let predecessor ← pushPred s.predecessor neighbor index
        loadVisit index depth rest { s with predecessor := predecessor }
      else loadVisit index depth rest s
    | none => do
      let distance ← Vec.put s.distance neighbor (some (depth + 1))
      let predecessor ← pushPred s.predecessor neighbor index
      loadVisit index depth rest
        { s with distance := distance, queue1 := s.queue1 ++ [neighbor], predecessor := predecessor }

section
variable {T A : Type} [AdjContainer T A]

/-- `while let Some(index) = queue0.pop_front()` (src/generic_graph/generic_graph.rs:1341-1361). -/
def loadBfs (g : GenericGraph T A) : Nat → Nat → LoadBuf → Res LoadBuf
  | 0, _, _ => .diverge
  | fuel + 1, depth, s =>
    match s.queue0 with
    | [] => .ok s
    | index :: queue0 => do
      let container ← g.container index
      let s ← loadVisit index depth (neighbors container)
        { s with queue0 := queue0, ordering := index :: s.ordering }
      if s.queue0.isEmpty then loadBfs g fuel (depth + 1) { s with queue0 := s.queue1, queue1 := s.queue0 }
      else loadBfs g fuel depth s

end

/-- `for pred in predecessor[index].iter() { b_k[*pred] += fraction; }` (src/generic_graph/generic_graph.rs:1378-1380). -/
def addFraction (fraction : ℚ) (bk : List ℚ) (pred : Nat) : Res (List ℚ) := do
  let x ← Vec.idx bk pred
  Vec.put bk pred (x + fraction)

/-- `b[index] += b_k[index]; if !include_endpoints { b[index] -= 1.0; }` (src/generic_graph/generic_graph.rs:1371-1374). -/
def loadAdd (include_endpoints : Bool) (b : List ℚ) (index : Nat) (y : ℚ) : Res (List ℚ) := do
  let x ← Vec.idx b index
  let b ← Vec.put b index (x + y)
  if !include_endpoints then do
    let x ← Vec.idx b index
    Vec.put b index (x - 1)
  else return b

/-- `while let Some(index) = ordering.pop()` (src/generic_graph/generic_graph.rs:1364-1381).  A division by zero (`inf` in Rust)
is modelled as a panic. -/
def loadDown (include_endpoints : Bool) (predecessor : List (List Nat)) : List Nat → List ℚ → List ℚ →
    Res (List Nat × List ℚ × List ℚ)
  | [], b, bk => .ok ([], b, bk)
  | index :: ordering, b, bk =>
    if ordering.isEmpty then .ok (ordering, b, bk)
    else do
      let y ← Vec.idx bk index
      let b ← loadAdd include_endpoints b index y
      let p ← Vec.idx predecessor index
      Res.assert (p.length ≠ 0)
      let bk ← p.foldlM (addFraction (y / (p.length : ℚ))) bk
      loadDown include_endpoints predecessor ordering b bk

namespace GenericGraph
variable {T A : Type} [AdjContainer T A]

/-- The loop body of `vertex_load` (src/generic_graph/generic_graph.rs:1321-1383); the loop over all `j` that resets the three vectors
is written as one assignment. -/
def loadBody (g : GenericGraph T A) (include_endpoints : Bool) (st : List ℚ × LoadBuf) (i : Nat) : Res (List ℚ × LoadBuf) := do
  let (b, s) := st
  let s := if i > 0 then { s with bk := List.replicate g.vertexCount 1, distance := List.replicate g.vertexCount none,
                                  predecessor := List.replicate g.vertexCount [] } else s
  let distance ← Vec.put s.distance i (some 0)
  let s ← loadBfs g (g.vertexCount + 1) 0 { s with queue0 := s.queue0 ++ [i], distance := distance }
  let (ordering, b, bk) ← loadDown include_endpoints s.predecessor s.ordering b s.bk
  return (b, { s with ordering := ordering, bk := bk })

/-- `vertex_load` (src/generic_graph/generic_graph.rs:1310-1385). -/
def vertexLoad (g : GenericGraph T A) (include_endpoints : Bool) : Res (List ℚ) := do
  let n := g.vertexCount
  let (b, _) ← (List.range n).foldlM (g.loadBody include_endpoints) (List.replicate n 0,
    ⟨[], [], [], List.replicate n 1, List.replicate n none, List.replicate n []⟩)
  return b

end GenericGraph
end Verif
