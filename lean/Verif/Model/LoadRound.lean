import Verif.Model.Load

/-!
# vertex_load with rounding

Model of `GenericGraph::vertex_load` (src/generic_graph/generic_graph.rs:1310-1385) in which every addition, subtraction and division
of `f64` values is followed by a rounding `rnd`.  The search does not compute with `f64` values, so it is the one of
`Verif.Model.Load`.  `predecessor[index].len() as f64` is exact for lengths up to `2^53`.  With `rnd` the identity this is `vertexLoad`
(`vertexLoadR_id`).
-/

set_option linter.unusedSectionVars false

namespace Verif
open AdjContainer

/-- `for pred in predecessor[index].iter() { b_k[*pred] += fraction; }` (src/generic_graph/generic_graph.rs:1377-1379). -/
def addFractionR (rnd : ℚ → ℚ) (fraction : ℚ) (bk : List ℚ) (pred : Nat) : Res (List ℚ) := do
  let x ← Vec.idx bk pred
  Vec.put bk pred (rnd (x + fraction))

/-- `b[index] += b_k[index]; if !include_endpoints { b[index] -= 1.0; }` (src/generic_graph/generic_graph.rs:1370-1373). -/
def loadAddR (rnd : ℚ → ℚ) (include_endpoints : Bool) (b : List ℚ) (index : Nat) (y : ℚ) : Res (List ℚ) := do
  let x ← Vec.idx b index
  let b ← Vec.put b index (rnd (x + y))
  if !include_endpoints then do
    let x ← Vec.idx b index
    Vec.put b index (rnd (x - 1))
  else return b

/-- `while let Some(index) = ordering.pop()` (src/generic_graph/generic_graph.rs:1363-1380).  A division by zero (`inf` in Rust)
is modelled as a panic. -/
def loadDownR (rnd : ℚ → ℚ) (include_endpoints : Bool) (predecessor : List (List Nat)) : List Nat → List ℚ → List ℚ →
    Res (List Nat × List ℚ × List ℚ)
  | [], b, bk => .ok ([], b, bk)
  | index :: ordering, b, bk =>
    if ordering.isEmpty then .ok (ordering, b, bk)
    else do
      let y ← Vec.idx bk index
      let b ← loadAddR rnd include_endpoints b index y
      let p ← Vec.idx predecessor index
      Res.assert (p.length ≠ 0)
      let bk ← p.foldlM (addFractionR rnd (rnd (y / (p.length : ℚ)))) bk
      loadDownR rnd include_endpoints predecessor ordering b bk

namespace GenericGraph
variable {T A : Type} [AdjContainer T A]

/-- The loop body of `vertex_load` (src/generic_graph/generic_graph.rs:1321-1382); the loop over all `j` that resets the three vectors
is written as one assignment. -/
def loadBodyR (rnd : ℚ → ℚ) (g : GenericGraph T A) (include_endpoints : Bool) (st : List ℚ × LoadBuf) (i : Nat) :
    Res (List ℚ × LoadBuf) := do
  let (b, s) := st
  let s := if i > 0 then { s with bk := List.replicate g.vertexCount 1, distance := List.replicate g.vertexCount none,
                                  predecessor := List.replicate g.vertexCount [] } else s
  let distance ← Vec.put s.distance i (some 0)
  let s ← loadBfs g (g.vertexCount + 1) 0 { s with queue0 := s.queue0 ++ [i], distance := distance }
  let (ordering, b, bk) ← loadDownR rnd include_endpoints s.predecessor s.ordering b s.bk
  return (b, { s with ordering := ordering, bk := bk })

/-- `vertex_load` (src/generic_graph/generic_graph.rs:1310-1385). -/
def vertexLoadR (rnd : ℚ → ℚ) (g : GenericGraph T A) (include_endpoints : Bool) : Res (List ℚ) := do
  let n := g.vertexCount
  let (b, _) ← (List.range n).foldlM (g.loadBodyR rnd include_endpoints) (List.replicate n 0,
    ⟨[], [], [], List.replicate n 1, List.replicate n none, List.replicate n []⟩)
  return b

theorem loadDownR_id (incl : Bool) (pr : List (List Nat)) : ∀ (o : List Nat) (b bk : List ℚ),
    loadDownR (fun x => x) incl pr o b bk = loadDown incl pr o b bk
  | [], _, _ => rfl
  | v :: o, b, bk => by
    rw [loadDownR, loadDown]
    simp only [loadDownR_id incl pr o]
    rfl

/-- Without rounding this is the model in exact arithmetic. -/
theorem vertexLoadR_id (g : GenericGraph T A) (incl : Bool) : g.vertexLoadR (fun x => x) incl = g.vertexLoad incl := by
  unfold vertexLoadR vertexLoad
  have : g.loadBodyR (fun x => x) incl = g.loadBody incl := by
    funext st i
    unfold loadBodyR loadBody
    simp only [loadDownR_id]
  rw [this]

end GenericGraph
end Verif
