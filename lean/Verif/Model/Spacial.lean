import Verif.Model.Er

/-!
# Spatial ensembles

Model of src/spacial/spacial_ensemble.rs and src/spacial/dog_networks.rs.  The floating point formulas for the probability of
an edge (`hypot`, `powf`, `exp_m1`) are modelled without rounding in `Verif.Model.Formula`; here an ensemble carries an arbitrary function from the positions of the two
vertices to a rational number.  A NaN behaves in the comparisons like a negative number and an infinity like a number above
one, so every outcome of the formulas is covered.
-/

namespace Verif
open AdjContainer

/-- Position of a vertex: the fields `x`, `y` of `SpacialNodeContainer` (src/spacial/spacial_graph.rs:23-24). -/
abbrev Pos := Option ℚ × Option ℚ

/-- The position of a vertex (`get_x`, `get_y`, src/spacial/spacial_graph.rs:145-154). -/
def SpacialNodeContainer.pos {T : Type} (c : SpacialNodeContainer T) : Pos := (c.x, c.y)

/-- `SpacialGraph::distance` and `SpacialEnsemble::distance` (src/spacial/spacial_graph.rs:168-180,
src/spacial/spacial_ensemble.rs:79-83); `dist` stands for `SpacialNodeContainer::distance` (src/spacial/spacial_graph.rs:138-142),
whose `hypot` is not modelled. -/
def GenericGraph.distance {T : Type} (g : SpacialGraph T) (dist : Pos → Pos → ℚ) (i j : Nat) : Option ℚ := do
  let ci ← g.vertices[i]?
  let cj ← g.vertices[j]?
  return dist ci.pos cj.pos

/-- `SpacialEnsemble` (src/spacial/spacial_ensemble.rs:25-32).  `law` is the formula of `prob_unchecked` as a function of the two
positions; it contains the parameters `f`, `alpha` and `sqrt_n_pi`. -/
structure Spacial (T R : Type) where
  graph : SpacialGraph T
  rng : R
  law : Pos → Pos → ℚ

/-- `SpacialStep` (src/spacial/spacial_ensemble.rs:165-175). -/
inductive SpacialStep where
  | nothing
  | addedEdge (e : Nat × Nat)
  | removedEdge (e : Nat × Nat)
  | error
deriving DecidableEq, Repr

namespace Spacial
variable {T R : Type} [Rng R]

/-- `prob_unchecked` (src/spacial/spacial_ensemble.rs:101-112); `get_unchecked` out of range is undefined behaviour in Rust and a
panic here. -/
def probUnchecked (law : Pos → Pos → ℚ) (g : SpacialGraph T) (i j : Nat) : Res ℚ := do
  let ci ← Vec.idx g.vertices i
  let cj ← Vec.idx g.vertices j
  return law ci.pos cj.pos

/-- `edge_probability` (src/spacial/spacial_ensemble.rs:91-98): the same formula, clamped to `[0, 1]`, `None` out of range. -/
def edgeProbability (e : Spacial T R) (i j : Nat) : Option ℚ := do
  let ci ← e.graph.vertices[i]?
  let cj ← e.graph.vertices[j]?
  return max 0 (min 1 (e.law ci.pos cj.pos))

/-- The body of the inner loop of `randomize` (src/spacial/spacial_ensemble.rs:136-157). -/
def randBody (law : Pos → Pos → ℚ) (i : Nat) (s : SpacialGraph T × R) (j : Nat) : Res (SpacialGraph T × R) := do
  let prob ← probUnchecked law s.1 i j
  let (b, rng) := coin s.2 prob
  if b then
    let vs := s.1.vertices
    let a ← Vec.idx vs i
    let vs := vs.set i { a with adj := a.adj ++ [j] }
    let c ← Vec.idx vs j
    let vs := vs.set j { c with adj := c.adj ++ [i] }
    return ({ s.1 with vertices := vs, edgeCount := s.1.edgeCount + 1 }, rng)
  else return (s.1, rng)

/-- `randomize` (src/spacial/spacial_ensemble.rs:132-159). -/
def randomize (e : Spacial T R) : Res (Spacial T R) := do
  let graph := e.graph.clearEdges
  let n := graph.vertexCount
  let s ← (List.range n).foldlM (fun s i => (List.range' (i + 1) (n - (i + 1))).foldlM (randBody e.law i) s) (graph, e.rng)
  return { e with graph := s.1, rng := s.2 }

/-- `rng.gen::<f64>()` (rand crate): a multiple of `2^-53`. -/
def genUnitQ (r : R) : ℚ × R := (((Rng.genUnit r).1 : ℚ) / 2 ^ 53, (Rng.genUnit r).2)

/-- The loop over the vertices in `new` (src/spacial/spacial_ensemble.rs:55-62). -/
def place (vs : List (SpacialNodeContainer T)) (rng : R) : List (SpacialNodeContainer T) × R :=
  match vs with
  | [] => ([], rng)
  | v :: vs =>
    let (x, rng) := genUnitQ rng
    let (y, rng) := genUnitQ rng
    let (vs, rng) := place vs rng
    ({ v with x := some x, y := some y } :: vs, rng)

/-- `new` (src/spacial/spacial_ensemble.rs:51-73). -/
def new [Node T] (n : Nat) (rng : R) (law : Pos → Pos → ℚ) : Res (Spacial T R) :=
  let graph : SpacialGraph T := GenericGraph.new n
  let (vs, rng) := place graph.vertices rng
  randomize { graph := { graph with vertices := vs }, rng, law }

/-- `m_step` (src/spacial/spacial_ensemble.rs:183-199). -/
def mStep (e : Spacial T R) : Res (SpacialStep × Spacial T R) := do
  let (edge, rng) ← drawTwoFromRange e.rng e.graph.vertexCount
  let prob ← probUnchecked e.law e.graph edge.1 edge.2
  let (b, rng) := coin rng prob
  if b then
    let (success, graph) ← e.graph.addEdge edge.1 edge.2
    let e := { e with graph, rng }
    match success with
    | .ok () => return (.addedEdge edge, e)
    | .error _ => return (.nothing, e)
  else
    let (success, graph) ← e.graph.removeEdge edge.1 edge.2
    let e := { e with graph, rng }
    match success with
    | .ok () => return (.removedEdge edge, e)
    | .error _ => return (.nothing, e)

/-- The body of the loop of `m_steps_quiet` (src/spacial/spacial_ensemble.rs:202-210). -/
def quietBody (e : Spacial T R) : Res (Spacial T R) := do
  let ((i, j), rng) ← drawTwoFromRange e.rng e.graph.vertexCount
  let prob ← probUnchecked e.law e.graph i j
  let (b, rng) := coin rng prob
  if b then
    let (_, graph) ← e.graph.addEdge i j
    return { e with graph, rng }
  else
    let (_, graph) ← e.graph.removeEdge i j
    return { e with graph, rng }

/-- `m_steps_quiet` (src/spacial/spacial_ensemble.rs:201-211). -/
def mStepsQuiet (e : Spacial T R) (count : Nat) : Res (Spacial T R) :=
  (List.range count).foldlM (fun e _ => quietBody e) e

/-- `undo_step` (src/spacial/spacial_ensemble.rs:213-234). -/
def undoStep (e : Spacial T R) (step : SpacialStep) : Res (SpacialStep × Spacial T R) :=
  match step with
  | .addedEdge edge => do
    let (res, graph) ← e.graph.removeEdge edge.1 edge.2
    let e := { e with graph }
    match res with
    | .ok () => return (.removedEdge edge, e)
    | .error _ => return (.error, e)
  | .removedEdge edge => do
    let (res, graph) ← e.graph.addEdge edge.1 edge.2
    let e := { e with graph }
    match res with
    | .ok () => return (.addedEdge edge, e)
    | .error _ => return (.error, e)
  | .nothing => .ok (step, e)
  | .error => .ok (step, e)

/-- `undo_step_quiet` (src/spacial/spacial_ensemble.rs:238-253). -/
def undoStepQuiet (e : Spacial T R) (step : SpacialStep) : Res (Spacial T R) :=
  match step with
  | .addedEdge edge => do
    let p ← e.graph.removeEdge edge.1 edge.2
    let graph ← unwrapOk p
    return { e with graph }
  | .removedEdge edge => do
    let p ← e.graph.addEdge edge.1 edge.2
    let graph ← unwrapOk p
    return { e with graph }
  | .nothing => .ok e
  | .error => .panic

end Spacial

/-! ## LatinHypercubeSampling2D -/

/-- `LatinHypercubeSampling2D` (src/spacial/dog_networks.rs:155-160). -/
structure Latin (R : Type) where
  x : List Nat
  y : List Nat
  rng : R

namespace Latin
variable {R : Type} [Rng R]

/-- `new` (src/spacial/dog_networks.rs:165-170). -/
def new (samples : Nat) (rng : R) : Latin R := { x := List.range samples, y := List.range samples, rng }

/-- `len` (src/spacial/dog_networks.rs:175-177). -/
def len (l : Latin R) : Nat := l.x.length

/-- `next` (src/spacial/dog_networks.rs:187-200). -/
def next (l : Latin R) : Res (Option (Nat × Nat) × Latin R) :=
  if l.x.isEmpty then .ok (none, l)
  else do
    let (xIdx, rng) ← genRange l.rng l.x.length
    let (yIdx, rng) ← genRange rng l.x.length
    let (x, xs) ← Vec.swapRemove l.x xIdx
    let (y, ys) ← Vec.swapRemove l.y yIdx
    return (some (x, y), { x := xs, y := ys, rng })

/-- Collecting the iterator: `next` until it returns `None`; `fuel` bounds the number of calls. -/
def collect : Nat → Latin R → Res (List (Nat × Nat) × Latin R)
  | 0, _ => .diverge
  | fuel + 1, l => do
    let (o, l) ← l.next
    match o with
    | none => return ([], l)
    | some p => do
      let (ps, l) ← collect fuel l
      return (p :: ps, l)

end Latin

/-! ## DogEnsemble -/

/-- `DogEnsemble` (src/spacial/dog_networks.rs:8-15).  `law` is the formula for the probability of a short edge
(src/spacial/dog_networks.rs:98-100) as a function of the two positions, containing `kappa`; `poisson` is the sampler of
`rand_distr::Poisson` for `lambda`. -/
structure Dog (T R : Type) where
  graph : SpacialGraph T
  rng : R
  law : Pos → Pos → ℚ
  tau : ℚ
  lambda : Nat
  poisson : R → Nat × R

/-- `Uniform::new(0.0, 1.0).sample(&mut rng)` (rand crate, `UniformFloat::sample`): a multiple of `2^-52`.  It uses the upper 52
bits of the 64 bits from the generator where `gen::<f64>()` uses the upper 53, so the last bit of the latter is dropped. -/
def uniformQ {R : Type} [Rng R] (r : R) : ℚ × R := ((((Rng.genUnit r).1 / 2 : Nat) : ℚ) / 2 ^ 52, (Rng.genUnit r).2)

/-- `uniform.sample(&mut rng) < p` for `Uniform::new(0.0, 1.0)` (src/spacial/dog_networks.rs:93-102, 135). -/
def coinLt {R : Type} [Rng R] (r : R) (p : ℚ) : Bool × R :=
  let (u, r') := uniformQ r
  (decide (u < p), r')

/-- `f64::round` followed by `as usize`: half away from zero, negative numbers give zero. -/
def roundUsize (q : ℚ) : Nat := if q < 0 then 0 else (q + 1 / 2).floor.toNat

namespace Dog
variable {T R : Type} [Rng R]

/-- The body of the first loop of `randomize` (src/spacial/dog_networks.rs:96-108). -/
def nearBody (law : Pos → Pos → ℚ) (i : Nat) (s : SpacialGraph T × R) (j : Nat) : Res (SpacialGraph T × R) := do
  let (ci, cj) ← s.1.get2 i j
  let prob := law ci.pos cj.pos
  let (b, rng) := coinLt s.2 prob
  if b then
    let (_, ci, cj) ← AdjContainer.push ci cj
    return ({ s.1 with vertices := (s.1.vertices.set i ci).set j cj, edgeCount := s.1.edgeCount + 1 }, rng)
  else return (s.1, rng)

/-- The `loop` that looks for a partner (src/spacial/dog_networks.rs:130-140).  `f64` division by zero gives an infinity and
`0 * inf` a NaN, for which the comparison is false; `ℚ` division by zero gives `0`, for which it is false, too. -/
def findPartner (node degreeSum : Nat) : Nat → SpacialGraph T → R → Res (SpacialGraph T × R)
  | 0, _, _ => .diverge
  | fuel + 1, g, rng => do
    let (index, rng) ← genRange rng g.vertexCount
    let d ← Res.unwrap (g.degree index)
    let prob : ℚ := (d : ℚ) * (1 / (degreeSum : ℚ))
    if index ≠ node then
      let (b, rng) := coinLt rng prob
      if b then
        let (r, g) ← g.addEdge node index
        match r with
        | .ok () => return (g, rng)
        | .error _ => findPartner node degreeSum fuel g rng
      else findPartner node degreeSum fuel g rng
    else findPartner node degreeSum fuel g rng

/-- The loop over the special nodes (src/spacial/dog_networks.rs:125-144). -/
def farBody (poisson : R → Nat × R) (fuel : Nat) (s : (SpacialGraph T × Nat) × R) (node : Nat) :
    Res ((SpacialGraph T × Nat) × R) := do
  let (m, rng) := poisson s.2
  (List.range m).foldlM (fun s _ => do
    let (g, rng) ← findPartner node s.1.2 fuel s.1.1 s.2
    return ((g, s.1.2 + 2), rng)) (s.1, rng)

/-- `&all[0..num]` (Rust slices): panics if `num` exceeds the length. -/
def prefixOf (l : List Nat) (num : Nat) : Res (List Nat) := if num ≤ l.length then .ok (l.take num) else .panic

/-- `randomize` (src/spacial/dog_networks.rs:90-146).  `Poisson::new(lambda).unwrap()` panics for `lambda = 0`,
`Uniform::new(0, n)` for `n = 0`. -/
def randomize (fuel : Nat) (e : Dog T R) : Res (Dog T R) := do
  let graph := e.graph.clearEdges
  let n := graph.vertexCount
  let s ← (List.range n).foldlM (fun s i => (List.range i).foldlM (nearBody e.law i) s) (graph, e.rng)
  let num := roundUsize ((n : ℚ) * (1 - e.tau))
  let (all, rng) := Rng.shuffle s.2 (List.range n)
  let special ← prefixOf all num
  Res.assert (decide (0 < e.lambda))
  Res.assert (decide (0 < n))
  let degreeSum := (s.1.vertices.map AdjContainer.degree).sum
  let t ← special.foldlM (farBody e.poisson fuel) ((s.1, degreeSum), rng)
  return { e with graph := t.1.1, rng := t.2 }

/-- First loop over the vertices in `new` (src/spacial/dog_networks.rs:56-64): `zip` takes the next vertex first. -/
def placeGrid (scaling : ℚ) : List (SpacialNodeContainer T) → Latin R → Res (List (SpacialNodeContainer T) × Latin R)
  | [], l => .ok ([], l)
  | v :: vs, l => do
    let (o, l) ← l.next
    match o with
    | none => return (v :: vs, l)
    | some p => do
      let (vs, l) ← placeGrid scaling vs l
      return ({ v with x := some ((p.1 : ℚ) * scaling), y := some ((p.2 : ℚ) * scaling) } :: vs, l)

/-- Second loop over the vertices in `new` (src/spacial/dog_networks.rs:66-74); `Uniform::new(0.0, scaling)` is a multiple of
`scaling / 2^52`, and NaN plus a number is NaN. -/
def jitter (scaling : ℚ) : List (SpacialNodeContainer T) → R → List (SpacialNodeContainer T) × R
  | [], rng => ([], rng)
  | v :: vs, rng =>
    let (u, rng) := uniformQ rng
    let (w, rng) := uniformQ rng
    let (vs, rng) := jitter scaling vs rng
    ({ v with x := v.x.map (· + u * scaling), y := v.y.map (· + w * scaling) } :: vs, rng)

/-- `new` (src/spacial/dog_networks.rs:47-88): for `n = 0` the range of `Uniform::new(0.0, inf)` is not finite, a panic. -/
def new [Node T] (fuel n : Nat) (rng : R) (law : Pos → Pos → ℚ) (tau : ℚ) (lambda : Nat) (poisson : R → Nat × R) :
    Res (Dog T R) := do
  let graph : SpacialGraph T := GenericGraph.new n
  Res.assert (decide (0 < n))
  let scaling : ℚ := 1 / (n : ℚ)
  let (vs, l) ← placeGrid scaling graph.vertices (Latin.new n rng)
  let (vs, rng) := jitter scaling vs l.rng
  randomize fuel { graph := { graph with vertices := vs }, rng, law, tau, lambda, poisson }

end Dog

end Verif
