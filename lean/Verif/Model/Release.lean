import Verif.Model.Sw
import Verif.Model.Ws
import Verif.Model.Spacial
import Verif.Model.Dual
import Verif.Model.Iter
import Verif.Model.Config
import Verif.Model.Ba

/-!
# Release builds: the functions that contain `unsafe` code or debug assertions

The rest of the model describes a debug build.  Here are the functions whose text contains `unsafe` accesses, `debug_assert!` or
`unreachable_unchecked` once more, as they run in a release build: debug assertions are compiled out, an unchecked access outside of
the vector, a second live `&mut` to the same vertex and a reached `unreachable_unchecked` are undefined behaviour, and `-= 1` wraps.
Aliasing is modelled as: a `&mut` to a vertex must not be created while another reference to the same vertex is live.  Finer rules
(Stacked Borrows, Tree Borrows) are not modelled.
-/

set_option linter.unusedSectionVars false

namespace Verif
open AdjContainer

/-- Outcome of a call in a release build; `ub`: undefined behaviour. -/
inductive Rel (α : Type) where
  | ok : α → Rel α
  | panic : Rel α
  | ub : Rel α
  | diverge : Rel α
deriving DecidableEq, Repr

namespace Rel

/-- Sequential composition: a panic unwinds, nothing is said after undefined behaviour. -/
def bind {α β : Type} (x : Rel α) (f : α → Rel β) : Rel β :=
  match x with
  | ok a => f a
  | panic => panic
  | ub => ub
  | diverge => diverge

instance : Monad Rel where
  pure := ok
  bind := bind

/-- Safe code without debug assertions and without arithmetic that could underflow runs the same in both builds. -/
def ofRes {α : Type} : Res α → Rel α
  | .ok a => ok a
  | .panic => panic
  | .diverge => diverge

/-- `get_unchecked(i)`, `*ptr.add(i)`: undefined behaviour out of range (std). -/
def deref {α : Type} (l : List α) (i : Nat) : Rel α :=
  match l[i]? with
  | some a => ok a
  | none => ub

/-- A `match` whose `None` arm is `unreachable_unchecked()` (std). -/
def unwrapUnchecked {α : Type} : Option α → Rel α
  | some a => ok a
  | none => ub

/-- `n -= 1` on a `usize` in a release build: wraps. -/
def decr (n : Nat) : Nat := if n = 0 then 2 ^ 64 - 1 else n - 1

/-- `&mut *ptr.add(i)` while the references in `live` are in use. -/
def derefMut {α : Type} (l : List α) (live : List Nat) (i : Nat) : Rel α := do
  let a ← deref l i
  if i ∈ live then ub else return a

end Rel

/-! ## Editing -/

namespace GenericGraph
variable {T A : Type}

/-- `get_2_mut` (src/generic_graph/generic_graph.rs:371-402) in a release build. -/
def get2R (g : GenericGraph T A) (i j : Nat) : Rel (A × A) := do
  let a ← Rel.derefMut g.vertices [] i
  let b ← Rel.derefMut g.vertices [i] j
  return (a, b)

/-- `get_3_mut` (src/generic_graph/generic_graph.rs:408-436) in a release build. -/
def get3R (g : GenericGraph T A) (i j k : Nat) : Rel (A × A × A) := do
  let a ← Rel.derefMut g.vertices [] i
  let b ← Rel.derefMut g.vertices [i] j
  let c ← Rel.derefMut g.vertices [i, j] k
  return (a, b, c)

variable [AdjContainer T A]

/-- `add_edge` (src/generic_graph/generic_graph.rs:487-492) in a release build; the `push` of the containers is free of debug
assertions. -/
def addEdgeR (g : GenericGraph T A) (i j : Nat) : Rel (Except GraphErr Unit × GenericGraph T A) := do
  let (r1, r2) ← g.get2R i j
  let (res, r1, r2) ← Rel.ofRes (push r1 r2)
  let g := g.put2 i j r1 r2
  match res with
  | .error e => return (.error e, g)
  | .ok () => return (.ok (), { g with edgeCount := g.edgeCount + 1 })

/-- `remove_edge` (src/generic_graph/generic_graph.rs:503-508) in a release build. -/
def removeEdgeR (g : GenericGraph T A) (i j : Nat) : Rel (Except GraphErr Unit × GenericGraph T A) := do
  let (r1, r2) ← g.get2R i j
  let (res, r1, r2) ← Rel.ofRes (remove r1 r2)
  let g := g.put2 i j r1 r2
  match res with
  | .error e => return (.error e, g)
  | .ok () => return (.ok (), { g with edgeCount := Rel.decr g.edgeCount })

/-- Inner loop of `init_ring` (src/generic_graph/generic_graph.rs:158-166) in a release build. -/
def initRingInnerR (n i : Nat) : List Nat → GenericGraph T A → Rel (Except GraphErr Unit × GenericGraph T A)
  | [], g => .ok (.ok (), g)
  | add :: rest, g => do
    let sum := i + add
    let index2 := if sum ≥ n then sum - n else sum
    let (res, g) ← g.addEdgeR i index2
    match res with
    | .error e => return (.error e, g)
    | .ok () => initRingInnerR n i rest g

/-- Outer loop of `init_ring` (src/generic_graph/generic_graph.rs:156-168) in a release build. -/
def initRingOuterR (n distance : Nat) : List Nat → GenericGraph T A → Rel (Except GraphErr Unit × GenericGraph T A)
  | [], g => .ok (.ok (), g)
  | i :: rest, g => do
    let (res, g) ← initRingInnerR n i (List.range' 1 distance) g
    match res with
    | .error e => return (.error e, g)
    | .ok () => initRingOuterR n distance rest g

/-- `init_ring` (src/generic_graph/generic_graph.rs:151-169) in a release build. -/
def initRingR (g : GenericGraph T A) (distance : Nat) : Rel (Except GraphErr Unit × GenericGraph T A) :=
  let g := g.clearEdges
  let n := g.vertexCount
  initRingOuterR n distance (List.range n) g

end GenericGraph

namespace SwContainer
variable {T : Type}

/-- `push_single` (src/sw_graph.rs:341-348) in a release build. -/
def pushSingleR (c : SwContainer T) (otherId : Nat) : SwContainer T :=
  { c with adj := c.adj ++ [{ dst := otherId, originallyTo := none }] }

/-- `rewire` (src/sw_graph.rs:350-392) in a release build. -/
def rewireR (self toDisconnect toRewire : SwContainer T) :
    Rel (SwChange × SwContainer T × SwContainer T × SwContainer T) :=
  match self.adjPosition toDisconnect.id with
  | none => .ok (.invalidAdjecency, self, toDisconnect, toRewire)
  | some selfEdgeIndex =>
    if self.isAdjacent toRewire.id then .ok (.blockedByExistingEdge, self, toDisconnect, toRewire)
    else do
      let index ← Rel.ofRes (Res.unwrap (toDisconnect.adjPosition self.id))
      let (_, adj1) ← Rel.ofRes (Vec.swapRemove toDisconnect.adj index)
      let edge ← Rel.ofRes (Vec.idx self.adj selfEdgeIndex)
      let adj0 ← Rel.ofRes (Vec.put self.adj selfEdgeIndex { edge with dst := toRewire.id })
      return (.rewire self.id toDisconnect.id toRewire.id, { self with adj := adj0 }, { toDisconnect with adj := adj1 },
        { toRewire with adj := toRewire.adj ++ [{ dst := self.id, originallyTo := none }] })

/-- `reset` (src/sw_graph.rs:398-442) in a release build: the two `assert!`s before the `get_unchecked`s stay. -/
def resetR (self other : SwContainer T) : Rel (Except SwChange Nat × SwContainer T × SwContainer T) :=
  match self.adjPosition other.id with
  | none => .ok (.error (.gError .edgeDoesNotExist), self, other)
  | some selfIndex => do
    let otherIndex ← Rel.ofRes (Res.unwrap (other.adjPosition self.id))
    Rel.ofRes (Res.assert (decide (selfIndex < self.adj.length)))
    Rel.ofRes (Res.assert (decide (otherIndex < other.adj.length)))
    let selfEdge ← Rel.deref self.adj selfIndex
    let _ ← Rel.deref other.adj otherIndex
    if selfEdge.isAtRoot then return (.error .nothing, self, other)
    else do
      let orig ← Rel.ofRes (Res.unwrap selfEdge.originallyTo)
      if self.isAdjacent orig then return (.error .blockedByExistingEdge, self, other)
      else do
        let adj0 ← Rel.ofRes (Vec.put self.adj selfIndex { selfEdge with dst := orig })
        let (_, adj1) ← Rel.ofRes (Vec.swapRemove other.adj otherIndex)
        return (.ok orig, { self with adj := adj0 }, { other with adj := adj1 })

end SwContainer

namespace SwGraph
variable {T : Type}

/-- `reset_edge` (src/sw_graph.rs:453-468) in a release build. -/
def resetEdgeR (g : SwGraph T) (index0 index1 : Nat) : Rel (SwChange × SwGraph T) := do
  let (e1, e2) ← g.get2R index0 index1
  let (r, e1, e2) ← e1.resetR e2
  let g := g.put2 index0 index1 e1 e2
  match r with
  | .error s => return (s, g)
  | .ok vertexIndex => do
    let c ← Rel.ofRes (Vec.idx g.vertices vertexIndex)
    return (.reset index0 index1 vertexIndex, { g with vertices := g.vertices.set vertexIndex (c.pushSingleR index0) })

/-- `rewire_edge` (src/sw_graph.rs:476-483) in a release build. -/
def rewireEdgeR (g : SwGraph T) (index0 index1 index2 : Nat) : Rel (SwChange × SwGraph T) :=
  if index1 = index2 then .ok (.nothing, g)
  else do
    let (c0, c1, c2) ← g.get3R index0 index1 index2
    let (s, c0, c1, c2) ← c0.rewireR c1 c2
    return (s, { g with vertices := ((g.vertices.set index0 c0).set index1 c1).set index2 c2 })

end SwGraph

namespace SwEns
variable {T R : Type} [Rng R]

/-- `randomize_edge` (src/sw.rs:299-309) in a release build. -/
def randomizeEdgeR (e : SwEns T R) (index0 index1 : Nat) : Rel (SwChange × SwEns T R) := do
  let vertexCount := e.graph.vertexCount
  let (b, rng) := coin e.rng e.rProb
  if b then do
    let (rewireIndex, rng) ← Rel.ofRes (drawRemaining rng index0 (Rel.decr vertexCount))
    let (s, graph) ← SwGraph.rewireEdgeR e.graph index0 index1 rewireIndex
    return (s, { e with graph, rng })
  else do
    let (s, graph) ← SwGraph.resetEdgeR e.graph index0 index1
    return (s, { e with graph, rng })

/-- Loop body of `randomize` (src/sw.rs:467-485) in a release build. -/
def randomizeVertexR (e : SwEns T R) (i : Nat) : Rel (SwEns T R) := do
  let vertex ← Rel.ofRes (Vec.idx e.graph.vertices i)
  let roots := (vertex.iterRawEdges.filter SwEdge.isRoot).map (·.dst)
  let first ← Rel.ofRes (Res.unwrap roots[0]?)
  let second ← Rel.ofRes (Res.unwrap roots[1]?)
  let (_, e) ← e.randomizeEdgeR i first
  let (_, e) ← e.randomizeEdgeR i second
  return e

/-- `randomize` (src/sw.rs:463-487) in a release build. -/
def randomizeR (e : SwEns T R) : Rel (SwEns T R) :=
  (List.range e.graph.vertexCount).foldlM randomizeVertexR e

/-- `m_step` (src/sw.rs:501-504) in a release build. -/
def mStepR (e : SwEns T R) : Rel (SwChange × SwEns T R) := do
  let (edge, e) ← Rel.ofRes e.drawEdge
  e.randomizeEdgeR edge.1 edge.2

/-- `undo_step` (src/sw.rs:514-523) in a release build. -/
def undoStepR (e : SwEns T R) (step : SwChange) : Rel (SwChange × SwEns T R) :=
  match step with
  | .rewire root oldTo newTo | .reset root oldTo newTo => do
    let (s, graph) ← SwGraph.rewireEdgeR e.graph root newTo oldTo
    return (s, { e with graph })
  | .nothing | .blockedByExistingEdge | .invalidAdjecency | .gError _ => .ok (step, e)

end SwEns

namespace Ws
variable {T R : Type} [Rng R]

/-- The closure `create_edge` (src/watts_strogatz/ensemble.rs:160-176) in a release build. -/
def createEdgeR (g : WSGraph T) (src tgt : Nat) (edge : OriginalEdge) : Rel (WSGraph T) := do
  let edge := edge.setOriginFalse
  let (a, b) ← g.get2R src tgt
  return g.put2 src tgt { a with dst := a.dst ++ [tgt], original := a.original ++ [edge] }
    { b with dst := b.dst ++ [src], original := b.original ++ [edge.swapDirection] }

/-- `add_random_edge` (src/watts_strogatz/ensemble.rs:136-184) in a release build. -/
def addRandomEdgeR (fuel : Nat) (st : WSGraph T × R) (o : OriginalEdge) : Rel (WSGraph T × R) := do
  let (g, rng) := st
  let (first, second, rng) ← Rel.ofRes (pickPair g o fuel rng)
  if first == o.dst || second == o.from_ then
    let g ← createEdgeR g second first o.swapDirection
    return (g, rng)
  else
    let g ← createEdgeR g first second o
    return (g, rng)

/-- First part of the loop body of `randomize` (src/watts_strogatz/ensemble.rs:231-262) in a release build: the lengths of the two
lists are not compared. -/
def removeStageR (p : ℚ) (g : WSGraph T) (rng : R) (i : Nat) : Rel (WSGraph T × List OriginalEdge × R) := do
  let c ← Rel.ofRes (Vec.idx g.vertices i)
  let (tos, original, rewire, rng) ← Rel.ofRes (testLoop p c.original.length c.dst c.original [] rng)
  let g : WSGraph T := { g with vertices := g.vertices.set i { c with dst := tos, original := original } }
  let g ← Rel.ofRes (rewire.foldlM removeOther g)
  return (g, rewire, rng)

/-- The loop body of `randomize` (src/watts_strogatz/ensemble.rs:229-266) in a release build. -/
def rewireBodyR (p : ℚ) (fuel : Nat) (st : WSGraph T × R) (i : Nat) : Rel (WSGraph T × R) := do
  let (g, rng) := st
  let (g, rewire, rng) ← removeStageR p g rng i
  rewire.foldlM (addRandomEdgeR fuel) (g, rng)

/-- `randomize` (src/watts_strogatz/ensemble.rs:222-268) in a release build. -/
def randomizeR (fuel : Nat) (e : Ws T R) : Rel (Ws T R) := do
  let (r, graph) ← e.graph.initRingR e.neighborDistance
  match r with
  | .error _ => .panic
  | .ok () =>
    let (graph, rng) ← (List.range graph.vertexCount).foldlM (rewireBodyR e.rewireProb fuel) (graph, e.rng)
    return { e with graph, rng }

end Ws

namespace Spacial
variable {T R : Type} [Rng R]

/-- `prob_unchecked` (src/spacial/spacial_ensemble.rs:100-111). -/
def probUncheckedR (law : Pos → Pos → ℚ) (g : SpacialGraph T) (i j : Nat) : Rel ℚ := do
  let ci ← Rel.deref g.vertices i
  let cj ← Rel.deref g.vertices j
  return law ci.pos cj.pos

/-- The body of the inner loop of `randomize` (src/spacial/spacial_ensemble.rs:136-156): the two `&mut` are used one after the
other. -/
def randBodyR (law : Pos → Pos → ℚ) (i : Nat) (s : SpacialGraph T × R) (j : Nat) : Rel (SpacialGraph T × R) := do
  let prob ← probUncheckedR law s.1 i j
  let (b, rng) := coin s.2 prob
  if b then
    let vs := s.1.vertices
    let a ← Rel.derefMut vs [] i
    let vs := vs.set i { a with adj := a.adj ++ [j] }
    let c ← Rel.derefMut vs [] j
    let vs := vs.set j { c with adj := c.adj ++ [i] }
    return ({ s.1 with vertices := vs, edgeCount := s.1.edgeCount + 1 }, rng)
  else return (s.1, rng)

/-- `randomize` (src/spacial/spacial_ensemble.rs:131-159) in a release build. -/
def randomizeR (e : Spacial T R) : Rel (Spacial T R) := do
  let graph := e.graph.clearEdges
  let n := graph.vertexCount
  let s ← (List.range n).foldlM (fun s i => (List.range' (i + 1) (n - (i + 1))).foldlM (randBodyR e.law i) s) (graph, e.rng)
  return { e with graph := s.1, rng := s.2 }

/-- `m_step` (src/spacial/spacial_ensemble.rs:183-199) in a release build. -/
def mStepR (e : Spacial T R) : Rel (SpacialStep × Spacial T R) := do
  let (edge, rng) ← Rel.ofRes (drawTwoFromRange e.rng e.graph.vertexCount)
  let prob ← probUncheckedR e.law e.graph edge.1 edge.2
  let (b, rng) := coin rng prob
  if b then
    let (success, graph) ← e.graph.addEdgeR edge.1 edge.2
    let e := { e with graph, rng }
    match success with
    | .ok () => return (.addedEdge edge, e)
    | .error _ => return (.nothing, e)
  else
    let (success, graph) ← e.graph.removeEdgeR edge.1 edge.2
    let e := { e with graph, rng }
    match success with
    | .ok () => return (.removedEdge edge, e)
    | .error _ => return (.nothing, e)

end Spacial

namespace Dog
variable {T R : Type} [Rng R]

/-- The body of the first loop of `randomize` (src/spacial/dog_networks.rs:96-107) in a release build. -/
def nearBodyR (law : Pos → Pos → ℚ) (i : Nat) (s : SpacialGraph T × R) (j : Nat) : Rel (SpacialGraph T × R) := do
  let (ci, cj) ← s.1.get2R i j
  let prob := law ci.pos cj.pos
  let (b, rng) := coinLt s.2 prob
  if b then
    let (_, ci, cj) ← Rel.ofRes (AdjContainer.push ci cj)
    return ({ s.1 with vertices := (s.1.vertices.set i ci).set j cj, edgeCount := s.1.edgeCount + 1 }, rng)
  else return (s.1, rng)

/-- The `loop` that looks for a partner (src/spacial/dog_networks.rs:129-140) in a release build. -/
def findPartnerR (node degreeSum : Nat) : Nat → SpacialGraph T → R → Rel (SpacialGraph T × R)
  | 0, _, _ => .diverge
  | fuel + 1, g, rng => do
    let (index, rng) ← Rel.ofRes (genRange rng g.vertexCount)
    let d ← Rel.ofRes (Res.unwrap (g.degree index))
    let prob : ℚ := (d : ℚ) * (1 / (degreeSum : ℚ))
    if index ≠ node then
      let (b, rng) := coinLt rng prob
      if b then
        let (r, g) ← g.addEdgeR node index
        match r with
        | .ok () => return (g, rng)
        | .error _ => findPartnerR node degreeSum fuel g rng
      else findPartnerR node degreeSum fuel g rng
    else findPartnerR node degreeSum fuel g rng

/-- The loop over the special nodes (src/spacial/dog_networks.rs:124-144) in a release build. -/
def farBodyR (poisson : R → Nat × R) (fuel : Nat) (s : (SpacialGraph T × Nat) × R) (node : Nat) :
    Rel ((SpacialGraph T × Nat) × R) := do
  let (m, rng) := poisson s.2
  (List.range m).foldlM (fun s _ => do
    let (g, rng) ← findPartnerR node s.1.2 fuel s.1.1 s.2
    return ((g, s.1.2 + 2), rng)) (s.1, rng)

/-- `randomize` (src/spacial/dog_networks.rs:90-146) in a release build; see `Dog.randomize`. -/
def randomizeR (fuel : Nat) (e : Dog T R) : Rel (Dog T R) := do
  let graph := e.graph.clearEdges
  let n := graph.vertexCount
  let s ← (List.range n).foldlM (fun s i => (List.range i).foldlM (nearBodyR e.law i) s) (graph, e.rng)
  let num := roundUsize ((n : ℚ) * (1 - e.tau))
  let (all, rng) := Rng.shuffle s.2 (List.range n)
  let special ← Rel.ofRes (prefixOf all num)
  Rel.ofRes (Res.assert (decide (0 < e.lambda)))
  Rel.ofRes (Res.assert (decide (0 < n)))
  let degreeSum := (s.1.vertices.map AdjContainer.degree).sum
  let t ← special.foldlM (farBodyR e.poisson fuel) ((s.1, degreeSum), rng)
  return { e with graph := t.1.1, rng := t.2 }

end Dog

namespace ErM
variable {T R : Type} [Rng R]

/-- `randomize` (src/er_m.rs:157-176) in a release build. -/
def randomizeR (e : ErM T R) : Rel (ErM T R) := do
  let graph := e.graph.clearEdges
  let (allEdges, rng) := Rng.shuffle e.rng e.allEdges
  Rel.ofRes (Res.assert (decide (e.m ≤ allEdges.length)))
  let currentEdges ← Rel.ofRes (copyFromSlice e.currentEdges (allEdges.take e.m))
  let graph ← currentEdges.foldlM (fun g edge => do
    let p ← g.addEdgeR edge.1 edge.2
    Rel.ofRes (unwrapOk p)) graph
  let possibleEdges ← Rel.ofRes (copyFromSlice e.possibleEdges (allEdges.drop e.m))
  return { e with graph, rng, allEdges, currentEdges, possibleEdges }

/-- `step` (src/er_m.rs:223-236) in a release build. -/
def stepR (e : ErM T R) (s : ErStepM) : Rel (ErM T R) := do
  let p ← e.graph.removeEdgeR s.removed.1 s.removed.2
  let graph ← Rel.ofRes (unwrapOk p)
  let p ← graph.addEdgeR s.inserted.1 s.inserted.2
  let graph ← Rel.ofRes (unwrapOk p)
  let c ← Rel.ofRes (Vec.idx e.currentEdges s.iRemoved)
  let q ← Rel.ofRes (Vec.idx e.possibleEdges s.iInserted)
  return { e with graph,
                  currentEdges := e.currentEdges.set s.iRemoved q,
                  possibleEdges := e.possibleEdges.set s.iInserted c }

/-- `undo_step` (src/er_m.rs:186-190) in a release build. -/
def undoStepR (e : ErM T R) (s : ErStepM) : Rel (ErStepM × ErM T R) := do
  let s := s.inverted
  let e ← e.stepR s
  return (s, e)

/-- `m_step` (src/er_m.rs:202-216) in a release build. -/
def mStepR (e : ErM T R) : Rel (ErStepM × ErM T R) := do
  let (indexCurrent, rng) ← Rel.ofRes (genRange e.rng e.currentEdges.length)
  let (indexPossible, rng) ← Rel.ofRes (genRange rng e.possibleEdges.length)
  let e := { e with rng }
  let removed ← Rel.ofRes (Vec.idx e.currentEdges indexCurrent)
  let inserted ← Rel.ofRes (Vec.idx e.possibleEdges indexPossible)
  let s : ErStepM := { removed, iRemoved := indexCurrent, inserted, iInserted := indexPossible }
  let e ← e.stepR s
  return (s, e)

end ErM

namespace ErC
variable {T R : Type} [Rng R]

/-- `m_step` (src/er_c.rs:154-174) in a release build. -/
def mStepR (e : ErC T R) : Rel (ErStepC × ErC T R) := do
  let (edge, rng) ← Rel.ofRes (drawTwoFromRange e.rng e.graph.vertexCount)
  let (b, rng) := coin rng e.prob
  if b then
    let (success, graph) ← e.graph.addEdgeR edge.1 edge.2
    let e := { e with graph, rng }
    match success with
    | .ok () => return (.addedEdge edge, e)
    | .error _ => return (.nothing, e)
  else
    let (success, graph) ← e.graph.removeEdgeR edge.1 edge.2
    let e := { e with graph, rng }
    match success with
    | .ok () => return (.removedEdge edge, e)
    | .error _ => return (.nothing, e)

/-- `undo_step` (src/er_c.rs:182-201) in a release build. -/
def undoStepR (e : ErC T R) (step : ErStepC) : Rel (ErStepC × ErC T R) :=
  match step with
  | .addedEdge edge => do
    let (res, graph) ← e.graph.removeEdgeR edge.1 edge.2
    let e := { e with graph }
    match res with
    | .error err => return (.gError err, e)
    | .ok () => return (.removedEdge edge, e)
  | .removedEdge edge => do
    let (res, graph) ← e.graph.addEdgeR edge.1 edge.2
    let e := { e with graph }
    match res with
    | .error err => return (.gError err, e)
    | .ok () => return (.addedEdge edge, e)
  | .nothing => .ok (step, e)
  | .gError _ => .ok (step, e)

end ErC

namespace Config
variable {T R : Type} [Rng R]

/-- `init_edge_halfs` (src/configuration_model.rs:229-245) in a release build: `*ptr.add(i)` for `i in 0..len`. -/
def initEdgeHalfsR (e : Config T R) : Rel (Config T R) := do
  let backup ← (List.range e.degreeVec.length).foldlM (fun acc i => do
    let times ← Rel.deref e.degreeVec i
    return acc ++ List.replicate times i) []
  return { e with backup }

/-- `add_multiple_random_edges` (src/configuration_model.rs:359-387) in a release build: `len() - 1` wraps. -/
def addMultipleR : Nat → Graph T → List Nat → Rel (Bool × Graph T × List Nat)
  | 0, _, _ => .diverge
  | fuel + 1, g, halfs => do
    let node1 ← Rel.ofRes (Res.unwrap halfs.getLast?)
    let halfs := halfs.dropLast
    match ← Rel.ofRes (findPartner halfs node1 (Rel.decr halfs.length)) with
    | none => return (false, g, halfs)
    | some c => do
      let (node2, halfs) ← Rel.ofRes (Vec.swapRemove halfs c)
      let (r, g) ← g.addEdgeR node1 node2
      match r with
      | .error _ => return (false, g, halfs)
      | .ok () => if halfs.length > 1 then addMultipleR fuel g halfs else return (true, g, halfs)

/-- The `while` loop of `randomize` (src/configuration_model.rs:340-349) in a release build. -/
def randLoopR : Nat → Config T R → Rel (Config T R)
  | 0, _ => .diverge
  | fuel + 1, e =>
    if e.halfs.isEmpty then .ok e
    else do
      let (added, graph, halfs) ← addMultipleR (e.halfs.length + 1) e.graph e.halfs
      if added then randLoopR fuel { e with graph, halfs }
      else
        let (backup, rng) := Rng.shuffle e.rng e.backup
        randLoopR fuel { e with graph := graph.clearEdges, rng, backup, halfs := backup }

/-- `randomize` (src/configuration_model.rs:334-350) in a release build. -/
def randomizeR (fuel : Nat) (e : Config T R) : Rel (Config T R) :=
  let graph := e.graph.clearEdges
  let (backup, rng) := Rng.shuffle e.rng e.backup
  randLoopR fuel { e with graph, rng, backup, halfs := backup }

/-- `m_step` (src/configuration_model.rs:428-464) in a release build. -/
def mStepR (fuel : Nat) (e : Config T R) : Rel (ConfigStep × Config T R) := do
  let ((a, b), rng) ← Rel.ofRes (drawVertices fuel e.rng e.backup)
  let ca ← Rel.ofRes (Vec.idx e.graph.vertices a)
  let (a1, rng) ← Rel.ofRes (chooseOne rng ca.adj)
  let cb ← Rel.ofRes (Vec.idx e.graph.vertices b)
  let (b1, rng) ← Rel.ofRes (chooseOne rng cb.adj)
  let e := { e with rng }
  let edge1 := (a, a1)
  let edge2 := (b, b1)
  if edge2.1 == edge1.1 || edge1.2 == edge2.2 then return (.error, e)
  else do
    let (r, graph) ← e.graph.addEdgeR edge1.1 edge2.1
    match r with
    | .error _ => return (.error, { e with graph })
    | .ok () => do
      let (r, graph) ← graph.addEdgeR edge1.2 edge2.2
      match r with
      | .error _ => do
        let p ← graph.removeEdgeR edge1.1 edge2.1
        let graph ← Rel.ofRes (unwrapOk p)
        return (.error, { e with graph })
      | .ok () => do
        let p ← graph.removeEdgeR edge1.1 edge1.2
        let graph ← Rel.ofRes (unwrapOk p)
        let p ← graph.removeEdgeR edge2.1 edge2.2
        let graph ← Rel.ofRes (unwrapOk p)
        return (.added edge1 edge2, { e with graph })

/-- `undo_step_quiet` (src/configuration_model.rs:520-529) in a release build. -/
def undoStepQuietR (e : Config T R) (step : ConfigStep) : Rel (Config T R) :=
  match step with
  | .error => .ok e
  | .added e1 e2 => do
    let p ← e.graph.addEdgeR e2.1 e2.2
    let graph ← Rel.ofRes (unwrapOk p)
    let p ← graph.addEdgeR e1.1 e1.2
    let graph ← Rel.ofRes (unwrapOk p)
    let p ← graph.removeEdgeR e1.2 e2.2
    let graph ← Rel.ofRes (unwrapOk p)
    let p ← graph.removeEdgeR e1.1 e2.1
    let graph ← Rel.ofRes (unwrapOk p)
    return { e with graph }

end Config

namespace Ba
variable {T R : Type} [Rng R]

/-- The `while` loop of `randomize` (src/barabasi_albert.rs:216-221) in a release build. -/
def attachR (weights : List Nat) (i m : Nat) : Nat → Graph T → R → Rel (Graph T × R)
  | 0, _, _ => .diverge
  | fuel + 1, g, rng => do
    let c ← Rel.ofRes (g.container i)
    if AdjContainer.degree c < m then
      let (index, rng) ← Rel.ofRes (weightedSample rng weights)
      let (_, g) ← g.addEdgeR i index
      attachR weights i m fuel g rng
    else return (g, rng)

/-- Body of the loop over the random order (src/barabasi_albert.rs:213-228) in a release build. -/
def growBodyR (m fuel : Nat) (st : Graph T × List Nat × R) (i : Nat) : Rel (Graph T × List Nat × R) := do
  let (g, weights, rng) := st
  Rel.ofRes (weightedIndexNew weights)
  let (g, rng) ← attachR weights i m fuel g rng
  let c ← Rel.ofRes (g.container i)
  let weights ← Rel.ofRes (Vec.put weights i (AdjContainer.degree c))
  let c ← Rel.ofRes (g.container i)
  let weights ← Rel.ofRes (bumpAll weights (neighbors c))
  return (g, weights, rng)

/-- `randomize` (src/barabasi_albert.rs:199-229) in a release build. -/
def randomizeR (fuel : Nat) (e : Ba T R) : Rel (Ba T R) := do
  let graph ← Rel.ofRes (e.graph.resetFromGraph e.source)
  let order := List.range' e.source.vertexCount (graph.vertexCount - e.source.vertexCount)
  let (order, rng) := Rng.shuffle e.rng order
  let weights ← Rel.ofRes (initWeights e.source graph.vertexCount e.weights)
  let (graph, weights, rng) ← order.foldlM (growBodyR e.m fuel) (graph, weights, rng)
  return { e with graph, weights, rng }

end Ba

/-! ## Mutable iterators -/

section
variable {T A S : Type} [AdjContainer T A]

/-- Running an iterator to its end in a release build; `fuel` bounds the number of calls of `next`. -/
def collectR {σ ι : Type} (next : σ → Rel (Option ι × σ)) : Nat → σ → Rel (List ι × σ)
  | 0, _ => .diverge
  | fuel + 1, s => do
    let (o, s) ← next s
    match o with
    | none => return ([], s)
    | some x => do
      let (xs, s) ← collectR next fuel s
      return (x :: xs, s)

/-- `next` of `DfsMut` (src/generic_graph/iterators.rs:129-143) and the user's write, see `dfsMutNext`.  The second component of the
state lists the vertices to which the user already holds a `&mut`: the items live as long as the iterator. -/
def dfsMutNextR (upd : Nat → T → T) (s : DfsMutState A × List Nat) : Rel (Option T × (DfsMutState A × List Nat)) :=
  match s.1.stack with
  | [] => .ok (none, s)
  | index :: stack => do
    let container ← Rel.derefMut s.1.vertices s.2 index
    let (handled, stack) ← Rel.ofRes (visitStack (neighbors container) s.1.handled stack)
    let t := contained container
    return (some t, ({ vertices := s.1.vertices.set index (setContained container (upd s.1.calls t)),
                       handled, stack, calls := s.1.calls + 1 }, index :: s.2))

/-- First branch of `BfsMut::next` (src/generic_graph/iterators.rs:341-351). -/
def bfsMutVisitR (upd : Nat → T → T) (vs : List A) (calls : Nat) (live : List Nat) (s : BfsState) (index : Nat)
    (queue0 : List Nat) : Rel (Option (Nat × T × Nat) × (BfsMutState A × List Nat)) := do
  let container ← Rel.derefMut vs live index
  let (handled, queue1) ← Rel.ofRes (visitQueue (neighbors container) s.handled s.queue1)
  let t := contained container
  return (some (index, t, s.depth),
    ({ vertices := vs.set index (setContained container (upd calls t)),
       st := { handled, queue0, queue1, depth := s.depth }, calls := calls + 1 }, index :: live))

/-- `BfsMut::next` (src/generic_graph/iterators.rs:339-359) and the user's write, see `dfsMutNextR`. -/
def bfsMutNextR (upd : Nat → T → T) (s : BfsMutState A × List Nat) :
    Rel (Option (Nat × T × Nat) × (BfsMutState A × List Nat)) :=
  match s.1.st.queue0 with
  | index :: queue0 => bfsMutVisitR upd s.1.vertices s.1.calls s.2 s.1.st index queue0
  | [] => match s.1.st.queue1 with
    | [] => .ok (none, s)
    | index :: queue0 => bfsMutVisitR upd s.1.vertices s.1.calls s.2 { s.1.st with queue1 := [], depth := s.1.st.depth + 1 } index queue0

namespace GenericGraph

/-- `dfs_mut(index)` run to the end in a release build (src/generic_graph/generic_graph.rs:625-628). -/
def dfsMutR (g : GenericGraph T A) (upd : Nat → T → T) (index fuel : Nat) : Rel (List T × GenericGraph T A) := do
  let (l, s) ← collectR (dfsMutNextR upd) fuel (DfsMutState.new g index, [])
  return (l, { g with vertices := s.1.vertices })

/-- `bfs_index_depth_mut(index)` run to the end in a release build (src/generic_graph/generic_graph.rs:696-698). -/
def bfsMutR (g : GenericGraph T A) (upd : Nat → T → T) (index fuel : Nat) :
    Rel (List (Nat × T × Nat) × GenericGraph T A) := do
  let (l, s) ← collectR (bfsMutNextR upd) fuel (BfsMutState.new g index, [])
  return (l, { g with vertices := s.1.vertices })

end GenericGraph

/-- The calls that hand out a reference; the other methods of the mutable neighbour iterators are defaults of the standard library
made from them. -/
inductive MutCall where
  | next
  | nth (n : Nat)
  | nextBack
deriving DecidableEq, Repr

/-- The same call in the vocabulary of `IterImpl.step`. -/
def MutCall.op {α : Type} : MutCall → IterOp α
  | .next => .next
  | .nth n => .nth n
  | .nextBack => .nextBack

/-- The call on the inner iterator. -/
def MutCall.inner (I : IterImpl S Nat) : MutCall → S → Res (Option Nat × S)
  | .next, s => I.next s
  | .nth n, s => I.nth s n
  | .nextBack, s => I.nextBack s

/-- `next`, `nth`, `next_back` of `NContainedIterMut` (src/iter.rs:529-582) in a release build, followed by the user's write
`upd` through the reference.  `next_back` has an `assert!`, the others a `debug_assert!`.  State: vertices, inner iterator,
vertices with a live reference. -/
def nMutCallR (I : IterImpl S Nat) (c : MutCall) (upd : T → T) (st : List A × S × List Nat) :
    Rel (Option (Nat × T) × (List A × S × List Nat)) := do
  let (o, s) ← Rel.ofRes (c.inner I st.2.1)
  match o with
  | none => return (none, (st.1, s, st.2.2))
  | some i => do
    Rel.ofRes (match c with
      | .nextBack => Res.assert (decide (i < st.1.length))
      | _ => .ok ())
    let c ← Rel.derefMut st.1 st.2.2 i
    return (some (i, contained c), (st.1.set i (setContained c (upd (contained c))), s, i :: st.2.2))

/-- `next`, `nth`, `next_back` of `INContainedIterMut` (src/iter.rs:623-680) in a release build: `assert!` everywhere. -/
def inMutCallR (I : IterImpl S Nat) (c : MutCall) (upd : T → T) (st : List A × S × List Nat) :
    Rel (Option (Nat × T) × (List A × S × List Nat)) := do
  let (o, s) ← Rel.ofRes (c.inner I st.2.1)
  match o with
  | none => return (none, (st.1, s, st.2.2))
  | some i => do
    Rel.ofRes (Res.assert (decide (i < st.1.length)))
    let c ← Rel.derefMut st.1 st.2.2 i
    return (some (i, contained c), (st.1.set i (setContained c (upd (contained c))), s, i :: st.2.2))

/-- A history of calls and writes on a mutable neighbour iterator with the call function `call`. -/
def mutCallsR (call : MutCall → (T → T) → List A × S × List Nat → Rel (Option (Nat × T) × (List A × S × List Nat))) :
    List (MutCall × (T → T)) → List A × S × List Nat → Rel (List (Option (Nat × T)) × (List A × S × List Nat))
  | [], st => .ok ([], st)
  | (c, upd) :: cs, st => do
    let (o, st) ← call c upd st
    let (os, st) ← mutCallsR call cs st
    return (o :: os, st)

/-- `contained_iter_neighbors_mut(index)` (src/generic_graph/generic_graph.rs:284-298) followed by a history of calls and writes.
While the iterator lives it reads the list of vertex `index`, so this vertex counts as referenced. -/
def GenericGraph.neighborsMutR [NeighborIter A] (g : GenericGraph T A) (index : Nat) (cs : List (MutCall × (T → T))) :
    Rel (List (Option (Nat × T)) × List A) := do
  Rel.ofRes (Res.assert (decide (index < g.vertices.length)))
  let c ← Rel.derefMut g.vertices [] index
  let (os, st) ← mutCallsR (nMutCallR wrapperIter) cs (g.vertices, NeighborIter.iter c, [index])
  return (os, st.1)

/-- `contained_iter_neighbors_mut_with_index(index)` (src/generic_graph/generic_graph.rs:305-319) likewise. -/
def GenericGraph.neighborsMutIndexR [NeighborIter A] (g : GenericGraph T A) (index : Nat) (cs : List (MutCall × (T → T))) :
    Rel (List (Option (Nat × T)) × List A) := do
  Rel.ofRes (Res.assert (decide (index < g.vertices.length)))
  let c ← Rel.derefMut g.vertices [] index
  let (os, st) ← mutCallsR (inMutCallR wrapperIter) cs (g.vertices, NeighborIter.iter c, [index])
  return (os, st.1)

end

/-! ## Dual graphs -/

namespace DualGraph
variable {J T1 A1 T2 A2 : Type} [AdjTrait J]

/-- `add_edge` (src/dual_graph/dual_graph.rs:89-116) in a release build; `unreachable!()` stays a panic. -/
def addEdgeR (d : DualGraph J T1 A1 T2 A2) (i1 i2 : Nat) : Rel (Except AddEdgeError Unit × DualGraph J T1 A1 T2 A2) :=
  if d.adj1.length ≤ i1 ∨ d.adj2.length ≤ i2 then .ok (.error .indexOutOfBounds, d)
  else do
    let a ← Rel.derefMut d.adj1 [] i1
    let (ok, a) := AdjTrait.addEdge a i2
    let adj1 := d.adj1.set i1 a
    if !ok then return (.error .edgeExists, { d with adj1 := adj1 })
    else do
      let b ← Rel.derefMut d.adj2 [] i2
      let (ok, b) := AdjTrait.addEdge b i1
      if !ok then .panic
      else return (.ok (), { d with adj1 := adj1, adj2 := d.adj2.set i2 b })

variable [AdjContainer T1 A1] [AdjContainer T2 A2]

/-- `is_connected` (src/dual_graph/dual_graph.rs:184-205) in a release build. -/
def isConnectedR (d : DualGraph J T1 A1 T2 A2) : Rel Bool :=
  if d.graph1.vertexCount = 0 then
    if d.graph2.vertexCount = 0 then .ok true
    else do Rel.unwrapUnchecked (← Rel.ofRes d.graph2.isConnected)
  else if d.graph2.vertexCount = 0 then do Rel.unwrapUnchecked (← Rel.ofRes d.graph1.isConnected)
  else do
    let l ← Rel.ofRes (d.dfsIndex (.graph1 0) (d.totalVertices + 1))
    return l.length == d.totalVertices

/-- Loop body of `diameter` (src/dual_graph/dual_graph.rs:223-242, 244-263) in a release build. -/
def diamBodyR (d : DualGraph J T1 A1 T2 A2) (mk : Nat → DualIndex) (s : BfsDual × Nat) (i : Nat) : Rel (BfsDual × Nat) := do
  let bfs ← Rel.ofRes (BfsDual.reuse d s.1 (mk i))
  let (l, bfs) ← Rel.ofRes (collect (bfsDualNext d) (d.totalVertices + 1) bfs)
  let last ← Rel.unwrapUnchecked l.getLast?
  return (bfs, Nat.max s.2 last.2)

/-- `diameter` (src/dual_graph/dual_graph.rs:209-267) in a release build. -/
def diameterR (d : DualGraph J T1 A1 T2 A2) : Rel (Option Nat) := do
  if d.totalVertices = 0 then return none
  else do
    let c ← d.isConnectedR
    if !c then return none
    else do
      let s ← (List.range d.graph1.vertexCount).foldlM (d.diamBodyR .graph1) (BfsDual.new d (.graph1 0), 0)
      let s ← (List.range' 1 (d.graph2.vertexCount - 1)).foldlM (d.diamBodyR .graph2) s
      return some s.2

end DualGraph

/-- `NContainedIterMut` (src/iter.rs:529-543) run to the end in a release build, see `nContainedMut`; `live`: the vertices with a
live reference. -/
def nContainedMutR {T A : Type} [AdjContainer T A] (upd : Nat → T → T) :
    Nat → List Nat → List A → List Nat → Rel (List T × List A)
  | _, _, vs, [] => .ok ([], vs)
  | k, live, vs, i :: l => do
    let c ← Rel.derefMut vs live i
    let (ts, vs) ← nContainedMutR upd (k + 1) (i :: live) (vs.set i (setContained c (upd k (contained c)))) l
    return (contained c :: ts, vs)

namespace DualGraph
variable {T A1 A2 : Type} [AdjContainer T A1] [AdjContainer T A2]

/-- `graph_1_contained_iter_neighbors_in_other_graph_mut` (src/dual_graph/dual_graph.rs:321-328) in a release build, run to the
end. -/
def otherMut1R (d : DualGraph AdjSingle T A1 T A2) (upd : Nat → T → T) (index : Nat) :
    Rel (List T × DualGraph AdjSingle T A1 T A2) := do
  let a ← Rel.ofRes (Vec.idx d.adj1 index)
  let (ts, vs) ← nContainedMutR upd 0 [] d.graph2.vertices (AdjTrait.slice a)
  return (ts, { d with graph2 := { d.graph2 with vertices := vs } })

/-- `graph_1_contained_iter_mut` (src/dual_graph/dual_graph.rs:341-370) in a release build, run to the end.  The items are tagged as
in `neighboursMut1`. -/
def neighboursMut1R (d : DualGraph AdjSingle T A1 T A2) (upd : Nat → T → T) (index : Nat) :
    Rel (List (WhichGraph (Nat × T)) × DualGraph AdjSingle T A1 T A2) := do
  let c ← Rel.derefMut d.graph1.vertices [] index
  let a ← Rel.ofRes (Vec.idx d.adj1 index)
  let (ts, vs1) ← nContainedMutR upd 0 [index] d.graph1.vertices (neighbors c)
  match AdjTrait.slice a with
  | [] => return (((neighbors c).zip ts).map .graph1, { d with graph1 := { d.graph1 with vertices := vs1 } })
  | j :: _ => do
    let b ← Rel.ofRes (Vec.idx d.graph2.vertices j)
    let vs2 := d.graph2.vertices.set j (setContained b (upd ts.length (contained b)))
    return (((neighbors c).zip ts).map .graph1 ++ [.graph2 (j, contained b)],
      { d with graph1 := { d.graph1 with vertices := vs1 }, graph2 := { d.graph2 with vertices := vs2 } })

/-- `graph_1_contained_iter_mut_which_graph`, `graph_1_contained_iter_mut_which_graph_with_index`
(src/dual_graph/dual_graph.rs:438-499) in a release build: the check of the index is an `assert!`. -/
def neighboursMutWhich1R (d : DualGraph AdjSingle T A1 T A2) (upd : Nat → T → T) (index : Nat) :
    Rel (List (WhichGraph (Nat × T)) × DualGraph AdjSingle T A1 T A2) := do
  Rel.ofRes (Res.assert (decide (index < d.graph1.vertices.length)))
  d.neighboursMut1R upd index

/-- `graph_2_contained_iter_mut_which_graph`, `graph_2_contained_iter_mut_which_graph_with_index`
(src/dual_graph/dual_graph.rs:503-568) in a release build. -/
def neighboursMutWhich2R (d : DualGraph AdjSingle T A1 T A2) (upd : Nat → T → T) (index : Nat) :
    Rel (List (WhichGraph (Nat × T)) × DualGraph AdjSingle T A1 T A2) := do
  Rel.ofRes (Res.assert (decide (index < d.graph2.vertices.length)))
  let c ← Rel.derefMut d.graph2.vertices [] index
  let a ← Rel.ofRes (Vec.idx d.adj2 index)
  let (ts, vs2) ← nContainedMutR upd 0 [index] d.graph2.vertices (neighbors c)
  match AdjTrait.slice a with
  | [] => return (((neighbors c).zip ts).map .graph2, { d with graph2 := { d.graph2 with vertices := vs2 } })
  | j :: _ => do
    let b ← Rel.ofRes (Vec.idx d.graph1.vertices j)
    let vs1 := d.graph1.vertices.set j (setContained b (upd ts.length (contained b)))
    return (((neighbors c).zip ts).map .graph2 ++ [.graph1 (j, contained b)],
      { d with graph1 := { d.graph1 with vertices := vs1 }, graph2 := { d.graph2 with vertices := vs2 } })

/-- `graph_1_contained_iter` (src/dual_graph/dual_graph.rs:374-403) in a release build, run to the end. -/
def containedIter1R (d : DualGraph AdjSingle T A1 T A2) (index : Nat) : Rel (List T) := do
  let c ← Rel.deref d.graph1.vertices index
  let a ← Rel.ofRes (Vec.idx d.adj1 index)
  let own ← Rel.ofRes (nContained d.graph1.vertices (neighbors c))
  match AdjTrait.slice a with
  | [] => return own
  | j :: _ => do
    let t ← Rel.ofRes (d.graph2.at_ j)
    return own ++ [t]

/-- `graph_2_contained_iter` (src/dual_graph/dual_graph.rs:407-436) in a release build, run to the end. -/
def containedIter2R (d : DualGraph AdjSingle T A1 T A2) (index : Nat) : Rel (List T) := do
  let c ← Rel.deref d.graph2.vertices index
  let a ← Rel.ofRes (Vec.idx d.adj2 index)
  let own ← Rel.ofRes (nContained d.graph2.vertices (neighbors c))
  match AdjTrait.slice a with
  | [] => return own
  | j :: _ => do
    let t ← Rel.ofRes (d.graph1.at_ j)
    return own ++ [t]

end DualGraph

/-! ## Code that only calls these functions -/

/-- A piece of safe code that reaches a value of type `G` only through calls of functions `Op` (with results `Ret`): between the
calls it computes whatever it likes from the results. -/
inductive Client (Op : Type) (Ret : Op → Type) (α : Type) where
  | done (a : α)
  | panic
  | call (o : Op) (k : Ret o → Client Op Ret α)

namespace Client
variable {Op : Type} {Ret : Op → Type} {α G : Type}

/-- The code in a debug build. -/
def debug (f : (o : Op) → G → Res (Ret o × G)) : Client Op Ret α → G → Res (α × G)
  | done a, g => .ok (a, g)
  | panic, _ => .panic
  | call o k, g => do
    let (r, g) ← f o g
    (k r).debug f g

/-- The code in a release build. -/
def release (f : (o : Op) → G → Rel (Ret o × G)) : Client Op Ret α → G → Rel (α × G)
  | done a, g => .ok (a, g)
  | panic, _ => .panic
  | call o k, g => do
    let (r, g) ← f o g
    (k r).release f g

end Client

/-- The functions of a graph used by the ensembles; `read` stands for every function that only looks at the graph. -/
inductive GraphCall (T A : Type) where
  | addEdge (i j : Nat)
  | removeEdge (i j : Nat)
  | clearEdges
  | read

/-- Their results. -/
def GraphCall.Ret {T A : Type} : GraphCall T A → Type
  | .addEdge .. => Except GraphErr Unit
  | .removeEdge .. => Except GraphErr Unit
  | .clearEdges => Unit
  | .read => GenericGraph T A

/-- The functions in a debug build. -/
def GraphCall.debug {T A : Type} [AdjContainer T A] : (o : GraphCall T A) → GenericGraph T A → Res (o.Ret × GenericGraph T A)
  | .addEdge i j, g => g.addEdge i j
  | .removeEdge i j, g => g.removeEdge i j
  | .clearEdges, g => .ok ((), g.clearEdges)
  | .read, g => .ok (g, g)

/-- The functions in a release build. -/
def GraphCall.release {T A : Type} [AdjContainer T A] : (o : GraphCall T A) → GenericGraph T A → Rel (o.Ret × GenericGraph T A)
  | .addEdge i j, g => g.addEdgeR i j
  | .removeEdge i j, g => g.removeEdgeR i j
  | .clearEdges, g => .ok ((), g.clearEdges)
  | .read, g => .ok (g, g)

end Verif
