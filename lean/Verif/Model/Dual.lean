import Verif.Model.Measures

/-!
# Dual graphs

Model of src/dual_graph/dual_graph.rs and src/dual_graph/dual_graph_iterators.rs: two graphs and cross edges between them.
-/

set_option linter.unusedSectionVars false

namespace Verif
open AdjContainer

/-- `WhichGraph` (src/dual_graph/dual_graph.rs:270-278). -/
inductive WhichGraph (α : Type) where
  | graph1 (x : α)
  | graph2 (x : α)
deriving DecidableEq, Repr

/-- `into_inner`, `deref` (src/dual_graph/dual_graph.rs:280-314). -/
def WhichGraph.inner {α : Type} : WhichGraph α → α
  | .graph1 x => x
  | .graph2 x => x

/-- `DualIndex` (src/dual_graph/dual_graph.rs:750). -/
abbrev DualIndex := WhichGraph Nat

/-- `AddEdgeError` (src/dual_graph/dual_graph.rs:752-756). -/
inductive AddEdgeError where
  | indexOutOfBounds
  | edgeExists
deriving DecidableEq, Repr

/-- `AdjTrait` (src/dual_graph/dual_graph.rs:675-683); `add_edge(&mut self)` returns the new value as well. -/
class AdjTrait (J : Type) where
  new : J
  isAdjacent : J → Nat → Bool
  addEdge : J → Nat → Bool × J
  slice : J → List Nat

/-- `Adj` (src/dual_graph/dual_graph.rs:640-644). -/
structure Adj where
  adj : List Nat
deriving DecidableEq, Repr

/-- `impl AdjTrait for Adj` (src/dual_graph/dual_graph.rs:646-673). -/
instance : AdjTrait Adj where
  new := ⟨[]⟩
  isAdjacent a i := a.adj.contains i
  addEdge a i := if a.adj.contains i then (false, a) else (true, ⟨a.adj ++ [i]⟩)
  slice a := a.adj

/-- `AdjSingle` (src/dual_graph/dual_graph.rs:685-691). -/
inductive AdjSingle where
  | nothing
  | something (i : Nat)
deriving DecidableEq, Repr

/-- `is_nothing` (src/dual_graph/dual_graph.rs:695-699). -/
def AdjSingle.isNothing : AdjSingle → Bool
  | .nothing => true
  | .something _ => false

/-- `impl AdjTrait for AdjSingle` (src/dual_graph/dual_graph.rs:707-746). -/
instance : AdjTrait AdjSingle where
  new := .nothing
  isAdjacent
    | .something s, i => s == i
    | .nothing, _ => false
  addEdge a i := if a.isNothing then (true, .something i) else (false, a)
  slice
    | .nothing => []
    | .something s => [s]

/-- `DualGraph` (src/dual_graph/dual_graph.rs:18-26). -/
structure DualGraph (J T1 A1 T2 A2 : Type) where
  graph1 : GenericGraph T1 A1
  graph2 : GenericGraph T2 A2
  adj1 : List J
  adj2 : List J

namespace DualGraph
variable {J T1 A1 T2 A2 : Type} [AdjTrait J]

/-- `new` (src/dual_graph/dual_graph.rs:30-49). -/
def new (g1 : GenericGraph T1 A1) (g2 : GenericGraph T2 A2) : DualGraph J T1 A1 T2 A2 :=
  { graph1 := g1, graph2 := g2, adj1 := (List.range g1.vertices.length).map (fun _ => AdjTrait.new),
    adj2 := (List.range g2.vertices.length).map (fun _ => AdjTrait.new) }

/-- `size` (src/dual_graph/dual_graph.rs:81-87). -/
def size (d : DualGraph J T1 A1 T2 A2) : Nat × Nat := (d.graph1.vertices.length, d.graph2.vertices.length)

/-- `add_edge` (src/dual_graph/dual_graph.rs:89-116): the `unreachable!()` is a panic. -/
def addEdge (d : DualGraph J T1 A1 T2 A2) (i1 i2 : Nat) : Res (Except AddEdgeError Unit × DualGraph J T1 A1 T2 A2) :=
  if d.adj1.length ≤ i1 ∨ d.adj2.length ≤ i2 then .ok (.error .indexOutOfBounds, d)
  else do
    let a ← Vec.idx d.adj1 i1
    let (ok, a) := AdjTrait.addEdge a i2
    let adj1 ← Vec.put d.adj1 i1 a
    if !ok then return (.error .edgeExists, { d with adj1 := adj1 })
    else do
      let b ← Vec.idx d.adj2 i2
      let (ok, b) := AdjTrait.addEdge b i1
      if !ok then .panic
      else do
        let adj2 ← Vec.put d.adj2 i2 b
        return (.ok (), { d with adj1 := adj1, adj2 := adj2 })

/-- `total_vertices` (src/dual_graph/dual_graph.rs:118-121). -/
def totalVertices (d : DualGraph J T1 A1 T2 A2) : Nat := d.graph1.vertices.length + d.graph2.vertices.length

variable [AdjContainer T1 A1] [AdjContainer T2 A2]

/-- `degree_1` (src/dual_graph/dual_graph.rs:129-133). -/
def degree1 (d : DualGraph J T1 A1 T2 A2) (index : Nat) : Res Nat := do
  let c ← d.graph1.container index
  let a ← Vec.idx d.adj1 index
  return AdjContainer.degree c + (AdjTrait.slice a).length

/-- `degree_2` (src/dual_graph/dual_graph.rs:140-144). -/
def degree2 (d : DualGraph J T1 A1 T2 A2) (index : Nat) : Res Nat := do
  let c ← d.graph2.container index
  let a ← Vec.idx d.adj2 index
  return AdjContainer.degree c + (AdjTrait.slice a).length

end DualGraph

/-! ## Depth first search -/

/-- The loop `for &i in list { if !handled[i] { handled[i] = true; stack.push(mk(i)) } }`
(e.g. src/dual_graph/dual_graph_iterators.rs:76-82). -/
def visitStackW (mk : Nat → DualIndex) : List Nat → List Bool → List DualIndex → Res (List Bool × List DualIndex)
  | [], handled, stack => .ok (handled, stack)
  | i :: rest, handled, stack => do
    let h ← Vec.idx handled i
    if !h then do
      let handled ← Vec.put handled i true
      visitStackW mk rest handled (mk i :: stack)
    else visitStackW mk rest handled stack

/-- State of `DfsDualIndex`, `DfsDualContained` (src/dual_graph/dual_graph_iterators.rs:10-21, 111-121) without the
references to the graph. -/
structure DfsDual where
  handled1 : List Bool
  handled2 : List Bool
  stack : List DualIndex
deriving DecidableEq, Repr

section
variable {J T1 A1 T2 A2 : Type} [AdjTrait J] [AdjContainer T1 A1] [AdjContainer T2 A2]

/-- `DfsDualIndex::new`, `DfsDualContained::new` (src/dual_graph/dual_graph_iterators.rs:24-57, 124-156). -/
def DfsDual.new (d : DualGraph J T1 A1 T2 A2) (index : DualIndex) : DfsDual :=
  let handled1 := List.replicate d.graph1.vertices.length false
  let handled2 := List.replicate d.graph2.vertices.length false
  match index with
  | .graph1 idx =>
    if idx < handled1.length then { handled1 := handled1.set idx true, handled2, stack := [index] }
    else { handled1, handled2, stack := [] }
  | .graph2 idx =>
    if idx < handled2.length then { handled1, handled2 := handled2.set idx true, stack := [index] }
    else { handled1, handled2, stack := [] }

/-- `DfsDualIndex::next` (src/dual_graph/dual_graph_iterators.rs:67-107). -/
def dfsDualNext (d : DualGraph J T1 A1 T2 A2) (s : DfsDual) : Res (Option DualIndex × DfsDual) :=
  match s.stack with
  | [] => .ok (none, s)
  | .graph1 idx :: stack => do
    let vertex ← Vec.idx d.graph1.vertices idx
    let (handled1, stack) ← visitStackW .graph1 (neighbors vertex) s.handled1 stack
    let a ← Vec.idx d.adj1 idx
    let (handled2, stack) ← visitStackW .graph2 (AdjTrait.slice a) s.handled2 stack
    return (some (.graph1 idx), { handled1, handled2, stack })
  | .graph2 idx :: stack => do
    let vertex ← Vec.idx d.graph2.vertices idx
    let (handled2, stack) ← visitStackW .graph2 (neighbors vertex) s.handled2 stack
    let a ← Vec.idx d.adj2 idx
    let (handled1, stack) ← visitStackW .graph1 (AdjTrait.slice a) s.handled1 stack
    return (some (.graph2 idx), { handled1, handled2, stack })

end

/-- `DfsDualContained::next` (src/dual_graph/dual_graph_iterators.rs:168-209). -/
def dfsDualContainedNext {J T A1 A2 : Type} [AdjTrait J] [AdjContainer T A1] [AdjContainer T A2]
    (d : DualGraph J T A1 T A2) (s : DfsDual) : Res (Option T × DfsDual) :=
  match s.stack with
  | [] => .ok (none, s)
  | .graph1 idx :: stack => do
    let vertex ← Vec.idx d.graph1.vertices idx
    let (handled1, stack) ← visitStackW .graph1 (neighbors vertex) s.handled1 stack
    let a ← Vec.idx d.adj1 idx
    let (handled2, stack) ← visitStackW .graph2 (AdjTrait.slice a) s.handled2 stack
    return (some (contained vertex), { handled1, handled2, stack })
  | .graph2 idx :: stack => do
    let vertex ← Vec.idx d.graph2.vertices idx
    let (handled2, stack) ← visitStackW .graph2 (neighbors vertex) s.handled2 stack
    let a ← Vec.idx d.adj2 idx
    let (handled1, stack) ← visitStackW .graph1 (AdjTrait.slice a) s.handled1 stack
    return (some (contained vertex), { handled1, handled2, stack })

/-! ## Breadth first search -/

/-- The loop `for &j in list { if not_handled[j] { not_handled[j] = false; queue_1.push_back(mk(j)) } }`
(e.g. src/dual_graph/dual_graph_iterators.rs:361-366). -/
def visitQueueW (mk : Nat → DualIndex) : List Nat → List Bool → List DualIndex → Res (List Bool × List DualIndex)
  | [], notHandled, queue => .ok (notHandled, queue)
  | j :: rest, notHandled, queue => do
    let h ← Vec.idx notHandled j
    if h then do
      let notHandled ← Vec.put notHandled j false
      visitQueueW mk rest notHandled (queue ++ [mk j])
    else visitQueueW mk rest notHandled queue

/-- State of `BfsDualIndex` (src/dual_graph/dual_graph_iterators.rs:266-279) without the references to the graph. -/
structure BfsDual where
  notHandled1 : List Bool
  notHandled2 : List Bool
  depth : Nat
  queue0 : List DualIndex
  queue1 : List DualIndex
deriving DecidableEq, Repr

section
variable {J T1 A1 T2 A2 : Type} [AdjTrait J] [AdjContainer T1 A1] [AdjContainer T2 A2]

/-- `BfsDualIndex::new` (src/dual_graph/dual_graph_iterators.rs:283-321). -/
def BfsDual.new (d : DualGraph J T1 A1 T2 A2) (index : DualIndex) : BfsDual :=
  let notHandled1 := List.replicate d.graph1.vertices.length true
  let notHandled2 := List.replicate d.graph2.vertices.length true
  match index with
  | .graph1 i =>
    if i < d.graph1.vertices.length then
      { notHandled1 := notHandled1.set i false, notHandled2, depth := 0, queue0 := [index], queue1 := [] }
    else { notHandled1, notHandled2, depth := 0, queue0 := [], queue1 := [] }
  | .graph2 i =>
    if i < d.graph2.vertices.length then
      { notHandled1, notHandled2 := notHandled2.set i false, depth := 0, queue0 := [index], queue1 := [] }
    else { notHandled1, notHandled2, depth := 0, queue0 := [], queue1 := [] }

/-- `BfsDualIndex::reuse` (src/dual_graph/dual_graph_iterators.rs:323-345). -/
def BfsDual.reuse (d : DualGraph J T1 A1 T2 A2) (s : BfsDual) (index : DualIndex) : Res BfsDual :=
  let notHandled1 := s.notHandled1.map (fun _ => true)
  let notHandled2 := s.notHandled2.map (fun _ => true)
  match index with
  | .graph1 i =>
    if i < d.graph1.vertices.length then do
      let notHandled1 ← Vec.put notHandled1 i false
      return { notHandled1, notHandled2, depth := 0, queue0 := [index], queue1 := [] }
    else .ok { notHandled1, notHandled2, depth := 0, queue0 := [], queue1 := [] }
  | .graph2 i =>
    if i < d.graph2.vertices.length then do
      let notHandled2 ← Vec.put notHandled2 i false
      return { notHandled1, notHandled2, depth := 0, queue0 := [index], queue1 := [] }
    else .ok { notHandled1, notHandled2, depth := 0, queue0 := [], queue1 := [] }

/-- First branch of `BfsDualIndex::next` (src/dual_graph/dual_graph_iterators.rs:357-390). -/
def bfsDualVisit (d : DualGraph J T1 A1 T2 A2) (s : BfsDual) (index : DualIndex) (queue0 : List DualIndex) :
    Res (Option (DualIndex × Nat) × BfsDual) :=
  match index with
  | .graph1 i => do
    let container ← Vec.idx d.graph1.vertices i
    let (notHandled1, queue1) ← visitQueueW .graph1 (neighbors container) s.notHandled1 s.queue1
    let a ← Vec.idx d.adj1 i
    let (notHandled2, queue1) ← visitQueueW .graph2 (AdjTrait.slice a) s.notHandled2 queue1
    return (some (index, s.depth), { notHandled1, notHandled2, depth := s.depth, queue0, queue1 })
  | .graph2 i => do
    let container ← Vec.idx d.graph2.vertices i
    let (notHandled2, queue1) ← visitQueueW .graph2 (neighbors container) s.notHandled2 s.queue1
    let a ← Vec.idx d.adj2 i
    let (notHandled1, queue1) ← visitQueueW .graph1 (AdjTrait.slice a) s.notHandled1 queue1
    return (some (index, s.depth), { notHandled1, notHandled2, depth := s.depth, queue0, queue1 })

/-- `BfsDualIndex::next` (src/dual_graph/dual_graph_iterators.rs:356-398).  The recursive call after swapping the queues finds
a non-empty `queue_0` and is therefore inlined. -/
def bfsDualNext (d : DualGraph J T1 A1 T2 A2) (s : BfsDual) : Res (Option (DualIndex × Nat) × BfsDual) :=
  match s.queue0 with
  | index :: queue0 => bfsDualVisit d s index queue0
  | [] => match s.queue1 with
    | [] => .ok (none, s)
    | index :: queue0 => bfsDualVisit d { s with queue1 := [], depth := s.depth + 1 } index queue0

namespace DualGraph

/-- `dfs_index(index)` run to the end (src/dual_graph/dual_graph.rs:156-159), likewise `dfs_1_index`, `dfs_2_index`
(src/dual_graph/dual_graph.rs:165-177). -/
def dfsIndex (d : DualGraph J T1 A1 T2 A2) (index : DualIndex) (fuel : Nat) : Res (List DualIndex) := do
  let (l, _) ← collect (dfsDualNext d) fuel (DfsDual.new d index)
  return l

/-- `bfs_index(index)` run to the end (src/dual_graph/dual_graph.rs:179-182). -/
def bfsIndex (d : DualGraph J T1 A1 T2 A2) (index : DualIndex) (fuel : Nat) : Res (List (DualIndex × Nat)) := do
  let (l, _) ← collect (bfsDualNext d) fuel (BfsDual.new d index)
  return l

/-- `is_connected` (src/dual_graph/dual_graph.rs:184-205): the `unreachable_unchecked()` is a panic here. -/
def isConnected (d : DualGraph J T1 A1 T2 A2) : Res Bool :=
  if d.graph1.vertexCount = 0 then
    if d.graph2.vertexCount = 0 then .ok true
    else do Res.unwrap (← d.graph2.isConnected)
  else if d.graph2.vertexCount = 0 then do Res.unwrap (← d.graph1.isConnected)
  else do
    let l ← d.dfsIndex (.graph1 0) (d.totalVertices + 1)
    return l.length == d.totalVertices

/-- Loop body of `diameter` (src/dual_graph/dual_graph.rs:224-243, 245-264); `last()` of an empty iterator is a panic. -/
def diamBody (d : DualGraph J T1 A1 T2 A2) (mk : Nat → DualIndex) (s : BfsDual × Nat) (i : Nat) : Res (BfsDual × Nat) := do
  let bfs ← BfsDual.reuse d s.1 (mk i)
  let (l, bfs) ← collect (bfsDualNext d) (d.totalVertices + 1) bfs
  let last ← Res.unwrap l.getLast?
  return (bfs, Nat.max s.2 last.2)

/-- `diameter` (src/dual_graph/dual_graph.rs:209-267). -/
def diameter (d : DualGraph J T1 A1 T2 A2) : Res (Option Nat) := do
  if d.totalVertices = 0 then return none
  else do
    let c ← d.isConnected
    if !c then return none
    else do
      let s ← (List.range d.graph1.vertexCount).foldlM (d.diamBody .graph1) (BfsDual.new d (.graph1 0), 0)
      let s ← (List.range' 1 (d.graph2.vertexCount - 1)).foldlM (d.diamBody .graph2) s
      return some s.2

end DualGraph
end

/-! ## Access to the data of neighbours -/

/-- The items of `NContainedIter`, `NContainedIter2` (src/iter.rs:362-384, src/dual_graph/dual_graph_iterators.rs:211-264) run to
the end: the data of the listed vertices. -/
def nContained {T A : Type} [AdjContainer T A] (vs : List A) (l : List Nat) : Res (List T) :=
  l.mapM (fun i => do
    let c ← Vec.idx vs i
    return contained c)

/-- `NContainedIterMut` (src/iter.rs:523-556) run to the end; the user writes `upd k` through the `k`-th reference
(counted from `k0`).  The returned values are those before the writes.  The unchecked pointer access is a checked one. -/
def nContainedMut {T A : Type} [AdjContainer T A] (upd : Nat → T → T) : Nat → List A → List Nat → Res (List T × List A)
  | _, vs, [] => .ok ([], vs)
  | k, vs, i :: l => do
    let c ← Vec.idx vs i
    let (ts, vs) ← nContainedMut upd (k + 1) (vs.set i (setContained c (upd k (contained c)))) l
    return (contained c :: ts, vs)

namespace DualGraph
variable {J T A1 A2 : Type} [AdjTrait J] [AdjContainer T A1] [AdjContainer T A2]

/-- `contained_iter_neighbors_1` (src/dual_graph/dual_graph.rs:596-606) run to the end. -/
def containedIterNeighbors1 (d : DualGraph J T A1 T A2) (index : Nat) : Res (List T) := do
  let c ← d.graph1.container index
  let a ← Vec.idx d.adj1 index
  let own ← nContained d.graph1.vertices (neighbors c)
  let other ← nContained d.graph2.vertices (AdjTrait.slice a)
  return own ++ other

/-- `contained_iter_neighbors_2` (src/dual_graph/dual_graph.rs:612-622) run to the end. -/
def containedIterNeighbors2 (d : DualGraph J T A1 T A2) (index : Nat) : Res (List T) := do
  let c ← d.graph2.container index
  let a ← Vec.idx d.adj2 index
  let own ← nContained d.graph2.vertices (neighbors c)
  let other ← nContained d.graph1.vertices (AdjTrait.slice a)
  return own ++ other

/-- `dfs_contained(index)` run to the end (src/dual_graph/dual_graph.rs:624-637), likewise `dfs_1_contained` and
`dfs_2_contained`. -/
def dfsContained (d : DualGraph J T A1 T A2) (index : DualIndex) (fuel : Nat) : Res (List T) := do
  let (l, _) ← collect (dfsDualContainedNext d) fuel (DfsDual.new d index)
  return l

/-- `graph_1_contained_iter_neighbors_in_other_graph_mut` (src/dual_graph/dual_graph.rs:321-327) run to the end with the
user's writes. -/
def otherMut1 (d : DualGraph AdjSingle T A1 T A2) (upd : Nat → T → T) (index : Nat) :
    Res (List T × DualGraph AdjSingle T A1 T A2) := do
  let a ← Vec.idx d.adj1 index
  let (ts, vs) ← nContainedMut upd 0 d.graph2.vertices (AdjTrait.slice a)
  return (ts, { d with graph2 := { d.graph2 with vertices := vs } })

/-- `graph_2_contained_iter_neighbors_in_other_graph_mut` (src/dual_graph/dual_graph.rs:330-336) run to the end with the
user's writes. -/
def otherMut2 (d : DualGraph AdjSingle T A1 T A2) (upd : Nat → T → T) (index : Nat) :
    Res (List T × DualGraph AdjSingle T A1 T A2) := do
  let a ← Vec.idx d.adj2 index
  let (ts, vs) ← nContainedMut upd 0 d.graph1.vertices (AdjTrait.slice a)
  return (ts, { d with graph1 := { d.graph1 with vertices := vs } })

/-- `graph_1_contained_iter_mut_which_graph_with_index` (src/dual_graph/dual_graph.rs:438-468) run to the end with the user's
writes; `AdjList::edges` is the list of neighbours.  `graph_1_contained_iter_mut` (src/dual_graph/dual_graph.rs:341-369) and
`graph_1_contained_iter_mut_which_graph` (src/dual_graph/dual_graph.rs:471-499) differ only in dropping the index or the tag
of the items. -/
def neighboursMut1 (d : DualGraph AdjSingle T A1 T A2) (upd : Nat → T → T) (index : Nat) :
    Res (List (WhichGraph (Nat × T)) × DualGraph AdjSingle T A1 T A2) := do
  Res.assert (decide (index < d.graph1.vertices.length))
  let c ← Vec.idx d.graph1.vertices index
  let a ← Vec.idx d.adj1 index
  let (ts, vs1) ← nContainedMut upd 0 d.graph1.vertices (neighbors c)
  match AdjTrait.slice a with
  | [] => return (((neighbors c).zip ts).map .graph1, { d with graph1 := { d.graph1 with vertices := vs1 } })
  | j :: _ => do
    let b ← Vec.idx d.graph2.vertices j
    let vs2 := d.graph2.vertices.set j (setContained b (upd ts.length (contained b)))
    return (((neighbors c).zip ts).map .graph1 ++ [.graph2 (j, contained b)],
      { d with graph1 := { d.graph1 with vertices := vs1 }, graph2 := { d.graph2 with vertices := vs2 } })

/-- `graph_2_contained_iter_mut_which_graph_with_index` (src/dual_graph/dual_graph.rs:534-568) run to the end with the user's
writes; `graph_2_contained_iter_mut_which_graph` (src/dual_graph/dual_graph.rs:503-531) differs only in dropping the index. -/
def neighboursMut2 (d : DualGraph AdjSingle T A1 T A2) (upd : Nat → T → T) (index : Nat) :
    Res (List (WhichGraph (Nat × T)) × DualGraph AdjSingle T A1 T A2) := do
  Res.assert (decide (index < d.graph2.vertices.length))
  let c ← Vec.idx d.graph2.vertices index
  let a ← Vec.idx d.adj2 index
  let (ts, vs2) ← nContainedMut upd 0 d.graph2.vertices (neighbors c)
  match AdjTrait.slice a with
  | [] => return (((neighbors c).zip ts).map .graph2, { d with graph2 := { d.graph2 with vertices := vs2 } })
  | j :: _ => do
    let b ← Vec.idx d.graph1.vertices j
    let vs1 := d.graph1.vertices.set j (setContained b (upd ts.length (contained b)))
    return (((neighbors c).zip ts).map .graph2 ++ [.graph1 (j, contained b)],
      { d with graph1 := { d.graph1 with vertices := vs1 }, graph2 := { d.graph2 with vertices := vs2 } })

/-- `graph_1_contained_iter` (src/dual_graph/dual_graph.rs:374-402) run to the end. -/
def containedIter1 (d : DualGraph AdjSingle T A1 T A2) (index : Nat) : Res (List T) := do
  Res.assert (decide (index < d.graph1.vertices.length))
  let c ← Vec.idx d.graph1.vertices index
  let a ← Vec.idx d.adj1 index
  let own ← nContained d.graph1.vertices (neighbors c)
  match AdjTrait.slice a with
  | [] => return own
  | j :: _ => do
    let t ← d.graph2.at_ j
    return own ++ [t]

/-- `graph_2_contained_iter` (src/dual_graph/dual_graph.rs:407-436) run to the end. -/
def containedIter2 (d : DualGraph AdjSingle T A1 T A2) (index : Nat) : Res (List T) := do
  Res.assert (decide (index < d.graph2.vertices.length))
  let c ← Vec.idx d.graph2.vertices index
  let a ← Vec.idx d.adj2 index
  let own ← nContained d.graph2.vertices (neighbors c)
  match AdjTrait.slice a with
  | [] => return own
  | j :: _ => do
    let t ← d.graph1.at_ j
    return own ++ [t]

end DualGraph

end Verif
