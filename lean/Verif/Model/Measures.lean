import Verif.Model.Iterators

/-!
# Measurable quantities of a graph, part 1: connectivity, distances, transitivity

Model of src/generic_graph/generic_graph.rs.  Inner iterator runs get `vertex_count + 1` as bound on the number of
`next` calls (proved to be sufficient).  Loops over `0..vertex_count` are `List.foldlM` over `List.range`.
Integer overflow of counters is not modelled.
-/

namespace Verif
open AdjContainer

variable {T A : Type} [AdjContainer T A]

/-- `sort_unstable_by(|a, b| a.partial_cmp(b).unwrap().reverse())` (std), e.g.
src/generic_graph/generic_graph.rs:900-905. -/
def sortDesc (l : List Nat) : List Nat := l.insertionSort (fun a b => b ≤ a)

namespace GenericGraph

/-- `is_connected` (src/generic_graph/generic_graph.rs:735-741). -/
def isConnected (g : GenericGraph T A) : Res (Option Bool) :=
  if g.vertexCount = 0 then .ok none
  else do
    let l ← g.dfs 0 (g.vertexCount + 1)
    return some (l.length == g.vertexCount)

/-- `for (j, _) in self.dfs_with_index(i) { component_id[j] = current_id; }`
(src/generic_graph/generic_graph.rs:867-869). -/
def labelAll (cur : Int) (l : List (Nat × T)) (comp : List Int) : Res (List Int) :=
  l.foldlM (fun comp p => Vec.put comp p.1 cur) comp

/-- Loop body of `connected_components_ids` (src/generic_graph/generic_graph.rs:860-872). -/
def ccBody (g : GenericGraph T A) (s : List Int × Int) (i : Nat) : Res (List Int × Int) := do
  let (comp, cur) := s
  let c ← Vec.idx comp i
  if c ≠ -1 then return (comp, cur)
  else do
    let l ← g.dfsWithIndex i (g.vertexCount + 1)
    let comp ← labelAll cur l comp
    return (comp, cur + 1)

/-- `usize::try_from(isize).expect(..)`. -/
def toUsize (i : Int) : Res Nat := if 0 ≤ i then .ok i.toNat else .panic

/-- `connected_components_ids` (src/generic_graph/generic_graph.rs:855-878). -/
def connectedComponentsIds (g : GenericGraph T A) : Res (Nat × List Int) := do
  let (comp, cur) ← (List.range g.vertexCount).foldlM (ccBody g) (List.replicate g.vertexCount (-1), 0)
  let num ← toUsize cur
  return (num, comp)

/-- Loop body counting the labels (src/generic_graph/generic_graph.rs:892-896). -/
def ccCount (result : List Nat) (i : Int) : Res (List Nat) := do
  let k ← toUsize i
  let c ← Vec.idx result k
  Vec.put result k (c + 1)

/-- `connected_components` (src/generic_graph/generic_graph.rs:886-907); `sort_unstable_by` is `sortDesc`. -/
def connectedComponents (g : GenericGraph T A) : Res (List Nat) := do
  let (num, comp) ← g.connectedComponentsIds
  let result ← comp.foldlM ccCount (List.replicate num 0)
  return sortDesc result

/-- Loop body of `suggest_connections` (src/generic_graph/generic_graph.rs:917-930). -/
def scBody (g : GenericGraph T A) (s : List Nat × List Int × Int) (i : Nat) : Res (List Nat × List Int × Int) := do
  let (sugg, comp, cur) := s
  let c ← Vec.idx comp i
  if c ≠ -1 then return (sugg, comp, cur)
  else do
    let l ← g.dfsWithIndex i (g.vertexCount + 1)
    let comp ← labelAll cur l comp
    return (sugg ++ [i], comp, cur + 1)

/-- `suggest_connections` (src/generic_graph/generic_graph.rs:912-932). -/
def suggestConnections (g : GenericGraph T A) : Res (List Nat) := do
  let (sugg, _, _) ← (List.range g.vertexCount).foldlM (scBody g) ([], List.replicate g.vertexCount (-1), 0)
  return sugg

/-- Loop body of `diameter` (src/generic_graph/generic_graph.rs:1125-1132). -/
def diamBody (g : GenericGraph T A) (s : BfsState × Nat) (index : Nat) : Res (BfsState × Nat) := do
  let (bfs, max) := s
  let bfs ← BfsState.reuse g.vertices bfs index
  let (l, bfs) ← collect (bfsNext g.vertices) (g.vertexCount + 1) bfs
  let depth := l.foldl (fun _ x => x.2.2) 0
  return (bfs, Nat.max max depth)

/-- `diameter` (src/generic_graph/generic_graph.rs:1116-1136). -/
def diameter (g : GenericGraph T A) : Res (Option Nat) := do
  match ← g.isConnected with
  | none => return none
  | some false => return none
  | some true => do
    let (_, max) ← (List.range' 1 (g.vertexCount - 1)).foldlM (diamBody g) (BfsState.new g 0, 0)
    return some max

/-- `longest_shortest_path_from_index` (src/generic_graph/generic_graph.rs:1140-1144). -/
def longestShortestPathFromIndex (g : GenericGraph T A) (index : Nat) : Res (Option Nat) := do
  let l ← g.bfs index (g.vertexCount + 1)
  return l.getLast?.map (fun x => x.2.2)

/-- `for (index, _, depth) in &mut bfs { count[index] += depth; }`
(src/generic_graph/generic_graph.rs:1395-1397). -/
def addDepths (l : List (Nat × T × Nat)) (count : List Nat) : Res (List Nat) :=
  l.foldlM (fun count x => do
    let c ← Vec.idx count x.1
    Vec.put count x.1 (c + x.2.2)) count

/-- Loop body of `closeness_centrality` (src/generic_graph/generic_graph.rs:1392-1398). -/
def closenessBody (g : GenericGraph T A) (s : BfsState × List Nat) (i : Nat) : Res (BfsState × List Nat) := do
  let (bfs, count) := s
  let bfs ← BfsState.reuse g.vertices bfs i
  let (l, bfs) ← collect (bfsNext g.vertices) (g.vertexCount + 1) bfs
  let count ← addDepths l count
  return (bfs, count)

/-- `closeness_centrality` (src/generic_graph/generic_graph.rs:1387-1403).  The `f64` quotient `val / count` is kept as
the pair `(val, count)` because the count may be 0 (then Rust gives `inf` or `NaN`). -/
def closenessCentrality (g : GenericGraph T A) : Res (List (Nat × Nat)) := do
  let (_, count) ← (List.range g.vertexCount).foldlM (closenessBody g) (BfsState.new g 0, List.replicate g.vertexCount 0)
  let val ← Res.sub g.vertexCount 1
  return count.map (fun c => (val, c))

/-- Innermost loop of `transitivity` (src/generic_graph/generic_graph.rs:1422-1434): `s` is
`(closed_path_count, path_count)`. -/
def transInner (g : GenericGraph T A) (source : Nat) (s : Nat × Nat) (neighbor2 : Nat) : Res (Nat × Nat) := do
  let c2 ← g.container neighbor2
  return (if isAdjacent c2 source then s.1 + 1 else s.1, s.2 + 1)

/-- Middle loop of `transitivity` (src/generic_graph/generic_graph.rs:1418-1435). -/
def transMiddle (g : GenericGraph T A) (source : Nat) (s : Nat × Nat) (neighbor1 : Nat) : Res (Nat × Nat) := do
  let c1 ← g.container neighbor1
  ((neighbors c1).filter (fun i => i != source)).foldlM (transInner g source) s

/-- `transitivity` (src/generic_graph/generic_graph.rs:1414-1439).  The `f64` quotient is kept as the pair
`(closed_path_count, path_count)` because the second number may be 0 (then Rust gives `NaN`). -/
def transitivity (g : GenericGraph T A) : Res (Nat × Nat) :=
  (List.range g.vertexCount).foldlM (fun s source => do
    let c ← g.container source
    (neighbors c).foldlM (transMiddle g source) s) (0, 0)

/-- One pass over the neighbours of a removed vertex in `q_core` (src/generic_graph/generic_graph.rs:798-806). -/
def qDec (ns : List Nat) (degree : List Nat) : Res (List Nat) :=
  ns.foldlM (fun degree n => do
    let d ← Vec.idx degree n
    if d > 0 then Vec.put degree n (d - 1) else return degree) degree

/-- Loop body of a sweep in `q_core` (src/generic_graph/generic_graph.rs:793-810). -/
def qSweepBody (g : GenericGraph T A) (q : Nat) (s : List Nat × Bool) (i : Nat) : Res (List Nat × Bool) := do
  let (degree, changed) := s
  let d ← Vec.idx degree i
  if d = 0 then return (degree, changed)
  else if d < q then do
    let c ← Vec.idx g.vertices i
    let degree ← qDec (neighbors c) degree
    let degree ← Vec.put degree i 0
    return (degree, true)
  else return (degree, changed)

/-- `while something_changed { .. }` in `q_core` (src/generic_graph/generic_graph.rs:791-811). -/
def qSweeps (g : GenericGraph T A) (q : Nat) : Nat → List Nat → Res (List Nat)
  | 0, _ => .diverge
  | fuel + 1, degree => do
    let (degree, changed) ← (List.range g.vertexCount).foldlM (qSweepBody g q) (degree, false)
    if changed then qSweeps g q fuel degree else return degree

/-- Neighbour loop of the component search in `q_core` (src/generic_graph/generic_graph.rs:832-843); the head of the
list is the top of the stack. -/
def qVisit : List Nat → List Nat → List Nat → Res (List Nat × List Nat)
  | [], degree, stack => .ok (degree, stack)
  | j :: rest, degree, stack => do
    let d ← Vec.idx degree j
    if d = 0 then qVisit rest degree stack
    else do
      let degree ← Vec.put degree j 0
      qVisit rest degree (j :: stack)

/-- `while let Some(index) = stack.pop()` in `q_core` (src/generic_graph/generic_graph.rs:829-844). -/
def qSearch (g : GenericGraph T A) : Nat → List Nat → List Nat → Nat → Res (List Nat × Nat)
  | 0, _, _, _ => .diverge
  | fuel + 1, degree, stack, counter =>
    match stack with
    | [] => .ok (degree, counter)
    | index :: stack => do
      let c ← g.container index
      let (degree, stack) ← qVisit (neighbors c) degree stack
      qSearch g fuel degree stack (counter + 1)

/-- Loop body of the component search (src/generic_graph/generic_graph.rs:818-846). -/
def qCompBody (g : GenericGraph T A) (s : List Nat × Nat) (i : Nat) : Res (List Nat × Nat) := do
  let (degree, result) := s
  let d ← Vec.idx degree i
  if d = 0 then return (degree, result)
  else do
    let degree ← Vec.put degree i 0
    let (degree, counter) ← qSearch g (g.vertexCount + 1) degree [i] 0
    return (degree, Nat.max result counter)

/-- `q_core` (src/generic_graph/generic_graph.rs:779-849). -/
def qCore (g : GenericGraph T A) (q : Nat) : Res (Option Nat) :=
  if q < 2 ∨ g.vertexCount = 0 then .ok none
  else do
    let degree ← qSweeps g q (g.vertexCount + 1) (g.vertices.map AdjContainer.degree)
    let (_, result) ← (List.range g.vertexCount).foldlM (qCompBody g) (degree, 0)
    return some result

end GenericGraph
end Verif
