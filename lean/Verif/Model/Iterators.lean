import Verif.Model.GenericGraph

/-!
# Traversal iterators

Model of src/generic_graph/iterators.rs.  An iterator is a state together with a function
`next : σ → Res (Option ι × σ)`.  References to the graph are separate arguments.
-/

namespace Verif
open AdjContainer

/-- Running an iterator to its end (`for`, `count`, `last`, `collect` in std); `fuel` bounds the number of calls
of `next`. -/
def collect {σ ι : Type} (next : σ → Res (Option ι × σ)) : Nat → σ → Res (List ι × σ)
  | 0, _ => .diverge
  | fuel + 1, s => do
    let (o, s) ← next s
    match o with
    | none => return ([], s)
    | some x => do
      let (xs, s) ← collect next fuel s
      return (x :: xs, s)

/-- Calling `next` `k` times (the results are dropped): a partly consumed iterator. -/
def advance {σ ι : Type} (next : σ → Res (Option ι × σ)) : Nat → σ → Res σ
  | 0, s => .ok s
  | k + 1, s => do
    let (_, s) ← next s
    advance next k s

/-- The loop `for &i in container.neighbors() { if !handled[i] { handled[i] = true; push(i) } }` with a stack
(head of the list = top of the stack), e.g. src/generic_graph/iterators.rs:57-62. -/
def visitStack : List Nat → List Bool → List Nat → Res (List Bool × List Nat)
  | [], handled, stack => .ok (handled, stack)
  | i :: rest, handled, stack => do
    let h ← Vec.idx handled i
    if !h then do
      let handled ← Vec.put handled i true
      visitStack rest handled (i :: stack)
    else visitStack rest handled stack

/-- The same loop with `queue1.push_back(i)`, e.g. src/generic_graph/iterators.rs:271-276. -/
def visitQueue : List Nat → List Bool → List Nat → Res (List Bool × List Nat)
  | [], handled, queue => .ok (handled, queue)
  | i :: rest, handled, queue => do
    let h ← Vec.idx handled i
    if !h then do
      let handled ← Vec.put handled i true
      visitQueue rest handled (queue ++ [i])
    else visitQueue rest handled queue

/-- State of `Dfs`, `DfsWithIndex` (src/generic_graph/iterators.rs:14-21, 147-154) without the vertices. -/
structure DfsState where
  handled : List Bool
  stack : List Nat
deriving DecidableEq, Repr

section
variable {T A : Type} [AdjContainer T A]

/-- `Dfs::new`, `DfsWithIndex::new` (src/generic_graph/iterators.rs:29-45, 162-178). -/
def DfsState.new (g : GenericGraph T A) (index : Nat) : DfsState :=
  let handled := List.replicate g.vertexCount false
  if index < handled.length then { handled := handled.set index true, stack := [index] }
  else { handled := handled, stack := [] }

/-- `next` of `Dfs` (src/generic_graph/iterators.rs:54-64). -/
def dfsNext (vertices : List A) (s : DfsState) : Res (Option T × DfsState) :=
  match s.stack with
  | [] => .ok (none, s)
  | index :: stack => do
    let container ← Vec.idx vertices index
    let (handled, stack) ← visitStack (neighbors container) s.handled stack
    return (some (contained container), { handled, stack })

/-- `next` of `DfsWithIndex` (src/generic_graph/iterators.rs:188-198). -/
def dfsIndexNext (vertices : List A) (s : DfsState) : Res (Option (Nat × T) × DfsState) :=
  match s.stack with
  | [] => .ok (none, s)
  | index :: stack => do
    let container ← Vec.idx vertices index
    let (handled, stack) ← visitStack (neighbors container) s.handled stack
    return (some (index, contained container), { handled, stack })

/-- State of `DfsMut` (src/generic_graph/iterators.rs:91-98); the raw pointer is the owned vertex list, `calls`
counts the calls of `next` (it only selects the update performed by the user). -/
structure DfsMutState (A : Type) where
  vertices : List A
  handled : List Bool
  stack : List Nat
  calls : Nat

/-- `DfsMut::new` (src/generic_graph/iterators.rs:103-121). -/
def DfsMutState.new (g : GenericGraph T A) (index : Nat) : DfsMutState A :=
  let handled := List.replicate g.vertexCount false
  if index < handled.length then { vertices := g.vertices, handled := handled.set index true, stack := [index], calls := 0 }
  else { vertices := g.vertices, handled := handled, stack := [], calls := 0 }

/-- `next` of `DfsMut` (src/generic_graph/iterators.rs:129-143) followed by the user's write through the returned
reference: `upd k` is what the user does with the `k`-th item.  The returned value is the data before the write.
The unchecked pointer access is modelled as a checked one. -/
def dfsMutNext (upd : Nat → T → T) (s : DfsMutState A) : Res (Option T × DfsMutState A) :=
  match s.stack with
  | [] => .ok (none, s)
  | index :: stack => do
    let container ← Vec.idx s.vertices index
    let (handled, stack) ← visitStack (neighbors container) s.handled stack
    let t := contained container
    return (some t, { vertices := s.vertices.set index (setContained container (upd s.calls t)),
                      handled, stack, calls := s.calls + 1 })

/-- State of `Bfs`, `BfsFiltered` (src/generic_graph/iterators.rs:208-217, 369-378) without the vertices. -/
structure BfsState where
  handled : List Bool
  queue0 : List Nat
  queue1 : List Nat
  depth : Nat
deriving DecidableEq, Repr

/-- `Bfs::new` (src/generic_graph/iterators.rs:224-242). -/
def BfsState.new (g : GenericGraph T A) (index : Nat) : BfsState :=
  let handled := List.replicate g.vertexCount false
  if index < g.vertexCount then { handled := handled.set index true, queue0 := [index], queue1 := [], depth := 0 }
  else { handled := handled, queue0 := [], queue1 := [], depth := 0 }

/-- `Bfs::reuse` (src/generic_graph/iterators.rs:244-256). -/
def BfsState.reuse (vertices : List A) (s : BfsState) (index : Nat) : Res BfsState := do
  let handled := s.handled.map (fun _ => false)
  if index < vertices.length then do
    let handled ← Vec.put handled index true
    return { handled, queue0 := [index], queue1 := [], depth := 0 }
  else return { handled, queue0 := [], queue1 := [], depth := 0 }

/-- First branch of `Bfs::next` (src/generic_graph/iterators.rs:269-277): `index` was taken from `queue0`. -/
def bfsVisit (vertices : List A) (s : BfsState) (index : Nat) (queue0 : List Nat) :
    Res (Option (Nat × T × Nat) × BfsState) := do
  let container ← Vec.idx vertices index
  let (handled, queue1) ← visitQueue (neighbors container) s.handled s.queue1
  return (some (index, contained container, s.depth), { handled, queue0, queue1, depth := s.depth })

/-- `Bfs::next` (src/generic_graph/iterators.rs:267-285).  The recursive call after swapping the queues finds a
non-empty `queue0` and is therefore inlined. -/
def bfsNext (vertices : List A) (s : BfsState) : Res (Option (Nat × T × Nat) × BfsState) :=
  match s.queue0 with
  | index :: queue0 => bfsVisit vertices s index queue0
  | [] => match s.queue1 with
    | [] => .ok (none, s)
    | index :: queue0 => bfsVisit vertices { s with queue1 := [], depth := s.depth + 1 } index queue0

/-- State of `BfsMut` (src/generic_graph/iterators.rs:295-305), see `DfsMutState`. -/
structure BfsMutState (A : Type) where
  vertices : List A
  st : BfsState
  calls : Nat

/-- `BfsMut::new` (src/generic_graph/iterators.rs:311-329). -/
def BfsMutState.new (g : GenericGraph T A) (index : Nat) : BfsMutState A :=
  { vertices := g.vertices, st := BfsState.new g index, calls := 0 }

/-- `BfsMut::next` (src/generic_graph/iterators.rs:339-359) followed by the user's write, see `dfsMutNext`. -/
def bfsMutNext (upd : Nat → T → T) (s : BfsMutState A) : Res (Option (Nat × T × Nat) × BfsMutState A) := do
  let (o, st) ← bfsNext s.vertices s.st
  match o with
  | none => return (none, { s with st := st })
  | some (index, t, d) => do
    let container ← Vec.idx s.vertices index
    return (some (index, t, d),
      { vertices := s.vertices.set index (setContained container (upd s.calls t)), st := st, calls := s.calls + 1 })

/-- The `handled` vector of `BfsFiltered::new`/`reuse` before the start is marked
(src/generic_graph/iterators.rs:392-399). -/
def filterHandled (vertices : List A) (filter : T → Nat → Bool) : List Bool :=
  vertices.zipIdx.map (fun (c, i) => !filter (contained c) i)

/-- `BfsFiltered::new` (src/generic_graph/iterators.rs:386-416).  The `FnMut` filter is a pure function here. -/
def BfsState.newFiltered (g : GenericGraph T A) (index : Nat) (filter : T → Nat → Bool) : Res (Option BfsState) :=
  if index ≥ g.vertexCount then .ok none
  else do
    let t ← g.at_ index
    if !filter t index then return none
    else do
      let handled ← Vec.put (filterHandled g.vertices filter) index true
      return some { handled, queue0 := [index], queue1 := [], depth := 0 }

/-- `BfsFiltered::is_handled` (src/generic_graph/iterators.rs:421-424). -/
def BfsState.isHandled (s : BfsState) (index : Nat) : Res Bool := Vec.idx s.handled index

/-- `BfsFiltered::reuse` (src/generic_graph/iterators.rs:430-460): note `index > len` and the loop that resets
`handled` to `false` after the filter was evaluated. -/
def BfsState.reuseFiltered (vertices : List A) (s : BfsState) (index : Nat) (filter : T → Nat → Bool) :
    Res (Except BfsState BfsState) :=
  if index > vertices.length then .ok (.error s)
  else do
    let c ← Vec.idx vertices index
    if !filter (contained c) index then return .error s
    else do
      let handled := (filterHandled vertices filter).take s.handled.length ++
        s.handled.drop vertices.length
      let handled := handled.map (fun _ => false)
      let handled ← Vec.put handled index true
      return .ok { handled, queue0 := [index], queue1 := [], depth := 0 }

/-- `BfsFiltered::next` (src/generic_graph/iterators.rs:468-491): like `Bfs::next` but with `get(index)?`. -/
def bfsFilteredVisit (vertices : List A) (s : BfsState) (index : Nat) (queue0 : List Nat) :
    Res (Option (Nat × T × Nat) × BfsState) :=
  match vertices[index]? with
  | none => .ok (none, { s with queue0 := queue0 })
  | some container => do
    let (handled, queue1) ← visitQueue (neighbors container) s.handled s.queue1
    return (some (index, contained container, s.depth), { handled, queue0, queue1, depth := s.depth })

/-- `BfsFiltered::next` (src/generic_graph/iterators.rs:468-491). -/
def bfsFilteredNext (vertices : List A) (s : BfsState) : Res (Option (Nat × T × Nat) × BfsState) :=
  match s.queue0 with
  | index :: queue0 => bfsFilteredVisit vertices s index queue0
  | [] => match s.queue1 with
    | [] => .ok (none, s)
    | index :: queue0 => bfsFilteredVisit vertices { s with queue1 := [], depth := s.depth + 1 } index queue0

/-- `size_hint` of `Dfs` (src/generic_graph/iterators.rs:66-68). -/
def dfsSizeHint (s : DfsState) : Nat × Option Nat := (s.stack.length, some s.handled.length)

/-- `size_hint` of `DfsWithIndex` (src/generic_graph/iterators.rs:200-202). -/
def dfsIndexSizeHint (vertices : List A) (s : DfsState) : Nat × Option Nat := (s.stack.length, some vertices.length)

/-- `size_hint` of `Bfs` (src/generic_graph/iterators.rs:287-289). -/
def bfsSizeHint (vertices : List A) (s : BfsState) : Nat × Option Nat :=
  (s.queue0.length + s.queue1.length, some vertices.length)

/-- `size_hint` of `BfsMut` (src/generic_graph/iterators.rs:361-363). -/
def bfsMutSizeHint (s : BfsMutState A) : Nat × Option Nat :=
  (s.st.queue0.length + s.st.queue1.length, some s.st.handled.length)

/-- `size_hint` of `BfsFiltered` (src/generic_graph/iterators.rs:492-494). -/
def bfsFilteredSizeHint (vertices : List A) (s : BfsState) : Nat × Option Nat :=
  (s.queue0.length + s.queue1.length, some vertices.length)

namespace GenericGraph

/-- `dfs(index)` run to the end (src/generic_graph/generic_graph.rs:605-607). -/
def dfs (g : GenericGraph T A) (index fuel : Nat) : Res (List T) := do
  let (l, _) ← collect (dfsNext g.vertices) fuel (DfsState.new g index)
  return l

/-- `dfs_with_index(index)` run to the end (src/generic_graph/generic_graph.rs:646-648). -/
def dfsWithIndex (g : GenericGraph T A) (index fuel : Nat) : Res (List (Nat × T)) := do
  let (l, _) ← collect (dfsIndexNext g.vertices) fuel (DfsState.new g index)
  return l

/-- `dfs_mut(index)` run to the end with the user's writes `upd`
(src/generic_graph/generic_graph.rs:625-628). -/
def dfsMut (g : GenericGraph T A) (upd : Nat → T → T) (index fuel : Nat) : Res (List T × GenericGraph T A) := do
  let (l, s) ← collect (dfsMutNext upd) fuel (DfsMutState.new g index)
  return (l, { g with vertices := s.vertices })

/-- `bfs_index_depth(index)` run to the end (src/generic_graph/generic_graph.rs:671-673). -/
def bfs (g : GenericGraph T A) (index fuel : Nat) : Res (List (Nat × T × Nat)) := do
  let (l, _) ← collect (bfsNext g.vertices) fuel (BfsState.new g index)
  return l

/-- `bfs_index_depth_mut(index)` run to the end with the user's writes
(src/generic_graph/generic_graph.rs:696-698). -/
def bfsMut (g : GenericGraph T A) (upd : Nat → T → T) (index fuel : Nat) :
    Res (List (Nat × T × Nat) × GenericGraph T A) := do
  let (l, s) ← collect (bfsMutNext upd) fuel (BfsMutState.new g index)
  return (l, { g with vertices := s.vertices })

/-- `bfs_filtered(index, filter)` run to the end if it is `Some` (src/generic_graph/generic_graph.rs:724-728). -/
def bfsFiltered (g : GenericGraph T A) (index : Nat) (filter : T → Nat → Bool) (fuel : Nat) :
    Res (Option (List (Nat × T × Nat))) := do
  let o ← BfsState.newFiltered g index filter
  match o with
  | none => return none
  | some s => do
    let (l, _) ← collect (bfsFilteredNext g.vertices) fuel s
    return some l

end GenericGraph
end

end Verif
