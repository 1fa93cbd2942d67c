import Verif.Model.Prelude

/-!
# Adjacency containers

The trait `AdjContainer<T>` (src/traits/graph_traits.rs:60-119) and its four implementations.
-/

namespace Verif

/-- Trait `AdjContainer<T>` (src/traits/graph_traits.rs:60-119).  `contained_mut` is modelled by the
functional update `setContained`.  `&mut` arguments are returned next to the Rust result.
`neighbors` is the list the returned iterator runs through. -/
class AdjContainer (T : outParam Type) (A : Type) where
  new : Nat → T → A
  contained : A → T
  setContained : A → T → A
  neighbors : A → List Nat
  degree : A → Nat
  id : A → Nat
  getAdjFirst : A → Option Nat
  isAdjacent : A → Nat → Bool
  sortAdj : A → Res A
  shuffleAdj : {R : Type} → [Rng R] → A → R → Res (A × R)
  clearEdges : A → A
  push : A → A → Res (Except GraphErr Unit × A × A)
  remove : A → A → Res (Except GraphErr Unit × A × A)

/-- `sort_unstable` on `usize` keys.  Any correct sort gives this list for `Vec<usize>`; for the key-sorted
`Vec<SwEdge>` equal keys could come in any order, keys are distinct in a simple graph. -/
def sortBy {α : Type} (key : α → Nat) (l : List α) : List α :=
  l.insertionSort (fun a b => key a ≤ key b)

/-! ## NodeContainer -/

/-- `NodeContainer` (src/graph.rs:33-37). -/
structure NodeContainer (T : Type) where
  id : Nat
  adj : List Nat
  node : T
deriving DecidableEq, Repr

namespace NodeContainer
variable {T : Type}

/-- `swap_remove_element` (src/graph.rs:134-142). -/
def swapRemoveElement (c : NodeContainer T) (elem : Nat) : Res (NodeContainer T) := do
  let index ← Res.unwrap (c.adj.findIdx? (· == elem))
  let (_, adj) ← Vec.swapRemove c.adj index
  return { c with adj := adj }

/-- `is_adjacent` (src/graph.rs:81-83). -/
def isAdjacent (c : NodeContainer T) (other : Nat) : Bool := c.adj.contains other

/-- `push` (src/graph.rs:101-110). -/
def push (self other : NodeContainer T) : Res (Except GraphErr Unit × NodeContainer T × NodeContainer T) :=
  if self.isAdjacent other.id then .ok (.error .edgeExists, self, other)
  else .ok (.ok (), { self with adj := self.adj ++ [other.id] }, { other with adj := other.adj ++ [self.id] })

/-- `remove` (src/graph.rs:114-125). -/
def remove (self other : NodeContainer T) : Res (Except GraphErr Unit × NodeContainer T × NodeContainer T) :=
  if !self.isAdjacent other.id then .ok (.error .edgeDoesNotExist, self, other)
  else do
    let self' ← self.swapRemoveElement other.id
    let other' ← other.swapRemoveElement self'.id
    return (.ok (), self', other')

/-- `impl AdjContainer<T> for NodeContainer<T>` (src/graph.rs:40-130). -/
instance : AdjContainer T (NodeContainer T) where
  new id node := { id, adj := [], node }
  contained c := c.node
  setContained c t := { c with node := t }
  neighbors c := c.adj
  degree c := c.adj.length
  id c := c.id
  getAdjFirst c := c.adj.head?
  isAdjacent := isAdjacent
  sortAdj c := .ok { c with adj := sortBy (fun x => x) c.adj }
  shuffleAdj c r := let (adj, r') := Rng.shuffle r c.adj; .ok ({ c with adj := adj }, r')
  clearEdges c := { c with adj := [] }
  push := push
  remove := remove

end NodeContainer

/-! ## SpacialNodeContainer -/

/-- `SpacialNodeContainer` (src/spacial/spacial_graph.rs:19-26).  Coordinates are rationals; the initial
`NAN` is represented by `none`. -/
structure SpacialNodeContainer (T : Type) where
  adj : List Nat
  id : Nat
  x : Option ℚ
  y : Option ℚ
  node : T
deriving DecidableEq, Repr

namespace SpacialNodeContainer
variable {T : Type}

/-- `swap_remove_element` (src/spacial/spacial_graph.rs:125-133). -/
def swapRemoveElement (c : SpacialNodeContainer T) (elem : Nat) : Res (SpacialNodeContainer T) := do
  let index ← Res.unwrap (c.adj.findIdx? (· == elem))
  let (_, adj) ← Vec.swapRemove c.adj index
  return { c with adj := adj }

/-- `is_adjacent` (src/spacial/spacial_graph.rs:72-74). -/
def isAdjacent (c : SpacialNodeContainer T) (other : Nat) : Bool := c.adj.contains other

/-- `push` (src/spacial/spacial_graph.rs:92-101). -/
def push (self other : SpacialNodeContainer T) :
    Res (Except GraphErr Unit × SpacialNodeContainer T × SpacialNodeContainer T) :=
  if self.isAdjacent other.id then .ok (.error .edgeExists, self, other)
  else .ok (.ok (), { self with adj := self.adj ++ [other.id] }, { other with adj := other.adj ++ [self.id] })

/-- `remove` (src/spacial/spacial_graph.rs:105-116). -/
def remove (self other : SpacialNodeContainer T) :
    Res (Except GraphErr Unit × SpacialNodeContainer T × SpacialNodeContainer T) :=
  if !self.isAdjacent other.id then .ok (.error .edgeDoesNotExist, self, other)
  else do
    let self' ← self.swapRemoveElement other.id
    let other' ← other.swapRemoveElement self'.id
    return (.ok (), self', other')

/-- `impl AdjContainer<T> for SpacialNodeContainer<T>` (src/spacial/spacial_graph.rs:29-121). -/
instance : AdjContainer T (SpacialNodeContainer T) where
  new id node := { id, adj := [], node, x := none, y := none }
  contained c := c.node
  setContained c t := { c with node := t }
  neighbors c := c.adj
  degree c := c.adj.length
  id c := c.id
  getAdjFirst c := c.adj.head?
  isAdjacent := isAdjacent
  sortAdj c := .ok { c with adj := sortBy (fun x => x) c.adj }
  shuffleAdj c r := let (adj, r') := Rng.shuffle r c.adj; .ok ({ c with adj := adj }, r')
  clearEdges c := { c with adj := [] }
  push := push
  remove := remove

end SpacialNodeContainer

/-! ## SwContainer -/

/-- `SwEdge` (src/sw_graph.rs:16-19). -/
structure SwEdge where
  dst : Nat
  originallyTo : Option Nat
deriving DecidableEq, Repr

namespace SwEdge

/-- `is_root` (src/sw_graph.rs:40-42). -/
def isRoot (e : SwEdge) : Bool := e.originallyTo.isSome

/-- `is_at_root` (src/sw_graph.rs:62-66). -/
def isAtRoot (e : SwEdge) : Bool :=
  match e.originallyTo with
  | some v => v == e.dst
  | none => false

/-- `is_long_ranging_root` (src/sw_graph.rs:75-78). -/
def isLongRangingRoot (e : SwEdge) : Bool :=
  match e.originallyTo with
  | some v => v != e.dst
  | none => false

end SwEdge

/-- `SwContainer` (src/sw_graph.rs:158-162). -/
structure SwContainer (T : Type) where
  id : Nat
  adj : List SwEdge
  node : T
deriving DecidableEq, Repr

namespace SwContainer
variable {T : Type}

/-- `adj_position` (src/sw_graph.rs:310-313). -/
def adjPosition (c : SwContainer T) (elem : Nat) : Option Nat := c.adj.findIdx? (fun e => e.dst == elem)

/-- `swap_remove_element` (src/sw_graph.rs:315-320). -/
def swapRemoveElement (c : SwContainer T) (elem : Nat) : Res (SwContainer T) := do
  let index ← Res.unwrap (c.adjPosition elem)
  let (_, adj) ← Vec.swapRemove c.adj index
  return { c with adj := adj }

/-- `is_adjacent` (src/sw_graph.rs:223-226). -/
def isAdjacent (c : SwContainer T) (other : Nat) : Bool := c.adj.any (fun e => e.dst == other)

/-- `push` (src/sw_graph.rs:259-279): the root link goes to `self`, the loose link to `other`. -/
def push (self other : SwContainer T) : Res (Except GraphErr Unit × SwContainer T × SwContainer T) :=
  if self.isAdjacent other.id then .ok (.error .edgeExists, self, other)
  else .ok (.ok (),
    { self with adj := self.adj ++ [{ dst := other.id, originallyTo := some other.id }] },
    { other with adj := other.adj ++ [{ dst := self.id, originallyTo := none }] })

/-- `remove` (src/sw_graph.rs:289-298). -/
def remove (self other : SwContainer T) : Res (Except GraphErr Unit × SwContainer T × SwContainer T) :=
  if !self.isAdjacent other.id then .ok (.error .edgeDoesNotExist, self, other)
  else do
    let self' ← self.swapRemoveElement other.id
    let other' ← other.swapRemoveElement self'.id
    return (.ok (), self', other')

/-- `impl AdjContainer<T> for SwContainer<T>` (src/sw_graph.rs:172-299). -/
instance : AdjContainer T (SwContainer T) where
  new id node := { id, adj := [], node }
  contained c := c.node
  setContained c t := { c with node := t }
  neighbors c := c.adj.map (·.dst)
  degree c := c.adj.length
  id c := c.id
  getAdjFirst c := c.adj.head?.map (·.dst)
  isAdjacent := isAdjacent
  sortAdj c := .ok { c with adj := sortBy (·.dst) c.adj }
  shuffleAdj c r := let (adj, r') := Rng.shuffle r c.adj; .ok ({ c with adj := adj }, r')
  clearEdges c := { c with adj := [] }
  push := push
  remove := remove

end SwContainer

/-! ## WSContainer -/

/-- `x as u32` (src/watts_strogatz/ws_container.rs:148-160). -/
def asU32 (x : Nat) : Nat := x % 2 ^ 32

/-- `OriginalEdge` (src/watts_strogatz/ws_container.rs:18-22), `u32` fields as `Nat`. -/
structure OriginalEdge where
  from_ : Nat
  dst : Nat
  isAtOrigin : Bool
deriving DecidableEq, Repr

/-- `swap_direction` (src/watts_strogatz/ws_container.rs:40-43). -/
def OriginalEdge.swapDirection (e : OriginalEdge) : OriginalEdge := { e with from_ := e.dst, dst := e.from_ }

/-- `WSContainer` (src/watts_strogatz/ws_container.rs:57-63). -/
structure WSContainer (T : Type) where
  id : Nat
  node : T
  dst : List Nat
  original : List OriginalEdge
deriving DecidableEq, Repr

namespace WSContainer
variable {T : Type}

/-- `swap_remove_elem` with `get_index` (src/watts_strogatz/ws_container.rs:66-78). -/
def swapRemoveElem (c : WSContainer T) (elem : Nat) : Res (WSContainer T) := do
  let index ← Res.unwrap (c.dst.findIdx? (· == elem))
  let (_, dst) ← Vec.swapRemove c.dst index
  let (_, original) ← Vec.swapRemove c.original index
  return { c with dst := dst, original := original }

/-- `is_adjacent` (src/watts_strogatz/ws_container.rs:129-131). -/
def isAdjacent (c : WSContainer T) (other : Nat) : Bool := c.dst.contains other

/-- `push` (src/watts_strogatz/ws_container.rs:139-165). -/
def push (self other : WSContainer T) : Res (Except GraphErr Unit × WSContainer T × WSContainer T) :=
  if self.isAdjacent other.id then .ok (.error .edgeExists, self, other)
  else .ok (.ok (),
    { self with dst := self.dst ++ [other.id],
                original := self.original ++ [⟨asU32 self.id, asU32 other.id, true⟩] },
    { other with dst := other.dst ++ [self.id],
                 original := other.original ++ [⟨asU32 other.id, asU32 self.id, true⟩] })

/-- `remove` (src/watts_strogatz/ws_container.rs:168-177). -/
def remove (self other : WSContainer T) : Res (Except GraphErr Unit × WSContainer T × WSContainer T) :=
  if !self.isAdjacent other.id then .ok (.error .edgeDoesNotExist, self, other)
  else do
    let self' ← self.swapRemoveElem other.id
    let other' ← other.swapRemoveElem self'.id
    return (.ok (), self', other')

/-- The permutation computed by `permutation::sort(to)` (external crate): positions ordered by value. -/
def sortPerm (dst : List Nat) : List Nat := sortBy (fun i => dst.getD i 0) (List.range dst.length)

/-- `p.apply_slice(v)`: entry `k` of the result is `v[p[k]]` (panics when out of range). -/
def applySlice {α : Type} (p : List Nat) (v : List α) : Res (List α) := p.mapM (fun i => Vec.idx v i)

/-- `sort_adj` (src/watts_strogatz/ws_container.rs:179-183). -/
def sortAdj (c : WSContainer T) : Res (WSContainer T) := do
  let p := sortPerm c.dst
  let dst ← applySlice p c.dst
  let original ← applySlice p c.original
  return { c with dst := dst, original := original }

/-- `shuffle_adj` (src/watts_strogatz/ws_container.rs:185-192). -/
def shuffleAdj {R : Type} [Rng R] (c : WSContainer T) (r : R) : Res (WSContainer T × R) := do
  let (list, r') := Rng.shuffle r (List.range c.original.length)
  let dst ← applySlice list c.dst
  let original ← applySlice list c.original
  return ({ c with dst := dst, original := original }, r')

/-- `impl AdjContainer<T> for WSContainer<T>` (src/watts_strogatz/ws_container.rs:94-194). -/
instance : AdjContainer T (WSContainer T) where
  new id node := { id, node, dst := [], original := [] }
  contained c := c.node
  setContained c t := { c with node := t }
  neighbors c := c.dst
  degree c := c.dst.length
  id c := c.id
  getAdjFirst c := c.dst.head?
  isAdjacent := isAdjacent
  sortAdj := sortAdj
  shuffleAdj := shuffleAdj
  clearEdges c := { c with dst := [], original := [] }
  push := push
  remove := remove

end WSContainer

end Verif
