import Verif.Model.Iterators

/-!
# Neighbour iterators

Model of src/iter.rs and of `SwEdgeIterNeighbors` (src/sw_graph.rs:83-149): iterators as states with the methods `next`, `nth`,
`next_back` and `len`.
-/

set_option linter.unusedSectionVars false

namespace Verif
open AdjContainer

/-- The methods of an iterator with state `S` and items `α`. -/
structure IterImpl (S α : Type) where
  next : S → Res (Option α × S)
  nth : S → Nat → Res (Option α × S)
  nextBack : S → Res (Option α × S)
  len : S → Nat

/-- A call on an iterator. -/
inductive IterOp (α : Type) where
  | next
  | nth (n : Nat)
  | nextBack
  | nthBack (n : Nat)
  | len
  | any (p : α → Bool)
  | all (p : α → Bool)

/-- What a call returns. -/
inductive IterObs (α : Type) where
  | item (o : Option α)
  | size (n : Nat)
  | flag (b : Bool)
deriving DecidableEq, Repr

namespace IterImpl
variable {S α : Type} (I : IterImpl S α)

/-- Default `Iterator::any` of the standard library: calls `next` until the predicate holds. -/
def any (p : α → Bool) : Nat → S → Res (Bool × S)
  | 0, _ => .diverge
  | fuel + 1, s => do
    let (o, s) ← I.next s
    match o with
    | none => return (false, s)
    | some x => if p x then return (true, s) else any p fuel s

/-- Default `Iterator::all` of the standard library: calls `next` until the predicate fails. -/
def all (p : α → Bool) : Nat → S → Res (Bool × S)
  | 0, _ => .diverge
  | fuel + 1, s => do
    let (o, s) ← I.next s
    match o with
    | none => return (true, s)
    | some x => if p x then all p fuel s else return (false, s)

/-- Default `Iterator::fold` of the standard library. -/
def fold {β : Type} (f : β → α → β) : Nat → β → S → Res β
  | 0, _, _ => .diverge
  | fuel + 1, b, s => do
    let (o, s) ← I.next s
    match o with
    | none => return b
    | some x => fold f fuel (f b x) s

/-- Default `Iterator::reduce` of the standard library. -/
def reduce (f : α → α → α) (fuel : Nat) (s : S) : Res (Option α) := do
  let (o, s) ← I.next s
  match o with
  | none => return none
  | some x => do
    let r ← I.fold f fuel x s
    return some r

/-- Default `DoubleEndedIterator::nth_back` of the standard library: `next_back` is called `n` times, then once more; the first
`None` ends it. -/
def nthBack : Nat → S → Res (Option α × S)
  | 0, s => I.nextBack s
  | n + 1, s => do
    let (o, s) ← I.nextBack s
    match o with
    | none => return (none, s)
    | some _ => nthBack n s

/-- One call on the iterator.  `size_hint` is `(len, Some(len))` everywhere (src/iter.rs:53-56 etc., src/sw_graph.rs:126-129). -/
def step (s : S) : IterOp α → Res (IterObs α × S)
  | .next => do let (o, s) ← I.next s; return (.item o, s)
  | .nth n => do let (o, s) ← I.nth s n; return (.item o, s)
  | .nextBack => do let (o, s) ← I.nextBack s; return (.item o, s)
  | .nthBack n => do let (o, s) ← I.nthBack n s; return (.item o, s)
  | .len => .ok (.size (I.len s), s)
  | .any p => do let (b, s) ← I.any p (I.len s + 1) s; return (.flag b, s)
  | .all p => do let (b, s) ← I.all p (I.len s + 1) s; return (.flag b, s)

/-- A history of calls. -/
def run : List (IterOp α) → S → Res (List (IterObs α) × S)
  | [], s => .ok ([], s)
  | op :: ops, s => do
    let (o, s) ← I.step s op
    let (os, s) ← run ops s
    return (o :: os, s)

end IterImpl

/-- `std::slice::Iter`: the remaining items. -/
def sliceIter (α : Type) : IterImpl (List α) α where
  next l := .ok (l.head?, l.tail)
  nth l n := .ok (l[n]?, l.drop (n + 1))
  nextBack l := .ok (l.getLast?, l.dropLast)
  len l := l.length

/-- `SwEdgeIterNeighbors` (src/sw_graph.rs:83-149): the state is the remaining slice of edges. -/
def swIter : IterImpl (List SwEdge) Nat where
  next
    | [] => .ok (none, [])
    | e :: l => .ok (some e.dst, l)
  nth l n :=
    if n ≥ l.length then .ok (none, [])
    else do
      let (elements, next) := l.splitAt (n + 1)
      let e ← Vec.idx elements n
      return (some e.dst, next)
  nextBack l :=
    match l.getLast? with
    | none => .ok (none, l)
    | some e => .ok (some e.dst, l.dropLast)
  len l := l.length

/-- `IterWrapper` (src/iter.rs:14-19). -/
inductive IterWrapper where
  | genericIter (l : List Nat)
  | swIter (l : List SwEdge)
deriving DecidableEq, Repr

/-- `impl Iterator for IterWrapper` etc. (src/iter.rs:23-128). -/
def wrapperIter : IterImpl IterWrapper Nat where
  next
    | .genericIter l => do let (o, l) ← (sliceIter Nat).next l; return (o, .genericIter l)
    | .swIter l => do let (o, l) ← swIter.next l; return (o, .swIter l)
  nth
    | .genericIter l, n => do let (o, l) ← (sliceIter Nat).nth l n; return (o, .genericIter l)
    | .swIter l, n => do let (o, l) ← swIter.nth l n; return (o, .swIter l)
  nextBack
    | .genericIter l => do let (o, l) ← (sliceIter Nat).nextBack l; return (o, .genericIter l)
    | .swIter l => do let (o, l) ← swIter.nextBack l; return (o, .swIter l)
  len
    | .genericIter l => (sliceIter Nat).len l
    | .swIter l => swIter.len l

/-- `IterWrapper::into_vec` (src/iter.rs:145-151); `copied().collect()` calls `next` until `None`. -/
def IterWrapper.intoVec : IterWrapper → Res (List Nat)
  | .genericIter l => .ok l
  | .swIter l => Verif.swIter.fold (fun acc x => acc ++ [x]) (Verif.swIter.len l + 1) [] l

/-- `neighbors()` of the four containers as an iterator (src/graph.rs:62-64, src/watts_strogatz/ws_container.rs:114-116,
src/spacial/spacial_graph.rs:53-55 and src/sw_graph.rs:195-199). -/
class NeighborIter (A : Type) where
  iter : A → IterWrapper

instance {T : Type} : NeighborIter (NodeContainer T) := ⟨fun c => .genericIter c.adj⟩
instance {T : Type} : NeighborIter (SwContainer T) := ⟨fun c => .swIter c.adj⟩
instance {T : Type} : NeighborIter (WSContainer T) := ⟨fun c => .genericIter c.dst⟩
instance {T : Type} : NeighborIter (SpacialNodeContainer T) := ⟨fun c => .genericIter c.adj⟩

section
variable {T A S : Type} [AdjContainer T A]

/-- `ContainedIter` (src/iter.rs:156-240): the state is the remaining slice of vertices. -/
def containedIter (T A : Type) [AdjContainer T A] : IterImpl (List A) T where
  next
    | [] => .ok (none, [])
    | c :: l => .ok (some (contained c), l)
  nth l n :=
    if n ≥ l.length then .ok (none, [])
    else do
      let (elements, next) := l.splitAt (n + 1)
      let c ← Vec.idx elements n
      return (some (contained c), next)
  nextBack l :=
    match l.getLast? with
    | none => .ok (none, l)
    | some c => .ok (some (contained c), l.dropLast)
  len l := l.length

/-- The common shape of `NContainerIter`, `NContainedIter`, `NIContainedIter` (src/iter.rs:247-325, 331-408, 415-487): the index
comes from the inner iterator, `pick` is applied to the indexed vertex. -/
def neighbourIter {β : Type} (I : IterImpl S Nat) (vs : List A) (pick : Nat → A → β) : IterImpl S β where
  next s := do
    let (o, s) ← I.next s
    match o with
    | none => return (none, s)
    | some i => do
      let c ← Vec.idx vs i
      return (some (pick i c), s)
  nth s n := do
    let (o, s) ← I.nth s n
    match o with
    | none => return (none, s)
    | some i => do
      let c ← Vec.idx vs i
      return (some (pick i c), s)
  nextBack s := do
    let (o, s) ← I.nextBack s
    match o with
    | none => return (none, s)
    | some i => do
      let c ← Vec.idx vs i
      return (some (pick i c), s)
  len s := I.len s

/-- `NContainerIter` (src/iter.rs:247-325). -/
def nContainerIter (I : IterImpl S Nat) (vs : List A) : IterImpl S A := neighbourIter I vs (fun _ c => c)

/-- `NContainedIter` (src/iter.rs:331-408). -/
def nContainedIter (I : IterImpl S Nat) (vs : List A) : IterImpl S T := neighbourIter I vs (fun _ c => contained c)

/-- `NIContainedIter` (src/iter.rs:415-487). -/
def niContainedIter (I : IterImpl S Nat) (vs : List A) : IterImpl S (Nat × T) := neighbourIter I vs (fun i c => (i, contained c))

/-- The references handed out by `INContainedIterMut` (src/iter.rs:600-687), `NContainedIterMut` (src/iter.rs:496-592, without the
index) and `ContainedIterMut` (src/iter.rs:693-775, where `I` is `slice::IterMut`, i.e. runs through the positions): a reference
to the data of vertex `i` is modelled as `i` together with the value it currently shows.  `assert!`/`debug_assert!` of the index
and the `unsafe` pointer access are the checked access of the debug build. -/
def mutIter (I : IterImpl S Nat) (vs : List A) : IterImpl S (Nat × T) := neighbourIter I vs (fun i c => (i, contained c))

/-- One call on a mutable iterator; the caller writes `upd` through the reference if the call returns one. -/
def mutStep (I : IterImpl S Nat) (op : IterOp (Nat × T)) (upd : T → T) (st : List A × S) :
    Res (IterObs (Nat × T) × (List A × S)) := do
  let (o, s) ← (mutIter I st.1).step st.2 op
  match o with
  | .item (some (i, t)) => do
    let c ← Vec.idx st.1 i
    return (o, (st.1.set i (setContained c (upd t)), s))
  | o => return (o, (st.1, s))

/-- A history of calls and writes. -/
def mutRun (I : IterImpl S Nat) : List (IterOp (Nat × T) × (T → T)) → List A × S →
    Res (List (IterObs (Nat × T)) × (List A × S))
  | [], st => .ok ([], st)
  | (op, upd) :: ops, st => do
    let (o, st) ← mutStep I op upd st
    let (os, st) ← mutRun I ops st
    return (o :: os, st)

end

namespace GenericGraph
variable {T A : Type} [AdjContainer T A] [NeighborIter A]

/-- The start state of `container_iter_neighbors(index)`, `contained_iter_neighbors(index)`,
`contained_iter_neighbors_with_index(index)`, `contained_iter_neighbors_mut(index)` and
`contained_iter_neighbors_mut_with_index(index)` (src/generic_graph/generic_graph.rs:235-240, 261-319). -/
def neighborsIter (g : GenericGraph T A) (index : Nat) : Res IterWrapper := do
  let c ← Vec.idx g.vertices index
  return NeighborIter.iter c

end GenericGraph

end Verif
