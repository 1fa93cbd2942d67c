import Verif.Model.Sw
import Verif.Spec.Basic

/-!
# Specification vocabulary of the small-world ensemble
-/

namespace Verif

namespace SwGraph
variable {T : Type}

/-- The raw edges of vertex `i` (`container(i).iter_raw_edges()`). -/
def raw (g : SwGraph T) (i : Nat) : List SwEdge :=
  match g.vertices[i]? with
  | some c => c.adj
  | none => []

end SwGraph

/-- A valid small-world network: simple graph on at least five vertices with two edges per vertex; every vertex owns exactly
two root edges, originally leading to the next and the next but one vertex of the ring; every edge is rooted at exactly one of
its ends. -/
structure SwValid {T : Type} (g : SwGraph T) : Prop where
  wf : g.WF
  size : 5 ≤ g.nextId
  count : g.edgeCount = 2 * g.nextId
  roots : ∀ i < g.nextId,
    ((SwGraph.raw g i).filterMap (·.originallyTo)).Perm [(i + 1) % g.nextId, (i + 2) % g.nextId]
  oneEnd : ∀ i, ∀ e ∈ SwGraph.raw g i, ∀ e' ∈ SwGraph.raw g e.dst, e'.dst = i → e.isRoot = !e'.isRoot

/-- Two small-world networks that differ at most in the order of the adjacency lists. -/
structure SwSame {T : Type} (g g' : SwGraph T) : Prop where
  n : g'.nextId = g.nextId
  count : g'.edgeCount = g.edgeCount
  data : g'.data = g.data
  raw : ∀ i, (SwGraph.raw g' i).Perm (SwGraph.raw g i)

/-- `g'` arises from `g` by leading the root edge `i → j`, originally to `o`, to `k` instead (up to the order of lists). -/
structure SwMoved {T : Type} (g g' : SwGraph T) (i j k o : Nat) : Prop where
  n : g'.nextId = g.nextId
  count : g'.edgeCount = g.edgeCount
  data : g'.data = g.data
  len : g'.vertices.length = g.vertices.length
  ids : ∀ (x : Nat) (c : SwContainer T), g'.vertices[x]? = some c → c.id = x
  pi : ∃ L, (SwGraph.raw g i).Perm (⟨j, some o⟩ :: L) ∧ (SwGraph.raw g' i).Perm (⟨k, some o⟩ :: L)
  pj : (SwGraph.raw g j).Perm (⟨i, none⟩ :: SwGraph.raw g' j)
  pk : (SwGraph.raw g' k).Perm (⟨i, none⟩ :: SwGraph.raw g k)
  fr : ∀ x, x ≠ i → x ≠ j → x ≠ k → SwGraph.raw g' x = SwGraph.raw g x
  ij : i ≠ j
  jk : j ≠ k
  ik : i ≠ k
  hk : k < g.nextId
  free : k ∉ g.nbrs i

/-- What a reported change says about the networks before and after. -/
inductive SwStep {T : Type} (g : SwGraph T) : SwChange → SwGraph T → Prop
  | nothing : SwStep g .nothing g
  | blocked : SwStep g .blockedByExistingEdge g
  | rewire {g' : SwGraph T} {i j k o : Nat} : SwMoved g g' i j k o → SwStep g (.rewire i j k) g'
  | reset {g' : SwGraph T} {i j o : Nat} : SwMoved g g' i j o o → SwStep g (.reset i j o) g'

end Verif
