import Verif.Model.View
import Verif.Model.Release

/-!
# Access to the data at the vertices

The ways to read and to write what the user stored at the vertices, on a graph and on the ensembles.  A `&mut T` that is handed
out is modelled by the assignment the user makes through it.
-/

set_option linter.unusedSectionVars false

namespace Verif
open AdjContainer

namespace GenericGraph
variable {T A : Type} [AdjContainer T A]

/-- `container_checked` (src/generic_graph/generic_graph.rs:215-218). -/
def containerChecked (g : GenericGraph T A) (index : Nat) : Option A := g.vertices[index]?

/-- `at_checked` (src/generic_graph/generic_graph.rs:336-340). -/
def atChecked (g : GenericGraph T A) (index : Nat) : Option T :=
  (g.containerChecked index).map contained

/-- Assignment of `t` through `get_contained_mut` (src/generic_graph/generic_graph.rs:447-452); `none`: the call returned `None`. -/
def setContainedMut (g : GenericGraph T A) (index : Nat) (t : T) : Option (GenericGraph T A) :=
  (g.vertices[index]?).map (fun v => { g with vertices := g.vertices.set index (setContained v t) })

/-- `get_contained_unchecked` (src/generic_graph/generic_graph.rs:459-464). -/
def getContainedUnchecked (g : GenericGraph T A) (index : Nat) : Rel T := do
  let v ← Rel.deref g.vertices index
  return contained v

/-- Assignment of `t` through `get_contained_unchecked_mut` (src/generic_graph/generic_graph.rs:471-476). -/
def setContainedUnchecked (g : GenericGraph T A) (index : Nat) (t : T) : Rel (GenericGraph T A) := do
  let v ← Rel.deref g.vertices index
  return { g with vertices := g.vertices.set index (setContained v t) }

/-- `contained_iter_mut` (src/generic_graph/generic_graph.rs:250-255, src/iter.rs:693-732) run to the end: the user replaces the `k`-th
item `t` by `f k t`. -/
def writeAll (g : GenericGraph T A) (f : Nat → T → T) : GenericGraph T A :=
  { g with vertices := g.vertices.zipIdx.map (fun (v, k) => setContained v (f k (contained v))) }

end GenericGraph

/-- `from_iter` of `FromIterator<T> for Graph<T>` (src/graph.rs:311-326); the argument is the list of what the iterator yields. -/
def Graph.fromIter {T : Type} (iter : List T) : Graph T :=
  let vertices := iter.zipIdx.map (fun (t, index) => (⟨index, [], t⟩ : NodeContainer T))
  { nextId := vertices.length, vertices := vertices, edgeCount := 0 }

/-- The field `graph` of an ensemble that implements `Contained<T>` (src/traits/graph_traits.rs:136-158). -/
class ContainedGraph (E : Type) (T A : outParam Type) [outParam (AdjContainer T A)] extends AsRefGraph E T A where
  put : E → GenericGraph T A → E

section
variable {T R : Type}
/-- src/er_c.rs:476-493. -/
instance : ContainedGraph (ErC T R) T (NodeContainer T) := ⟨fun e g => { e with graph := g }⟩
/-- src/er_m.rs:401-418. -/
instance : ContainedGraph (ErM T R) T (NodeContainer T) := ⟨fun e g => { e with graph := g }⟩
/-- src/configuration_model.rs:533-550. -/
instance : ContainedGraph (Config T R) T (NodeContainer T) := ⟨fun e g => { e with graph := g }⟩
/-- src/sw.rs:647-664. -/
instance : ContainedGraph (SwEns T R) T (SwContainer T) := ⟨fun e g => { e with graph := g }⟩
/-- src/watts_strogatz/ensemble.rs:437-454. -/
instance : ContainedGraph (Ws T R) T (WSContainer T) := ⟨fun e g => { e with graph := g }⟩
end

namespace View
variable {E T A : Type} [AdjContainer T A] [ContainedGraph E T A]
open AsRefGraph ContainedGraph

/-- `get_contained` of the ensembles (src/er_c.rs:479-481, src/er_m.rs:404-406, src/configuration_model.rs:536-538,
src/sw.rs:650-652, src/watts_strogatz/ensemble.rs:440-442). -/
def getContained (e : E) (index : Nat) : Option T := (asRef e).getContained index

/-- Assignment through `get_contained_mut` of the ensembles (src/er_c.rs:483-485, src/er_m.rs:408-410,
src/configuration_model.rs:540-542, src/sw.rs:654-656, src/watts_strogatz/ensemble.rs:444-446). -/
def setContainedMut (e : E) (index : Nat) (t : T) : Option E := ((asRef e).setContainedMut index t).map (put e)

/-- `get_contained_unchecked` of the ensembles (src/er_c.rs:487-489, src/er_m.rs:412-414, src/configuration_model.rs:544-546,
src/sw.rs:658-660, src/watts_strogatz/ensemble.rs:448-450). -/
def getContainedUnchecked (e : E) (index : Nat) : Rel T := (asRef e).getContainedUnchecked index

/-- Assignment through `get_contained_unchecked_mut` of the ensembles (src/er_c.rs:491-493, src/er_m.rs:416-418,
src/configuration_model.rs:548-550, src/sw.rs:662-664, src/watts_strogatz/ensemble.rs:452-454). -/
def setContainedUnchecked (e : E) (index : Nat) (t : T) : Rel E := do
  let g ← (asRef e).setContainedUnchecked index t
  return put e g

end View
end Verif
