import Verif.Model.Bicon
import Verif.Model.Load
import Verif.Model.Measures
import Verif.Model.Er
import Verif.Model.Config
import Verif.Model.Sw
import Verif.Model.Ba
import Verif.Model.Ws
import Verif.Model.Spacial

/-!
# Looking at the graph of an ensemble

The measures, the searches and the access to the node data that every ensemble offers through its graph.
-/

namespace Verif
open AdjContainer

/-- `AsRef<GenericGraph<T, A>>` (std trait). -/
class AsRefGraph (E : Type) (T A : outParam Type) [outParam (AdjContainer T A)] where
  asRef : E → GenericGraph T A

section
variable {T R : Type}

/-- src/er_c.rs:82-90. -/
instance : AsRefGraph (ErC T R) T (NodeContainer T) := ⟨fun e => e.graph⟩
/-- src/er_m.rs:112-120. -/
instance : AsRefGraph (ErM T R) T (NodeContainer T) := ⟨fun e => e.graph⟩
/-- src/configuration_model.rs:249-256. -/
instance : AsRefGraph (Config T R) T (NodeContainer T) := ⟨fun e => e.graph⟩
/-- src/barabasi_albert.rs:38-46. -/
instance : AsRefGraph (Ba T R) T (NodeContainer T) := ⟨fun e => e.graph⟩
/-- src/sw.rs:418-426. -/
instance : AsRefGraph (SwEns T R) T (SwContainer T) := ⟨fun e => e.graph⟩
/-- src/watts_strogatz/ensemble.rs:270-276. -/
instance : AsRefGraph (Ws T R) T (WSContainer T) := ⟨fun e => e.graph⟩
/-- src/spacial/spacial_ensemble.rs:115-121. -/
instance : AsRefGraph (Spacial T R) T (SpacialNodeContainer T) := ⟨fun e => e.graph⟩
end

/-! ## `MeasurableGraphQuantities` for everything with a graph (src/traits/graph_traits.rs:272-331) -/

namespace View
variable {E T A : Type} [AdjContainer T A] [AsRefGraph E T A]
open AsRefGraph

/-- `average_degree` (src/traits/graph_traits.rs:279-281), before rounding; `none` for 0/0. -/
def averageDegree (e : E) : Option ℚ := (asRef e).averageDegree

/-- `degree` (src/traits/graph_traits.rs:283-285). -/
def degree (e : E) (index : Nat) : Option Nat := (asRef e).degree index

/-- `connected_components` (src/traits/graph_traits.rs:287-289). -/
def connectedComponents (e : E) : Res (List Nat) := (asRef e).connectedComponents

/-- `diameter` (src/traits/graph_traits.rs:291-293). -/
def diameter (e : E) : Res (Option Nat) := (asRef e).diameter

/-- `edge_count` (src/traits/graph_traits.rs:295-297). -/
def edgeCount (e : E) : Nat := (asRef e).edgeCount

/-- `is_connected` (src/traits/graph_traits.rs:299-301). -/
def isConnected (e : E) : Res (Option Bool) := (asRef e).isConnected

/-- `leaf_count` (src/traits/graph_traits.rs:303-305). -/
def leafCount (e : E) : Nat := (asRef e).leafCount

/-- `longest_shortest_path_from_index` (src/traits/graph_traits.rs:307-309). -/
def longestShortestPathFromIndex (e : E) (index : Nat) : Res (Option Nat) := (asRef e).longestShortestPathFromIndex index

/-- `q_core` (src/traits/graph_traits.rs:311-313). -/
def qCore (e : E) (q : Nat) : Res (Option Nat) := (asRef e).qCore q

/-- `transitivity` (src/traits/graph_traits.rs:315-317), numerator and denominator. -/
def transitivity (e : E) : Res (Nat × Nat) := (asRef e).transitivity

/-- `vertex_biconnected_components` (src/traits/graph_traits.rs:319-322): works on a clone, so the ensemble is unchanged. -/
def vertexBiconnectedComponents (e : E) (alternative_definition : Bool) : Res (List Nat) :=
  (asRef e).vertexBiconnectedComponents alternative_definition

/-- `vertex_count` (src/traits/graph_traits.rs:324-326). -/
def vertexCount (e : E) : Nat := (asRef e).vertexCount

/-- `vertex_load` (src/traits/graph_traits.rs:328-330), in exact arithmetic. -/
def vertexLoad (e : E) (include_endpoints : Bool) : Res (List ℚ) := (asRef e).vertexLoad include_endpoints

/-! ## `WithGraph` and `GraphIterators` (src/traits/ensemble_traits.rs:12-25, 141-231)

`graph()` is `borrow()` or `as_ref()` of the ensemble, that is its graph.  `SpacialEnsemble` has no `WithGraph`. -/

/-- `at` (src/er_c.rs:323-325, src/er_m.rs:321-323, src/configuration_model.rs:305-307, src/sw.rs:393-395,
src/barabasi_albert.rs:62-64, src/watts_strogatz/ensemble.rs:189-192). -/
def at_ (e : E) (index : Nat) : Res T := (asRef e).at_ index

/-- `contained_iter` (src/traits/ensemble_traits.rs:146-149, 191-194), run to the end. -/
def containedIter (e : E) : List T := (asRef e).vertices.map contained

/-- `dfs` (src/traits/ensemble_traits.rs:171-174, 217-220). -/
def dfs (e : E) (index fuel : Nat) : Res (List T) := (asRef e).dfs index fuel

/-- `dfs_with_index` (src/traits/ensemble_traits.rs:176-179, 222-225). -/
def dfsWithIndex (e : E) (index fuel : Nat) : Res (List (Nat × T)) := (asRef e).dfsWithIndex index fuel

/-- `bfs_index_depth` (src/traits/ensemble_traits.rs:181-184, 227-230). -/
def bfsIndexDepth (e : E) (index fuel : Nat) : Res (List (Nat × T × Nat)) := (asRef e).bfs index fuel

end View
end Verif
