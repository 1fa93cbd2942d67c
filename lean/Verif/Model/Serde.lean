import Verif.Model.Er
import Verif.Model.Sw
import Verif.Model.Config
import Verif.Model.Ws
import Verif.Model.Ba
import Verif.Model.Spacial
import Verif.Model.Dual
import Verif.Model.Pcg64

/-!
# Saving and loading: the derived `Serialize` and `Deserialize`

With the default feature `serde_support` the graphs, the ensembles and the results of the steps derive `Serialize` and `Deserialize`
(no attribute changes the derived code).  `Value` is the data model of serde, as far as it is used; `Serde.ser` and `Serde.de` are what
the derive macros generate.  What a format does to a `Value` is external code.  A format which stores numbers exactly is the identity;
`Value.json` is what JSON does in addition (`serde_json`, used in the examples of the documentation): a `f64` which is not a number is
written as `null`.  Simplified: the readers accept what the writers of the same type produce, with the fields of a struct in any order,
together with unknown fields (which are ignored); derived readers accept in addition structs written as sequences.  `usize` is
unbounded, as everywhere in the model.
-/

set_option linter.unusedSectionVars false

namespace Verif

/-- The data model of serde: what `Serialize` produces and `Deserialize` consumes.  `float none` is NaN. -/
inductive Value where
  | null
  | bool (b : Bool)
  | nat (n : Nat)
  | float (q : Option ℚ)
  | str (s : String)
  | seq (l : List Value)
  | map (l : List (String × Value))
deriving Repr

mutual
/-- Writing as JSON and parsing again (`serde_json`, external): NaN becomes `null`, everything else is kept. -/
def Value.json : Value → Value
  | .float none => .null
  | .seq l => .seq (Value.jsonSeq l)
  | .map l => .map (Value.jsonMap l)
  | .null => .null
  | .bool b => .bool b
  | .nat n => .nat n
  | .float (some q) => .float (some q)
  | .str s => .str s
/-- The elements of an array. -/
def Value.jsonSeq : List Value → List Value
  | [] => []
  | v :: l => v.json :: Value.jsonSeq l
/-- The fields of an object. -/
def Value.jsonMap : List (String × Value) → List (String × Value)
  | [] => []
  | (k, v) :: l => (k, v.json) :: Value.jsonMap l
end

/-- A type with `Serialize` and `Deserialize`; `none` is the error of `Deserialize`. -/
class Serde (α : Type) where
  ser : α → Value
  de : Value → Option α

open Serde

/-- A field in the visitor of a derived `Deserialize`: fields are found by name in any order, unknown ones are ignored, a missing or
repeated one is an error. -/
def Value.field (l : List (String × Value)) (k : String) : Option Value :=
  match l.filter (fun p => p.1 == k) with
  | [(_, v)] => some v
  | _ => none

/-- A field of type `Option`: when missing it is read as `None`. -/
def Value.fieldOpt (l : List (String × Value)) (k : String) : Option Value :=
  match l.filter (fun p => p.1 == k) with
  | [(_, v)] => some v
  | [] => some .null
  | _ => none

/-- The fields of a struct. -/
def Value.asMap : Value → Option (List (String × Value))
  | .map l => some l
  | _ => none

/-! ## Types of the standard library -/

/-- `usize`, `u32`, `u128` (simplified: unbounded). -/
instance : Serde Nat where
  ser n := .nat n
  de
    | .nat n => some n
    | _ => none

/-- `bool`. -/
instance : Serde Bool where
  ser b := .bool b
  de
    | .bool b => some b
    | _ => none

/-- `f64` that may be NaN (`none`); integers are accepted by the reader. -/
def serFloat (q : Option ℚ) : Value := .float q

/-- The reader of `f64`. -/
def deFloat : Value → Option (Option ℚ)
  | .float q => some q
  | .nat n => some (some (n : ℚ))
  | _ => none

/-- `f64` where the model has no NaN (the probabilities). -/
instance : Serde ℚ where
  ser q := serFloat (some q)
  de v := (deFloat v).bind id

/-- `Vec<T>`. -/
instance {α : Type} [Serde α] : Serde (List α) where
  ser l := .seq (l.map ser)
  de
    | .seq l => l.mapM de
    | _ => none

/-- `(A, B)`. -/
instance {α β : Type} [Serde α] [Serde β] : Serde (α × β) where
  ser p := .seq [ser p.1, ser p.2]
  de
    | .seq [a, b] => do
      let a ← de a
      let b ← de b
      return (a, b)
    | _ => none

/-- `Option<T>` for `T = usize` (`null` is not a number). -/
instance : Serde (Option Nat) where
  ser
    | none => .null
    | some n => ser n
  de
    | .null => some none
    | v => (de v).map some

/-- `EmptyNode` (src/example_nodes.rs:8-10), a struct without fields; in the model the type with one value. -/
instance : Serde Unit where
  ser _ := .map []
  de v := do
    let _ ← v.asMap
    return ()

/-! ## Nodes, edges, containers, graphs -/

/-- `CountingNode` (src/example_nodes.rs:20-25). -/
structure CountingNode where
  index : Nat
deriving DecidableEq, Repr

/-- `impl Node for CountingNode` (src/example_nodes.rs:35-40). -/
instance : Node CountingNode := ⟨fun index => ⟨index⟩⟩

/-- Derived for `CountingNode` (src/example_nodes.rs:20-25). -/
instance : Serde CountingNode where
  ser c := .map [("index", ser c.index)]
  de v := do
    let l ← v.asMap
    let index ← (Value.field l "index").bind de
    return ⟨index⟩

/-- Derived for `NodeContainer` (src/graph.rs:32-37). -/
instance {T : Type} [Serde T] : Serde (NodeContainer T) where
  ser c := .map [("id", ser c.id), ("adj", ser c.adj), ("node", ser c.node)]
  de v := do
    let l ← v.asMap
    let id ← (Value.field l "id").bind de
    let adj ← (Value.field l "adj").bind de
    let node ← (Value.field l "node").bind de
    return { id, adj, node }

/-- Derived for `SwEdge` (src/sw_graph.rs:15-19). -/
instance : Serde SwEdge where
  ser e := .map [("to", ser e.dst), ("originally_to", ser e.originallyTo)]
  de v := do
    let l ← v.asMap
    let dst ← (Value.field l "to").bind de
    let originallyTo ← (Value.fieldOpt l "originally_to").bind de
    return { dst, originallyTo }

/-- Derived for `SwContainer` (src/sw_graph.rs:157-162). -/
instance {T : Type} [Serde T] : Serde (SwContainer T) where
  ser c := .map [("id", ser c.id), ("adj", ser c.adj), ("node", ser c.node)]
  de v := do
    let l ← v.asMap
    let id ← (Value.field l "id").bind de
    let adj ← (Value.field l "adj").bind de
    let node ← (Value.field l "node").bind de
    return { id, adj, node }

/-- Derived for `OriginalEdge` (src/watts_strogatz/ws_container.rs:17-22). -/
instance : Serde OriginalEdge where
  ser e := .map [("from", ser e.from_), ("to", ser e.dst), ("is_at_origin", ser e.isAtOrigin)]
  de v := do
    let l ← v.asMap
    let from_ ← (Value.field l "from").bind de
    let dst ← (Value.field l "to").bind de
    let isAtOrigin ← (Value.field l "is_at_origin").bind de
    return { from_, dst, isAtOrigin }

/-- Derived for `WSContainer` (src/watts_strogatz/ws_container.rs:55-63). -/
instance {T : Type} [Serde T] : Serde (WSContainer T) where
  ser c := .map [("id", ser c.id), ("node", ser c.node), ("to", ser c.dst), ("original", ser c.original)]
  de v := do
    let l ← v.asMap
    let id ← (Value.field l "id").bind de
    let node ← (Value.field l "node").bind de
    let dst ← (Value.field l "to").bind de
    let original ← (Value.field l "original").bind de
    return { id, node, dst, original }

/-- Derived for `SpacialNodeContainer` (src/spacial/spacial_graph.rs:18-26). -/
instance {T : Type} [Serde T] : Serde (SpacialNodeContainer T) where
  ser c := .map [("adj", ser c.adj), ("id", ser c.id), ("x", serFloat c.x), ("y", serFloat c.y), ("node", ser c.node)]
  de v := do
    let l ← v.asMap
    let adj ← (Value.field l "adj").bind de
    let id ← (Value.field l "id").bind de
    let x ← (Value.field l "x").bind deFloat
    let y ← (Value.field l "y").bind deFloat
    let node ← (Value.field l "node").bind de
    return { adj, id, x, y, node }

/-- Derived for `GenericGraph` (src/generic_graph/generic_graph.rs:31-39).  `PhantomData` is a unit struct: it is written as `null`
and has to be present when read. -/
instance {T A : Type} [Serde A] : Serde (GenericGraph T A) where
  ser g := .map [("next_id", ser g.nextId), ("edge_count", ser g.edgeCount), ("vertices", ser g.vertices), ("phantom", .null)]
  de v := do
    let l ← v.asMap
    let nextId ← (Value.field l "next_id").bind de
    let edgeCount ← (Value.field l "edge_count").bind de
    let vertices ← (Value.field l "vertices").bind de
    match Value.field l "phantom" with
    | some .null => return { nextId, edgeCount, vertices }
    | _ => none

/-! ## Ensembles -/

/-- `Pcg64`, that is `Lcg128Xsl64` of the crate `rand_pcg` (external), with the two fields found in the recorded files
(TestData/unchaning_erc_1.json). -/
instance : Serde Pcg64 where
  ser r := .map [("state", ser r.state), ("increment", ser r.increment)]
  de v := do
    let l ← v.asMap
    let state ← (Value.field l "state").bind de
    let increment ← (Value.field l "increment").bind de
    return { state, increment }

/-- Derived for `ErEnsembleC` (src/er_c.rs:71-80). -/
instance {T R : Type} [Serde T] [Serde R] : Serde (ErC T R) where
  ser e := .map [("graph", ser e.graph), ("prob", ser e.prob), ("c_target", ser e.cTarget), ("rng", ser e.rng)]
  de v := do
    let l ← v.asMap
    let graph ← (Value.field l "graph").bind de
    let prob ← (Value.field l "prob").bind de
    let cTarget ← (Value.field l "c_target").bind de
    let rng ← (Value.field l "rng").bind de
    return { graph, prob, cTarget, rng }

/-- Derived for `ErEnsembleM` (src/er_m.rs:99-109). -/
instance {T R : Type} [Serde T] [Serde R] : Serde (ErM T R) where
  ser e := .map [("graph", ser e.graph), ("m", ser e.m), ("rng", ser e.rng), ("all_edges", ser e.allEdges),
    ("possible_edges", ser e.possibleEdges), ("current_edges", ser e.currentEdges)]
  de v := do
    let l ← v.asMap
    let graph ← (Value.field l "graph").bind de
    let m ← (Value.field l "m").bind de
    let rng ← (Value.field l "rng").bind de
    let allEdges ← (Value.field l "all_edges").bind de
    let possibleEdges ← (Value.field l "possible_edges").bind de
    let currentEdges ← (Value.field l "current_edges").bind de
    return { graph, m, rng, allEdges, possibleEdges, currentEdges }

/-- Derived for `SwEnsemble` (src/sw.rs:196-203). -/
instance {T R : Type} [Serde T] [Serde R] : Serde (SwEns T R) where
  ser e := .map [("graph", ser e.graph), ("r_prob", ser e.rProb), ("rng", ser e.rng)]
  de v := do
    let l ← v.asMap
    let graph ← (Value.field l "graph").bind de
    let rProb ← (Value.field l "r_prob").bind de
    let rng ← (Value.field l "rng").bind de
    return { graph, rProb, rng }

/-- Derived for `BAensemble` (src/barabasi_albert.rs:26-36). -/
instance {T R : Type} [Serde T] [Serde R] : Serde (Ba T R) where
  ser e := .map [("source_graph", ser e.source), ("ba_graph", ser e.graph), ("rng", ser e.rng), ("m", ser e.m),
    ("weights", ser e.weights)]
  de v := do
    let l ← v.asMap
    let source ← (Value.field l "source_graph").bind de
    let graph ← (Value.field l "ba_graph").bind de
    let rng ← (Value.field l "rng").bind de
    let m ← (Value.field l "m").bind de
    let weights ← (Value.field l "weights").bind de
    return { source, graph, rng, m, weights }

/-- Derived for `ConfigurationModel` (src/configuration_model.rs:24-38). -/
instance {T R : Type} [Serde T] [Serde R] : Serde (Config T R) where
  ser e := .map [("graph", ser e.graph), ("degree_vec", ser e.degreeVec), ("rng", ser e.rng), ("random_edge_halfs", ser e.halfs),
    ("random_edge_halfs_backup", ser e.backup)]
  de v := do
    let l ← v.asMap
    let graph ← (Value.field l "graph").bind de
    let degreeVec ← (Value.field l "degree_vec").bind de
    let rng ← (Value.field l "rng").bind de
    let halfs ← (Value.field l "random_edge_halfs").bind de
    let backup ← (Value.field l "random_edge_halfs_backup").bind de
    return { graph, degreeVec, rng, halfs, backup }

/-- Derived for `SmallWorldWS` (src/watts_strogatz/ensemble.rs:41-48).  `neighbor_distance` is a `NonZeroUsize`: zero is not accepted by
the reader. -/
instance {T R : Type} [Serde T] [Serde R] : Serde (Ws T R) where
  ser e := .map [("graph", ser e.graph), ("rewire_prob", ser e.rewireProb), ("rng", ser e.rng),
    ("neighbor_distance", ser e.neighborDistance)]
  de v := do
    let l ← v.asMap
    let graph ← (Value.field l "graph").bind de
    let rewireProb ← (Value.field l "rewire_prob").bind de
    let rng ← (Value.field l "rng").bind de
    let neighborDistance : Nat ← (Value.field l "neighbor_distance").bind de
    if neighborDistance = 0 then none else
    return { graph, rewireProb, rng, neighborDistance }

/-- `SpacialEnsemble` with its fields as they are stored (src/spacial/spacial_ensemble.rs:25-32).  In `Spacial` the three numbers are
absorbed in the function `law`. -/
structure SpacialFields (T R : Type) where
  graph : SpacialGraph T
  rng : R
  f : ℚ
  alpha : ℚ
  sqrtNPi : ℚ

/-- The ensemble of the model: `law` is the formula of `prob_unchecked` (src/spacial/spacial_ensemble.rs:101-112) with the parameters
filled in. -/
def SpacialFields.toEnsemble {T R : Type} (law : ℚ → ℚ → ℚ → Pos → Pos → ℚ) (s : SpacialFields T R) : Spacial T R :=
  { graph := s.graph, rng := s.rng, law := law s.f s.alpha s.sqrtNPi }

/-- Derived for `SpacialEnsemble` (src/spacial/spacial_ensemble.rs:23-32). -/
instance {T R : Type} [Serde T] [Serde R] : Serde (SpacialFields T R) where
  ser e := .map [("graph", ser e.graph), ("rng", ser e.rng), ("f", ser e.f), ("alpha", ser e.alpha), ("sqrt_n_pi", ser e.sqrtNPi)]
  de v := do
    let l ← v.asMap
    let graph ← (Value.field l "graph").bind de
    let rng ← (Value.field l "rng").bind de
    let f ← (Value.field l "f").bind de
    let alpha ← (Value.field l "alpha").bind de
    let sqrtNPi ← (Value.field l "sqrt_n_pi").bind de
    return { graph, rng, f, alpha, sqrtNPi }

/-! ## Enums: a variant without data is its name, a variant with data a map with one entry -/

/-- Derived for `GraphErrors` (src/traits/graph_traits.rs:25-34). -/
instance : Serde GraphErr where
  ser
    | .edgeExists => .str "EdgeExists"
    | .edgeDoesNotExist => .str "EdgeDoesNotExist"
  de
    | .str "EdgeExists" => some .edgeExists
    | .str "EdgeDoesNotExist" => some .edgeDoesNotExist
    | _ => none

/-- Derived for `ErStepM` (src/er_m.rs:20-28). -/
instance : Serde ErStepM where
  ser s := .map [("removed", ser s.removed), ("i_removed", ser s.iRemoved), ("inserted", ser s.inserted),
    ("i_inserted", ser s.iInserted)]
  de v := do
    let l ← v.asMap
    let removed ← (Value.field l "removed").bind de
    let iRemoved ← (Value.field l "i_removed").bind de
    let inserted ← (Value.field l "inserted").bind de
    let iInserted ← (Value.field l "i_inserted").bind de
    return { removed, iRemoved, inserted, iInserted }

/-- Derived for `ErStepC` (src/er_c.rs:27-38). -/
instance : Serde ErStepC where
  ser
    | .nothing => .str "Nothing"
    | .addedEdge e => .map [("AddedEdge", ser e)]
    | .removedEdge e => .map [("RemovedEdge", ser e)]
    | .gError e => .map [("GError", ser e)]
  de
    | .str "Nothing" => some .nothing
    | .map [("AddedEdge", v)] => (de v).map .addedEdge
    | .map [("RemovedEdge", v)] => (de v).map .removedEdge
    | .map [("GError", v)] => (de v).map .gError
    | _ => none

/-- Derived for `SwChangeState` (src/sw.rs:28-43). -/
instance : Serde SwChange where
  ser
    | .invalidAdjecency => .str "InvalidAdjecency"
    | .blockedByExistingEdge => .str "BlockedByExistingEdge"
    | .nothing => .str "Nothing"
    | .rewire a b c => .map [("Rewire", .seq [ser a, ser b, ser c])]
    | .reset a b c => .map [("Reset", .seq [ser a, ser b, ser c])]
    | .gError e => .map [("GError", ser e)]
  de
    | .str "InvalidAdjecency" => some .invalidAdjecency
    | .str "BlockedByExistingEdge" => some .blockedByExistingEdge
    | .str "Nothing" => some .nothing
    | .map [("Rewire", .seq [a, b, c])] => do
      let a ← de a
      let b ← de b
      let c ← de c
      return .rewire a b c
    | .map [("Reset", .seq [a, b, c])] => do
      let a ← de a
      let b ← de b
      let c ← de c
      return .reset a b c
    | .map [("GError", v)] => (de v).map .gError
    | _ => none

/-- Derived for `SpacialStep` (src/spacial/spacial_ensemble.rs:163-175). -/
instance : Serde SpacialStep where
  ser
    | .nothing => .str "Nothing"
    | .addedEdge e => .map [("AddedEdge", ser e)]
    | .removedEdge e => .map [("RemovedEdge", ser e)]
    | .error => .str "Error"
  de
    | .str "Nothing" => some .nothing
    | .str "Error" => some .error
    | .map [("AddedEdge", v)] => (de v).map .addedEdge
    | .map [("RemovedEdge", v)] => (de v).map .removedEdge
    | _ => none

/-- Derived for `ConfigurationModelStep` (src/configuration_model.rs:390-400). -/
instance : Serde ConfigStep where
  ser
    | .error => .str "Error"
    | .added e1 e2 => .map [("Added", .seq [ser e1, ser e2])]
  de
    | .str "Error" => some .error
    | .map [("Added", .seq [a, b])] => do
      let a ← de a
      let b ← de b
      return .added a b
    | _ => none

/-- Derived for `UndoStepErrorCM` (src/configuration_model.rs:402-411). -/
instance : Serde UndoErrCM where
  ser
    | .unableToAddEdge e err => .map [("UnableToAddEdge", .seq [ser e, ser err])]
    | .unableToRemoveEdge e err => .map [("UnableToRemoveEdge", .seq [ser e, ser err])]
  de
    | .map [("UnableToAddEdge", .seq [a, b])] => do
      let a ← de a
      let b ← de b
      return .unableToAddEdge a b
    | .map [("UnableToRemoveEdge", .seq [a, b])] => do
      let a ← de a
      let b ← de b
      return .unableToRemoveEdge a b
    | _ => none

/-! ## Dual graphs -/

/-- Derived for `WhichGraph` (src/dual_graph/dual_graph.rs:270-278). -/
instance {α : Type} [Serde α] : Serde (WhichGraph α) where
  ser
    | .graph1 x => .map [("Graph1", ser x)]
    | .graph2 x => .map [("Graph2", ser x)]
  de
    | .map [("Graph1", v)] => (de v).map .graph1
    | .map [("Graph2", v)] => (de v).map .graph2
    | _ => none

/-- Derived for `Adj` (src/dual_graph/dual_graph.rs:640-644). -/
instance : Serde Adj where
  ser a := .map [("adj", ser a.adj)]
  de v := do
    let l ← v.asMap
    let adj ← (Value.field l "adj").bind de
    return ⟨adj⟩

/-- Derived for `AdjSingle` (src/dual_graph/dual_graph.rs:685-691): the arrays `[usize; 0]` and `[usize; 1]` are tuples of that length. -/
instance : Serde AdjSingle where
  ser
    | .nothing => .map [("Nothing", .seq [])]
    | .something i => .map [("Something", .seq [ser i])]
  de
    | .map [("Nothing", .seq [])] => some .nothing
    | .map [("Something", .seq [v])] => (de v).map .something
    | _ => none

/-- Derived for `DualGraph` (src/dual_graph/dual_graph.rs:18-26). -/
instance {J T1 A1 T2 A2 : Type} [Serde J] [Serde A1] [Serde A2] : Serde (DualGraph J T1 A1 T2 A2) where
  ser d := .map [("graph_1", ser d.graph1), ("graph_2", ser d.graph2), ("adj_1", ser d.adj1), ("adj_2", ser d.adj2)]
  de v := do
    let l ← v.asMap
    let graph1 ← (Value.field l "graph_1").bind de
    let graph2 ← (Value.field l "graph_2").bind de
    let adj1 ← (Value.field l "adj_1").bind de
    let adj2 ← (Value.field l "adj_2").bind de
    return { graph1, graph2, adj1, adj2 }

end Verif
