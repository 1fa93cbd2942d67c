import Verif.Model.Serde
import Mathlib.Data.List.Perm.Basic

/-!
# Lemmas on saving and loading
-/

set_option linter.unusedSectionVars false
set_option linter.unusedSimpArgs false

namespace Verif

open Serde

/-- What is read back from a format which keeps every number is what was written. -/
class LawfulSerde (α : Type) [Serde α] : Prop where
  de_ser : ∀ x : α, de (ser x) = some x

/-- What is written contains no NaN, hence JSON keeps it. -/
class NoNan (α : Type) [Serde α] : Prop where
  json_ser : ∀ x : α, (ser x).json = ser x

open LawfulSerde NoNan

theorem mapM_de_ser {α : Type} [Serde α] (l : List α) (h : ∀ x ∈ l, de (ser x) = some x) :
    (l.map ser).mapM (de (α := α)) = some l := by
  induction l with
  | nil => rfl
  | cons a l ih =>
    rw [List.map_cons, List.mapM_cons, h a (by simp), ih fun x hx => h x (by simp [hx])]
    rfl

theorem jsonSeq_eq (l : List Value) : Value.jsonSeq l = l.map Value.json := by
  induction l with
  | nil => simp [Value.jsonSeq]
  | cons a l ih => simp [Value.jsonSeq, ih]

theorem json_seq {α : Type} [Serde α] (l : List α) (h : ∀ x ∈ l, (ser x).json = ser x) :
    (Value.seq (l.map ser)).json = Value.seq (l.map ser) := by
  rw [Value.json, jsonSeq_eq, List.map_map]
  congr 1
  exact List.map_congr_left fun x hx => h x hx

instance : LawfulSerde Nat := ⟨fun _ => rfl⟩
instance : LawfulSerde Bool := ⟨fun _ => rfl⟩
instance : LawfulSerde ℚ := ⟨fun _ => rfl⟩
instance : LawfulSerde Unit := ⟨fun _ => rfl⟩
instance {α : Type} [Serde α] [LawfulSerde α] : LawfulSerde (List α) := ⟨fun l => mapM_de_ser l fun x _ => de_ser x⟩
instance {α β : Type} [Serde α] [Serde β] [LawfulSerde α] [LawfulSerde β] : LawfulSerde (α × β) :=
  ⟨fun p => by
    show (do let a ← de (ser p.1); let b ← de (ser p.2); return (a, b)) = some p
    rw [de_ser, de_ser]; rfl⟩
instance : LawfulSerde (Option Nat) := ⟨fun x => by cases x <;> rfl⟩
instance : LawfulSerde CountingNode := ⟨fun _ => rfl⟩
instance : LawfulSerde Pcg64 := ⟨fun _ => rfl⟩
instance : LawfulSerde OriginalEdge := ⟨fun _ => rfl⟩
instance : LawfulSerde SwEdge := ⟨fun e => by
  obtain ⟨a, b⟩ := e
  show (do
    let dst ← de (ser a)
    let originallyTo ← de (ser b)
    return ({ dst, originallyTo } : SwEdge)) = _
  rw [de_ser, de_ser]; rfl⟩
instance : LawfulSerde GraphErr := ⟨fun x => by cases x <;> rfl⟩

instance {T : Type} [Serde T] [LawfulSerde T] : LawfulSerde (NodeContainer T) := ⟨fun c => by
  show (do
    let id ← de (ser c.id)
    let adj ← de (ser c.adj)
    let node ← de (ser c.node)
    return ({ id, adj, node } : NodeContainer T)) = _
  simp only [de_ser]; rfl⟩
instance {T : Type} [Serde T] [LawfulSerde T] : LawfulSerde (SwContainer T) := ⟨fun c => by
  show (do
    let id ← de (ser c.id)
    let adj ← de (ser c.adj)
    let node ← de (ser c.node)
    return ({ id, adj, node } : SwContainer T)) = _
  simp only [de_ser]; rfl⟩
instance {T : Type} [Serde T] [LawfulSerde T] : LawfulSerde (WSContainer T) := ⟨fun c => by
  show (do
    let id ← de (ser c.id)
    let node ← de (ser c.node)
    let dst ← de (ser c.dst)
    let original ← de (ser c.original)
    return ({ id, node, dst, original } : WSContainer T)) = _
  simp only [de_ser]; rfl⟩
instance {T : Type} [Serde T] [LawfulSerde T] : LawfulSerde (SpacialNodeContainer T) := ⟨fun c => by
  show (do
    let adj ← de (ser c.adj)
    let id ← de (ser c.id)
    let x ← deFloat <| serFloat (c.x)
    let y ← deFloat <| serFloat (c.y)
    let node ← de (ser c.node)
    return ({ adj, id, x, y, node } : SpacialNodeContainer T)) = _
  simp only [de_ser]; rfl⟩
instance {T A : Type} [Serde A] [LawfulSerde A] : LawfulSerde (GenericGraph T A) := ⟨fun c => by
  show (do
    let nextId ← de (ser c.nextId)
    let edgeCount ← de (ser c.edgeCount)
    let vertices ← de (ser c.vertices)
    return ({ nextId, edgeCount, vertices } : GenericGraph T A)) = _
  simp only [de_ser]; rfl⟩
instance {T R : Type} [Serde T] [Serde R] [LawfulSerde T] [LawfulSerde R] : LawfulSerde (ErC T R) := ⟨fun c => by
  show (do
    let graph ← de (ser c.graph)
    let prob ← de (ser c.prob)
    let cTarget ← de (ser c.cTarget)
    let rng ← de (ser c.rng)
    return ({ graph, prob, cTarget, rng } : ErC T R)) = _
  simp only [de_ser]; rfl⟩
instance {T R : Type} [Serde T] [Serde R] [LawfulSerde T] [LawfulSerde R] : LawfulSerde (ErM T R) := ⟨fun c => by
  show (do
    let graph ← de (ser c.graph)
    let m ← de (ser c.m)
    let rng ← de (ser c.rng)
    let allEdges ← de (ser c.allEdges)
    let possibleEdges ← de (ser c.possibleEdges)
    let currentEdges ← de (ser c.currentEdges)
    return ({ graph, m, rng, allEdges, possibleEdges, currentEdges } : ErM T R)) = _
  simp only [de_ser]; rfl⟩
instance {T R : Type} [Serde T] [Serde R] [LawfulSerde T] [LawfulSerde R] : LawfulSerde (SwEns T R) := ⟨fun c => by
  show (do
    let graph ← de (ser c.graph)
    let rProb ← de (ser c.rProb)
    let rng ← de (ser c.rng)
    return ({ graph, rProb, rng } : SwEns T R)) = _
  simp only [de_ser]; rfl⟩
instance {T R : Type} [Serde T] [Serde R] [LawfulSerde T] [LawfulSerde R] : LawfulSerde (Ba T R) := ⟨fun c => by
  show (do
    let source ← de (ser c.source)
    let graph ← de (ser c.graph)
    let rng ← de (ser c.rng)
    let m ← de (ser c.m)
    let weights ← de (ser c.weights)
    return ({ source, graph, rng, m, weights } : Ba T R)) = _
  simp only [de_ser]; rfl⟩
instance {T R : Type} [Serde T] [Serde R] [LawfulSerde T] [LawfulSerde R] : LawfulSerde (Config T R) := ⟨fun c => by
  show (do
    let graph ← de (ser c.graph)
    let degreeVec ← de (ser c.degreeVec)
    let rng ← de (ser c.rng)
    let halfs ← de (ser c.halfs)
    let backup ← de (ser c.backup)
    return ({ graph, degreeVec, rng, halfs, backup } : Config T R)) = _
  simp only [de_ser]; rfl⟩
instance {T R : Type} [Serde T] [Serde R] [LawfulSerde T] [LawfulSerde R] : LawfulSerde (SpacialFields T R) := ⟨fun c => by
  show (do
    let graph ← de (ser c.graph)
    let rng ← de (ser c.rng)
    let f ← de (ser c.f)
    let alpha ← de (ser c.alpha)
    let sqrtNPi ← de (ser c.sqrtNPi)
    return ({ graph, rng, f, alpha, sqrtNPi } : SpacialFields T R)) = _
  simp only [de_ser]; rfl⟩
instance  : LawfulSerde (ErStepM) := ⟨fun c => by
  show (do
    let removed ← de (ser c.removed)
    let iRemoved ← de (ser c.iRemoved)
    let inserted ← de (ser c.inserted)
    let iInserted ← de (ser c.iInserted)
    return ({ removed, iRemoved, inserted, iInserted } : ErStepM)) = _
  simp only [de_ser]; rfl⟩
instance  : LawfulSerde (Adj) := ⟨fun c => by
  show (do
    let adj ← de (ser c.adj)
    return ({ adj } : Adj)) = _
  simp only [de_ser]; rfl⟩
instance {J T1 A1 T2 A2 : Type} [Serde J] [Serde A1] [Serde A2] [LawfulSerde J] [LawfulSerde A1] [LawfulSerde A2] : LawfulSerde (DualGraph J T1 A1 T2 A2) := ⟨fun c => by
  show (do
    let graph1 ← de (ser c.graph1)
    let graph2 ← de (ser c.graph2)
    let adj1 ← de (ser c.adj1)
    let adj2 ← de (ser c.adj2)
    return ({ graph1, graph2, adj1, adj2 } : DualGraph J T1 A1 T2 A2)) = _
  simp only [de_ser]; rfl⟩
instance : LawfulSerde ErStepC := ⟨fun c => by
  rcases c with _ | _ | _ | e <;> first | rfl | (cases e <;> rfl)⟩
instance : LawfulSerde SwChange := ⟨fun c => by
  rcases c with _ | _ | _ | _ | _ | e <;> first | rfl | (cases e <;> rfl)⟩
instance : LawfulSerde SpacialStep := ⟨fun c => by cases c <;> rfl⟩
instance : LawfulSerde ConfigStep := ⟨fun c => by cases c <;> rfl⟩
instance : LawfulSerde UndoErrCM := ⟨fun c => by
  obtain ⟨_, e⟩ | ⟨_, e⟩ := c <;> cases e <;> rfl⟩
instance : LawfulSerde AdjSingle := ⟨fun c => by cases c <;> rfl⟩
instance {α : Type} [Serde α] [LawfulSerde α] : LawfulSerde (WhichGraph α) := ⟨fun c => by
  cases c with
  | graph1 x => show (de (ser x)).map WhichGraph.graph1 = _; rw [de_ser]; rfl
  | graph2 x => show (de (ser x)).map WhichGraph.graph2 = _; rw [de_ser]; rfl⟩

/-- `SmallWorldWS` is read back when the neighbour distance is not zero. -/
theorem Ws.de_ser {T R : Type} [Serde T] [Serde R] [LawfulSerde T] [LawfulSerde R] (c : Ws T R) :
    de (ser c) = if c.neighborDistance = 0 then none else some c := by
  show (do
    let graph ← de (ser c.graph)
    let rewireProb ← de (ser c.rewireProb)
    let rng ← de (ser c.rng)
    let neighborDistance : Nat ← de (ser c.neighborDistance)
    if neighborDistance = 0 then none else
    return ({ graph, rewireProb, rng, neighborDistance } : Ws T R)) = _
  simp only [LawfulSerde.de_ser]; rfl

/-! ## JSON -/

instance : NoNan Nat := ⟨fun _ => by simp [ser, Value.json]⟩
instance : NoNan Bool := ⟨fun _ => by simp [ser, Value.json]⟩
instance : NoNan ℚ := ⟨fun _ => by simp [ser, serFloat, Value.json]⟩
instance : NoNan Unit := ⟨fun _ => by simp [ser, Value.json, Value.jsonMap]⟩
instance {α : Type} [Serde α] [NoNan α] : NoNan (List α) := ⟨fun l => json_seq l fun x _ => json_ser x⟩
instance {α β : Type} [Serde α] [Serde β] [NoNan α] [NoNan β] : NoNan (α × β) :=
  ⟨fun p => by
    show (Value.seq [ser p.1, ser p.2]).json = Value.seq [ser p.1, ser p.2]
    simp only [Value.json, Value.jsonSeq, json_ser]⟩
instance : NoNan (Option Nat) := ⟨fun x => by cases x <;> simp [ser, Value.json]⟩
instance : NoNan GraphErr := ⟨fun x => by cases x <;> simp [ser, Value.json]⟩
instance  : NoNan (CountingNode) := ⟨fun c => by
  show (Value.map [("index", ser c.index)]).json = Value.map [("index", ser c.index)]
  simp only [Value.json, Value.jsonMap, json_ser]⟩
instance {T : Type} [Serde T] [NoNan T] : NoNan (NodeContainer T) := ⟨fun c => by
  show (Value.map [("id", ser c.id), ("adj", ser c.adj), ("node", ser c.node)]).json = Value.map [("id", ser c.id), ("adj", ser c.adj), ("node", ser c.node)]
  simp only [Value.json, Value.jsonMap, json_ser]⟩
instance  : NoNan (SwEdge) := ⟨fun c => by
  show (Value.map [("to", ser c.dst), ("originally_to", ser c.originallyTo)]).json = Value.map [("to", ser c.dst), ("originally_to", ser c.originallyTo)]
  simp only [Value.json, Value.jsonMap, json_ser]⟩
instance {T : Type} [Serde T] [NoNan T] : NoNan (SwContainer T) := ⟨fun c => by
  show (Value.map [("id", ser c.id), ("adj", ser c.adj), ("node", ser c.node)]).json = Value.map [("id", ser c.id), ("adj", ser c.adj), ("node", ser c.node)]
  simp only [Value.json, Value.jsonMap, json_ser]⟩
instance  : NoNan (OriginalEdge) := ⟨fun c => by
  show (Value.map [("from", ser c.from_), ("to", ser c.dst), ("is_at_origin", ser c.isAtOrigin)]).json = Value.map [("from", ser c.from_), ("to", ser c.dst), ("is_at_origin", ser c.isAtOrigin)]
  simp only [Value.json, Value.jsonMap, json_ser]⟩
instance {T : Type} [Serde T] [NoNan T] : NoNan (WSContainer T) := ⟨fun c => by
  show (Value.map [("id", ser c.id), ("node", ser c.node), ("to", ser c.dst), ("original", ser c.original)]).json = Value.map [("id", ser c.id), ("node", ser c.node), ("to", ser c.dst), ("original", ser c.original)]
  simp only [Value.json, Value.jsonMap, json_ser]⟩
instance {T A : Type} [Serde A] [NoNan A] : NoNan (GenericGraph T A) := ⟨fun c => by
  show (Value.map [("next_id", ser c.nextId), ("edge_count", ser c.edgeCount), ("vertices", ser c.vertices), ("phantom", .null)]).json = Value.map [("next_id", ser c.nextId), ("edge_count", ser c.edgeCount), ("vertices", ser c.vertices), ("phantom", .null)]
  simp only [Value.json, Value.jsonMap, json_ser]⟩
instance  : NoNan (Pcg64) := ⟨fun c => by
  show (Value.map [("state", ser c.state), ("increment", ser c.increment)]).json = Value.map [("state", ser c.state), ("increment", ser c.increment)]
  simp only [Value.json, Value.jsonMap, json_ser]⟩
instance {T R : Type} [Serde T] [NoNan T] [Serde R] [NoNan R] : NoNan (ErC T R) := ⟨fun c => by
  show (Value.map [("graph", ser c.graph), ("prob", ser c.prob), ("c_target", ser c.cTarget), ("rng", ser c.rng)]).json = Value.map [("graph", ser c.graph), ("prob", ser c.prob), ("c_target", ser c.cTarget), ("rng", ser c.rng)]
  simp only [Value.json, Value.jsonMap, json_ser]⟩
instance {T R : Type} [Serde T] [NoNan T] [Serde R] [NoNan R] : NoNan (ErM T R) := ⟨fun c => by
  show (Value.map [("graph", ser c.graph), ("m", ser c.m), ("rng", ser c.rng), ("all_edges", ser c.allEdges), ("possible_edges", ser c.possibleEdges), ("current_edges", ser c.currentEdges)]).json = Value.map [("graph", ser c.graph), ("m", ser c.m), ("rng", ser c.rng), ("all_edges", ser c.allEdges), ("possible_edges", ser c.possibleEdges), ("current_edges", ser c.currentEdges)]
  simp only [Value.json, Value.jsonMap, json_ser]⟩
instance {T R : Type} [Serde T] [NoNan T] [Serde R] [NoNan R] : NoNan (SwEns T R) := ⟨fun c => by
  show (Value.map [("graph", ser c.graph), ("r_prob", ser c.rProb), ("rng", ser c.rng)]).json = Value.map [("graph", ser c.graph), ("r_prob", ser c.rProb), ("rng", ser c.rng)]
  simp only [Value.json, Value.jsonMap, json_ser]⟩
instance {T R : Type} [Serde T] [NoNan T] [Serde R] [NoNan R] : NoNan (Ba T R) := ⟨fun c => by
  show (Value.map [("source_graph", ser c.source), ("ba_graph", ser c.graph), ("rng", ser c.rng), ("m", ser c.m), ("weights", ser c.weights)]).json = Value.map [("source_graph", ser c.source), ("ba_graph", ser c.graph), ("rng", ser c.rng), ("m", ser c.m), ("weights", ser c.weights)]
  simp only [Value.json, Value.jsonMap, json_ser]⟩
instance {T R : Type} [Serde T] [NoNan T] [Serde R] [NoNan R] : NoNan (Config T R) := ⟨fun c => by
  show (Value.map [("graph", ser c.graph), ("degree_vec", ser c.degreeVec), ("rng", ser c.rng), ("random_edge_halfs", ser c.halfs), ("random_edge_halfs_backup", ser c.backup)]).json = Value.map [("graph", ser c.graph), ("degree_vec", ser c.degreeVec), ("rng", ser c.rng), ("random_edge_halfs", ser c.halfs), ("random_edge_halfs_backup", ser c.backup)]
  simp only [Value.json, Value.jsonMap, json_ser]⟩
instance {T R : Type} [Serde T] [NoNan T] [Serde R] [NoNan R] : NoNan (Ws T R) := ⟨fun c => by
  show (Value.map [("graph", ser c.graph), ("rewire_prob", ser c.rewireProb), ("rng", ser c.rng), ("neighbor_distance", ser c.neighborDistance)]).json = Value.map [("graph", ser c.graph), ("rewire_prob", ser c.rewireProb), ("rng", ser c.rng), ("neighbor_distance", ser c.neighborDistance)]
  simp only [Value.json, Value.jsonMap, json_ser]⟩
instance  : NoNan (ErStepM) := ⟨fun c => by
  show (Value.map [("removed", ser c.removed), ("i_removed", ser c.iRemoved), ("inserted", ser c.inserted), ("i_inserted", ser c.iInserted)]).json = Value.map [("removed", ser c.removed), ("i_removed", ser c.iRemoved), ("inserted", ser c.inserted), ("i_inserted", ser c.iInserted)]
  simp only [Value.json, Value.jsonMap, json_ser]⟩
instance  : NoNan (Adj) := ⟨fun c => by
  show (Value.map [("adj", ser c.adj)]).json = Value.map [("adj", ser c.adj)]
  simp only [Value.json, Value.jsonMap, json_ser]⟩
instance {J T1 A1 T2 A2 : Type} [Serde J] [NoNan J] [Serde A1] [NoNan A1] [Serde A2] [NoNan A2] : NoNan (DualGraph J T1 A1 T2 A2) := ⟨fun c => by
  show (Value.map [("graph_1", ser c.graph1), ("graph_2", ser c.graph2), ("adj_1", ser c.adj1), ("adj_2", ser c.adj2)]).json = Value.map [("graph_1", ser c.graph1), ("graph_2", ser c.graph2), ("adj_1", ser c.adj1), ("adj_2", ser c.adj2)]
  simp only [Value.json, Value.jsonMap, json_ser]⟩
instance : NoNan ErStepC := ⟨fun c => by
  cases c <;> simp [ser, Value.json, Value.jsonMap, Value.jsonSeq]
  cases ‹GraphErr› <;> simp [Value.json]⟩
instance : NoNan SwChange := ⟨fun c => by
  cases c <;> simp [ser, Value.json, Value.jsonMap, Value.jsonSeq]
  cases ‹GraphErr› <;> simp [Value.json]⟩
instance : NoNan SpacialStep := ⟨fun c => by
  cases c <;> simp [ser, Value.json, Value.jsonMap, Value.jsonSeq]⟩
instance : NoNan ConfigStep := ⟨fun c => by
  cases c <;> simp [ser, Value.json, Value.jsonMap, Value.jsonSeq]⟩
instance : NoNan UndoErrCM := ⟨fun c => by
  cases c <;> simp [ser, Value.json, Value.jsonMap, Value.jsonSeq] <;>
    (cases ‹GraphErr›) <;> simp [Value.json]⟩
instance : NoNan AdjSingle := ⟨fun c => by
  cases c <;> simp [ser, Value.json, Value.jsonMap, Value.jsonSeq]⟩
instance {α : Type} [Serde α] [NoNan α] : NoNan (WhichGraph α) := ⟨fun c => by
  cases c with
  | graph1 x =>
    show (Value.map [("Graph1", ser x)]).json = Value.map [("Graph1", ser x)]
    simp only [Value.json, Value.jsonMap, json_ser]
  | graph2 x =>
    show (Value.map [("Graph2", ser x)]).json = Value.map [("Graph2", ser x)]
    simp only [Value.json, Value.jsonMap, json_ser]⟩

end Verif
