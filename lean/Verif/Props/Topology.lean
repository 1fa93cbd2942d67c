import Verif.Props.Connect
import Verif.Props.Degree
import Verif.Props.Load
import Verif.Props.Bicon
import Verif.Props.Edit

/-!
# C68: the measurable quantities depend on nothing but the topology
-/

set_option linter.unusedSectionVars false
set_option linter.unusedSimpArgs false

namespace Verif
open AdjContainer GenericGraph

variable {T A T' A' : Type} [AdjContainer T A] [LawfulAdj T A] [AdjContainer T' A'] [LawfulAdj T' A']

/-- The same number of vertices and the same edges; containers, node data and the order of the adjacency lists may differ. -/
structure SameNet (g : GenericGraph T A) (g' : GenericGraph T' A') : Prop where
  n : g'.vertexCount = g.vertexCount
  edges : g'.edges = g.edges

namespace SameNet
variable {g : GenericGraph T A} {g' : GenericGraph T' A'}

theorem symm (s : SameNet g g') : SameNet g' g := ⟨s.n.symm, s.edges.symm⟩

theorem toSimple (s : SameNet g g') (h : g.WF) (h' : g'.WF) : g'.toSimple = g.toSimple := by
  ext i j
  rw [h.adj_iff, h'.adj_iff, ← h.mem_edges, ← h'.mem_edges, s.edges]

theorem nbrs (s : SameNet g g') (h : g.WF) (h' : g'.WF) (i : ℕ) : (g'.nbrs i).length = (g.nbrs i).length := by
  have hp : (g'.nbrs i).Perm (g.nbrs i) := by
    rw [List.perm_ext_iff_of_nodup (h'.nodup i) (h.nodup i)]
    intro j
    rw [← h.mem_edges, ← h'.mem_edges, s.edges]
  exact hp.length_eq

theorem degreeVec (s : SameNet g g') (h : g.WF) (h' : g'.WF) : g'.degreeVec = g.degreeVec := by
  rw [degreeVec_eq h, degreeVec_eq h', show g'.nextId = g.nextId from s.n]
  exact List.map_congr_left (fun i _ => s.nbrs h h' i)

theorem isConnected (s : SameNet g g') (h : g.WF) (h' : g'.WF) : g'.isConnected = g.isConnected := by
  obtain ⟨r, a1, a2, a3, a4⟩ := C15_is_connected h
  obtain ⟨r', b1, b2, b3, b4⟩ := C15_is_connected h'
  rw [s.n] at b2 b3 b4
  rw [s.toSimple h h'] at b3 b4
  rw [a1, b1]
  congr 1
  rcases r with _ | _ | _
  · exact b2.mpr (a2.mp rfl)
  · exact b4.mpr (a4.mp rfl)
  · exact b3.mpr (a3.mp rfl)

theorem connectedComponentsIds (s : SameNet g g') (h : g.WF) (h' : g'.WF) :
    g'.connectedComponentsIds = g.connectedComponentsIds := by
  classical
  obtain ⟨k, ids, reps, a1, a2⟩ := ccIds_spec h
  obtain ⟨k', ids', reps', b1, b2⟩ := ccIds_spec h'
  have hn : g'.nextId = g.nextId := s.n
  have hS := s.toSimple h h'
  have hreps : reps' = reps := by
    rw [a2.first, b2.first, hn, hS]
  subst hreps
  have hk : k' = k := by rw [← a2.rlen, ← b2.rlen]
  subst hk
  rw [a1, b1]
  congr 2
  apply List.ext_getElem?
  intro v
  by_cases hv : v < g.nextId
  · obtain ⟨c, hck, hc⟩ := (a2.val v hv).resolve_left (a2.done v hv hv)
    have hcl : c < reps'.length := by rw [a2.rlen]; exact hck
    obtain ⟨_, c1⟩ := a2.rep c _ (List.getElem?_eq_getElem hcl)
    obtain ⟨_, c2⟩ := b2.rep c _ (List.getElem?_eq_getElem hcl)
    have hr := (a2.same v c hc _).mp c1
    rw [hc]
    refine (b2.same _ c c2 v).mpr ?_
    rw [hS]
    exact hr.symm
  · have l1 := a2.len
    have l2 := b2.len
    rw [List.getElem?_eq_none (by omega), List.getElem?_eq_none (by omega)]

end SameNet

open Classical in
/-- The sizes of the components of a graph on the first `n` numbers. -/
noncomputable def sizesOf (n : ℕ) (G : SimpleGraph ℕ) : Multiset ℕ :=
  ((Finset.range n).image G.connectedComponentMk).val.map
    (fun c => ((Finset.range n).filter (fun v => G.connectedComponentMk v = c)).card)

theorem sizesOf_eq (g : GenericGraph T A) : (componentSet g).val.map (componentSize g) = sizesOf g.vertexCount g.toSimple := by
  unfold sizesOf componentSet
  rfl

namespace SameNet
variable {g : GenericGraph T A} {g' : GenericGraph T' A'}

theorem connectedComponents (s : SameNet g g') (h : g.WF) (h' : g'.WF) : g'.connectedComponents = g.connectedComponents := by
  obtain ⟨R, a1, a2, a3⟩ := C17_component_sizes h
  obtain ⟨R', b1, b2, b3⟩ := C17_component_sizes h'
  rw [sizesOf_eq] at a3 b3
  rw [s.n, s.toSimple h h', ← a3] at b3
  rw [a1, b1]
  congr 1
  exact List.Perm.eq_of_pairwise (fun a b _ _ h1 h2 => le_antisymm h2 h1) b2 a2 (Multiset.coe_eq_coe.mp b3)

theorem suggestConnections (s : SameNet g g') (h : g.WF) (h' : g'.WF) : g'.suggestConnections = g.suggestConnections := by
  classical
  obtain ⟨reps, a1, _, _, _, _, _, a2⟩ := C28_suggest_connections h
  obtain ⟨reps', b1, _, _, _, _, _, b2⟩ := C28_suggest_connections h'
  rw [s.n, s.toSimple h h', ← a2] at b2
  rw [a1, b1, b2]

theorem diameter (s : SameNet g g') (h : g.WF) (h' : g'.WF) : g'.diameter = g.diameter := by
  have hS := s.toSimple h h'
  by_cases hc : g.vertexCount = 0 ∨ ∃ v w, v < g.vertexCount ∧ w < g.vertexCount ∧ ¬ g.toSimple.Reachable v w
  · rw [C18_diameter_none h hc, C18_diameter_none h' (by rw [s.n, hS]; exact hc)]
  · push Not at hc
    obtain ⟨d, a1, a2, v, w, a3, a4, a5⟩ := C18_diameter h (by omega) hc.2
    obtain ⟨d', b1, b2, v', w', b3, b4, b5⟩ := C18_diameter h' (by rw [s.n]; omega) (by rw [s.n, hS]; exact hc.2)
    rw [s.n] at b2 b3 b4
    rw [hS] at b2 b5
    have c1 := a2 v' w' b3 b4
    have c2 := b2 v w a3 a4
    rw [a1, b1]
    congr 2
    omega

theorem longestShortestPathFromIndex (s : SameNet g g') (h : g.WF) (h' : g'.WF) (v : ℕ) :
    g'.longestShortestPathFromIndex v = g.longestShortestPathFromIndex v := by
  have hS := s.toSimple h h'
  obtain ⟨a1, a2⟩ := C19_eccentricity h v
  obtain ⟨b1, b2⟩ := C19_eccentricity h' v
  rw [s.n, hS] at b2
  rw [s.n] at b1
  by_cases hv : v < g.vertexCount
  · obtain ⟨d, c1, ⟨w, c2, c3⟩, c4⟩ := a2 hv
    obtain ⟨d', e1, ⟨w', e2, e3⟩, e4⟩ := b2 hv
    have := c4 w' e2
    have := e4 w c2
    rw [c1, e1]
    congr 2
    omega
  · rw [a1 (by omega), b1 (by omega)]

theorem qCore (s : SameNet g g') (h : g.WF) (h' : g'.WF) (q : ℕ) : g'.qCore q = g.qCore q := by
  have hS := s.toSimple h h'
  by_cases hq : q < 2 ∨ g.vertexCount = 0
  · rw [C20_q_core_none q hq, C20_q_core_none q (by rw [s.n]; exact hq)]
  · push Not at hq
    obtain ⟨r, K, a1, a2, a3, a4, a5, a6⟩ := C20_q_core h hq.1 (by omega)
    obtain ⟨r', K', b1, b2, b3, b4, b5, b6⟩ := C20_q_core h' hq.1 (by rw [s.n]; omega)
    have hQ : ∀ S, QSet g' q S ↔ QSet g q S := fun S => by
      unfold QSet
      rw [s.n, hS]
    have hW : ∀ K v, sizeWithin g' K v = sizeWithin g K v := fun K v => by
      have : inducedOn g' K = inducedOn g K := by
        ext a b
        show (g'.toSimple.Adj a b ∧ _) ↔ (g.toSimple.Adj a b ∧ _)
        rw [hS]
      unfold sizeWithin
      rw [this]
    have hK : K' = K := Finset.Subset.antisymm (a3 K' ((hQ K').mp b2)) (b3 K ((hQ K).mpr a2))
    subst hK
    rw [a1, b1]
    congr 2
    by_cases hE : K' = ∅
    · rw [a5 hE, b5 hE]
    · obtain ⟨v, c1, c2⟩ := a6 hE
      obtain ⟨v', d1, d2⟩ := b6 hE
      have e1 := a4 v' d1
      have e2 := b4 v c1
      rw [hW] at d2 e2
      omega

theorem transitivity (s : SameNet g g') (h : g.WF) (h' : g'.WF) : g'.transitivity = g.transitivity := by
  classical
  rw [C24_transitivity h, C24_transitivity h', s.n, s.toSimple h h']

theorem closenessCentrality (s : SameNet g g') (h : g.WF) (h' : g'.WF) : g'.closenessCentrality = g.closenessCentrality := by
  classical
  by_cases hn : g.vertexCount = 0
  · rw [C23_closeness_empty_panics g hn, C23_closeness_empty_panics g' (by rw [s.n]; exact hn)]
  · obtain ⟨L, a1, a2, a3⟩ := C23_closeness h (by omega)
    obtain ⟨L', b1, b2, b3⟩ := C23_closeness h' (by rw [s.n]; omega)
    rw [s.n, s.toSimple h h'] at b3
    rw [s.n] at b2
    rw [a1, b1]
    congr 1
    apply List.ext_getElem?
    intro v
    by_cases hv : v < g.vertexCount
    · rw [a3 v hv, b3 v hv]
    · rw [List.getElem?_eq_none (by omega), List.getElem?_eq_none (by omega)]

theorem vertexLoad (s : SameNet g g') (h : g.WF) (h' : g'.WF) (incl : Bool) : g'.vertexLoad incl = g.vertexLoad incl := by
  classical
  have hS := s.toSimple h h'
  choose F hF using fun s => (C22_flow_exists_unique h s).1
  have hF' : ∀ s, IsFlow g' s (F s) := by
    intro t v hv
    rw [hS] at hv
    have := hF t v hv
    unfold farther closer at this ⊢
    rw [s.n, hS]
    exact this
  rw [C22_vertex_load h hF, C22_vertex_load h' hF', s.n]
  unfold sources
  rw [s.n, hS]

end SameNet

/-- Two graphs with the same number of vertices and the same edges have the same quantities, whatever the containers, the node
data and the order of the adjacency lists: all of `MeasurableGraphQuantities` except `vertex_biconnected_components` (see
`C68_biconnected_order_violation`), and the other measures of `GenericGraph`. -/
theorem C68_measures_depend_on_topology {g : GenericGraph T A} {g' : GenericGraph T' A'} (h : g.WF) (h' : g'.WF)
    (hn : g'.vertexCount = g.vertexCount) (he : g'.edges = g.edges) :
    g'.edgeCount = g.edgeCount ∧ (∀ v, g'.degree v = g.degree v) ∧ g'.degreeVec = g.degreeVec ∧
    g'.averageDegree = g.averageDegree ∧ g'.leafCount = g.leafCount ∧ g'.degreeHistogram = g.degreeHistogram ∧
    g'.isConnected = g.isConnected ∧ g'.connectedComponents = g.connectedComponents ∧
    g'.connectedComponentsIds = g.connectedComponentsIds ∧ g'.suggestConnections = g.suggestConnections ∧
    g'.diameter = g.diameter ∧ (∀ v, g'.longestShortestPathFromIndex v = g.longestShortestPathFromIndex v) ∧
    (∀ q, g'.qCore q = g.qCore q) ∧ g'.transitivity = g.transitivity ∧ g'.closenessCentrality = g.closenessCentrality ∧
    (∀ incl, g'.vertexLoad incl = g.vertexLoad incl) := by
  have s : SameNet g g' := ⟨hn, he⟩
  have hS := s.toSimple h h'
  have hec : g'.edgeCount = g.edgeCount := by rw [h.edgeCount_eq_card, h'.edgeCount_eq_card, he]
  have hdv := s.degreeVec h h'
  refine ⟨hec, ?_, hdv, ?_, ?_, ?_, s.isConnected h h', s.connectedComponents h h', s.connectedComponentsIds h h',
    s.suggestConnections h h', s.diameter h h', s.longestShortestPathFromIndex h h', s.qCore h h', s.transitivity h h',
    s.closenessCentrality h h', s.vertexLoad h h'⟩
  · intro v
    rw [(C26_degrees h).1, (C26_degrees h').1, hn, hS]
  · rw [C26_average_degree h, C26_average_degree h', hn, hS]
  · rw [C26_leaf_count h, C26_leaf_count h', hn, hS]
  · unfold GenericGraph.degreeHistogram
    rw [hdv]

theorem SameNet.of_topoEq {g g' : GenericGraph T A} (h : g.WF) (h' : g'.WF) (t : TopoEq g g') : SameNet g g' := by
  refine ⟨t.n, ?_⟩
  apply h'.edges_eq_of
  intro i j
  rw [h.mem_edges, t.adj]

/-- `sort_adj`, `shuffle_all_edges`, `shuffle_edges_at_index`, data writes and the conversions to `Graph` lead to graphs that
`C68_measures_depend_on_topology` applies to: none of them changes a measured quantity. -/
theorem C68_harmless_calls {R : Type} [Rng R] {g : GenericGraph T A} (h : g.WF) :
    (∃ g', g.sortAdj = .ok g' ∧ g'.WF ∧ g'.vertexCount = g.vertexCount ∧ g'.edges = g.edges) ∧
    (∀ r : R, ∃ g' r', g.shuffleAdjs r = .ok (g', r') ∧ g'.WF ∧ g'.vertexCount = g.vertexCount ∧ g'.edges = g.edges) ∧
    (∀ (r : R) (i : ℕ), i < g.vertexCount →
      ∃ g' r', g.shuffleAdj r i = .ok (g', r') ∧ g'.WF ∧ g'.vertexCount = g.vertexCount ∧ g'.edges = g.edges) ∧
    (∀ (i : ℕ) (t : T), i < g.vertexCount →
      ∃ g', g.setAt i t = .ok g' ∧ g'.WF ∧ g'.vertexCount = g.vertexCount ∧ g'.edges = g.edges) ∧
    (g.toGraph.WF ∧ g.toGraph.vertexCount = g.vertexCount ∧ g.toGraph.edges = g.edges) ∧
    (∀ {T2 : Type} (f : T → T2), (g.cloneTopology f).WF ∧ (g.cloneTopology f).vertexCount = g.vertexCount ∧
      (g.cloneTopology f).edges = g.edges) := by
  refine ⟨?_, ?_, ?_, ?_, ?_, ?_⟩
  · obtain ⟨g', a1, a2, a3, _⟩ := sortAdj_spec h
    have s := SameNet.of_topoEq h a2 a3
    exact ⟨g', a1, a2, s.n, s.edges⟩
  · intro r
    obtain ⟨g', r', a1, a2, a3, _⟩ := shuffleAdjs_spec h r
    have s := SameNet.of_topoEq h a2 a3
    exact ⟨g', r', a1, a2, s.n, s.edges⟩
  · intro r i hi
    obtain ⟨g', r', a1, a2, a3, _⟩ := shuffleAdj_spec h r hi
    have s := SameNet.of_topoEq h a2 a3
    exact ⟨g', r', a1, a2, s.n, s.edges⟩
  · intro i t hi
    obtain ⟨g', a1, a2, a3, a4, a5, a6⟩ := setAt_spec h hi t
    refine ⟨g', a1, a2, a3, a2.edges_eq_of (fun x y => ?_)⟩
    rw [h.mem_edges, a5]
  · refine ⟨toGraph_wf h, rfl, (toGraph_wf h).edges_eq_of (fun x y => ?_)⟩
    rw [h.mem_edges, toGraph_nbrs]
  · intro T2 f
    obtain ⟨a1, a2, _, a4, _⟩ := (C27_conversions h f).2
    refine ⟨a1, a2, a1.edges_eq_of (fun x y => ?_)⟩
    rw [h.mem_edges, a4]

/-- `vertex_biconnected_components` is not among these quantities: sorting the adjacency lists of `exBi` changes the result. -/
theorem C68_biconnected_order_violation : ∃ g', exBi.sortAdj = .ok g' ∧ exBi.WF ∧ g'.WF ∧ SameNet exBi g' ∧
    exBi.vertexBiconnectedComponents false = .ok [4, 3] ∧ g'.vertexBiconnectedComponents false = .ok [4, 2] := by
  obtain ⟨g', a1, a2, a3, _⟩ := sortAdj_spec exBi_wf
  refine ⟨g', a1, exBi_wf, a2, SameNet.of_topoEq exBi_wf a2 a3, by decide, ?_⟩
  have : exBi.sortAdj = .ok (exGraph 6 [[1, 2], [0, 2, 3, 4], [0, 1, 3], [1, 2], [1]]) := by decide
  rw [this] at a1
  simp only [Res.ok.injEq] at a1
  subst a1
  decide

/-- A graph and its sorted version, which differ. -/
example : ∃ g', exBi.sortAdj = .ok g' ∧ exBi.WF ∧ g'.WF ∧ g'.vertexCount = exBi.vertexCount ∧ g'.edges = exBi.edges ∧ g' ≠ exBi := by
  obtain ⟨g', a1, a2, a3, a4⟩ := (C68_harmless_calls (R := Tape) exBi_wf).1
  refine ⟨g', a1, exBi_wf, a2, a3, a4, ?_⟩
  rintro rfl
  revert a1
  decide

end Verif
