import Verif.Lemmas.QCore
import Mathlib.Algebra.Order.Field.Basic

/-!
# C15 - C20, C23, C24, C28: connectivity, distances, q-core, closeness, transitivity
-/

set_option linter.unusedSectionVars false
set_option linter.unusedSimpArgs false

namespace Verif
open AdjContainer GenericGraph

variable {T A : Type} [AdjContainer T A] [LawfulAdj T A]

/-! ### C15 -/

/-- `is_connected`: `None` exactly without vertices, else whether all vertices are joined by paths. -/
theorem C15_is_connected {g : GenericGraph T A} (h : g.WF) :
    ∃ r, g.isConnected = .ok r ∧ (r = none ↔ g.vertexCount = 0) ∧
      (r = some true ↔ 0 < g.vertexCount ∧ ∀ v w, v < g.vertexCount → w < g.vertexCount → g.toSimple.Reachable v w) ∧
      (r = some false ↔ ∃ v w, v < g.vertexCount ∧ w < g.vertexCount ∧ ¬ g.toSimple.Reachable v w) := by
  have hvc : g.vertexCount = g.nextId := rfl
  by_cases hn : g.nextId = 0
  · refine ⟨none, by simp [GenericGraph.isConnected, hvc, hn], ?_, ?_, ?_⟩
    · simp [hvc, hn]
    · simp [hvc, hn]
    · simp [hvc, hn]
  · obtain ⟨b, h1, h2⟩ := isConnected_spec h (by omega)
    refine ⟨some b, h1, by simp [hvc, hn], ?_, ?_⟩
    · rw [Option.some.injEq, h2, hvc]
      constructor
      · intro hx; exact ⟨by omega, hx⟩
      · exact fun hx => hx.2
    · rw [Option.some.injEq, hvc]
      constructor
      · intro hb
        by_contra hc
        push Not at hc
        have := h2.mpr hc
        rw [hb] at this; simp at this
      · rintro ⟨v, w, hv, hw, hr⟩
        by_contra hc
        exact hr (h2.mp (by simpa using hc) v w hv hw)

example : exTail.WF ∧ exTail.isConnected = .ok (some false) ∧ exPath.WF ∧ exPath.isConnected = .ok (some true) :=
  ⟨exTail_wf, by decide, exPath_wf, by decide⟩

/-! ### C16 -/

/-- `connected_components_ids`: labels `0..k-1`, all used, equal exactly for vertices joined by a path; `k` is the
number of components, and the components are numbered in the order of their smallest vertices. -/
theorem C16_component_ids {g : GenericGraph T A} (h : g.WF) :
    ∃ k ids, g.connectedComponentsIds = .ok (k, ids) ∧ ids.length = g.vertexCount ∧
      (∀ v < g.vertexCount, ∃ c < k, ids[v]? = some (c : Int)) ∧
      (∀ c < k, ∃ v < g.vertexCount, ids[v]? = some (c : Int)) ∧
      (∀ v w, v < g.vertexCount → w < g.vertexCount → (ids[v]? = ids[w]? ↔ g.toSimple.Reachable v w)) ∧
      k = (componentSet g).card ∧
      (∀ v w (c d : Nat), IsFirst g.toSimple v → IsFirst g.toSimple w → ids[v]? = some (c : Int) → ids[w]? = some (d : Int) →
        (c < d ↔ v < w)) := by
  classical
  obtain ⟨k, ids, reps, h1, h2⟩ := ccIds_spec h
  have hval : ∀ v < g.nextId, ∃ c < k, ids[v]? = some (c : Int) := by
    intro v hv
    rcases h2.val v hv with e | e
    · exact absurd e (h2.done v hv hv)
    · exact e
  refine ⟨k, ids, h1, h2.len, hval, ?_, ?_, ?_, ?_⟩
  · intro c hc
    have hcr : c < reps.length := by rw [h2.rlen]; exact hc
    exact ⟨reps[c], h2.rep c _ (List.getElem?_eq_getElem hcr)⟩
  · intro v w hv hw
    obtain ⟨c, hc, e⟩ := hval v hv
    rw [← h2.same v c e w, e]
    exact ⟨fun hx => hx.symm, fun hx => hx.symm⟩
  · have := congrArg Multiset.card h2.componentSet_val
    simp [h2.rlen] at this
    rw [← this]
  · have hsort : reps.Pairwise (· < ·) := by
      rw [h2.first]
      exact List.pairwise_lt_range.filter _
    have hat : ∀ (v c : Nat), IsFirst g.toSimple v → ids[v]? = some (c : Int) → reps[c]? = some v := by
      intro v c hf hc
      have hv : v < g.nextId := by rw [← h2.len]; exact (List.getElem?_eq_some_iff.mp hc).1
      obtain ⟨c', hck, e⟩ := hval v hv
      rw [hc] at e
      simp only [Option.some.injEq, Nat.cast_inj] at e
      subst e
      have hcl : c < reps.length := by rw [h2.rlen]; exact hck
      obtain ⟨b1, b2⟩ := h2.rep c _ (List.getElem?_eq_getElem hcl)
      have hr := (h2.same v c hc _).mp b2
      have hfr : ∀ r ∈ reps, IsFirst g.toSimple r := fun r hr => by
        rw [h2.first, List.mem_filter] at hr
        simpa using hr.2
      have := hf _ hr
      have := hfr _ (List.getElem_mem hcl) _ hr.symm
      rw [List.getElem?_eq_getElem hcl]
      congr 1
      omega
    intro v w c d hv hw hc hd
    obtain ⟨hcl, ec⟩ := List.getElem?_eq_some_iff.mp (hat v c hv hc)
    obtain ⟨hdl, ed⟩ := List.getElem?_eq_some_iff.mp (hat w d hw hd)
    rw [List.pairwise_iff_getElem] at hsort
    constructor
    · intro hlt
      rw [← ec, ← ed]
      exact hsort c d hcl hdl hlt
    · intro hlt
      by_contra hge
      rcases Nat.lt_or_eq_of_le (Nat.le_of_not_lt hge) with hlt' | rfl
      · have := hsort d c hdl hcl hlt'
        omega
      · omega

example : exTail.WF ∧ exTail.connectedComponentsIds = .ok (2, [0, 0, 0, 0, 1]) := ⟨exTail_wf, by decide⟩

/-! ### C17 -/

/-- `connected_components`: in descending order the sizes of all components. -/
theorem C17_component_sizes {g : GenericGraph T A} (h : g.WF) :
    ∃ R, g.connectedComponents = .ok R ∧ R.Pairwise (fun a b => b ≤ a) ∧
      (R : Multiset Nat) = (componentSet g).val.map (componentSize g) :=
  connectedComponents_spec h

/-- The sizes are positive and sum to the vertex count. -/
theorem C17_component_sizes_sum {g : GenericGraph T A} (h : g.WF) :
    ∃ R, g.connectedComponents = .ok R ∧ (∀ r ∈ R, 0 < r) ∧ R.sum = g.vertexCount := by
  classical
  obtain ⟨R, h1, _, h3⟩ := connectedComponents_spec h
  refine ⟨R, h1, ?_, ?_⟩
  · intro r hr
    have : r ∈ (R : Multiset Nat) := by simpa using hr
    rw [h3, Multiset.mem_map] at this
    obtain ⟨c, hc, rfl⟩ := this
    have hc' : c ∈ componentSet g := hc
    simp only [componentSet, Finset.mem_image] at hc'
    obtain ⟨v, hv, rfl⟩ := hc'
    rw [componentSize]
    exact Finset.card_pos.mpr ⟨v, by simp at hv ⊢; exact hv⟩
  · have h4 : R.sum = ∑ c ∈ componentSet g, componentSize g c := by
      rw [← Multiset.sum_coe, h3]; rfl
    rw [h4]
    simp only [componentSize]
    have := Finset.card_eq_sum_card_image g.toSimple.connectedComponentMk (Finset.range g.vertexCount)
    rw [Finset.card_range] at this
    refine Eq.trans ?_ this.symm
    apply Finset.sum_congr
    · simp [componentSet]
    · intro c _; rfl

example : exTail.WF ∧ exTail.connectedComponents = .ok [4, 1] := ⟨exTail_wf, by decide⟩

/-! ### C18 -/

/-- `diameter` of a connected graph is the largest distance of two vertices. -/
theorem C18_diameter {g : GenericGraph T A} (h : g.WF) (hn : 0 < g.vertexCount)
    (hc : ∀ v w, v < g.vertexCount → w < g.vertexCount → g.toSimple.Reachable v w) :
    ∃ d, g.diameter = .ok (some d) ∧
      (∀ v w, v < g.vertexCount → w < g.vertexCount → g.toSimple.dist v w ≤ d) ∧
      ∃ v w, v < g.vertexCount ∧ w < g.vertexCount ∧ g.toSimple.dist v w = d :=
  diameter_spec h hn hc

/-- `diameter` is `None` for the empty and for every disconnected graph. -/
theorem C18_diameter_none {g : GenericGraph T A} (h : g.WF)
    (hc : g.vertexCount = 0 ∨ ∃ v w, v < g.vertexCount ∧ w < g.vertexCount ∧ ¬ g.toSimple.Reachable v w) :
    g.diameter = .ok none := by
  obtain ⟨r, h1, h2, _, h4⟩ := C15_is_connected h
  rcases hc with hc | hc
  · rw [h2.mpr hc] at h1
    simp [GenericGraph.diameter, h1]
  · rw [h4.mpr hc] at h1
    simp [GenericGraph.diameter, h1]

example : exPath.WF ∧ exPath.diameter = .ok (some 3) ∧ exTail.diameter = .ok none := ⟨exPath_wf, by decide, by decide⟩

/-! ### C19 -/

/-- `longest_shortest_path_from_index` is the eccentricity within the component. -/
theorem C19_eccentricity {g : GenericGraph T A} (h : g.WF) (v : Nat) :
    (g.vertexCount ≤ v → g.longestShortestPathFromIndex v = .ok none) ∧
    (v < g.vertexCount → ∃ d, g.longestShortestPathFromIndex v = .ok (some d) ∧
      (∃ w, g.toSimple.Reachable v w ∧ g.toSimple.dist v w = d) ∧
      ∀ w, g.toSimple.Reachable v w → g.toSimple.dist v w ≤ d) := by
  refine ⟨fun hv => ?_, fun hv => longest_spec h hv⟩
  have hv' : ¬ v < g.nextId := by have : g.nextId ≤ v := hv; omega
  simp [GenericGraph.longestShortestPathFromIndex, bfs_out (g := g) hv']

example : exTail.WF ∧ exTail.longestShortestPathFromIndex 3 = .ok (some 2) ∧
    exTail.longestShortestPathFromIndex 2 = .ok (some 1) ∧ exTail.longestShortestPathFromIndex 5 = .ok none :=
  ⟨exTail_wf, by decide, by decide, by decide⟩

/-! ### C20 -/

theorem C20_q_core_none {g : GenericGraph T A} (q : Nat) (hq : q < 2 ∨ g.vertexCount = 0) : g.qCore q = .ok none := by
  unfold GenericGraph.qCore
  rw [if_pos hq]

/-- `q_core(q)` is the size of the largest connected piece of the maximal set in which every vertex has at least `q`
neighbours. -/
theorem C20_q_core {g : GenericGraph T A} (h : g.WF) {q : Nat} (hq : 2 ≤ q) (hn : 0 < g.vertexCount) :
    ∃ r K, g.qCore q = .ok (some r) ∧ QSet g q K ∧ (∀ S, QSet g q S → S ⊆ K) ∧
      (∀ v ∈ K, sizeWithin g K v ≤ r) ∧ (K = ∅ → r = 0) ∧ (K ≠ ∅ → ∃ v ∈ K, sizeWithin g K v = r) :=
  qCore_spec h hq hn

/-- Two disjoint triangles. -/
def exTwoTriangles : Graph Nat := exGraph 6 [[1, 2], [0, 2], [0, 1], [4, 5], [3, 5], [3, 4]]

theorem exTwoTriangles_wf : exTwoTriangles.WF := GenericGraph.wf_of_check _ (fun _ _ => trivial) (by decide)

/-- The documentation calls the result the "number of nodes in the biggest possible set of nodes, where all nodes from
the set are connected with at least `q` other nodes from the set".  For two disjoint triangles and `q = 2` this set has
6 vertices, the code returns 3. -/
theorem C20_doc_biggest_set_violation :
    QSet exTwoTriangles 2 (Finset.range 6) ∧ exTwoTriangles.qCore 2 = .ok (some 3) := by
  classical
  refine ⟨?_, by decide⟩
  intro v hv
  have hv6 : v < 6 := by simpa using hv
  refine ⟨hv6, ?_⟩
  have : (Finset.range 6).filter (fun w => exTwoTriangles.toSimple.Adj v w) =
      (Finset.range 6).filter (fun w => w ∈ exTwoTriangles.nbrs v) := by
    apply Finset.filter_congr
    intro w _
    exact exTwoTriangles_wf.adj_iff
  rw [this]
  have key : ∀ v < 6, 2 ≤ ((Finset.range 6).filter (fun w => w ∈ exTwoTriangles.nbrs v)).card := by decide
  convert key v hv6

example : exTail.WF ∧ 0 < exTail.vertexCount ∧ exTail.qCore 2 = .ok (some 3) ∧ exTail.qCore 3 = .ok (some 0) :=
  ⟨exTail_wf, by decide, by decide, by decide⟩

/-! ### C23 -/

open Classical in
/-- `closeness_centrality()[v]` is `(n - 1) / Σ_w dist(v, w)` over the vertices `w` reachable from `v` (numerator and
denominator are given as a pair). -/
theorem C23_closeness {g : GenericGraph T A} (h : g.WF) (hn : 0 < g.vertexCount) :
    ∃ L, g.closenessCentrality = .ok L ∧ L.length = g.vertexCount ∧
      ∀ v < g.vertexCount, L[v]? = some (g.vertexCount - 1,
        ∑ w ∈ (Finset.range g.vertexCount).filter (fun w => g.toSimple.Reachable v w), g.toSimple.dist v w) :=
  closeness_spec h hn

/-- On the graph without vertices a debug build panics. -/
theorem C23_closeness_empty_panics (g : GenericGraph T A) (hn : g.vertexCount = 0) : g.closenessCentrality = .panic := by
  simp [GenericGraph.closenessCentrality, hn, Res.sub]

example : exTail.WF ∧ 0 < exTail.vertexCount ∧
    exTail.closenessCentrality = .ok [(4, 4), (4, 4), (4, 3), (4, 5), (4, 0)] := ⟨exTail_wf, by decide, by decide⟩

/-! ### C24 -/

open Classical in
/-- `transitivity` is (closed ordered paths of length two) / (ordered paths of length two). -/
theorem C24_transitivity {g : GenericGraph T A} (h : g.WF) :
    g.transitivity = .ok
      ((((Finset.range g.vertexCount ×ˢ Finset.range g.vertexCount ×ˢ Finset.range g.vertexCount).filter
        (fun t => g.toSimple.Adj t.1 t.2.1 ∧ g.toSimple.Adj t.2.1 t.2.2 ∧ t.1 ≠ t.2.2 ∧ g.toSimple.Adj t.1 t.2.2)).card),
       (((Finset.range g.vertexCount ×ˢ Finset.range g.vertexCount ×ˢ Finset.range g.vertexCount).filter
        (fun t => g.toSimple.Adj t.1 t.2.1 ∧ g.toSimple.Adj t.2.1 t.2.2 ∧ t.1 ≠ t.2.2)).card)) :=
  transitivity_spec h

/-- The transitivity lies in `[0, 1]` when it is defined. -/
theorem C24_transitivity_le_one {g : GenericGraph T A} (h : g.WF) :
    ∃ c p, g.transitivity = .ok (c, p) ∧ c ≤ p ∧ (0 < p → 0 ≤ (c : ℚ) / p ∧ (c : ℚ) / p ≤ 1) := by
  classical
  refine ⟨_, _, transitivity_spec h, ?_, ?_⟩
  · apply Finset.card_le_card
    intro t ht
    simp only [Finset.mem_filter] at ht ⊢
    exact ⟨ht.1, ht.2.1, ht.2.2.1, ht.2.2.2.1⟩
  · intro hp
    refine ⟨div_nonneg (Nat.cast_nonneg _) (Nat.cast_nonneg _), ?_⟩
    rw [div_le_one (by exact_mod_cast hp)]
    norm_cast
    apply Finset.card_le_card
    intro t ht
    simp only [Finset.mem_filter] at ht ⊢
    exact ⟨ht.1, ht.2.1, ht.2.2.1, ht.2.2.2.1⟩

example : exTail.WF ∧ exTail.transitivity = .ok (6, 10) := ⟨exTail_wf, by decide⟩

/-! ### C28, first part -/

open Classical in
/-- `suggest_connections` returns exactly one vertex of every component: the smallest ones, in ascending order. -/
theorem C28_suggest_connections {g : GenericGraph T A} (h : g.WF) :
    ∃ reps, g.suggestConnections = .ok reps ∧ reps.Nodup ∧ (∀ r ∈ reps, r < g.vertexCount) ∧
      (∀ r ∈ reps, ∀ r' ∈ reps, g.toSimple.Reachable r r' → r = r') ∧
      (∀ v < g.vertexCount, ∃ r ∈ reps, g.toSimple.Reachable r v) ∧ reps.length = (componentSet g).card ∧
      reps = (List.range g.vertexCount).filter (fun v => IsFirst g.toSimple v) := by
  obtain ⟨k, comp, reps, h1, _, h3⟩ := suggestConnections_spec h
  obtain ⟨e1, e2, e3, e4⟩ := h3.reps_spec
  refine ⟨reps, h1, e1, e2, e3, e4, ?_, h3.first⟩
  have := congrArg Multiset.card h3.componentSet_val
  simpa using this.symm

example : exTail.WF ∧ exTail.suggestConnections = .ok [0, 4] := ⟨exTail_wf, by decide⟩

end Verif
