import Verif.Props.Edit
import Mathlib.Combinatorics.SimpleGraph.Finite

/-!
# C26: degree statistics
-/

set_option linter.unusedSectionVars false
set_option linter.unusedSimpArgs false

namespace Verif
open AdjContainer GenericGraph
open scoped BigOperators

variable {T A : Type} [AdjContainer T A] [LawfulAdj T A]

theorem nbrs_ncard {g : GenericGraph T A} (h : g.WF) (i : Nat) :
    (g.nbrs i).length = {w | g.toSimple.Adj i w}.ncard := by
  have : {w | g.toSimple.Adj i w} = ((g.nbrs i).toFinset : Set ℕ) := by
    ext w; simp [h.adj_iff]
  rw [this, Set.ncard_coe_finset, List.toFinset_card_of_nodup (h.nodup i)]

theorem degreeVec_eq {g : GenericGraph T A} (h : g.WF) :
    g.degreeVec = (List.range g.nextId).map (fun i => (g.nbrs i).length) := by
  apply List.ext_getElem
  · simp [GenericGraph.degreeVec, h.len]
  · intro i h1 h2
    simp [GenericGraph.degreeVec] at h1
    simp [GenericGraph.degreeVec, LawfulAdj.degree_eq, nbrs_getElem h1]

/-- **C26.** `degree(v)` is `None` exactly for a non-existing vertex and otherwise the number of vertices adjacent
to `v`; `degree_vec` lists the degrees in order; their sum is twice the number of edges of the graph, and
`edge_count` is that number. -/
theorem C26_degrees {g : GenericGraph T A} (h : g.WF) :
    (∀ v, g.degree v = if v < g.vertexCount then some {w | g.toSimple.Adj v w}.ncard else none) ∧
    (g.degreeVec = (List.range g.vertexCount).map (fun v => {w | g.toSimple.Adj v w}.ncard)) ∧
    (g.degreeVec.sum = 2 * g.edgeCount) ∧
    (g.edgeCount = g.toSimple.edgeSet.ncard) := by
  refine ⟨?_, ?_, ?_, ?_⟩
  · intro v
    by_cases hv : v < g.nextId
    · rw [degree_spec h hv, nbrs_ncard h, if_pos (show v < g.vertexCount from hv)]
    · have h1 : g.vertices[v]? = none := by simp [h.len]; omega
      simp [GenericGraph.degree, h1, GenericGraph.vertexCount, hv]
  · rw [degreeVec_eq h]
    exact List.map_congr_left (fun i _ => nbrs_ncard h i)
  · rw [degreeVec_eq h, list_sum_range, h.count]
  · have : g.toSimple.edgeSet = (g.edges : Set (Sym2 ℕ)) := by
      ext e
      induction e with
      | _ i j => rw [SimpleGraph.mem_edgeSet, h.adj_iff, Finset.mem_coe, h.mem_edges]
    rw [this, Set.ncard_coe_finset, h.edgeCount_eq_card]

/-- **C26.** `average_degree` (exact arithmetic) is twice the number of edges over the number of vertices. -/
theorem C26_average_degree {g : GenericGraph T A} (h : g.WF) :
    g.averageDegree = if g.vertexCount = 0 then none else
      some ((2 * g.toSimple.edgeSet.ncard : ℚ) / g.vertexCount) := by
  unfold GenericGraph.averageDegree
  rw [(C26_degrees h).2.2.2]

/-- **C26.** `leaf_count` counts the vertices with exactly one neighbour. -/
theorem C26_leaf_count {g : GenericGraph T A} (h : g.WF) :
    g.leafCount = {v | v < g.vertexCount ∧ {w | g.toSimple.Adj v w}.ncard = 1}.ncard := by
  have h1 : g.leafCount = ((List.range g.nextId).filter (fun i => (g.nbrs i).length == 1)).length := by
    unfold GenericGraph.leafCount
    rw [← List.countP_eq_length_filter, ← List.countP_eq_length_filter]
    have := degreeVec_eq h
    unfold GenericGraph.degreeVec at this
    have h2 : (g.vertices.map AdjContainer.degree).countP (fun d => d == 1) =
        ((List.range g.nextId).map (fun i => (g.nbrs i).length)).countP (fun d => d == 1) := by rw [this]
    rw [List.countP_map, List.countP_map] at h2
    exact h2
  rw [h1]
  have h3 : {v | v < g.vertexCount ∧ {w | g.toSimple.Adj v w}.ncard = 1} =
      (((List.range g.nextId).filter (fun i => (g.nbrs i).length == 1)).toFinset : Set ℕ) := by
    ext v; simp [GenericGraph.vertexCount, nbrs_ncard h]
  rw [h3, Set.ncard_coe_finset, List.toFinset_card_of_nodup (List.nodup_range.filter _)]

/-! ### Histogram -/

theorem histMinMax_spec : ∀ (l : List Nat) (a b : Nat), a ≤ b →
    (histMinMax l (a, b)).1 ≤ a ∧ b ≤ (histMinMax l (a, b)).2 ∧
    (∀ v ∈ l, (histMinMax l (a, b)).1 ≤ v ∧ v ≤ (histMinMax l (a, b)).2) ∧
    ((histMinMax l (a, b)).1 = a ∨ (histMinMax l (a, b)).1 ∈ l) ∧
    ((histMinMax l (a, b)).2 = b ∨ (histMinMax l (a, b)).2 ∈ l) := by
  intro l
  induction l with
  | nil => intro a b h; simp [histMinMax]
  | cons v l ih =>
    intro a b hab
    rw [histMinMax]
    split
    · obtain ⟨h1, h2, h3, h4, h5⟩ := ih v b (by omega)
      refine ⟨by omega, h2, ?_, ?_, ?_⟩
      · intro w hw
        rcases List.mem_cons.mp hw with rfl | hw
        · omega
        · exact h3 w hw
      · rcases h4 with h4 | h4 <;> simp [h4]
      · rcases h5 with h5 | h5 <;> simp [h5]
    · split
      · obtain ⟨h1, h2, h3, h4, h5⟩ := ih a v (by omega)
        refine ⟨h1, by omega, ?_, ?_, ?_⟩
        · intro w hw
          rcases List.mem_cons.mp hw with rfl | hw
          · omega
          · exact h3 w hw
        · rcases h4 with h4 | h4 <;> simp [h4]
        · rcases h5 with h5 | h5 <;> simp [h5]
      · obtain ⟨h1, h2, h3, h4, h5⟩ := ih a b hab
        refine ⟨h1, h2, ?_, ?_, ?_⟩
        · intro w hw
          rcases List.mem_cons.mp hw with rfl | hw
          · omega
          · exact h3 w hw
        · rcases h4 with h4 | h4 <;> simp [h4]
        · rcases h5 with h5 | h5 <;> simp [h5]

theorem histFill_spec : ∀ (l : List Nat) (hst : Hist), (∀ v ∈ l, hst.left ≤ v ∧ v ≤ hst.right) →
    hst.bins.length = hst.right - hst.left + 1 →
    ∃ h', histFill l hst = .ok h' ∧ h'.left = hst.left ∧ h'.right = hst.right ∧
      h'.bins.length = hst.bins.length ∧
      ∀ d, hst.left ≤ d → d ≤ hst.right → h'.bins[d - hst.left]? = (hst.bins[d - hst.left]?).map (· + l.count d) := by
  intro l
  induction l with
  | nil =>
    intro hst _ _
    refine ⟨hst, rfl, rfl, rfl, rfl, fun d _ _ => ?_⟩
    cases hst.bins[d - hst.left]? <;> simp
  | cons v l ih =>
    intro hst hv hl
    have hv0 := hv v (by simp)
    obtain ⟨h', e1, e2, e3, e4, e5⟩ := ih { hst with bins := hst.bins.modify (v - hst.left) (· + 1) }
      (fun w hw => hv w (by simp [hw])) (by simpa using hl)
    refine ⟨h', ?_, e2, e3, by simpa using e4, ?_⟩
    · simp [histFill, Hist.countVal, hv0, e1]
    · intro d hd1 hd2
      rw [e5 d hd1 hd2, List.getElem?_modify]
      by_cases hdv : v = d
      · subst hdv
        cases hst.bins[v - hst.left]? <;> simp; omega
      · have : ¬ v - hst.left = d - hst.left := by omega
        simp [this, List.count_cons, hdv]

/-- **C26.** `degree_histogram` panics exactly on the graph without vertices; otherwise it returns a histogram over
the range from the smallest to the largest degree in which the bin of `d` is the number of vertices of degree `d`. -/
theorem C26_degree_histogram {g : GenericGraph T A} (h : g.WF) :
    (g.vertexCount = 0 → g.degreeHistogram = .panic) ∧
    (0 < g.vertexCount → ∃ hist, g.degreeHistogram = .ok hist ∧
      (∀ d, hist.left ≤ d → d ≤ hist.right →
        hist.bins[d - hist.left]? = some {v | v < g.vertexCount ∧ {w | g.toSimple.Adj v w}.ncard = d}.ncard) ∧
      (∀ v < g.vertexCount, hist.left ≤ {w | g.toSimple.Adj v w}.ncard ∧ {w | g.toSimple.Adj v w}.ncard ≤ hist.right) ∧
      hist.bins.length = hist.right - hist.left + 1 ∧
      (∃ v < g.vertexCount, {w | g.toSimple.Adj v w}.ncard = hist.left) ∧
      (∃ v < g.vertexCount, {w | g.toSimple.Adj v w}.ncard = hist.right)) := by
  have hdv := (C26_degrees h).2.1
  constructor
  · intro h0
    unfold GenericGraph.degreeHistogram
    rw [hdv, h0]; rfl
  · intro hpos
    have hdv2 := hdv
    cases hD : g.degreeVec with
    | nil =>
      rw [hD] at hdv
      have := congrArg List.length hdv
      simp at this; omega
    | cons f rest =>
      obtain ⟨m1, m2, m3, m4, m5⟩ := histMinMax_spec rest f f (le_refl _)
      set mm := histMinMax rest (f, f) with hmm
      have hin : ∀ v ∈ f :: rest, mm.1 ≤ v ∧ v ≤ mm.2 := by
        intro v hv
        rcases List.mem_cons.mp hv with rfl | hv
        · omega
        · exact m3 v hv
      obtain ⟨h', e1, e2, e3, e4, e5⟩ := histFill_spec (f :: rest)
        { left := mm.1, right := mm.2, bins := List.replicate (mm.2 - mm.1 + 1) 0 } hin (by simp)
      have hmem : ∀ d, d ∈ f :: rest → ∃ v < g.vertexCount, {w | g.toSimple.Adj v w}.ncard = d := by
        intro d hd
        rw [← hD, hdv2] at hd
        obtain ⟨v, hv, rfl⟩ := List.mem_map.mp hd
        exact ⟨v, by simpa using hv, rfl⟩
      refine ⟨h', ?_, ?_, ?_, ?_, ?_, ?_⟩
      · have hle : mm.1 ≤ mm.2 := by omega
        simp only [GenericGraph.degreeHistogram, hD]
        rw [← hmm]
        obtain ⟨a, b⟩ := mm
        simp only at hle e1 ⊢
        rw [if_pos hle, e1]
      · intro d hd1 hd2
        rw [e2] at hd1 ⊢; rw [e3] at hd2
        simp only at hd1 hd2 e5
        rw [e5 d hd1 hd2, List.getElem?_replicate, if_pos (by omega)]
        simp only [Option.map_some, Nat.zero_add]
        congr 1
        rw [← hD, hdv2, List.count_eq_countP, List.countP_map, List.countP_eq_length_filter]
        have h3 : {v | v < g.vertexCount ∧ {w | g.toSimple.Adj v w}.ncard = d} =
          (((List.range g.vertexCount).filter ((fun x => x == d) ∘ fun v => {w | g.toSimple.Adj v w}.ncard)).toFinset : Set ℕ) := by
          ext v; simp
        rw [h3, Set.ncard_coe_finset, List.toFinset_card_of_nodup (List.nodup_range.filter _)]
      · intro v hv
        rw [e2, e3]
        apply hin
        rw [← hD, hdv2]
        exact List.mem_map.mpr ⟨v, by simpa using hv, rfl⟩
      · rw [e4, e2, e3]; simp
      · rw [e2]
        refine hmem _ ?_
        rcases m4 with m4 | m4
        · simp only; rw [m4]; simp
        · exact List.mem_cons_of_mem _ m4
      · rw [e3]
        refine hmem _ ?_
        rcases m5 with m5 | m5
        · simp only; rw [m5]; simp
        · exact List.mem_cons_of_mem _ m5

example : exTail.WF ∧ 0 < exTail.vertexCount ∧ exTail.degreeVec = [2, 2, 3, 1, 0] ∧ exTail.leafCount = 1 ∧
    exTail.degreeHistogram = .ok ⟨0, 3, [1, 1, 2, 1]⟩ := ⟨exTail_wf, by decide, by decide, by decide, by decide⟩

end Verif
