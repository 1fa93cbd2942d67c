import Verif.Lemmas.EdgeSet

/-!
# `add_edge` and `remove_edge` on arbitrary pairs: results, edge set and degrees
-/

set_option linter.unusedSectionVars false
set_option linter.unusedSimpArgs false

namespace Verif
open AdjContainer
open scoped BigOperators

namespace GenericGraph
variable {T A : Type} [AdjContainer T A] [LawfulAdj T A]

/-- Number of edges of `e` at `v`: the contribution of an edge to the degree of a vertex. -/
def inc (v : Nat) (i j : Nat) : Nat := (if v = i then 1 else 0) + (if v = j then 1 else 0)

/-- Number of edges of a set at `v`. -/
def degOf (E : Finset (Sym2 ℕ)) (v : Nat) : Nat := (E.filter (fun e => v ∈ e)).card

theorem degOf_insert {E : Finset (Sym2 ℕ)} {i j : Nat} (hij : i ≠ j) (hnew : s(i, j) ∉ E) (v : Nat) :
    degOf (insert s(i, j) E) v = degOf E v + inc v i j := by
  unfold degOf
  rw [Finset.filter_insert]
  split
  · rename_i hv
    rw [Finset.card_insert_of_notMem (by simp [hnew])]
    rw [Sym2.mem_iff] at hv
    unfold inc
    rcases hv with rfl | rfl
    · simp [hij]
    · simp [Ne.symm hij]
  · rename_i hv
    rw [Sym2.mem_iff, not_or] at hv
    simp [inc, hv.1, hv.2]

theorem degOf_erase {E : Finset (Sym2 ℕ)} {i j : Nat} (hij : i ≠ j) (hex : s(i, j) ∈ E) (v : Nat) :
    degOf (E.erase s(i, j)) v + inc v i j = degOf E v := by
  rw [← degOf_insert hij (by simp), Finset.insert_erase hex]

theorem WF.deg_eq {g : GenericGraph T A} (h : g.WF) (v : Nat) : (g.nbrs v).length = degOf g.edges v := h.degree_eq_card v

theorem deg_insert {g g' : GenericGraph T A} (h : g.WF) (h' : g'.WF) {i j : Nat} (hij : i ≠ j)
    (hnew : s(i, j) ∉ g.edges) (he : g'.edges = insert s(i, j) g.edges) (v : Nat) :
    (g'.nbrs v).length = (g.nbrs v).length + inc v i j := by
  rw [h.deg_eq, h'.deg_eq, he, degOf_insert hij hnew]

theorem deg_erase {g g' : GenericGraph T A} (h : g.WF) (h' : g'.WF) {i j : Nat}
    (hex : s(i, j) ∈ g.edges) (he : g'.edges = g.edges.erase s(i, j)) (v : Nat) :
    (g'.nbrs v).length + inc v i j = (g.nbrs v).length := by
  rw [h.deg_eq, h'.deg_eq, he, degOf_erase (h.ne (h.mem_edges.mp hex)) hex]

/-- `add_edge` for any two different vertices. -/
theorem addEdge_any {g : GenericGraph T A} (h : g.WF) {i j : Nat} (hi : i < g.nextId) (hj : j < g.nextId)
    (hij : i ≠ j) :
    (s(i, j) ∈ g.edges ∧ g.addEdge i j = .ok (.error .edgeExists, g)) ∨
    (s(i, j) ∉ g.edges ∧ ∃ g', g.addEdge i j = .ok (.ok (), g') ∧ g'.WF ∧ g'.nextId = g.nextId ∧
      g'.edges = insert s(i, j) g.edges ∧ g'.data = g.data) := by
  by_cases hex : s(i, j) ∈ g.edges
  · exact .inl ⟨hex, addEdge_exists h (h.mem_edges.mp hex)⟩
  · obtain ⟨g', h1, h2, h3, _, h5, h6⟩ := addEdge_edges h hi hj hij hex
    exact .inr ⟨hex, g', h1, h2, h3, h5, h6⟩

/-- `remove_edge` for any two different vertices. -/
theorem removeEdge_any {g : GenericGraph T A} (h : g.WF) {i j : Nat} (hi : i < g.nextId) (hj : j < g.nextId)
    (hij : i ≠ j) :
    (s(i, j) ∉ g.edges ∧ g.removeEdge i j = .ok (.error .edgeDoesNotExist, g)) ∨
    (s(i, j) ∈ g.edges ∧ ∃ g', g.removeEdge i j = .ok (.ok (), g') ∧ g'.WF ∧ g'.nextId = g.nextId ∧
      g'.edges = g.edges.erase s(i, j) ∧ g'.data = g.data) := by
  by_cases hex : s(i, j) ∈ g.edges
  · obtain ⟨g', h1, h2, h3, _, h5, h6⟩ := removeEdge_edges h hex
    exact .inr ⟨hex, g', h1, h2, h3, h5, h6⟩
  · exact .inl ⟨hex, removeEdge_absent h hi hj hij (fun hc => hex (h.mem_edges.mpr hc))⟩

theorem WF.mem_lt {g : GenericGraph T A} (h : g.WF) {i j : Nat} (he : s(i, j) ∈ g.edges) :
    i < g.nextId ∧ j < g.nextId ∧ i ≠ j := by
  rw [h.mem_edges] at he
  exact ⟨h.lt_left he, h.lt _ _ he, h.ne he⟩

theorem clearEdges_edges {g : GenericGraph T A} (h : g.WF) : g.clearEdges.edges = ∅ := by
  apply (clearEdges_wf h).edges_eq_of
  intro i j
  simp [clearEdges_nbrs h]

theorem degreeVec_getElem? (g : GenericGraph T A) (h : g.WF) (i : Nat) :
    g.degreeVec[i]? = if i < g.nextId then some (g.nbrs i).length else none := by
  unfold degreeVec
  rw [List.getElem?_map]
  split
  · rename_i hi
    have := h.lt_length hi
    rw [List.getElem?_eq_getElem this, nbrs_getElem this]
    simp [LawfulAdj.degree_eq]
  · rename_i hi
    rw [List.getElem?_eq_none (by rw [h.len]; omega)]
    rfl

/-- The degree vector is determined by the numbers of neighbours. -/
theorem degreeVec_eq_iff {g : GenericGraph T A} (h : g.WF) (d : List Nat) :
    g.degreeVec = d ↔ g.nextId = d.length ∧ ∀ i, i < g.nextId → (g.nbrs i).length = d.getD i 0 := by
  constructor
  · rintro rfl
    refine ⟨by simp [degreeVec, h.len], fun i hi => ?_⟩
    have := degreeVec_getElem? g h i
    rw [if_pos hi] at this
    simp [List.getD_eq_getElem?_getD, this]
  · rintro ⟨h1, h2⟩
    apply List.ext_getElem?
    intro i
    rw [degreeVec_getElem? g h i]
    split
    · rename_i hi
      rw [h2 i hi, List.getD_eq_getElem?_getD, List.getElem?_eq_getElem (by omega)]
      rfl
    · rw [List.getElem?_eq_none (by omega)]

end GenericGraph
end Verif
