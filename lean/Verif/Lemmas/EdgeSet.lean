import Verif.Lemmas.Ops
import Mathlib.Combinatorics.Enumerative.DoubleCounting
import Mathlib.Data.Finset.Card

/-!
# The edge set of a graph
-/

set_option linter.unusedSectionVars false
set_option linter.unusedSimpArgs false

namespace Verif
open AdjContainer
open scoped BigOperators

namespace GenericGraph
variable {T A : Type} [AdjContainer T A]

theorem mem_edges_iff {g : GenericGraph T A} {e : Sym2 ℕ} :
    e ∈ g.edges ↔ ∃ i j, i < g.nextId ∧ j ∈ g.nbrs i ∧ e = s(i, j) := by
  simp only [edges, Finset.mem_biUnion, Finset.mem_range, Finset.mem_image, List.mem_toFinset]
  constructor
  · rintro ⟨i, hi, j, hj, rfl⟩; exact ⟨i, j, hi, hj, rfl⟩
  · rintro ⟨i, j, hi, hj, rfl⟩; exact ⟨i, hi, j, hj, rfl⟩

variable [LawfulAdj T A]

theorem WF.mem_edges {g : GenericGraph T A} (h : g.WF) {i j : Nat} : s(i, j) ∈ g.edges ↔ j ∈ g.nbrs i := by
  rw [mem_edges_iff]
  constructor
  · rintro ⟨a, b, _, hb, he⟩
    rw [Sym2.eq_iff] at he
    rcases he with ⟨rfl, rfl⟩ | ⟨rfl, rfl⟩
    · exact hb
    · exact h.symm _ _ hb
  · intro hj; exact ⟨i, j, h.lt_left hj, hj, rfl⟩

theorem WF.edges_eq_of {g : GenericGraph T A} (h : g.WF) {S : Finset (Sym2 ℕ)}
    (hS : ∀ i j, s(i, j) ∈ S ↔ j ∈ g.nbrs i) : g.edges = S := by
  ext e
  induction e with
  | _ i j => rw [h.mem_edges, hS]

theorem WF.edges_filter {g : GenericGraph T A} (h : g.WF) (i : Nat) :
    (g.edges.filter (fun e => i ∈ e)) = (g.nbrs i).toFinset.image (fun j => s(i, j)) := by
  ext e
  simp only [Finset.mem_filter, Finset.mem_image, List.mem_toFinset]
  constructor
  · rintro ⟨he, hi⟩
    obtain ⟨j, rfl⟩ := Sym2.mem_iff_exists.mp hi
    exact ⟨j, h.mem_edges.mp he, rfl⟩
  · rintro ⟨j, hj, rfl⟩
    exact ⟨h.mem_edges.mpr hj, by simp⟩

/-- The degree is the number of edges at the vertex. -/
theorem WF.degree_eq_card {g : GenericGraph T A} (h : g.WF) (i : Nat) :
    (g.nbrs i).length = (g.edges.filter (fun e => i ∈ e)).card := by
  rw [h.edges_filter, Finset.card_image_of_injective, List.toFinset_card_of_nodup (h.nodup i)]
  intro a b hab
  exact Sym2.congr_right.mp hab

/-- The edge counter is the number of edges. -/
theorem WF.edgeCount_eq_card {g : GenericGraph T A} (h : g.WF) : g.edgeCount = g.edges.card := by
  have h1 := h.count
  rw [Finset.sum_congr rfl (fun i _ => h.degree_eq_card i)] at h1
  have h2 := Finset.sum_card_bipartiteAbove_eq_sum_card_bipartiteBelow (s := Finset.range g.nextId) (t := g.edges)
    (fun i e => i ∈ e)
  simp only [Finset.bipartiteAbove, Finset.bipartiteBelow] at h2
  rw [h2] at h1
  have h3 : ∀ e ∈ g.edges, ((Finset.range g.nextId).filter (fun i => i ∈ e)).card = 2 := by
    intro e he
    obtain ⟨i, j, hi, hj, rfl⟩ := mem_edges_iff.mp he
    have : (Finset.range g.nextId).filter (fun k => k ∈ s(i, j)) = {i, j} := by
      ext k
      simp only [Finset.mem_filter, Finset.mem_range, Sym2.mem_iff, Finset.mem_insert, Finset.mem_singleton]
      constructor
      · exact fun h => h.2
      · rintro (rfl | rfl)
        · exact ⟨hi, Or.inl rfl⟩
        · exact ⟨h.lt _ _ hj, Or.inr rfl⟩
    rw [this, Finset.card_pair (h.ne hj)]
  rw [Finset.sum_congr rfl h3] at h1
  simp at h1
  omega

theorem WF.edges_not_diag {g : GenericGraph T A} (h : g.WF) {e : Sym2 ℕ} (he : e ∈ g.edges) : ¬ e.IsDiag := by
  obtain ⟨i, j, _, hj, rfl⟩ := mem_edges_iff.mp he
  simpa using h.ne hj

theorem TopoEq.edges_eq {g g' : GenericGraph T A} (t : TopoEq g g') : g'.edges = g.edges := by
  ext e
  simp only [mem_edges_iff, t.n, t.adj]

theorem WF.topoEq_of_edges {g g' : GenericGraph T A} (h : g.WF) (h' : g'.WF) (hn : g'.nextId = g.nextId)
    (he : g'.edges = g.edges) : TopoEq g g' :=
  ⟨hn, by rw [h.edgeCount_eq_card, h'.edgeCount_eq_card, he], fun i j => by
    rw [← h.mem_edges, ← h'.mem_edges, he]⟩

theorem WF.nbrs_perm {g g' : GenericGraph T A} (h : g.WF) (h' : g'.WF) (t : TopoEq g g') (i : Nat) :
    (g'.nbrs i).Perm (g.nbrs i) :=
  (List.perm_ext_iff_of_nodup (h'.nodup i) (h.nodup i)).mpr (fun j => t.adj i j)

/-- `add_edge` on the edge set. -/
theorem addEdge_edges {g : GenericGraph T A} (h : g.WF) {i j : Nat} (hi : i < g.nextId) (hj : j < g.nextId)
    (hij : i ≠ j) (hnew : s(i, j) ∉ g.edges) :
    ∃ g', g.addEdge i j = .ok (.ok (), g') ∧ g'.WF ∧ g'.nextId = g.nextId ∧ g'.edgeCount = g.edgeCount + 1 ∧
      g'.edges = insert s(i, j) g.edges ∧ g'.data = g.data := by
  rw [h.mem_edges] at hnew
  obtain ⟨g', h1, h2, h3, h4, h5, h6⟩ := addEdge_spec h hi hj hij hnew
  refine ⟨g', h1, h2, h3, h4, ?_, h6⟩
  apply h2.edges_eq_of
  intro a b
  rw [Finset.mem_insert, h.mem_edges, h5, Sym2.eq_iff]
  tauto

/-- `remove_edge` on the edge set. -/
theorem removeEdge_edges {g : GenericGraph T A} (h : g.WF) {i j : Nat} (hex : s(i, j) ∈ g.edges) :
    ∃ g', g.removeEdge i j = .ok (.ok (), g') ∧ g'.WF ∧ g'.nextId = g.nextId ∧ g'.edgeCount + 1 = g.edgeCount ∧
      g'.edges = g.edges.erase s(i, j) ∧ g'.data = g.data := by
  rw [h.mem_edges] at hex
  obtain ⟨g', h1, h2, h3, h4, h5, h6⟩ := removeEdge_spec h hex
  refine ⟨g', h1, h2, h3, h4, ?_, h6⟩
  apply h2.edges_eq_of
  intro a b
  rw [Finset.mem_erase, h.mem_edges, h5, Ne, Sym2.eq_iff]
  tauto

end GenericGraph
end Verif
