import Verif.Lemmas.Ring
import Mathlib.Algebra.BigOperators.Intervals

/-!
# Concrete graphs for the non-vacuity examples

A Boolean check that implies `WF`; used only to exhibit concrete graphs in `example`s.
-/

set_option linter.unusedSectionVars false

namespace Verif
open AdjContainer
open scoped BigOperators

theorem list_sum_range (n : Nat) (f : Nat → Nat) : ((List.range n).map f).sum = ∑ i ∈ Finset.range n, f i := by
  induction n with
  | zero => simp
  | succ n ih => rw [List.range_succ, Finset.sum_range_succ]; simp [ih]

namespace GenericGraph
variable {T A : Type} [AdjContainer T A] [LawfulAdj T A]

/-- Boolean version of the invariant (without the container invariants). -/
def check (g : GenericGraph T A) : Bool :=
  decide (g.vertices.length = g.nextId) &&
  (List.range g.nextId).all (fun i => (g.vertices[i]?.map AdjContainer.id) == some i) &&
  (List.range g.nextId).all (fun i => (g.nbrs i).all (fun j => decide (j < g.nextId) && j != i && (g.nbrs j).contains i)) &&
  (List.range g.nextId).all (fun i => decide (g.nbrs i).Nodup) &&
  decide (((List.range g.nextId).map (fun i => (g.nbrs i).length)).sum = 2 * g.edgeCount)

theorem wf_of_check (g : GenericGraph T A) (hinv : ∀ a ∈ g.vertices, LawfulAdj.inv a) (h : g.check = true) : g.WF := by
  unfold check at h
  simp only [Bool.and_eq_true, decide_eq_true_eq, List.all_eq_true, List.mem_range, beq_iff_eq, bne_iff_ne,
    List.contains_iff_mem] at h
  obtain ⟨⟨⟨⟨h1, h2⟩, h3⟩, h4⟩, h5⟩ := h
  have hz : ∀ i, ¬ i < g.nextId → g.nbrs i = [] := fun i hi => nbrs_of_ge (by omega)
  refine ⟨h1, ?_, hinv, ?_, ?_, ?_, ?_, ?_⟩
  · intro i a ha
    have hi : i < g.nextId := by
      rw [← h1]; exact (List.getElem?_eq_some_iff.mp ha).1
    have := h2 i hi
    rw [ha] at this; simpa using this
  · intro i j hj
    by_cases hi : i < g.nextId
    · exact (h3 i hi j hj).1.1
    · rw [hz i hi] at hj; simp at hj
  · intro i hi'
    by_cases hi : i < g.nextId
    · exact (h3 i hi i hi').1.2 rfl
    · rw [hz i hi] at hi'; simp at hi'
  · intro i
    by_cases hi : i < g.nextId
    · exact h4 i hi
    · rw [hz i hi]; simp
  · intro i j hj
    by_cases hi : i < g.nextId
    · exact (h3 i hi j hj).2
    · rw [hz i hi] at hj; simp at hj
  · rw [← h5, list_sum_range]

end GenericGraph

/-- Vertex with data `i*10`. -/
def exNode (i : Nat) (adj : List Nat) : NodeContainer Nat := ⟨i, adj, 10 * i⟩

/-- Build a concrete `Graph` from neighbour lists. -/
def exGraph (ec : Nat) (adjs : List (List Nat)) : Graph Nat :=
  ⟨adjs.length, ec, adjs.zipIdx.map (fun p => exNode p.2 p.1)⟩

/-- A triangle `0,1,2` with a tail `2-3` and an isolated vertex `4`. -/
def exTail : Graph Nat := exGraph 4 [[1, 2], [0, 2], [1, 0, 3], [2], []]

/-- The path `0-1-2-3`. -/
def exPath : Graph Nat := exGraph 3 [[1], [0, 2], [1, 3], [2]]

theorem exTail_wf : exTail.WF := GenericGraph.wf_of_check _ (fun _ _ => trivial) (by decide)
theorem exPath_wf : exPath.WF := GenericGraph.wf_of_check _ (fun _ _ => trivial) (by decide)

instance : Node Nat := ⟨fun i => i⟩

/-- A generator reading a tape of numbers: the concrete instance of `Rng` used in examples. -/
structure Tape where
  pos : Nat
  tape : Nat → Nat

instance : Rng Tape where
  genRange t h := (t.tape t.pos % h, { t with pos := t.pos + 1 })
  genRange_lt t h hh := Nat.mod_lt _ hh
  genUnit t := (t.tape t.pos % 2 ^ 53, { t with pos := t.pos + 1 })
  genUnit_lt t := Nat.mod_lt _ (by decide)
  shuffle t l := (if t.tape t.pos % 2 = 0 then l else l.reverse, { t with pos := t.pos + 1 })
  shuffle_perm t l := by
    dsimp only; split
    · exact List.Perm.refl _
    · exact List.reverse_perm l

end Verif
