import Verif.Model.Access
import Verif.Lemmas.Ops
import Verif.Props.Sw

/-!
# C110: all ways to the data at the vertices agree
-/

set_option linter.unusedSectionVars false
set_option linter.unusedSimpArgs false

namespace Verif
open AdjContainer GenericGraph

variable {T A : Type} [AdjContainer T A] [LawfulAdj T A]

/-- For a vertex of the graph `at`, `at_checked`, `get_contained` and `get_contained_unchecked` all give the value stored there; for any
other index they panic, give `None`, give `None` and are undefined behaviour. -/
theorem C110_readers_agree {g : GenericGraph T A} (h : g.WF) (i : Nat) :
    (∀ _ : i < g.vertexCount, ∃ t, g.data[i]? = some t ∧ g.at_ i = .ok t ∧ g.atChecked i = some t ∧
      g.getContained i = some t ∧ g.getContainedUnchecked i = .ok t) ∧
    (∀ _ : ¬ i < g.vertexCount, g.data[i]? = none ∧ g.at_ i = .panic ∧ g.atChecked i = none ∧
      g.getContained i = none ∧ g.getContainedUnchecked i = .ub) := by
  constructor
  · intro hi
    have hl := h.lt_length hi
    refine ⟨contained g.vertices[i], ?_, ?_, ?_, ?_, ?_⟩
    · simp [data, hl]
    · simp [at_, container, Vec.idx_of_lt hl]
    · simp [atChecked, containerChecked, hl]
    · simp [getContained, hl]
    · simp only [getContainedUnchecked, Rel.deref, List.getElem?_eq_getElem hl]; rfl
  · intro hi
    have hl : g.vertices.length ≤ i := by
      have := h.len; have : ¬ i < g.nextId := hi; omega
    have hn : g.vertices[i]? = none := List.getElem?_eq_none hl
    refine ⟨?_, ?_, ?_, ?_, ?_⟩
    · simp [data, hl]
    · simp [at_, container, Vec.idx, hn]
    · simp [atChecked, containerChecked, hn]
    · simp [getContained, hn]
    · simp only [getContainedUnchecked, Rel.deref, hn]; rfl

/-- For a vertex of the graph an assignment through `at_mut`, `get_contained_mut` and `get_contained_unchecked_mut` gives one and the
same graph: only the value at that vertex is new, the topology is as before.  For any other index they panic, give `None` and are
undefined behaviour. -/
theorem C110_writers_agree {g : GenericGraph T A} (h : g.WF) (i : Nat) (t : T) :
    (∀ _ : i < g.vertexCount, ∃ g', g.setAt i t = .ok g' ∧ g.setContainedMut i t = some g' ∧
      g.setContainedUnchecked i t = .ok g' ∧ g'.WF ∧ g'.vertexCount = g.vertexCount ∧ g'.edgeCount = g.edgeCount ∧
      (∀ k, g'.nbrs k = g.nbrs k) ∧ g'.getContained i = some t ∧ ∀ k, k ≠ i → g'.getContained k = g.getContained k) ∧
    (∀ _ : ¬ i < g.vertexCount, g.setAt i t = .panic ∧ g.setContainedMut i t = none ∧ g.setContainedUnchecked i t = .ub) := by
  constructor
  · intro hi
    have hl := h.lt_length hi
    obtain ⟨g', a1, a2, a3, a4, a5, a6⟩ := setAt_spec h hi t
    have e : g' = { g with vertices := g.vertices.set i (setContained g.vertices[i] t) } := by
      simp [setAt, container, Vec.idx_of_lt hl] at a1; exact a1.symm
    have hd : ∀ k, g'.getContained k = g'.data[k]? := fun k => by simp [getContained, data]
    have hd' : ∀ k, g.getContained k = g.data[k]? := fun k => by simp [getContained, data]
    refine ⟨g', a1, ?_, ?_, a2, a3, a4, a5, ?_, ?_⟩
    · simp [setContainedMut, hl, e]
    · simp only [setContainedUnchecked, Rel.deref, List.getElem?_eq_getElem hl, e]; rfl
    · rw [hd, a6]; simp [data, hl]
    · intro k hk; rw [hd, hd', a6, List.getElem?_set_ne (Ne.symm hk)]
  · intro hi
    have hl : g.vertices.length ≤ i := by
      have := h.len; have : ¬ i < g.nextId := hi; omega
    have hn : g.vertices[i]? = none := List.getElem?_eq_none hl
    refine ⟨?_, ?_, ?_⟩
    · simp [setAt, container, Vec.idx, hn]
    · simp [setContainedMut, hn]
    · simp only [setContainedUnchecked, Rel.deref, hn]; rfl

/-- Writing through `contained_iter_mut` reaches every vertex once, in the order of the indices, and leaves the topology alone. -/
theorem C110_write_all {g : GenericGraph T A} (h : g.WF) (f : Nat → T → T) :
    (g.writeAll f).WF ∧ (g.writeAll f).vertexCount = g.vertexCount ∧ (g.writeAll f).edgeCount = g.edgeCount ∧
    (∀ k, (g.writeAll f).nbrs k = g.nbrs k) ∧ ∀ k, (g.writeAll f).getContained k = (g.getContained k).map (f k) := by
  have hv : ∀ k, (g.writeAll f).vertices[k]? = (g.vertices[k]?).map (fun v => setContained v (f k (contained v))) := by
    intro k
    simp only [writeAll, List.getElem?_map, List.getElem?_zipIdx]
    cases g.vertices[k]? <;> simp
  have hn : ∀ k, (g.writeAll f).nbrs k = g.nbrs k := by
    intro k
    simp only [nbrs, hv]
    cases g.vertices[k]? <;> simp [LawfulAdj.neighbors_set]
  refine ⟨?_, rfl, rfl, hn, ?_⟩
  · refine h.of_frame rfl (by simp [writeAll]) ?_ ?_ ?_ ?_ ?_ ?_
    · intro k a ha
      rw [hv] at ha
      obtain ⟨v, hv1, hv2⟩ := Option.map_eq_some_iff.1 ha
      subst hv2
      exact ⟨by rw [LawfulAdj.id_set]; exact h.ids _ _ hv1, LawfulAdj.inv_set _ _ (h.inv _ (List.mem_of_getElem? hv1))⟩
    · intro k l hkl; rw [hn] at hkl; exact h.lt _ _ hkl
    · intro k hk; rw [hn] at hk; exact h.irrefl _ hk
    · intro k; rw [hn]; exact h.nodup _
    · intro k l; rw [hn, hn]; exact h.symm _ _
    · exact (Finset.sum_congr rfl (fun k _ => by rw [hn])).trans h.count
  · intro k
    simp only [getContained, hv]
    cases g.vertices[k]? <;> simp [LawfulAdj.contained_set]

/-- `collect()` makes a graph without edges that has one vertex for each item, with the items in their order as data. -/
theorem C110_from_iter {T : Type} (l : List T) :
    (Graph.fromIter l).WF ∧ (Graph.fromIter l).vertexCount = l.length ∧ (Graph.fromIter l).edgeCount = 0 ∧
    (∀ k, (Graph.fromIter l).nbrs k = []) ∧ ∀ k, (Graph.fromIter l).getContained k = l[k]? := by
  have e : Graph.fromIter l = (GenericGraph.fromVec l : Graph T) := rfl
  refine ⟨e ▸ fromVec_wf l, by simp [Graph.fromIter, vertexCount], rfl, ?_, ?_⟩
  · intro k
    simp only [nbrs, Graph.fromIter, List.getElem?_map, List.getElem?_zipIdx]
    cases l[k]? <;> simp [neighbors]
  · intro k
    simp only [getContained, Graph.fromIter, List.getElem?_map, List.getElem?_zipIdx]
    cases l[k]? <;> simp [contained]

/-- The specification of the field `graph`: what is put there is found there, and nothing else of the ensemble changes. -/
class LawfulContained (E : Type) (T A : outParam Type) [outParam (AdjContainer T A)] [ContainedGraph E T A] : Prop where
  asRef_put : ∀ (e : E) g, AsRefGraph.asRef (ContainedGraph.put e g) = g
  put_put : ∀ (e : E) g, ContainedGraph.put (ContainedGraph.put e g) (AsRefGraph.asRef e) = e

section
variable {T R : Type}
instance : LawfulContained (ErC T R) T (NodeContainer T) := ⟨fun _ _ => rfl, fun _ _ => rfl⟩
instance : LawfulContained (ErM T R) T (NodeContainer T) := ⟨fun _ _ => rfl, fun _ _ => rfl⟩
instance : LawfulContained (Config T R) T (NodeContainer T) := ⟨fun _ _ => rfl, fun _ _ => rfl⟩
instance : LawfulContained (SwEns T R) T (SwContainer T) := ⟨fun _ _ => rfl, fun _ _ => rfl⟩
instance : LawfulContained (Ws T R) T (WSContainer T) := ⟨fun _ _ => rfl, fun _ _ => rfl⟩
end

/-- The trait `Contained` on the ensembles: reading gives what the graph of the ensemble stores, a write is seen by the next read of
that vertex only, keeps the topology, and everything else of the ensemble (generator, parameters, lists) is as before. -/
theorem C110_ensembles {E : Type} [ContainedGraph E T A] [LawfulContained E T A] (e : E)
    (h : (AsRefGraph.asRef e : GenericGraph T A).WF) (i : Nat) (t : T) :
    (∀ _ : i < View.vertexCount e, ∃ e', View.setContainedMut e i t = some e' ∧ View.setContainedUnchecked e i t = .ok e' ∧
      View.getContained e' i = some t ∧ View.getContainedUnchecked e' i = .ok t ∧ View.at_ e' i = .ok t ∧
      (∀ k, k ≠ i → View.getContained e' k = View.getContained e k) ∧ View.vertexCount e' = View.vertexCount e ∧
      View.edgeCount e' = View.edgeCount e ∧
      (∀ k, (AsRefGraph.asRef e' : GenericGraph T A).nbrs k = (AsRefGraph.asRef e : GenericGraph T A).nbrs k) ∧
      ContainedGraph.put e' (AsRefGraph.asRef e) = e) ∧
    (∀ _ : ¬ i < View.vertexCount e, View.getContained e i = none ∧ View.setContainedMut e i t = none ∧
      View.getContainedUnchecked e i = .ub ∧ View.setContainedUnchecked e i t = .ub) := by
  constructor
  · intro hi
    obtain ⟨g', _, a2, a3, a4, a5, a6, a7, a8, a9⟩ := (C110_writers_agree h i t).1 hi
    obtain ⟨t', _, b2, _, b4, b5⟩ := (C110_readers_agree a4 i).1 (by rw [a5]; exact hi)
    have : t' = t := by rw [a8] at b4; exact (Option.some.inj b4).symm
    subst this
    have p := LawfulContained.asRef_put e g'
    refine ⟨ContainedGraph.put e g', ?_, ?_, ?_, ?_, ?_, ?_, ?_, ?_, ?_, LawfulContained.put_put e g'⟩
    · simp [View.setContainedMut, a2]
    · simp only [View.setContainedUnchecked, a3]; rfl
    · simp only [View.getContained, p, a8]
    · simp only [View.getContainedUnchecked, p, b5]
    · simp only [View.at_, p, b2]
    · intro k hk; simp only [View.getContained, p, a9 k hk]
    · simp only [View.vertexCount, p, a5]
    · simp only [View.edgeCount, p, a6]
    · intro k; rw [p, a7]
  · intro hi
    obtain ⟨_, b2, b3⟩ := (C110_writers_agree h i t).2 hi
    obtain ⟨_, _, _, c4, c5⟩ := (C110_readers_agree h i).2 hi
    refine ⟨c4, by simp [View.setContainedMut, b2], c5, ?_⟩
    simp only [View.setContainedUnchecked, b3]; rfl

/-- A ring with seven vertices; the generator is not touched. -/
example (t : Nat) : ∃ e' : SwEns Nat Script, View.setContainedMut ({ graph := exSw, rProb := 0, rng := ⟨[1]⟩ } : SwEns Nat Script) 4 t =
    some e' ∧ View.getContained e' 4 = some t ∧ e'.rng = ⟨[1]⟩ := by
  obtain ⟨e', h1, _, h3, _, _, _, _, _, _, h4⟩ := (C110_ensembles ({ graph := exSw, rProb := 0, rng := ⟨[1]⟩ } : SwEns Nat Script)
    exSw_valid.wf 4 t).1 (by decide)
  exact ⟨e', h1, h3, congrArg SwEns.rng h4⟩

example : (Graph.fromIter [5, 6, 7]).atChecked 1 = some 6 ∧ (Graph.fromIter [5, 6, 7]).atChecked 3 = none := by decide
example : ((Graph.fromIter [5, 6, 7]).writeAll (fun k t => k * t)).data = [0, 6, 14] := by decide
example : ((Graph.fromIter [5, 6, 7]).setContainedMut 1 9).map (·.data) = some [5, 9, 7] := by decide
end Verif
