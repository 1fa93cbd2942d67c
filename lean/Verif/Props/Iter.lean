import Verif.Lemmas.Iter
import Verif.Props.Traverse

/-!
# Iterators (C52)
-/

set_option linter.unusedSectionVars false
set_option linter.unusedSimpArgs false

namespace Verif
open AdjContainer

/-- `SwEdgeIterNeighbors` behaves like the list of the targets of the edges. -/
theorem C52_sw_edge_iter (l : List SwEdge) : BehavesLike swIter l (l.map SwEdge.dst) := swIter_sim.behaves rfl

example : (swIter.run [.nextBack, .nth 1, .len, .next] [⟨1, none⟩, ⟨2, some 0⟩, ⟨3, none⟩, ⟨4, none⟩] : Res _) =
    .ok ([.item (some 4), .item (some 2), .size 1, .item (some 3)], []) := by decide

/-- Both variants of `IterWrapper` behave like the list they hold; `into_vec` returns what remains after any history of calls. -/
theorem C52_iter_wrapper (w : IterWrapper) :
    BehavesLike wrapperIter w (match w with
      | .genericIter l => l
      | .swIter l => l.map SwEdge.dst) ∧
    ∀ ops os w', wrapperIter.run ops w = .ok (os, w') → w'.intoVec = .ok (listRun ops (match w with
      | .genericIter l => l
      | .swIter l => l.map SwEdge.dst)).2 := by
  have hw : w.items = (match w with
      | .genericIter l => l
      | .swIter l => l.map SwEdge.dst) := by cases w <;> rfl
  rw [← hw]
  refine ⟨wrapperIter_sim.behaves rfl, ?_⟩
  intro ops os w' hrun
  obtain ⟨w1, e, h1⟩ := wrapperIter_sim.run ops w _ rfl
  rw [hrun] at e
  injection e with e
  obtain ⟨-, rfl⟩ := Prod.mk.inj e
  rw [← h1]
  cases w' with
  | genericIter l => rfl
  | swIter l =>
    simp only [IterWrapper.intoVec]
    rw [swIter_sim.fold _ (l.map SwEdge.dst) _ _ l rfl (by simp [swIter])]
    have key : ∀ (l acc : List Nat), l.foldl (fun acc x => acc ++ [x]) acc = acc ++ l := by
      intro l
      induction l with
      | nil => simp
      | cons x l ih => intro acc; simp [ih]
    rw [key]
    rfl

example : ((IterWrapper.swIter [⟨1, none⟩, ⟨2, some 0⟩, ⟨3, none⟩]).intoVec : Res _) = .ok [1, 2, 3] := by decide

/-- `neighbors()` iterates over the neighbour list of the container. -/
class LawfulNeighborIter (A : Type) {T : outParam Type} [AdjContainer T A] [NeighborIter A] : Prop where
  items_iter : ∀ a : A, (NeighborIter.iter a).items = neighbors a

instance {T : Type} : LawfulNeighborIter (NodeContainer T) := ⟨fun _ => rfl⟩
instance {T : Type} : LawfulNeighborIter (SwContainer T) := ⟨fun _ => rfl⟩
instance {T : Type} : LawfulNeighborIter (WSContainer T) := ⟨fun _ => rfl⟩
instance {T : Type} : LawfulNeighborIter (SpacialNodeContainer T) := ⟨fun _ => rfl⟩

section
variable {T A : Type} [AdjContainer T A] [LawfulAdj T A] [NeighborIter A] [LawfulNeighborIter A]

/-- `neighbors()` of every container. -/
theorem C52_neighbors (c : A) : BehavesLike wrapperIter (NeighborIter.iter c) (neighbors c) :=
  wrapperIter_sim.behaves (LawfulNeighborIter.items_iter c)

/-- `contained_iter()` behaves like the list of the data. -/
theorem C52_contained_iter (g : GenericGraph T A) : BehavesLike (containedIter T A) g.vertices g.data :=
  containedIter_sim.behaves rfl

private theorem neighborsIter_ok {g : GenericGraph T A} {i : Nat} (hi : i < g.vertices.length) :
    ∃ w : IterWrapper, g.neighborsIter i = .ok w ∧ w.items = g.nbrs i := by
  obtain ⟨e1, e2⟩ := idx_nbrs hi
  refine ⟨NeighborIter.iter g.vertices[i], by simp only [GenericGraph.neighborsIter, e1, Res.ok_bind, Res.pure_eq], ?_⟩
  rw [LawfulNeighborIter.items_iter, e2]

private theorem exists_picked {β : Type} (g : GenericGraph T A) (pick : Nat → A → β) (L : List Nat)
    (h : ∀ j ∈ L, j < g.vertices.length) : ∃ l : List β, L.map (fun j => (g.vertices[j]?).map (pick j)) = l.map some := by
  induction L with
  | nil => exact ⟨[], rfl⟩
  | cons j L ih =>
    obtain ⟨l, hl⟩ := ih (fun k hk => h k (List.mem_cons_of_mem _ hk))
    have hj := h j List.mem_cons_self
    exact ⟨pick j g.vertices[j] :: l, by simp [hl, hj]⟩

/-- `container_iter_neighbors(i)`, `contained_iter_neighbors(i)` and `contained_iter_neighbors_with_index(i)` behave like the list of
the containers / the data / the indices and data of the neighbours of `i`; out of range they panic. -/
theorem C52_iter_neighbors {g : GenericGraph T A} (hg : g.WF) (i : Nat) :
    (i < g.vertexCount → ∃ (w : IterWrapper) (cs : List A), g.neighborsIter i = .ok w ∧
      (g.nbrs i).map (fun j => g.vertices[j]?) = cs.map some ∧
      BehavesLike (nContainerIter wrapperIter g.vertices) w cs ∧
      BehavesLike (nContainedIter wrapperIter g.vertices) w (cs.map contained) ∧
      BehavesLike (niContainedIter wrapperIter g.vertices) w ((g.nbrs i).zip (cs.map contained))) ∧
    (¬ i < g.vertexCount → g.neighborsIter i = .panic) := by
  constructor
  · intro hi
    obtain ⟨w, hw, hitems⟩ := neighborsIter_ok (hg.lt_length hi)
    have hlt : ∀ j ∈ g.nbrs i, j < g.vertices.length := fun j hj => hg.lt_length (hg.lt _ _ hj)
    obtain ⟨cs, hcs⟩ := exists_picked g (fun _ c => c) (g.nbrs i) hlt
    have hcs' : (g.nbrs i).map (fun j => g.vertices[j]?) = cs.map some := by
      rw [← hcs]; apply List.map_congr_left; intro j _; simp
    refine ⟨w, cs, hw, hcs', ?_, ?_, ?_⟩
    · exact (neighbourIter_sim wrapperIter_sim g.vertices _).behaves ⟨_, hitems, hcs⟩
    · refine (neighbourIter_sim wrapperIter_sim g.vertices _).behaves ⟨_, hitems, ?_⟩
      have := congrArg (List.map (Option.map (contained (A := A)))) hcs'
      rw [List.map_map, List.map_map] at this
      rw [List.map_map]
      exact this
    · refine (neighbourIter_sim wrapperIter_sim g.vertices _).behaves ⟨_, hitems, ?_⟩
      clear hitems hw hcs hlt
      generalize g.nbrs i = L at hcs' ⊢
      induction L generalizing cs with
      | nil => simp
      | cons j L ih =>
        cases cs with
        | nil => simp at hcs'
        | cons c cs =>
          simp only [List.map_cons, List.cons.injEq] at hcs'
          have := ih cs hcs'.2
          simp only [List.map_cons, hcs'.1, List.zip_cons_cons, this]
          rfl
  · intro hi
    have : ¬ i < g.vertices.length := by rw [hg.len]; exact hi
    simp [GenericGraph.neighborsIter, Vec.idx, this]

/-- `contained_iter_neighbors_mut(i)` and `contained_iter_neighbors_mut_with_index(i)`: any history of calls, with writes through the
returned references, returns what the list of the neighbours with their original data would return; no reference is
returned twice and none to `i` itself; exactly the written data changes, the topology stays. -/
theorem C52_iter_neighbors_mut {g : GenericGraph T A} (hg : g.WF) (i : Nat) :
    (i < g.vertexCount → ∃ (w : IterWrapper) (l : List (Nat × T)), g.neighborsIter i = .ok w ∧
      l.map Prod.fst = g.nbrs i ∧ (∀ j t, (j, t) ∈ l → g.data[j]? = some t) ∧
      ∀ ops : List (IterOp (Nat × T) × (T → T)), ∃ (os : List (IterObs (Nat × T))) (vs : List A) (w' : IterWrapper),
        mutRun wrapperIter ops (g.vertices, w) = .ok (os, (vs, w')) ∧
        os = (listRun (ops.map (·.1)) l).1 ∧
        ((returned os).map Prod.fst).Nodup ∧ i ∉ (returned os).map Prod.fst ∧
        GenericGraph.WF { g with vertices := vs } ∧ (∀ j, GenericGraph.nbrs { g with vertices := vs } j = g.nbrs j) ∧
        WrittenBy ops os g.data (GenericGraph.data { g with vertices := vs })) ∧
    (¬ i < g.vertexCount → g.neighborsIter i = .panic) := by
  constructor
  · intro hi
    obtain ⟨w, hw, hitems⟩ := neighborsIter_ok (hg.lt_length hi)
    have hlt : ∀ j ∈ g.nbrs i, j < g.vertices.length := fun j hj => hg.lt_length (hg.lt _ _ hj)
    obtain ⟨l, hl⟩ := exists_picked g (fun j c => (j, contained c)) (g.nbrs i) hlt
    have hget : ∀ j t, (j, t) ∈ l → g.data[j]? = some t := by
      intro j t hm
      have : some (j, t) ∈ (g.nbrs i).map (fun j => (g.vertices[j]?).map (fun c => (j, contained c))) := by
        rw [hl]; exact List.mem_map_of_mem hm
      obtain ⟨k, _, hk⟩ := List.mem_map.mp this
      rw [Option.map_eq_some_iff] at hk
      obtain ⟨c, hc, hk⟩ := hk
      simp only [Prod.mk.injEq] at hk
      obtain ⟨rfl, rfl⟩ := hk
      simp [GenericGraph.data, hc]
    have hfst : l.map Prod.fst = g.nbrs i := by
      clear hget hitems hw
      generalize g.nbrs i = L at hl hlt
      induction L generalizing l with
      | nil => cases l with
        | nil => rfl
        | cons x l => simp at hl
      | cons j L ih =>
        cases l with
        | nil => simp at hl
        | cons x l =>
          simp only [List.map_cons, List.cons.injEq, Option.map_eq_some_iff] at hl
          obtain ⟨⟨c, _, rfl⟩, hl⟩ := hl
          simp only [List.map_cons, ih l hl (fun k hk => hlt k (List.mem_cons_of_mem _ hk))]
    refine ⟨w, l, hw, hfst, hget, ?_⟩
    intro ops
    obtain ⟨vs, w', e, hs, hwr, hmem⟩ := mutRun_spec wrapperIter_sim g ops g.vertices w (g.nbrs i) l hitems (hg.nodup i) hl
      (SameAdj.refl g)
    have hsub : ((returned (listRun (ops.map (·.1)) l).1).map Prod.fst).Subperm (g.nbrs i) := by
      rw [← hfst]
      apply subperm_map
      have := listRun_items_subperm (ops.map (·.1)) l
      exact (List.sublist_append_left _ _).subperm.trans this
    exact ⟨_, vs, w', e, rfl, subperm_nodup hsub (hg.nodup i), fun h => hg.irrefl i (hsub.subset h), hs.wf hg, hs.nbrs, hwr⟩
  · intro hi
    have : ¬ i < g.vertices.length := by rw [hg.len]; exact hi
    simp [GenericGraph.neighborsIter, Vec.idx, this]

/-- `contained_iter_mut()`: any history of calls, with writes through the returned references, returns what the list of the
original data would return; no reference is returned twice; exactly the written data changes, the topology stays. -/
theorem C52_contained_iter_mut {g : GenericGraph T A} (hg : g.WF) (ops : List (IterOp (Nat × T) × (T → T))) :
    ∃ (l : List (Nat × T)) (os : List (IterObs (Nat × T))) (vs : List A) (s' : List Nat),
      l.map Prod.fst = List.range g.vertexCount ∧ l.map Prod.snd = g.data ∧
      mutRun (sliceIter Nat) ops (g.vertices, List.range g.vertices.length) = .ok (os, (vs, s')) ∧
      os = (listRun (ops.map (·.1)) l).1 ∧ ((returned os).map Prod.fst).Nodup ∧
      GenericGraph.WF { g with vertices := vs } ∧ (∀ j, GenericGraph.nbrs { g with vertices := vs } j = g.nbrs j) ∧
      WrittenBy ops os g.data (GenericGraph.data { g with vertices := vs }) := by
  let l : List (Nat × T) := (List.range g.vertices.length).zip g.data
  have hlen : g.data.length = g.vertices.length := by simp [GenericGraph.data]
  have hfst : l.map Prod.fst = List.range g.vertices.length := List.map_fst_zip (by simp [hlen])
  have hl : (List.range g.vertices.length).map (fun j => (g.vertices[j]?).map (fun c => (j, contained c))) = l.map some := by
    apply List.ext_getElem
    · simp [l, hlen]
    · intro k h1 h2
      have hk : k < g.vertices.length := by simpa using h1
      simp [l, hk, GenericGraph.data]
  obtain ⟨vs, s', e, hs, hwr, _⟩ := mutRun_spec (sliceIter_sim Nat) g ops g.vertices _ _ l rfl List.nodup_range hl (SameAdj.refl g)
  have hsub : ((returned (listRun (ops.map (·.1)) l).1).map Prod.fst).Subperm (List.range g.vertices.length) := by
    rw [← hfst]
    apply subperm_map
    exact (List.sublist_append_left _ _).subperm.trans (listRun_items_subperm (ops.map (·.1)) l)
  exact ⟨l, _, vs, s', by rw [hfst, hg.len]; rfl, List.map_snd_zip (by simp [hlen]), e, rfl, subperm_nodup hsub List.nodup_range,
    hs.wf hg, hs.nbrs, hwr⟩

end

/-- A graph with a vertex of degree 3. -/
example : exTail.nbrs 2 = [1, 0, 3] := by decide

example : (do
    let w ← exTail.neighborsIter 2
    (niContainedIter wrapperIter exTail.vertices).run [.nextBack, .next, .len, .nth 1, .next] w) =
    .ok ([.item (some (3, 30)), .item (some (1, 10)), .size 1, .item none, .item none], .genericIter []) := by decide

example : (do
    let w ← exTail.neighborsIter 2
    let r ← mutRun wrapperIter [(.nextBack, fun _ => 7), (.nth 1, fun _ => 8)] (exTail.vertices, w)
    return r.2.1.map contained) = (.ok [8, 10, 20, 7, 40] : Res _) := by decide

end Verif
