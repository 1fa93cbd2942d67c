import Verif.Lemmas.Dual2
import Verif.Props.Edit

/-!
# Dual graphs: properties C49, C50, C51, C59 and the dual part of C12
-/

set_option linter.unusedSectionVars false
set_option linter.unusedSimpArgs false

namespace Verif
open AdjContainer GenericGraph

section
variable {J T1 A1 T2 A2 : Type} [AdjTrait J] [AdjContainer T1 A1] [AdjContainer T2 A2] [LawfulAdj T1 A1] [LawfulAdj T2 A2]

/-! ### C49 -/

/-- One call on a dual graph: a cross edge or any operation on one of the inner graphs through `graph_1_mut`,
`graph_2_mut`. -/
inductive DualOp (T1 T2 R : Type) where
  | link (i j : Nat)
  | inner1 (op : GraphOp T1 R)
  | inner2 (op : GraphOp T2 R)

/-- The cross edge requested by a call. -/
def DualOp.pair {T1 T2 R : Type} : DualOp T1 T2 R → Option (ℕ × ℕ)
  | .link i j => some (i, j)
  | _ => none

/-- Running calls; the results of `add_edge` are collected. -/
def dualRun {R : Type} [Rng R] : List (DualOp T1 T2 R) → DualGraph J T1 A1 T2 A2 →
    Res (List (Except AddEdgeError Unit) × DualGraph J T1 A1 T2 A2)
  | [], d => .ok ([], d)
  | .link i j :: ops, d => do
    let (r, d) ← d.addEdge i j
    let (rs, d) ← dualRun ops d
    return (r :: rs, d)
  | .inner1 op :: ops, d => do
    let g ← op.run d.graph1
    dualRun ops { d with graph1 := g }
  | .inner2 op :: ops, d => do
    let g ← op.run d.graph2
    dualRun ops { d with graph2 := g }

/-- The lists of cross edges after `new` are empty, the dual graph is valid. -/
theorem C49_new (hJ : AdjTrait.slice (AdjTrait.new : J) = []) {g1 : GenericGraph T1 A1} {g2 : GenericGraph T2 A2} (h1 : g1.WF) (h2 : g2.WF) :
    (DualGraph.new g1 g2 : DualGraph J T1 A1 T2 A2).WF ∧ (DualGraph.new g1 g2 : DualGraph J T1 A1 T2 A2).cross = ∅ ∧
    (DualGraph.new g1 g2 : DualGraph J T1 A1 T2 A2).size = (g1.vertexCount, g2.vertexCount) := by
  have l1 : ∀ i, (DualGraph.new g1 g2 : DualGraph J T1 A1 T2 A2).list1 i = [] := by
    intro i
    simp only [DualGraph.new, DualGraph.list1, List.getElem?_map]
    cases (List.range g1.vertices.length)[i]? <;> simp [hJ]
  have l2 : ∀ i, (DualGraph.new g1 g2 : DualGraph J T1 A1 T2 A2).list2 i = [] := by
    intro i
    simp only [DualGraph.new, DualGraph.list2, List.getElem?_map]
    cases (List.range g2.vertices.length)[i]? <;> simp [hJ]
  refine ⟨⟨h1, h2, by simp [DualGraph.new, h1.len, vertexCount], by simp [DualGraph.new, h2.len, vertexCount],
    fun i j => by simp [l1, l2], fun i => by simp [l1], fun i => by simp [l2]⟩, ?_, ?_⟩
  · ext p; simp [DualGraph.cross, l1]
  · simp [DualGraph.size, DualGraph.new, h1.len, h2.len, vertexCount]

/-- Editing an inner graph without changing the number of vertices keeps the dual graph valid. -/
theorem C49_inner_edit {d : DualGraph J T1 A1 T2 A2} (h : d.WF) :
    (∀ g : GenericGraph T1 A1, g.WF → g.vertexCount = d.graph1.vertexCount →
      DualGraph.WF { d with graph1 := g } ∧ DualGraph.cross { d with graph1 := g } = d.cross) ∧
    (∀ g : GenericGraph T2 A2, g.WF → g.vertexCount = d.graph2.vertexCount →
      DualGraph.WF { d with graph2 := g } ∧ DualGraph.cross { d with graph2 := g } = d.cross) :=
  ⟨fun g hg hn => ⟨⟨hg, h.wf2, by rw [hn]; exact h.len1, h.len2, h.inv, h.nodup1, h.nodup2⟩, rfl⟩,
   fun g hg hn => ⟨⟨h.wf1, hg, h.len1, by rw [hn]; exact h.len2, h.inv, h.nodup1, h.nodup2⟩, rfl⟩⟩

theorem list1_set (d : DualGraph J T1 A1 T2 A2) (adj2 : List J) {i : Nat} (hi : i < d.adj1.length) (a : J) (k : Nat) :
    DualGraph.list1 { d with adj1 := d.adj1.set i a, adj2 := adj2 } k = if k = i then AdjTrait.slice a else d.list1 k := by
  unfold DualGraph.list1
  simp only [List.getElem?_set]
  by_cases hk : i = k
  · subst hk; simp [hi]
  · simp [hk, Ne.symm hk]

theorem list2_set (d : DualGraph J T1 A1 T2 A2) (adj1 : List J) {i : Nat} (hi : i < d.adj2.length) (a : J) (k : Nat) :
    DualGraph.list2 { d with adj1 := adj1, adj2 := d.adj2.set i a } k = if k = i then AdjTrait.slice a else d.list2 k := by
  unfold DualGraph.list2
  simp only [List.getElem?_set]
  by_cases hk : i = k
  · subst hk; simp [hi]
  · simp [hk, Ne.symm hk]

/-- Writing a new pair in both lists. -/
theorem insert_wf {d : DualGraph J T1 A1 T2 A2} (h : d.WF) {i j : Nat} {a b : J} (hi : i < d.adj1.length)
    (hj : j < d.adj2.length) (ha : AdjTrait.slice a = d.list1 i ++ [j]) (hb : AdjTrait.slice b = d.list2 j ++ [i])
    (hn : (i, j) ∉ d.cross) :
    DualGraph.WF { d with adj1 := d.adj1.set i a, adj2 := d.adj2.set j b } ∧
    ∀ p, p ∈ DualGraph.cross { d with adj1 := d.adj1.set i a, adj2 := d.adj2.set j b } ↔ p = (i, j) ∨ p ∈ d.cross := by
  have hn1 : j ∉ d.list1 i := hn
  have hn2 : i ∉ d.list2 j := fun hc => hn1 ((h.inv i j).mpr hc)
  refine ⟨⟨h.wf1, h.wf2, by simp [h.len1], by simp [h.len2], ?_, ?_, ?_⟩, ?_⟩
  · intro k l
    rw [list1_set d _ hi, list2_set d _ hj, ha, hb]
    have := h.inv k l
    by_cases hk : k = i
    · by_cases hl : l = j
      · subst hk; subst hl; simp
      · subst hk; simp [hl, this]
    · by_cases hl : l = j
      · subst hl; simp [hk, this]
      · simp [hk, hl, this]
  · intro k
    rw [list1_set d _ hi, ha]
    split
    · exact List.nodup_append.mpr ⟨h.nodup1 i, by simp, by rintro x hx y hy rfl; simp at hy; subst hy; exact hn1 hx⟩
    · exact h.nodup1 k
  · intro k
    rw [list2_set d _ hj, hb]
    split
    · exact List.nodup_append.mpr ⟨h.nodup2 j, by simp, by rintro x hx y hy rfl; simp at hy; subst hy; exact hn2 hx⟩
    · exact h.nodup2 k
  · rintro ⟨k, l⟩
    show l ∈ DualGraph.list1 _ k ↔ _ ∨ l ∈ d.list1 k
    rw [list1_set d _ hi, ha]
    by_cases hk : k = i
    · subst hk; simp [or_comm]
    · simp [hk]

end

section
variable {T1 A1 T2 A2 : Type} [AdjContainer T1 A1] [AdjContainer T2 A2] [LawfulAdj T1 A1] [LawfulAdj T2 A2]

/-- One call of `add_edge` on a `MultiDualGraph` never panics and acts as insertion into the set of cross edges; a failing
call changes nothing. -/
theorem C49_add_edge {d : DualGraph Adj T1 A1 T2 A2} (h : d.WF) {S : Finset (ℕ × ℕ)} (hS : ∀ p, p ∈ S ↔ p ∈ d.cross)
    (i j : Nat) :
    ∃ d', d.addEdge i j = .ok ((crossStep d.graph1.vertexCount d.graph2.vertexCount S (i, j)).1, d') ∧ d'.WF ∧
      (∀ p, p ∈ (crossStep d.graph1.vertexCount d.graph2.vertexCount S (i, j)).2 ↔ p ∈ d'.cross) ∧
      d'.graph1 = d.graph1 ∧ d'.graph2 = d.graph2 ∧
      ((crossStep d.graph1.vertexCount d.graph2.vertexCount S (i, j)).1 ≠ .ok () → d' = d) := by
  by_cases hr : d.graph1.vertexCount ≤ i ∨ d.graph2.vertexCount ≤ j
  · refine ⟨d, ?_, h, ?_, rfl, rfl, fun _ => rfl⟩
    · simp [DualGraph.addEdge, h.len1, h.len2, hr, crossStep]
    · simp [crossStep, hr, hS]
  · have hi : i < d.adj1.length := by rw [h.len1]; omega
    have hj : j < d.adj2.length := by rw [h.len2]; omega
    have hr' : ¬ (d.adj1.length ≤ i ∨ d.adj2.length ≤ j) := by omega
    have s1 : d.adj1[i].adj = d.list1 i := by simp [DualGraph.list1, hi, AdjTrait.slice]
    have s2 : d.adj2[j].adj = d.list2 j := by simp [DualGraph.list2, hj, AdjTrait.slice]
    by_cases hm : (i, j) ∈ S
    · have hc : j ∈ d.list1 i := (hS _).mp hm
      refine ⟨d, ?_, h, ?_, rfl, rfl, fun _ => rfl⟩
      · simp [DualGraph.addEdge, hr', crossStep, hr, hm, Vec.idx_of_lt hi, AdjTrait.addEdge, s1, hc, Vec.put_of_lt hi]
      · simp [crossStep, hr, hm, hS]
    · have hc : j ∉ d.list1 i := fun hc => hm ((hS _).mpr hc)
      have hc2 : i ∉ d.list2 j := fun hc2 => hc ((h.inv i j).mpr hc2)
      obtain ⟨w1, w2⟩ := insert_wf h (a := ⟨d.list1 i ++ [j]⟩) (b := ⟨d.list2 j ++ [i]⟩) hi hj rfl rfl hc
      refine ⟨_, ?_, w1, ?_, rfl, rfl, ?_⟩
      · simp [-Res.bind_eq_ok, DualGraph.addEdge, hr', crossStep, hr, hm, Vec.idx_of_lt hi, Vec.idx_of_lt hj, AdjTrait.addEdge, s1, s2, hc,
          hc2, Vec.put_of_lt hi, Vec.put_of_lt hj]
      · intro p
        simp only [crossStep, hr, hm, if_false, Finset.mem_insert]
        rw [w2, hS]
      · intro hne; exact absurd (by simp [crossStep, hr, hm]) hne

/-- Any sequence of calls of `add_edge`, interleaved with any edits of the two inner graphs, starting with `new`: the results
of `add_edge` and the cross edges are those of insertions into a set of pairs, and the dual graph stays valid (in particular
`adj_1` and `adj_2` stay inverse to each other). -/
theorem C49_history {R : Type} [Rng R] {g1 : GenericGraph T1 A1} {g2 : GenericGraph T2 A2} (h1 : g1.WF) (h2 : g2.WF)
    (ops : List (DualOp T1 T2 R)) {rs : List (Except AddEdgeError Unit)} {d : DualGraph Adj T1 A1 T2 A2}
    (e : dualRun ops (DualGraph.new g1 g2 : DualGraph Adj T1 A1 T2 A2) = .ok (rs, d)) :
    rs = (stepRun (crossStep g1.vertexCount g2.vertexCount) ∅ (ops.filterMap DualOp.pair)).1 ∧ d.WF ∧
    (∀ p, p ∈ d.cross ↔ p ∈ (stepRun (crossStep g1.vertexCount g2.vertexCount) ∅ (ops.filterMap DualOp.pair)).2) ∧
    d.size = (g1.vertexCount, g2.vertexCount) := by
  obtain ⟨w1, w2, w3⟩ := C49_new (J := Adj) rfl h1 h2
  have key : ∀ (ops : List (DualOp T1 T2 R)) (d0 : DualGraph Adj T1 A1 T2 A2) (S : Finset (ℕ × ℕ)) (rs : List (Except AddEdgeError Unit))
      (d : DualGraph Adj T1 A1 T2 A2), d0.WF → (∀ p, p ∈ S ↔ p ∈ d0.cross) → dualRun ops d0 = .ok (rs, d) →
      rs = (stepRun (crossStep d0.graph1.vertexCount d0.graph2.vertexCount) S (ops.filterMap DualOp.pair)).1 ∧ d.WF ∧
      (∀ p, p ∈ d.cross ↔ p ∈ (stepRun (crossStep d0.graph1.vertexCount d0.graph2.vertexCount) S (ops.filterMap DualOp.pair)).2) ∧
      d.graph1.vertexCount = d0.graph1.vertexCount ∧ d.graph2.vertexCount = d0.graph2.vertexCount := by
    intro ops
    induction ops with
    | nil =>
      intro d0 S rs d h hS e
      simp [dualRun] at e
      obtain ⟨rfl, rfl⟩ := e
      exact ⟨rfl, h, fun p => (hS p).symm, rfl, rfl⟩
    | cons op ops ih =>
      intro d0 S rs d h hS e
      cases op with
      | link i j =>
        obtain ⟨d', a1, a2, a3, a4, a5, _⟩ := C49_add_edge h hS i j
        simp only [dualRun, a1, Res.ok_bind, Res.bind_eq_ok] at e
        obtain ⟨⟨rs', d''⟩, e1, e2⟩ := e
        simp at e2
        obtain ⟨rfl, rfl⟩ := e2
        obtain ⟨b1, b2, b3, b4, b5⟩ := ih d' _ rs' d'' a2 a3 e1
        rw [a4, a5] at b1 b3
        rw [a4] at b4
        rw [a5] at b5
        refine ⟨?_, b2, ?_, b4, b5⟩
        · simp only [List.filterMap_cons, DualOp.pair, stepRun]
          rw [← b1]
        · simpa only [List.filterMap_cons, DualOp.pair, stepRun] using b3
      | inner1 op =>
        simp only [dualRun, Res.bind_eq_ok] at e
        obtain ⟨g, e1, e2⟩ := e
        obtain ⟨x1, x2, _, _⟩ := C02_C05_step h.wf1 op e1
        obtain ⟨y1, y2⟩ := (C49_inner_edit h).1 g x1 x2
        obtain ⟨b1, b2, b3, b4, b5⟩ := ih { d0 with graph1 := g } S rs d y1 (by rw [y2]; exact hS) e2
        simp only [x2] at b1 b3 b4
        exact ⟨by simpa [List.filterMap_cons, DualOp.pair] using b1, b2, by simpa [List.filterMap_cons, DualOp.pair] using b3, b4, b5⟩
      | inner2 op =>
        simp only [dualRun, Res.bind_eq_ok] at e
        obtain ⟨g, e1, e2⟩ := e
        obtain ⟨x1, x2, _, _⟩ := C02_C05_step h.wf2 op e1
        obtain ⟨y1, y2⟩ := (C49_inner_edit h).2 g x1 x2
        obtain ⟨b1, b2, b3, b4, b5⟩ := ih { d0 with graph2 := g } S rs d y1 (by rw [y2]; exact hS) e2
        simp only [x2] at b1 b3 b5
        exact ⟨by simpa [List.filterMap_cons, DualOp.pair] using b1, b2, by simpa [List.filterMap_cons, DualOp.pair] using b3, b4, b5⟩
  obtain ⟨b1, b2, b3, b4, b5⟩ := key ops _ ∅ rs d w1 (by simp [w2]) e
  refine ⟨b1, b2, b3, ?_⟩
  show (d.graph1.vertices.length, d.graph2.vertices.length) = _
  rw [b2.wf1.len, b2.wf2.len]
  exact Prod.ext b4 b5

/-- A sequence of `add_edge` calls alone never panics. -/
theorem C49_links_return {R : Type} [Rng R] {d : DualGraph Adj T1 A1 T2 A2} (h : d.WF) (ps : List (ℕ × ℕ)) :
    ∃ rs d', dualRun (R := R) (ps.map (fun p => .link p.1 p.2)) d = .ok (rs, d') ∧ d'.WF := by
  classical
  induction ps generalizing d with
  | nil => exact ⟨[], d, rfl, h⟩
  | cons p ps ih =>
    have hfin : d.cross.Finite := by
      apply Set.Finite.subset (Finset.finite_toSet (Finset.range d.graph1.nextId ×ˢ Finset.range d.graph2.nextId))
      rintro ⟨i, j⟩ hp
      have := h.lt hp
      simp [this]
    obtain ⟨d', a1, a2, _⟩ := C49_add_edge h (S := hfin.toFinset) (by simp) p.1 p.2
    obtain ⟨rs, d'', b1, b2⟩ := ih a2
    exact ⟨_ :: rs, d'', by simp only [List.map_cons, dualRun, a1, Res.ok_bind, b1]; rfl, b2⟩

end

section
variable {J T1 A1 T2 A2 : Type} [AdjTrait J] [AdjContainer T1 A1] [AdjContainer T2 A2] [LawfulAdj T1 A1] [LawfulAdj T2 A2]
variable {d : DualGraph J T1 A1 T2 A2}

theorem dual_nbrs_nodup (h : d.WF) (v : DualIndex) : (d.nbrs v).Nodup := by
  rcases v with i | i
  · refine List.nodup_append.mpr ⟨(h.wf1.nodup i).map (fun a b e => by simpa using e), (h.nodup1 i).map (fun a b e => by simpa using e), ?_⟩
    intro a ha b hb
    obtain ⟨k, _, rfl⟩ := List.mem_map.mp ha
    obtain ⟨l, _, rfl⟩ := List.mem_map.mp hb
    simp
  · refine List.nodup_append.mpr ⟨(h.wf2.nodup i).map (fun a b e => by simpa using e), (h.nodup2 i).map (fun a b e => by simpa using e), ?_⟩
    intro a ha b hb
    obtain ⟨k, _, rfl⟩ := List.mem_map.mp ha
    obtain ⟨l, _, rfl⟩ := List.mem_map.mp hb
    simp

theorem dual_nbrs_ncard (h : d.WF) (v : DualIndex) : (d.union.neighborSet v).ncard = (d.nbrs v).length := by
  have : d.union.neighborSet v = ((d.nbrs v).toFinset : Set DualIndex) := by
    ext w
    simp [SimpleGraph.mem_neighborSet, h.adj_iff]
  rw [this, Set.ncard_coe_finset, List.toFinset_card_of_nodup (dual_nbrs_nodup h v)]

/-- `degree_1(i)` and `degree_2(i)` are the number of neighbours in both graphs together; they panic out of range. -/
theorem C49_degree (h : d.WF) (i : Nat) :
    (i < d.graph1.vertexCount → d.degree1 i = .ok (d.union.neighborSet (.graph1 i)).ncard) ∧
    (¬ i < d.graph1.vertexCount → d.degree1 i = .panic) ∧
    (i < d.graph2.vertexCount → d.degree2 i = .ok (d.union.neighborSet (.graph2 i)).ncard) ∧
    (¬ i < d.graph2.vertexCount → d.degree2 i = .panic) := by
  refine ⟨?_, ?_, ?_, ?_⟩
  · intro hi
    have hl := h.wf1.lt_length hi
    obtain ⟨e1, e2⟩ := idx_nbrs hl
    obtain ⟨a, f1, f2⟩ := DualGraph.idx_list1 (d := d) (i := i) (by rw [h.len1]; exact hi)
    rw [dual_nbrs_ncard h]
    simp only [DualGraph.degree1, GenericGraph.container, e1, f1, Res.ok_bind, Res.pure_eq, Res.ok.injEq]
    rw [LawfulAdj.degree_eq, e2, f2]
    simp [DualGraph.nbrs]
  · intro hi
    have : ¬ i < d.graph1.vertices.length := by rw [h.wf1.len]; exact hi
    simp [DualGraph.degree1, GenericGraph.container, Vec.idx, this]
  · intro hi
    have hl := h.wf2.lt_length hi
    obtain ⟨e1, e2⟩ := idx_nbrs hl
    obtain ⟨a, f1, f2⟩ := DualGraph.idx_list2 (d := d) (i := i) (by rw [h.len2]; exact hi)
    rw [dual_nbrs_ncard h]
    simp only [DualGraph.degree2, GenericGraph.container, e1, f1, Res.ok_bind, Res.pure_eq, Res.ok.injEq]
    rw [LawfulAdj.degree_eq, e2, f2]
    simp [DualGraph.nbrs]
  · intro hi
    have : ¬ i < d.graph2.vertices.length := by rw [h.wf2.len]; exact hi
    simp [DualGraph.degree2, GenericGraph.container, Vec.idx, this]


/-! ### C51 -/

/-- `dfs_index` yields every vertex reachable in the union of the inner and the cross edges exactly once, the start first,
every later one adjacent to an earlier one; nothing for a start out of range. -/
theorem C51_dfs (h : d.WF) (v : DualIndex) {fuel : Nat} (hf : d.totalVertices < fuel) :
    (d.IsVertex v → ∃ L, d.dfsIndex v fuel = .ok L ∧ SearchOrder d.union v L) ∧
    (¬ d.IsVertex v → d.dfsIndex v fuel = .ok []) := by
  refine ⟨fun hv => DualGraph.dfsIndex_spec h hv hf, fun hv => ?_⟩
  obtain ⟨f, rfl⟩ : ∃ f, fuel = f + 1 := ⟨fuel - 1, by omega⟩
  simp [DualGraph.dfsIndex, collect, dfsDualNext, (DualGraph.new_of_not h hv).2.2]

/-- `bfs_index` yields every vertex reachable in the union exactly once with its distance from the start, in the order of the
distances; nothing for a start out of range. -/
theorem C51_bfs (h : d.WF) (v : DualIndex) {fuel : Nat} (hf : d.totalVertices < fuel) :
    (d.IsVertex v → ∃ L, d.bfsIndex v fuel = .ok L ∧ LayerOrder d.union v L) ∧
    (¬ d.IsVertex v → d.bfsIndex v fuel = .ok []) := by
  constructor
  · intro hv
    obtain ⟨L, s', e1, e2, _, _⟩ := DualGraph.collect_bfs h hv hf
    exact ⟨L, by simp [DualGraph.bfsIndex, e1], e2⟩
  · intro hv
    obtain ⟨f, rfl⟩ : ∃ f, fuel = f + 1 := ⟨fuel - 1, by omega⟩
    obtain ⟨e1, e2, _⟩ := DualGraph.new_of_not h hv
    simp [DualGraph.bfsIndex, collect, bfsDualNext, e1, e2]

/-- The reachable indices are vertices of the two graphs. -/
theorem C51_reachable_vertices (h : d.WF) {v w : DualIndex} (hv : d.IsVertex v) (hr : d.union.Reachable v w) : d.IsVertex w :=
  h.vertex_of_reachable hr hv

/-- `is_connected` decides whether the union is connected. -/
theorem C51_is_connected (h : d.WF) : ∃ b, d.isConnected = .ok b ∧
    (b = true ↔ ∀ v w, d.IsVertex v → d.IsVertex w → d.union.Reachable v w) :=
  DualGraph.isConnected_spec h

/-- `diameter` is the largest distance in the union, `None` if there is no vertex or the union is not connected. -/
theorem C51_diameter (h : d.WF) :
    ((0 < d.totalVertices ∧ ∀ v w, d.IsVertex v → d.IsVertex w → d.union.Reachable v w) →
      ∃ m, d.diameter = .ok (some m) ∧ (∀ v w, d.IsVertex v → d.IsVertex w → d.union.dist v w ≤ m) ∧
        ∃ v w, d.IsVertex v ∧ d.IsVertex w ∧ d.union.dist v w = m) ∧
    (¬ (0 < d.totalVertices ∧ ∀ v w, d.IsVertex v → d.IsVertex w → d.union.Reachable v w) → d.diameter = .ok none) := by
  refine ⟨fun hc => DualGraph.diameter_spec h hc.1 hc.2, fun hc => DualGraph.diameter_none h ?_⟩
  by_cases h0 : 0 < d.totalVertices
  · right; intro hall; exact hc ⟨h0, hall⟩
  · left; omega

/-! ### C12 -/

/-- After any number `k` of `next` calls on a `BfsDualIndex` started at `v`, `reuse(w)` gives the state of a fresh iterator
started at `w`, so it yields exactly what a fresh one yields; both starts may be out of range. -/
theorem C12_dual_reuse (h : d.WF) (v w : DualIndex) (k : Nat) :
    ∃ s s', advance (bfsDualNext d) k (BfsDual.new d v) = .ok s ∧ BfsDual.reuse d s w = .ok s' ∧
      ∀ fuel, (do let (l, _) ← collect (bfsDualNext d) fuel s'; return l : Res _) = d.bfsIndex w fuel := by
  have hk : ∃ s, advance (bfsDualNext d) k (BfsDual.new d v) = .ok s ∧ s.notHandled1.length = d.graph1.nextId ∧
      s.notHandled2.length = d.graph2.nextId := by
    by_cases hv : d.IsVertex v
    · have hI : ∃ L, DualGraph.BfsI d v (BfsDual.new d v) L := ⟨[], DualGraph.BfsI.init h hv⟩
      generalize BfsDual.new d v = s0 at hI
      induction k generalizing s0 with
      | zero => obtain ⟨L, hI⟩ := hI; exact ⟨s0, rfl, hI.len1, hI.len2⟩
      | succ k ih =>
        obtain ⟨L, hI⟩ := hI
        rcases DualGraph.bfsNext_step h hI with ⟨e1, _, _⟩ | ⟨x, s', e1, e2⟩
        · obtain ⟨s, a1, a2⟩ := ih s0 ⟨L, hI⟩
          exact ⟨s, by simp only [advance, e1, Res.ok_bind]; exact a1, a2⟩
        · obtain ⟨s, a1, a2⟩ := ih s' ⟨_, e2⟩
          exact ⟨s, by simp only [advance, e1, Res.ok_bind]; exact a1, a2⟩
    · obtain ⟨e1, e2, _⟩ := DualGraph.new_of_not h hv
      refine ⟨BfsDual.new d v, ?_, DualGraph.new_lengths h v⟩
      induction k with
      | zero => rfl
      | succ k ih => simp only [advance, bfsDualNext, e1, e2, Res.ok_bind]; exact ih
  obtain ⟨s, e1, e2, e3⟩ := hk
  exact ⟨s, _, e1, DualGraph.reuse_eq_new h e2 e3 w, fun _ => rfl⟩

end

/-! ### C50 -/

section
variable {T1 A1 T2 A2 : Type} [AdjContainer T1 A1] [AdjContainer T2 A2] [LawfulAdj T1 A1] [LawfulAdj T2 A2]

/-- The claim of C50: `add_edge` on a `SingleDualGraph` with an endpoint that already has a cross edge is an error and changes
nothing. -/
def C50Claim (T1 A1 T2 A2 : Type) [AdjContainer T1 A1] [AdjContainer T2 A2] [LawfulAdj T1 A1] [LawfulAdj T2 A2] : Prop :=
  ∀ (d : DualGraph AdjSingle T1 A1 T2 A2), d.WF → ∀ i j, i < d.graph1.vertexCount → j < d.graph2.vertexCount →
    (∃ q ∈ d.cross, q.1 = i ∨ q.2 = j) → d.addEdge i j = .ok (.error .edgeExists, d)

theorem single_slice (a : AdjSingle) : AdjTrait.slice a = [] ∧ a = .nothing ∨ ∃ k, AdjTrait.slice a = [k] ∧ a = .something k := by
  cases a with
  | nothing => left; exact ⟨rfl, rfl⟩
  | something k => right; exact ⟨k, rfl, rfl⟩

theorem single_list1 {d : DualGraph AdjSingle T1 A1 T2 A2} {i : Nat} (hi : i < d.adj1.length) :
    (d.list1 i = [] ∧ d.adj1[i] = .nothing) ∨ ∃ k, d.list1 i = [k] ∧ d.adj1[i] = .something k := by
  have : d.list1 i = AdjTrait.slice d.adj1[i] := by simp [DualGraph.list1, hi]
  rw [this]; exact single_slice _

theorem single_list2 {d : DualGraph AdjSingle T1 A1 T2 A2} {i : Nat} (hi : i < d.adj2.length) :
    (d.list2 i = [] ∧ d.adj2[i] = .nothing) ∨ ∃ k, d.list2 i = [k] ∧ d.adj2[i] = .something k := by
  have : d.list2 i = AdjTrait.slice d.adj2[i] := by simp [DualGraph.list2, hi]
  rw [this]; exact single_slice _

/-- The cross edges of a `SingleDualGraph` are a partial matching. -/
theorem C50_matching {d : DualGraph AdjSingle T1 A1 T2 A2} (h : d.WF) {p q : ℕ × ℕ} (hp : p ∈ d.cross) (hq : q ∈ d.cross) :
    p.1 = q.1 ↔ p.2 = q.2 := by
  have hp' : p.2 ∈ d.list1 p.1 := hp
  have hq' : q.2 ∈ d.list1 q.1 := hq
  constructor
  · intro e
    rw [← e] at hq'
    rcases single_list1 (DualGraph.list1_lt hp') with ⟨e1, _⟩ | ⟨k, e1, _⟩
    · rw [e1] at hp'; simp at hp'
    · rw [e1] at hp' hq'; simp at hp' hq'; rw [hp', hq']
  · intro e
    have hp2 := (h.inv _ _).mp hp'
    have hq2 := (h.inv _ _).mp hq'
    rw [← e] at hq2
    rcases single_list2 (DualGraph.list2_lt hp2) with ⟨e1, _⟩ | ⟨k, e1, _⟩
    · rw [e1] at hp2; simp at hp2
    · rw [e1] at hp2 hq2; simp at hp2 hq2; rw [hp2, hq2]

/-- What `add_edge` on a `SingleDualGraph` does: out of range indices and a taken first endpoint are errors that change
nothing, two free endpoints are connected, but a free first endpoint and a taken second endpoint are a panic. -/
theorem C50_add_edge {d : DualGraph AdjSingle T1 A1 T2 A2} (h : d.WF) (i j : Nat) :
    (d.graph1.vertexCount ≤ i ∨ d.graph2.vertexCount ≤ j → d.addEdge i j = .ok (.error .indexOutOfBounds, d)) ∧
    (i < d.graph1.vertexCount → j < d.graph2.vertexCount →
      ((∃ q ∈ d.cross, q.1 = i) → d.addEdge i j = .ok (.error .edgeExists, d)) ∧
      ((¬ ∃ q ∈ d.cross, q.1 = i) → (∃ q ∈ d.cross, q.2 = j) → d.addEdge i j = .panic) ∧
      ((¬ ∃ q ∈ d.cross, q.1 = i) → (¬ ∃ q ∈ d.cross, q.2 = j) → ∃ d', d.addEdge i j = .ok (.ok (), d') ∧ d'.WF ∧
        (∀ p, p ∈ d'.cross ↔ p = (i, j) ∨ p ∈ d.cross) ∧ d'.graph1 = d.graph1 ∧ d'.graph2 = d.graph2)) := by
  constructor
  · intro hr
    simp [DualGraph.addEdge, h.len1, h.len2, hr]
  · intro hi' hj'
    have hi : i < d.adj1.length := by rw [h.len1]; exact hi'
    have hj : j < d.adj2.length := by rw [h.len2]; exact hj'
    have hr' : ¬ (d.adj1.length ≤ i ∨ d.adj2.length ≤ j) := by omega
    have hx1 : (∃ q ∈ d.cross, q.1 = i) ↔ d.list1 i ≠ [] := by
      constructor
      · rintro ⟨⟨a, b⟩, hq, rfl⟩ hc
        have hq' : b ∈ d.list1 a := hq
        simp only at hc
        rw [hc] at hq'; simp at hq'
      · intro hne
        obtain ⟨b, hb⟩ := List.exists_mem_of_ne_nil _ hne
        exact ⟨(i, b), hb, rfl⟩
    have hx2 : (∃ q ∈ d.cross, q.2 = j) ↔ d.list2 j ≠ [] := by
      constructor
      · rintro ⟨⟨a, b⟩, hq, rfl⟩ hc
        have hq' : a ∈ d.list2 b := (h.inv _ _).mp hq
        simp only at hc
        rw [hc] at hq'; simp at hq'
      · intro hne
        obtain ⟨b, hb⟩ := List.exists_mem_of_ne_nil _ hne
        exact ⟨(b, j), (h.inv _ _).mpr hb, rfl⟩
    rw [hx1, hx2]
    have put1 : Vec.put d.adj1 i d.adj1[i] = .ok d.adj1 := by rw [Vec.put_of_lt hi]; simp
    rcases single_list1 hi with ⟨e1, e2⟩ | ⟨k, e1, e2⟩
    · rcases single_list2 hj with ⟨f1, f2⟩ | ⟨l, f1, f2⟩
      · refine ⟨by simp [e1], by simp [f1], fun _ _ => ?_⟩
        have hn : (i, j) ∉ d.cross := by
          intro hc
          have : j ∈ d.list1 i := hc
          rw [e1] at this; simp at this
        obtain ⟨w1, w2⟩ := insert_wf h (a := .something j) (b := .something i) hi hj (by rw [e1]; rfl) (by rw [f1]; rfl) hn
        refine ⟨_, ?_, w1, w2, rfl, rfl⟩
        simp [-Res.bind_eq_ok, DualGraph.addEdge, hr', Vec.idx_of_lt hi, Vec.idx_of_lt hj, AdjTrait.addEdge, e2, f2, AdjSingle.isNothing,
          Vec.put_of_lt hi, Vec.put_of_lt hj]
      · refine ⟨by simp [e1], fun _ _ => ?_, by simp [f1]⟩
        simp [DualGraph.addEdge, hr', Vec.idx_of_lt hi, Vec.idx_of_lt hj, AdjTrait.addEdge, e2, f2, AdjSingle.isNothing,
          Vec.put_of_lt hi]
    · refine ⟨fun _ => ?_, by simp [e1], by simp [e1]⟩
      simp [-Res.bind_eq_ok, DualGraph.addEdge, hr', Vec.idx_of_lt hi, AdjTrait.addEdge, AdjSingle.isNothing, put1]
      rw [e2]
      simp [← e2, put1]

/-- The code violates C50: with a cross edge between 0 and 0, connecting the free vertex 1 of graph 1 with the taken vertex 0
of graph 2 panics. -/
theorem C50_taken_second_endpoint_panics_violation : ¬ C50Claim Nat (NodeContainer Nat) Nat (NodeContainer Nat) := by
  intro hc
  obtain ⟨w1, w2, _⟩ := C49_new (J := AdjSingle) rfl exPath_wf exPath_wf
  obtain ⟨d', e1, e2, e3, e4, e5⟩ := ((C50_add_edge w1 0 0).2 (by decide) (by decide)).2.2 (by simp [w2]) (by simp [w2])
  have e4' : d'.graph1.vertexCount = 4 := by rw [e4]; rfl
  have e5' : d'.graph2.vertexCount = 4 := by rw [e5]; rfl
  have h1 := hc d' e2 1 0 (by omega) (by omega) ⟨(0, 0), (e3 _).mpr (Or.inl rfl), Or.inr rfl⟩
  have h2 := ((C50_add_edge e2 1 0).2 (by omega) (by omega)).2.1 (by
    rintro ⟨q, hq, hq1⟩
    rw [e3, w2] at hq
    rcases hq with rfl | hq
    · simp at hq1
    · simp at hq) ⟨(0, 0), (e3 _).mpr (Or.inl rfl), rfl⟩
  rw [h2] at h1
  simp at h1

/-- Partial: as long as no call panics, any sequence of `add_edge` calls, interleaved with edits of the inner graphs, has the
results and the cross edges of insertions into a partial matching.  Missing: calls with a free first and a taken second
endpoint, which panic (`C50_add_edge`). -/
theorem C50_history_partial {R : Type} [Rng R] {g1 : GenericGraph T1 A1} {g2 : GenericGraph T2 A2} (h1 : g1.WF) (h2 : g2.WF)
    (ops : List (DualOp T1 T2 R)) {rs : List (Except AddEdgeError Unit)} {d : DualGraph AdjSingle T1 A1 T2 A2}
    (e : dualRun ops (DualGraph.new g1 g2 : DualGraph AdjSingle T1 A1 T2 A2) = .ok (rs, d)) :
    rs = (stepRun (matchStep g1.vertexCount g2.vertexCount) ∅ (ops.filterMap DualOp.pair)).1 ∧ d.WF ∧
    (∀ p, p ∈ d.cross ↔ p ∈ (stepRun (matchStep g1.vertexCount g2.vertexCount) ∅ (ops.filterMap DualOp.pair)).2) := by
  obtain ⟨w1, w2, w3⟩ := C49_new (J := AdjSingle) rfl h1 h2
  have key : ∀ (ops : List (DualOp T1 T2 R)) (d0 : DualGraph AdjSingle T1 A1 T2 A2) (S : Finset (ℕ × ℕ)) (rs : List (Except AddEdgeError Unit))
      (d : DualGraph AdjSingle T1 A1 T2 A2), d0.WF → (∀ p, p ∈ S ↔ p ∈ d0.cross) → dualRun ops d0 = .ok (rs, d) →
      rs = (stepRun (matchStep d0.graph1.vertexCount d0.graph2.vertexCount) S (ops.filterMap DualOp.pair)).1 ∧ d.WF ∧
      (∀ p, p ∈ d.cross ↔ p ∈ (stepRun (matchStep d0.graph1.vertexCount d0.graph2.vertexCount) S (ops.filterMap DualOp.pair)).2) := by
    intro ops
    induction ops with
    | nil =>
      intro d0 S rs d h hS e
      simp [dualRun] at e
      obtain ⟨rfl, rfl⟩ := e
      exact ⟨rfl, h, fun p => (hS p).symm⟩
    | cons op ops ih =>
      intro d0 S rs d h hS e
      cases op with
      | link i j =>
        simp only [dualRun, Res.bind_eq_ok] at e
        obtain ⟨⟨r, d'⟩, a1, ⟨rs', d''⟩, e1, e2⟩ := e
        simp at e2
        obtain ⟨rfl, rfl⟩ := e2
        obtain ⟨x1, x2⟩ := C50_add_edge h i j
        have hstep : r = (matchStep d0.graph1.vertexCount d0.graph2.vertexCount S (i, j)).1 ∧ d'.WF ∧
            (∀ p, p ∈ (matchStep d0.graph1.vertexCount d0.graph2.vertexCount S (i, j)).2 ↔ p ∈ d'.cross) ∧
            d'.graph1 = d0.graph1 ∧ d'.graph2 = d0.graph2 := by
          by_cases hr : d0.graph1.vertexCount ≤ i ∨ d0.graph2.vertexCount ≤ j
          · rw [x1 hr] at a1
            simp at a1
            obtain ⟨rfl, rfl⟩ := a1
            simp [matchStep, hr, h, hS]
          · obtain ⟨y1, y2, y3⟩ := x2 (by omega) (by omega)
            by_cases hq1 : ∃ q ∈ d0.cross, q.1 = i
            · rw [y1 hq1] at a1
              simp at a1
              obtain ⟨rfl, rfl⟩ := a1
              have : ∃ q ∈ S, q.1 = i ∨ q.2 = j := by
                obtain ⟨q, b1, b2⟩ := hq1
                exact ⟨q, (hS q).mpr b1, Or.inl b2⟩
              simp only [matchStep, hr, this, if_true, if_false]
              exact ⟨trivial, h, hS, trivial, trivial⟩
            · by_cases hq2 : ∃ q ∈ d0.cross, q.2 = j
              · rw [y2 hq1 hq2] at a1; simp at a1
              · obtain ⟨d2, z1, z2, z3, z4, z5⟩ := y3 hq1 hq2
                rw [z1] at a1
                simp at a1
                obtain ⟨rfl, rfl⟩ := a1
                have : ¬ ∃ q ∈ S, q.1 = i ∨ q.2 = j := by
                  rintro ⟨q, b1, b2 | b2⟩
                  · exact hq1 ⟨q, (hS q).mp b1, b2⟩
                  · exact hq2 ⟨q, (hS q).mp b1, b2⟩
                simp only [matchStep, hr, this, if_false]
                refine ⟨trivial, z2, ?_, z4, z5⟩
                intro p
                rw [Finset.mem_insert, z3, hS]
        obtain ⟨c1, c2, c3, c4, c5⟩ := hstep
        obtain ⟨b1, b2, b3⟩ := ih d' _ rs' d'' c2 c3 e1
        rw [c4, c5] at b1 b3
        refine ⟨?_, b2, ?_⟩
        · simp only [List.filterMap_cons, DualOp.pair, stepRun]
          rw [← b1, c1]
        · simpa only [List.filterMap_cons, DualOp.pair, stepRun] using b3
      | inner1 op =>
        simp only [dualRun, Res.bind_eq_ok] at e
        obtain ⟨g, e1, e2⟩ := e
        obtain ⟨x1, x2, _, _⟩ := C02_C05_step h.wf1 op e1
        obtain ⟨y1, y2⟩ := (C49_inner_edit h).1 g x1 x2
        obtain ⟨b1, b2, b3⟩ := ih { d0 with graph1 := g } S rs d y1 (by rw [y2]; exact hS) e2
        simp only [x2] at b1 b3
        exact ⟨by simpa [List.filterMap_cons, DualOp.pair] using b1, b2, by simpa [List.filterMap_cons, DualOp.pair] using b3⟩
      | inner2 op =>
        simp only [dualRun, Res.bind_eq_ok] at e
        obtain ⟨g, e1, e2⟩ := e
        obtain ⟨x1, x2, _, _⟩ := C02_C05_step h.wf2 op e1
        obtain ⟨y1, y2⟩ := (C49_inner_edit h).2 g x1 x2
        obtain ⟨b1, b2, b3⟩ := ih { d0 with graph2 := g } S rs d y1 (by rw [y2]; exact hS) e2
        simp only [x2] at b1 b3
        exact ⟨by simpa [List.filterMap_cons, DualOp.pair] using b1, b2, by simpa [List.filterMap_cons, DualOp.pair] using b3⟩
  exact key ops _ ∅ rs d w1 (by simp [w2]) e

end

/-! ### C59 -/

section
variable {J T A1 A2 : Type} [AdjTrait J] [AdjContainer T A1] [AdjContainer T A2] [LawfulAdj T A1] [LawfulAdj T A2]

/-- `L` lists the neighbours of `v` in the union, each once, first those of the own graph. -/
structure ListsNeighbours (d : DualGraph J T A1 T A2) (v : DualIndex) (L : List DualIndex) : Prop where
  nodup : L.Nodup
  mem : ∀ w, w ∈ L ↔ d.union.Adj v w
  own : ∃ (a b : List Nat), match v with
    | .graph1 _ => L = a.map .graph1 ++ b.map .graph2
    | .graph2 _ => L = a.map .graph2 ++ b.map .graph1

theorem lists_nbrs {d : DualGraph J T A1 T A2} (h : d.WF) (v : DualIndex) : ListsNeighbours d v (d.nbrs v) := by
  refine ⟨dual_nbrs_nodup h v, fun w => h.adj_iff.symm, ?_⟩
  rcases v with i | i
  · exact ⟨_, _, rfl⟩
  · exact ⟨_, _, rfl⟩

/-- `contained_iter_neighbors_1(i)` and `contained_iter_neighbors_2(i)` yield the data of the neighbours in both graphs, each
exactly once, first those in the same graph; they panic out of range. -/
theorem C59_contained_iter_neighbors {d : DualGraph J T A1 T A2} (h : d.WF) (i : Nat) :
    (i < d.graph1.vertexCount → ∃ ts L, d.containedIterNeighbors1 i = .ok ts ∧ ListsNeighbours d (.graph1 i) L ∧
      ts.map some = L.map d.dataAt) ∧
    (¬ i < d.graph1.vertexCount → d.containedIterNeighbors1 i = .panic) ∧
    (i < d.graph2.vertexCount → ∃ ts L, d.containedIterNeighbors2 i = .ok ts ∧ ListsNeighbours d (.graph2 i) L ∧
      ts.map some = L.map d.dataAt) ∧
    (¬ i < d.graph2.vertexCount → d.containedIterNeighbors2 i = .panic) := by
  refine ⟨?_, ?_, ?_, ?_⟩
  · intro hi
    have hl := h.wf1.lt_length hi
    obtain ⟨e1, e2⟩ := idx_nbrs hl
    obtain ⟨a, f1, f2⟩ := DualGraph.idx_list1 (d := d) (i := i) (by rw [h.len1]; exact hi)
    obtain ⟨ts1, x1, x2⟩ := DualGraph.nContained_spec d.graph1.vertices (d.graph1.nbrs i)
      (fun j hj => h.wf1.lt_length (h.wf1.lt _ _ hj))
    obtain ⟨ts2, y1, y2⟩ := DualGraph.nContained_spec d.graph2.vertices (d.list1 i)
      (fun j hj => h.wf2.lt_length (h.lt hj).2)
    refine ⟨ts1 ++ ts2, _, ?_, lists_nbrs h _, ?_⟩
    · simp only [DualGraph.containedIterNeighbors1, GenericGraph.container, e1, f1, e2, f2, x1, y1, Res.ok_bind, Res.pure_eq]
    · rw [List.map_append, x2, y2]
      simp only [DualGraph.nbrs, List.map_append, List.map_map]
      rfl
  · intro hi
    have : ¬ i < d.graph1.vertices.length := by rw [h.wf1.len]; exact hi
    simp [DualGraph.containedIterNeighbors1, GenericGraph.container, Vec.idx, this]
  · intro hi
    have hl := h.wf2.lt_length hi
    obtain ⟨e1, e2⟩ := idx_nbrs hl
    obtain ⟨a, f1, f2⟩ := DualGraph.idx_list2 (d := d) (i := i) (by rw [h.len2]; exact hi)
    obtain ⟨ts1, x1, x2⟩ := DualGraph.nContained_spec d.graph2.vertices (d.graph2.nbrs i)
      (fun j hj => h.wf2.lt_length (h.wf2.lt _ _ hj))
    obtain ⟨ts2, y1, y2⟩ := DualGraph.nContained_spec d.graph1.vertices (d.list2 i)
      (fun j hj => h.wf1.lt_length (h.lt ((h.inv _ _).mpr hj)).1)
    refine ⟨ts1 ++ ts2, _, ?_, lists_nbrs h _, ?_⟩
    · simp only [DualGraph.containedIterNeighbors2, GenericGraph.container, e1, f1, e2, f2, x1, y1, Res.ok_bind, Res.pure_eq]
    · rw [List.map_append, x2, y2]
      simp only [DualGraph.nbrs, List.map_append, List.map_map]
      rfl
  · intro hi
    have : ¬ i < d.graph2.vertices.length := by rw [h.wf2.len]; exact hi
    simp [DualGraph.containedIterNeighbors2, GenericGraph.container, Vec.idx, this]

/-- `dfs_contained` yields the data of the vertices in the order of `dfs_index`. -/
theorem C51_dfs_contained {d : DualGraph J T A1 T A2} (h : d.WF) {v : DualIndex} (hv : d.IsVertex v) {fuel : Nat}
    (hf : d.totalVertices < fuel) :
    ∃ L ts, d.dfsIndex v fuel = .ok L ∧ SearchOrder d.union v L ∧ d.dfsContained v fuel = .ok ts ∧ ts.map some = L.map d.dataAt := by
  obtain ⟨L, e1, e2⟩ := DualGraph.dfsIndex_spec h hv hf
  have e1' := e1
  simp only [DualGraph.dfsIndex, Res.bind_eq_ok] at e1
  obtain ⟨⟨L', s'⟩, e3, e4⟩ := e1
  simp at e4; subst e4
  obtain ⟨ts, f1, f2⟩ := DualGraph.collect_rel (DualGraph.dfs_same (d := d)) fuel _ _ _ e3
  refine ⟨L', ts, e1', e2, by simp [DualGraph.dfsContained, f1], ?_⟩
  clear e3 e2 e1' f1
  induction f2 with
  | nil => rfl
  | cons hr _ ih => simp [hr, ih]

theorem union_of_sameAdj {d : DualGraph J T A1 T A2} {vs1 : List A1} {vs2 : List A2} (s1 : SameAdj d.graph1 vs1)
    (s2 : SameAdj d.graph2 vs2) :
    DualGraph.union { d with graph1 := { d.graph1 with vertices := vs1 }, graph2 := { d.graph2 with vertices := vs2 } } = d.union := by
  ext v w
  rcases v with i | i <;> rcases w with j | j
  · simp [DualGraph.union, GenericGraph.toSimple, s1.nbrs]
  · simp [DualGraph.union, DualGraph.cross, DualGraph.list1]
  · simp [DualGraph.union, DualGraph.cross, DualGraph.list1]
  · simp [DualGraph.union, GenericGraph.toSimple, s2.nbrs]

theorem wf_of_sameAdj {d : DualGraph J T A1 T A2} (h : d.WF) {vs1 : List A1} {vs2 : List A2} (s1 : SameAdj d.graph1 vs1)
    (s2 : SameAdj d.graph2 vs2) :
    DualGraph.WF { d with graph1 := { d.graph1 with vertices := vs1 }, graph2 := { d.graph2 with vertices := vs2 } } :=
  ⟨s1.wf h.wf1, s2.wf h.wf2, h.len1, h.len2, h.inv, h.nodup1, h.nodup2⟩

end

section
variable {T A1 A2 : Type} [AdjContainer T A1] [AdjContainer T A2] [LawfulAdj T A1] [LawfulAdj T A2]

/-- The index and the data of an item, as the pair (vertex, data). -/
def WhichGraph.item {α : Type} : WhichGraph (Nat × α) → DualIndex × α
  | .graph1 p => (.graph1 p.1, p.2)
  | .graph2 p => (.graph2 p.1, p.2)

theorem zip_items {ι : Type} (mk : Nat → ι) (dat : ι → Option T) : ∀ (l : List Nat) (ts : List T), ts.map some = l.map (fun i => dat (mk i)) →
    ((l.zip ts).map (fun p => (mk p.1, p.2))).map (·.1) = l.map mk ∧
    ((l.zip ts).map (fun p => (mk p.1, p.2))).map (fun p => some p.2) = (l.map mk).map dat := by
  intro l
  induction l with
  | nil => intro ts _; simp
  | cons i l ih =>
    intro ts hts
    cases ts with
    | nil => simp at hts
    | cons t ts =>
      simp at hts
      obtain ⟨a, b⟩ := ih ts (by simpa using hts.2)
      constructor
      · simp at a ⊢; exact a
      · simp at b ⊢; exact ⟨hts.1, b⟩

/-- `graph_1_contained_iter_mut_which_graph_with_index(i)` on a `SingleDualGraph` with arbitrary writes through the yielded
references: it yields every neighbour in both graphs exactly once with its index and its data, and changes exactly the data of
these vertices. -/
theorem C59_neighbours_mut_1 {d : DualGraph AdjSingle T A1 T A2} (h : d.WF) (upd : Nat → T → T) (i : Nat) :
    (i < d.graph1.vertexCount → ∃ items d' L, d.neighboursMut1 upd i = .ok (items, d') ∧ ListsNeighbours d (.graph1 i) L ∧
      (items.map WhichGraph.item).map (·.1) = L ∧ (items.map WhichGraph.item).map (fun p => some p.2) = L.map d.dataAt ∧
      d'.WF ∧ d.WrittenTo d' upd L) ∧
    (¬ i < d.graph1.vertexCount → d.neighboursMut1 upd i = .panic) := by
  constructor
  · intro hi
    have hl := h.wf1.lt_length hi
    obtain ⟨e1, e2⟩ := idx_nbrs hl
    have hi1 : i < d.adj1.length := by rw [h.len1]; exact hi
    obtain ⟨a, f1, f2⟩ := DualGraph.idx_list1 (d := d) hi1
    obtain ⟨ts, vs1, x1, x2, x3, x4, x5⟩ := DualGraph.nContainedMut_spec upd d.graph1 (d.graph1.nbrs i) 0 d.graph1.vertices
      (h.wf1.nodup i) (fun j hj => h.wf1.lt_length (h.wf1.lt _ _ hj)) (SameAdj.refl _)
    have hlen : ts.length = (d.graph1.nbrs i).length := by simpa using congrArg List.length x3
    obtain ⟨z1, z2⟩ := zip_items WhichGraph.graph1 d.dataAt (d.graph1.nbrs i) ts x3
    have hit : ((((d.graph1.nbrs i).zip ts).map WhichGraph.graph1).map WhichGraph.item) =
        ((d.graph1.nbrs i).zip ts).map (fun p => (WhichGraph.graph1 p.1, p.2)) := by
      rw [List.map_map]; rfl
    rcases single_list1 hi1 with ⟨g1, _⟩ | ⟨j, g1, _⟩
    · refine ⟨((d.graph1.nbrs i).zip ts).map .graph1, { d with graph1 := { d.graph1 with vertices := vs1 } }, d.nbrs (.graph1 i), ?_,
        lists_nbrs h _, ?_, ?_, ?_, ?_⟩
      · simp [-Res.bind_eq_ok, DualGraph.neighboursMut1, hl, Res.assert, e1, f1, e2, f2, g1, x1]
      · rw [hit, z1]; simp [DualGraph.nbrs, g1]
      · rw [hit, z2]; simp [DualGraph.nbrs, g1]
      · exact wf_of_sameAdj h x2 (SameAdj.refl _)
      · refine ⟨union_of_sameAdj x2 (SameAdj.refl _), ⟨rfl, rfl⟩, ⟨rfl, rfl⟩, ?_, ?_⟩
        · intro k w hk
          simp only [DualGraph.nbrs, g1, List.map_nil, List.append_nil, List.getElem?_map] at hk
          cases hm : (d.graph1.nbrs i)[k]? with
          | none => rw [hm] at hk; simp at hk
          | some m =>
            rw [hm] at hk; simp at hk; subst hk
            have := x4 k m hm
            rw [Nat.zero_add] at this
            exact this
        · intro w hw
          rcases w with m | m
          · exact x5 m (fun hm => hw (by simp [DualGraph.nbrs, hm]))
          · rfl
    · have hj2 := (h.lt (show j ∈ d.list1 i by simp [g1])).2
      have hjl := h.wf2.lt_length hj2
      set b := d.graph2.vertices[j] with hb
      have hs2 : SameAdj d.graph2 (d.graph2.vertices.set j (setContained b (upd ts.length (contained b)))) :=
        (SameAdj.refl d.graph2).set (by simp [hjl, hb]) _
      refine ⟨((d.graph1.nbrs i).zip ts).map .graph1 ++ [.graph2 (j, contained b)],
        { d with graph1 := { d.graph1 with vertices := vs1 },
                 graph2 := { d.graph2 with vertices := d.graph2.vertices.set j (setContained b (upd ts.length (contained b))) } },
        d.nbrs (.graph1 i), ?_, lists_nbrs h _, ?_, ?_, ?_, ?_⟩
      · simp [-Res.bind_eq_ok, DualGraph.neighboursMut1, hl, Res.assert, e1, f1, e2, f2, g1, x1, Vec.idx_of_lt hjl, ← hb]
      · rw [List.map_append, List.map_append, hit, z1]; simp [DualGraph.nbrs, g1, WhichGraph.item]
      · rw [List.map_append, List.map_append, hit, z2]
        simp [DualGraph.nbrs, g1, WhichGraph.item, DualGraph.dataAt, GenericGraph.data, hjl, hb]
      · exact wf_of_sameAdj h x2 hs2
      · refine ⟨union_of_sameAdj x2 hs2, ⟨rfl, rfl⟩, ⟨rfl, rfl⟩, ?_, ?_⟩
        · intro k w hk
          simp only [DualGraph.nbrs, g1, List.map_cons, List.map_nil] at hk
          rw [List.getElem?_append] at hk
          simp only [List.length_map] at hk
          split at hk
          · simp only [List.getElem?_map] at hk
            cases hm : (d.graph1.nbrs i)[k]? with
            | none => rw [hm] at hk; simp at hk
            | some m =>
              rw [hm] at hk; simp at hk; subst hk
              have := x4 k m hm
              rw [Nat.zero_add] at this
              exact this
          · rename_i hkl
            rw [List.getElem?_singleton] at hk
            split at hk
            · rename_i hk0
              simp at hk; subst hk
              have hke : k = ts.length := by omega
              subst hke
              simp only [DualGraph.dataAt, GenericGraph.data, List.map_set]
              rw [List.getElem?_set_self (by simpa using hjl)]
              simp [hjl, hb, LawfulAdj.contained_set]
            · simp at hk
        · intro w hw
          rcases w with m | m
          · exact x5 m (fun hm => hw (by simp [DualGraph.nbrs, hm]))
          · have hne : j ≠ m := by rintro rfl; exact hw (by simp [DualGraph.nbrs, g1])
            simp only [DualGraph.dataAt, GenericGraph.data, List.map_set]
            rw [List.getElem?_set_ne hne]
  · intro hi
    have : ¬ i < d.graph1.vertices.length := by rw [h.wf1.len]; exact hi
    simp [DualGraph.neighboursMut1, this, Res.assert]

/-- `graph_2_contained_iter_mut_which_graph_with_index(i)`, likewise. -/
theorem C59_neighbours_mut_2 {d : DualGraph AdjSingle T A1 T A2} (h : d.WF) (upd : Nat → T → T) (i : Nat) :
    (i < d.graph2.vertexCount → ∃ items d' L, d.neighboursMut2 upd i = .ok (items, d') ∧ ListsNeighbours d (.graph2 i) L ∧
      (items.map WhichGraph.item).map (·.1) = L ∧ (items.map WhichGraph.item).map (fun p => some p.2) = L.map d.dataAt ∧
      d'.WF ∧ d.WrittenTo d' upd L) ∧
    (¬ i < d.graph2.vertexCount → d.neighboursMut2 upd i = .panic) := by
  constructor
  · intro hi
    have hl := h.wf2.lt_length hi
    obtain ⟨e1, e2⟩ := idx_nbrs hl
    have hi1 : i < d.adj2.length := by rw [h.len2]; exact hi
    obtain ⟨a, f1, f2⟩ := DualGraph.idx_list2 (d := d) hi1
    obtain ⟨ts, vs2, x1, x2, x3, x4, x5⟩ := DualGraph.nContainedMut_spec upd d.graph2 (d.graph2.nbrs i) 0 d.graph2.vertices
      (h.wf2.nodup i) (fun j hj => h.wf2.lt_length (h.wf2.lt _ _ hj)) (SameAdj.refl _)
    have hlen : ts.length = (d.graph2.nbrs i).length := by simpa using congrArg List.length x3
    obtain ⟨z1, z2⟩ := zip_items WhichGraph.graph2 d.dataAt (d.graph2.nbrs i) ts x3
    have hit : ((((d.graph2.nbrs i).zip ts).map WhichGraph.graph2).map WhichGraph.item) =
        ((d.graph2.nbrs i).zip ts).map (fun p => (WhichGraph.graph2 p.1, p.2)) := by
      rw [List.map_map]; rfl
    rcases single_list2 hi1 with ⟨g1, _⟩ | ⟨j, g1, _⟩
    · refine ⟨((d.graph2.nbrs i).zip ts).map .graph2, { d with graph2 := { d.graph2 with vertices := vs2 } }, d.nbrs (.graph2 i), ?_,
        lists_nbrs h _, ?_, ?_, ?_, ?_⟩
      · simp [-Res.bind_eq_ok, DualGraph.neighboursMut2, hl, Res.assert, e1, f1, e2, f2, g1, x1]
      · rw [hit, z1]; simp [DualGraph.nbrs, g1]
      · rw [hit, z2]; simp [DualGraph.nbrs, g1]
      · exact wf_of_sameAdj h (SameAdj.refl _) x2
      · refine ⟨union_of_sameAdj (SameAdj.refl _) x2, ⟨rfl, rfl⟩, ⟨rfl, rfl⟩, ?_, ?_⟩
        · intro k w hk
          simp only [DualGraph.nbrs, g1, List.map_nil, List.append_nil, List.getElem?_map] at hk
          cases hm : (d.graph2.nbrs i)[k]? with
          | none => rw [hm] at hk; simp at hk
          | some m =>
            rw [hm] at hk; simp at hk; subst hk
            have := x4 k m hm
            rw [Nat.zero_add] at this
            exact this
        · intro w hw
          rcases w with m | m
          · rfl
          · exact x5 m (fun hm => hw (by simp [DualGraph.nbrs, hm]))
    · have hj2 := (h.lt ((h.inv j i).mpr (show j ∈ d.list2 i by simp [g1]))).1
      have hjl := h.wf1.lt_length hj2
      set b := d.graph1.vertices[j] with hb
      have hs2 : SameAdj d.graph1 (d.graph1.vertices.set j (setContained b (upd ts.length (contained b)))) :=
        (SameAdj.refl d.graph1).set (by simp [hjl, hb]) _
      refine ⟨((d.graph2.nbrs i).zip ts).map .graph2 ++ [.graph1 (j, contained b)],
        { d with graph1 := { d.graph1 with vertices := d.graph1.vertices.set j (setContained b (upd ts.length (contained b))) },
                 graph2 := { d.graph2 with vertices := vs2 } },
        d.nbrs (.graph2 i), ?_, lists_nbrs h _, ?_, ?_, ?_, ?_⟩
      · simp [-Res.bind_eq_ok, DualGraph.neighboursMut2, hl, Res.assert, e1, f1, e2, f2, g1, x1, Vec.idx_of_lt hjl, ← hb]
      · rw [List.map_append, List.map_append, hit, z1]; simp [DualGraph.nbrs, g1, WhichGraph.item]
      · rw [List.map_append, List.map_append, hit, z2]
        simp [DualGraph.nbrs, g1, WhichGraph.item, DualGraph.dataAt, GenericGraph.data, hjl, hb]
      · exact wf_of_sameAdj h hs2 x2
      · refine ⟨union_of_sameAdj hs2 x2, ⟨rfl, rfl⟩, ⟨rfl, rfl⟩, ?_, ?_⟩
        · intro k w hk
          simp only [DualGraph.nbrs, g1, List.map_cons, List.map_nil] at hk
          rw [List.getElem?_append] at hk
          simp only [List.length_map] at hk
          split at hk
          · simp only [List.getElem?_map] at hk
            cases hm : (d.graph2.nbrs i)[k]? with
            | none => rw [hm] at hk; simp at hk
            | some m =>
              rw [hm] at hk; simp at hk; subst hk
              have := x4 k m hm
              rw [Nat.zero_add] at this
              exact this
          · rename_i hkl
            rw [List.getElem?_singleton] at hk
            split at hk
            · rename_i hk0
              simp at hk; subst hk
              have hke : k = ts.length := by omega
              subst hke
              simp only [DualGraph.dataAt, GenericGraph.data, List.map_set]
              rw [List.getElem?_set_self (by simpa using hjl)]
              simp [hjl, hb, LawfulAdj.contained_set]
            · simp at hk
        · intro w hw
          rcases w with m | m
          · have hne : j ≠ m := by rintro rfl; exact hw (by simp [DualGraph.nbrs, g1])
            simp only [DualGraph.dataAt, GenericGraph.data, List.map_set]
            rw [List.getElem?_set_ne hne]
          · exact x5 m (fun hm => hw (by simp [DualGraph.nbrs, hm]))
  · intro hi
    have : ¬ i < d.graph2.vertices.length := by rw [h.wf2.len]; exact hi
    simp [DualGraph.neighboursMut2, this, Res.assert]

/-- `graph_1_contained_iter(i)` and `graph_2_contained_iter(i)` on a `SingleDualGraph` yield what
`contained_iter_neighbors_1`, `contained_iter_neighbors_2` yield. -/
theorem C59_contained_iter {d : DualGraph AdjSingle T A1 T A2} (h : d.WF) (i : Nat) :
    d.containedIter1 i = d.containedIterNeighbors1 i ∧ d.containedIter2 i = d.containedIterNeighbors2 i := by
  constructor
  · by_cases hi : i < d.graph1.nextId
    · have hl := h.wf1.lt_length hi
      obtain ⟨e1, e2⟩ := idx_nbrs hl
      have hi1 : i < d.adj1.length := by rw [h.len1]; exact hi
      obtain ⟨a, f1, f2⟩ := DualGraph.idx_list1 (d := d) hi1
      obtain ⟨ts1, x1, _⟩ := DualGraph.nContained_spec d.graph1.vertices (d.graph1.nbrs i)
        (fun j hj => h.wf1.lt_length (h.wf1.lt _ _ hj))
      rcases single_list1 hi1 with ⟨g1, _⟩ | ⟨j, g1, _⟩
      · simp [-Res.bind_eq_ok, DualGraph.containedIter1, DualGraph.containedIterNeighbors1, GenericGraph.container, hl, Res.assert, e1, f1,
          e2, f2, g1, x1, nContained]
      · have hj2 := h.wf2.lt_length (h.lt (show j ∈ d.list1 i by simp [g1])).2
        simp [-Res.bind_eq_ok, DualGraph.containedIter1, DualGraph.containedIterNeighbors1, GenericGraph.container, hl, Res.assert, e1, f1,
          e2, f2, g1, x1, nContained, GenericGraph.at_, Vec.idx_of_lt hj2]
    · have : ¬ i < d.graph1.vertices.length := by rw [h.wf1.len]; exact hi
      simp [DualGraph.containedIter1, DualGraph.containedIterNeighbors1, GenericGraph.container, Vec.idx, Res.assert, this]
  · by_cases hi : i < d.graph2.nextId
    · have hl := h.wf2.lt_length hi
      obtain ⟨e1, e2⟩ := idx_nbrs hl
      have hi1 : i < d.adj2.length := by rw [h.len2]; exact hi
      obtain ⟨a, f1, f2⟩ := DualGraph.idx_list2 (d := d) hi1
      obtain ⟨ts1, x1, _⟩ := DualGraph.nContained_spec d.graph2.vertices (d.graph2.nbrs i)
        (fun j hj => h.wf2.lt_length (h.wf2.lt _ _ hj))
      rcases single_list2 hi1 with ⟨g1, _⟩ | ⟨j, g1, _⟩
      · simp [-Res.bind_eq_ok, DualGraph.containedIter2, DualGraph.containedIterNeighbors2, GenericGraph.container, hl, Res.assert, e1, f1,
          e2, f2, g1, x1, nContained]
      · have hj2 := h.wf1.lt_length (h.lt ((h.inv j i).mpr (show j ∈ d.list2 i by simp [g1]))).1
        simp [-Res.bind_eq_ok, DualGraph.containedIter2, DualGraph.containedIterNeighbors2, GenericGraph.container, hl, Res.assert, e1, f1,
          e2, f2, g1, x1, nContained, GenericGraph.at_, Vec.idx_of_lt hj2]
    · have : ¬ i < d.graph2.vertices.length := by rw [h.wf2.len]; exact hi
      simp [DualGraph.containedIter2, DualGraph.containedIterNeighbors2, GenericGraph.container, Vec.idx, Res.assert, this]


/-- `graph_1_contained_iter_neighbors_in_other_graph_mut(i)` and its counterpart yield the data of the partner of `i` in the
other graph, if there is one, and change only that. -/
theorem C59_other_mut {d : DualGraph AdjSingle T A1 T A2} (h : d.WF) (upd : Nat → T → T) (i : Nat) :
    (i < d.graph1.vertexCount → ∃ ts d' L, d.otherMut1 upd i = .ok (ts, d') ∧ L.Nodup ∧
      (∀ w, w ∈ L ↔ ∃ j, w = .graph2 j ∧ (i, j) ∈ d.cross) ∧ ts.map some = L.map d.dataAt ∧ d'.WF ∧ d.WrittenTo d' upd L) ∧
    (i < d.graph2.vertexCount → ∃ ts d' L, d.otherMut2 upd i = .ok (ts, d') ∧ L.Nodup ∧
      (∀ w, w ∈ L ↔ ∃ j, w = .graph1 j ∧ (j, i) ∈ d.cross) ∧ ts.map some = L.map d.dataAt ∧ d'.WF ∧ d.WrittenTo d' upd L) := by
  constructor
  · intro hi
    have hi1 : i < d.adj1.length := by rw [h.len1]; exact hi
    obtain ⟨a, f1, f2⟩ := DualGraph.idx_list1 (d := d) hi1
    obtain ⟨ts, vs, x1, x2, x3, x4, x5⟩ := DualGraph.nContainedMut_spec upd d.graph2 (d.list1 i) 0 d.graph2.vertices
      (h.nodup1 i) (fun j hj => h.wf2.lt_length (h.lt hj).2) (SameAdj.refl _)
    refine ⟨ts, { d with graph2 := { d.graph2 with vertices := vs } }, (d.list1 i).map .graph2, ?_,
      (h.nodup1 i).map (fun a b e => by simpa using e), ?_, ?_, wf_of_sameAdj h (SameAdj.refl _) x2, ?_⟩
    · simp only [DualGraph.otherMut1, f1, f2, x1, Res.ok_bind, Res.pure_eq]
    · intro w
      simp only [List.mem_map]
      constructor
      · rintro ⟨j, hj, rfl⟩; exact ⟨j, rfl, hj⟩
      · rintro ⟨j, rfl, hj⟩; exact ⟨j, hj, rfl⟩
    · rw [x3, List.map_map]; rfl
    · refine ⟨union_of_sameAdj (SameAdj.refl _) x2, ⟨rfl, rfl⟩, ⟨rfl, rfl⟩, ?_, ?_⟩
      · intro k w hk
        simp only [List.getElem?_map] at hk
        cases hm : (d.list1 i)[k]? with
        | none => rw [hm] at hk; simp at hk
        | some m =>
          rw [hm] at hk; simp at hk; subst hk
          have := x4 k m hm
          rw [Nat.zero_add] at this
          exact this
      · intro w hw
        rcases w with m | m
        · rfl
        · exact x5 m (fun hm => hw (List.mem_map_of_mem hm))
  · intro hi
    have hi1 : i < d.adj2.length := by rw [h.len2]; exact hi
    obtain ⟨a, f1, f2⟩ := DualGraph.idx_list2 (d := d) hi1
    obtain ⟨ts, vs, x1, x2, x3, x4, x5⟩ := DualGraph.nContainedMut_spec upd d.graph1 (d.list2 i) 0 d.graph1.vertices
      (h.nodup2 i) (fun j hj => h.wf1.lt_length (h.lt ((h.inv _ _).mpr hj)).1) (SameAdj.refl _)
    refine ⟨ts, { d with graph1 := { d.graph1 with vertices := vs } }, (d.list2 i).map .graph1, ?_,
      (h.nodup2 i).map (fun a b e => by simpa using e), ?_, ?_, wf_of_sameAdj h x2 (SameAdj.refl _), ?_⟩
    · simp only [DualGraph.otherMut2, f1, f2, x1, Res.ok_bind, Res.pure_eq]
    · intro w
      simp only [List.mem_map]
      constructor
      · rintro ⟨j, hj, rfl⟩; exact ⟨j, rfl, (h.inv _ _).mpr hj⟩
      · rintro ⟨j, rfl, hj⟩; exact ⟨j, (h.inv _ _).mp hj, rfl⟩
    · rw [x3, List.map_map]; rfl
    · refine ⟨union_of_sameAdj x2 (SameAdj.refl _), ⟨rfl, rfl⟩, ⟨rfl, rfl⟩, ?_, ?_⟩
      · intro k w hk
        simp only [List.getElem?_map] at hk
        cases hm : (d.list2 i)[k]? with
        | none => rw [hm] at hk; simp at hk
        | some m =>
          rw [hm] at hk; simp at hk; subst hk
          have := x4 k m hm
          rw [Nat.zero_add] at this
          exact this
      · intro w hw
        rcases w with m | m
        · exact x5 m (fun hm => hw (List.mem_map_of_mem hm))
        · rfl

end

/-! ### Concrete cases -/

/-- Path `0-1-2-3` and triangle with tail, connected by the cross edges (0,0), (0,1), (3,2); vertex 4 of graph 2 is isolated. -/
def exDual : DualGraph Adj Nat (NodeContainer Nat) Nat (NodeContainer Nat) :=
  ⟨exPath, exTail, [⟨[0, 1]⟩, ⟨[]⟩, ⟨[]⟩, ⟨[2]⟩], [⟨[0]⟩, ⟨[0]⟩, ⟨[3]⟩, ⟨[]⟩, ⟨[]⟩]⟩

theorem exDual_run : dualRun (R := Tape) [.link 0 0, .link 0 1, .link 3 2, .link 0 0, .link 9 0]
    (DualGraph.new exPath exTail : DualGraph Adj Nat (NodeContainer Nat) Nat (NodeContainer Nat)) =
    .ok ([.ok (), .ok (), .ok (), .error .edgeExists, .error .indexOutOfBounds], exDual) := rfl

theorem exDual_wf : exDual.WF := (C49_history exPath_wf exTail_wf _ exDual_run).2.1

/-- Two paths connected by the cross edges (0,0), (3,1). -/
def exSingle : DualGraph AdjSingle Nat (NodeContainer Nat) Nat (NodeContainer Nat) :=
  ⟨exPath, exPath, [.something 0, .nothing, .nothing, .something 1], [.something 0, .something 3, .nothing, .nothing]⟩

theorem exSingle_run : dualRun (R := Tape) [.link 0 0, .link 3 1, .link 0 2]
    (DualGraph.new exPath exPath : DualGraph AdjSingle Nat (NodeContainer Nat) Nat (NodeContainer Nat)) =
    .ok ([.ok (), .ok (), .error .edgeExists], exSingle) := rfl

theorem exSingle_wf : exSingle.WF := (C50_history_partial exPath_wf exPath_wf _ exSingle_run).2.1

-- C49
example : exDual.degree1 0 = .ok 3 ∧ exDual.degree2 2 = .ok 4 ∧ exDual.degree1 4 = .panic := by decide
-- C50: a free and a taken endpoint in both orders
example : exSingle.addEdge 1 0 = .panic := rfl
example : exSingle.addEdge 0 2 = .ok (.error .edgeExists, exSingle) := rfl
-- C51
example : exDual.WF ∧ exDual.IsVertex (.graph1 1) ∧ ¬ exDual.IsVertex (.graph1 4) ∧
    exDual.dfsIndex (.graph1 1) 10 = .ok [.graph1 1, .graph1 2, .graph1 3, .graph2 2, .graph2 3, .graph2 0, .graph2 1, .graph1 0] ∧
    exDual.bfsIndex (.graph2 3) 10 = .ok [(.graph2 3, 0), (.graph2 2, 1), (.graph2 1, 2), (.graph2 0, 2), (.graph1 3, 2),
      (.graph1 0, 3), (.graph1 2, 3), (.graph1 1, 4)] ∧ exDual.isConnected = .ok false ∧ exDual.diameter = .ok none :=
  ⟨exDual_wf, by show 1 < 4; omega, by show ¬ 4 < 4; omega, by decide, by decide, by decide, by decide⟩
example : exSingle.isConnected = .ok true ∧ exSingle.diameter = .ok (some 5) ∧
    exSingle.dfsContained (.graph1 3) 9 = .ok [30, 10, 20, 30, 0, 0, 10, 20] := by decide
-- C12
example : advance (bfsDualNext exDual) 3 (BfsDual.new exDual (.graph2 3)) =
      .ok ⟨[false, true, true, false], [false, false, false, false, true], 2, [.graph2 0, .graph1 3], [.graph1 0]⟩ := by decide
-- C59
example : exSingle.containedIterNeighbors1 3 = .ok [20, 10] ∧ exSingle.containedIter2 1 = .ok [0, 20, 30] := by decide
example : ∃ d', exSingle.neighboursMut1 (fun k t => 100 * (k + 1) + t) 3 =
    .ok ([.graph1 (2, 20), .graph2 (1, 10)], d') ∧ d'.graph1.data = [0, 10, 120, 30] ∧ d'.graph2.data = [0, 210, 20, 30] :=
  ⟨_, rfl, rfl, rfl⟩

end Verif
