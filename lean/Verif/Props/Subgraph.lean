import Verif.Lemmas.Dot

/-!
# C25, C53: cloned subgraph and dot output
-/

set_option linter.unusedSectionVars false
set_option linter.unusedSimpArgs false

namespace Verif
open AdjContainer GenericGraph

variable {T A : Type} [AdjContainer T A] [LawfulAdj T A]

/-! ### C25 -/

/-- `cloned_subgraph` never panics and is `None` exactly for an empty list or an index out of range. -/
theorem C25_cloned_subgraph_none {g : GenericGraph T A} (h : g.WF) (nodeList : List Nat) :
    (∃ r, g.clonedSubgraph nodeList = .ok r) ∧
    (g.clonedSubgraph nodeList = .ok none ↔ nodeList = [] ∨ ∃ v ∈ nodeList, g.vertexCount ≤ v) := by
  by_cases hc : nodeList = [] ∨ ∃ v ∈ nodeList, g.vertexCount ≤ v
  · have := clonedSubgraph_none (g := g) hc
    exact ⟨⟨_, this⟩, by simp [this, hc]⟩
  · have hne : nodeList ≠ [] := fun e => hc (.inl e)
    have hlt : ∀ v ∈ nodeList, v < g.nextId := fun v hv => by
      by_contra h1; exact hc (.inr ⟨v, hv, by simpa [GenericGraph.vertexCount] using h1⟩)
    obtain ⟨L, g', h1, _⟩ := clonedSubgraph_spec h hne hlt
    refine ⟨⟨_, h1⟩, ?_⟩
    rw [h1]; simp [hc]

open Classical in
/-- Otherwise it is the subgraph induced by the listed vertices: vertex `k` of the result is the `k`-th smallest distinct
index, carries its data, and adjacency is that of the originals.  The result satisfies the representation invariant, so
its `edge_count` is the number of edges between listed vertices. -/
theorem C25_cloned_subgraph {g : GenericGraph T A} (h : g.WF) {nodeList : List Nat} (hne : nodeList ≠ [])
    (hlt : ∀ v ∈ nodeList, v < g.vertexCount) :
    ∃ (L : List Nat) (g' : Graph T), g.clonedSubgraph nodeList = .ok (some g') ∧
      L.Pairwise (· < ·) ∧ (∀ v, v ∈ L ↔ v ∈ nodeList) ∧ g'.WF ∧ g'.vertexCount = L.length ∧
      (∀ k v : Nat, L[k]? = some v → g'.getContained k = g.getContained v) ∧
      (∀ a b v w : Nat, L[a]? = some v → L[b]? = some w → (g'.toSimple.Adj a b ↔ g.toSimple.Adj v w)) ∧
      g'.edgeCount = (g.edges.filter (fun e => ∀ v ∈ e, v ∈ nodeList)).card := by
  obtain ⟨L, g', h1, h2, h3, h4, h5, h6, h7⟩ := clonedSubgraph_spec h hne hlt
  have hadj : ∀ a b v w : Nat, L[a]? = some v → L[b]? = some w → (g'.toSimple.Adj a b ↔ g.toSimple.Adj v w) := by
    intro a b v w ha hb
    rw [h4.adj_iff, h.adj_iff]; exact h7 a b v w ha hb
  refine ⟨L, g', h1, h2, h3, h4, h5, ?_, hadj, ?_⟩
  · intro k v hk
    have := h6 k v hk
    simpa [GenericGraph.data, GenericGraph.getContained] using this
  · have hnd : L.Nodup := h2.imp (fun h => Nat.ne_of_lt h)
    rw [h4.edgeCount_eq_card]
    have hget : ∀ a, a < g'.nextId → L[a]? = some (L.getD a 0) := by
      intro a ha
      have : a < L.length := by rw [← h5]; exact ha
      simp [this]
    apply Finset.card_bij (fun (e : Sym2 ℕ) _ => e.map (fun a => L.getD a 0))
    · intro e
      induction e using Sym2.ind with
      | _ a b =>
        intro he
        have hab := h4.mem_edges.mp he
        have ha := hget a (h4.lt_left hab)
        have hb := hget b (h4.lt a b hab)
        rw [Finset.mem_filter]
        refine ⟨h.mem_edges.mpr ((h7 a b _ _ ha hb).mp hab), ?_⟩
        intro v hv
        rw [Sym2.map_mk, Sym2.mem_iff] at hv
        rcases hv with rfl | rfl
        · exact (h3 _).mp (List.mem_of_getElem? ha)
        · exact (h3 _).mp (List.mem_of_getElem? hb)
    · intro e he e' he' heq
      induction e using Sym2.ind with
      | _ a b =>
        induction e' using Sym2.ind with
        | _ c d =>
          have hab := h4.mem_edges.mp he
          have hcd := h4.mem_edges.mp he'
          have ha := hget a (h4.lt_left hab)
          have hb := hget b (h4.lt a b hab)
          have hc := hget c (h4.lt_left hcd)
          have hd := hget d (h4.lt c d hcd)
          have inj : ∀ x y : Nat, L[x]? = some (L.getD x 0) → L[y]? = some (L.getD y 0) → L.getD x 0 = L.getD y 0 → x = y := by
            intro x y hx hy hxy
            rw [hxy, ← hy] at hx
            have hxl : x < L.length := by
              by_contra hx'
              rw [List.getElem?_eq_none (by omega)] at hx
              rw [hy] at hx; simp at hx
            exact (List.getElem?_inj hxl hnd).mp hx
          rw [Sym2.map_mk, Sym2.map_mk, Sym2.eq_iff] at heq
          rw [Sym2.eq_iff]
          rcases heq with ⟨e1, e2⟩ | ⟨e1, e2⟩
          · exact .inl ⟨inj a c ha hc e1, inj b d hb hd e2⟩
          · exact .inr ⟨inj a d ha hd e1, inj b c hb hc e2⟩
    · intro e
      induction e using Sym2.ind with
      | _ v w =>
        intro he
        rw [Finset.mem_filter] at he
        have hvw := h.mem_edges.mp he.1
        obtain ⟨a, ha⟩ := List.getElem?_of_mem ((h3 v).mpr (he.2 v (by simp)))
        obtain ⟨b, hb⟩ := List.getElem?_of_mem ((h3 w).mpr (he.2 w (by simp)))
        refine ⟨s(a, b), h4.mem_edges.mpr ((h7 a b v w ha hb).mpr hvw), ?_⟩
        rw [Sym2.map_mk]
        simp [ha, hb]

example : exTail.clonedSubgraph [3, 0, 2, 3] =
    .ok (some ⟨3, 2, [⟨0, [1], 0⟩, ⟨1, [0, 2], 20⟩, ⟨2, [1], 30⟩]⟩) := by decide

/-! ### C53 -/

/-- Every dot writer of the crate, with any writer: the texts handed over are those of `dotText` for a list `E` of pairs
`i < j` that contains every edge exactly once and nothing else, in ascending order of `i`; if the writer fails, writing
stops there and the error is returned. -/
theorem C53_dot {g : GenericGraph T A} (h : g.WF) :
    ∃ E : List (Nat × Nat), E.Nodup ∧ (∀ i j, (i, j) ∈ E ↔ i < j ∧ g.toSimple.Adj i j) ∧ E.length = g.edgeCount ∧
      E.Pairwise (fun a b => a.1 ≤ b.1) ∧
      ∀ (σ ε : Type) (put : σ → String → Except ε Unit × σ) (opts : String) (st : σ),
        (∀ f : Nat → A → String, (g.dotFromContainerIndex put opts f).run st = .ok (writeSeq put
          (dotText ("graph G{\n\t" ++ opts ++ "\n\t") g.vertexCount ";\n" (g.vertices.zipIdx.map (fun p => f p.2 p.1)) E) st)) ∧
        (∀ f : Nat → T → String, (g.dotFromContainedIndex put opts f).run st = .ok (writeSeq put
          (dotText ("graph G{\n\t" ++ opts ++ "\n\t") g.vertexCount ";\n" (g.data.zipIdx.map (fun p => f p.2 p.1)) E) st)) ∧
        (∀ f : Nat → String, (g.dotFromIndices put opts f).run st = .ok (writeSeq put
          (dotText ("graph G{\n\t" ++ opts ++ "\n\t") g.vertexCount ";\n" ((List.range g.vertexCount).map f) E) st)) ∧
        (g.dotWithIndices put opts).run st = .ok (writeSeq put
          (dotText ("graph G{\n\t" ++ opts ++ "\n\t") g.vertexCount ";\n" ((List.range g.vertexCount).map toString) E) st) ∧
        (g.dot put opts).run st = .ok (writeSeq put
          (dotText ("graph G{\n\t" ++ opts ++ "\n\t") g.vertexCount ";\n" (List.replicate g.vertexCount "") E) st) := by
  refine ⟨dotEdgeList g, dotEdgeList_nodup h, dotEdgeList_mem h, dotEdgeList_length h, dotEdgeList_sorted g, ?_⟩
  intro σ ε put opts st
  have hci := dotFromContainerIndex_writes (put := put) h opts
  have hi := dotFromIndices_writes (put := put) h opts
  refine ⟨fun f => hci f st, ?_, fun f => hi f st, hi _ st, ?_⟩
  · intro f
    have := hci (fun index a => f index (contained a)) st
    have e : g.data.zipIdx.map (fun p => f p.2 p.1) = g.vertices.zipIdx.map (fun p => f p.2 (contained p.1)) := by
      apply List.ext_getElem
      · simp [GenericGraph.data]
      · intro i h1 h2; simp [GenericGraph.data]
    rw [e]; exact this
  · have := hi (fun _ => "") st
    rwa [List.map_const', List.length_range] at this

/-- The `dot_string` wrappers return these texts joined, and `to_dot` the same without labels and options. -/
theorem C53_dot_string {g : GenericGraph T A} (h : g.WF) :
    ∃ E : List (Nat × Nat), E.Nodup ∧ (∀ i j, (i, j) ∈ E ↔ i < j ∧ g.toSimple.Adj i j) ∧ E.length = g.edgeCount ∧
      (∀ (opts : String) (f : Nat → String), dotToString (g.dotFromIndices putString opts f) = .ok (String.join
        (dotText ("graph G{\n\t" ++ opts ++ "\n\t") g.vertexCount ";\n" ((List.range g.vertexCount).map f) E))) ∧
      g.toDot = .ok (String.join (dotText "graph{\n\t" g.vertexCount "\n" [] E)) := by
  refine ⟨dotEdgeList g, dotEdgeList_nodup h, dotEdgeList_mem h, dotEdgeList_length h, ?_, ?_⟩
  · intro opts f
    have := dotFromIndices_writes (put := putString) h opts f ""
    rw [writeSeq_string] at this
    rw [dotToString, this]
    simp
  · exact toDot_eq h

/-- The triangle with a tail: label lines and edge lines are there. -/
example : dotToString (exPath.dot putString "") =
    .ok "graph G{\n\t\n\t0 1 2 3 ;\n\t\"0\" [label=\"\"];\n\t\"1\" [label=\"\"];\n\t\"2\" [label=\"\"];\n\t\"3\" [label=\"\"];\n\t0 -- 1\n\t1 -- 2\n\t2 -- 3\n}" := by
  decide

end Verif
