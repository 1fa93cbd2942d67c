import Verif.Props.Bicon
import Verif.Props.Connect
import Verif.Lemmas.BiconSum

/-!
# C21: how far `vertex_biconnected_components` can be off, and how to tell
-/

set_option linter.unusedSectionVars false
set_option linter.unusedSimpArgs false

namespace Verif
open AdjContainer

variable {T A : Type} [AdjContainer T A] [LawfulAdj T A]

theorem graphOf_parts {g : GenericGraph T A} (h : g.WF) {parts : List (List (ℕ × ℕ))}
    (hp : ∀ e, e ∈ g.edges ↔ e ∈ parts.flatten.map (fun e => s(e.1, e.2))) : graphOf parts = g.toSimple := by
  ext a b
  rw [graphOf, SimpleGraph.fromEdgeSet_adj, Set.mem_ofPred_eq, ← hp, h.mem_edges, h.adj_iff]
  constructor
  · exact fun h => h.1
  · exact fun hb => ⟨hb, h.ne hb⟩

theorem endPoints_lt {g : GenericGraph T A} (h : g.WF) {parts : List (List (ℕ × ℕ))}
    (hp : ∀ e, e ∈ g.edges ↔ e ∈ parts.flatten.map (fun e => s(e.1, e.2))) {c : List (ℕ × ℕ)} (hc : c ∈ parts) :
    endPoints c ⊆ Finset.range g.vertexCount := by
  intro x hx
  rw [endPoints, List.mem_toFinset, List.mem_flatMap] at hx
  obtain ⟨e, he, hx⟩ := hx
  have h1 : s(e.1, e.2) ∈ g.edges := by
    rw [hp, List.mem_map]
    exact ⟨e, List.mem_flatten.mpr ⟨c, hc, he⟩, rfl⟩
  have h2 := h.mem_edges.mp h1
  rw [Finset.mem_range]
  simp only [List.mem_cons, List.not_mem_nil, or_false] at hx
  rcases hx with rfl | rfl
  · exact h.lt_left h2
  · exact h.lt_left (h.adj_iff.mp (h.adj_iff.mpr h2).symm)

/-- If the sum is as small as it can be, the parts are the edge sets of the biconnected components. -/
theorem parts_perm_blocks {g : GenericGraph T A} (h : g.WF) {parts : List (List (ℕ × ℕ))} (hp : PartitionsEdges g.edges parts)
    {blocks : List (Finset ℕ)} (hb : ∀ S, Block g.toSimple S ↔ S ∈ blocks) (hlen : parts.length = blocks.length)
    (ht : (parts.map (fun c => (endPoints c).card)).sum + compCount g.toSimple g.vertexCount = g.vertexCount + parts.length) :
    (parts.map endPoints).Perm blocks := by
  classical
  obtain ⟨h1, h2, h3⟩ := hp
  have hG := graphOf_parts h h3
  have hsub : ∀ c ∈ parts, endPoints c ⊆ Finset.range g.vertexCount := fun c hc => endPoints_lt h h3 hc
  -- all edges of a block are in one part
  have hone : ∀ c ∈ parts, ∀ B ∈ blocks, ∀ a ∈ B, ∀ b ∈ B, s(a, b) ∈ c.map (fun e => s(e.1, e.2)) →
      ∀ x ∈ B, ∀ y ∈ B, g.toSimple.Adj x y → s(x, y) ∈ c.map (fun e => s(e.1, e.2)) := by
    intro c hc B hB a ha b hb' hab x hx y hy hxy
    obtain ⟨l1, l2, rfl⟩ := List.append_of_mem hc
    have hne : a ≠ b := by
      have : s(a, b) ∈ g.edges := by
        rw [h3]
        rw [List.mem_map] at hab ⊢
        obtain ⟨e, he, heq⟩ := hab
        exact ⟨e, List.mem_flatten.mpr ⟨c, hc, he⟩, heq⟩
      exact h.ne (h.mem_edges.mp this)
    have hbi : BiSet (graphOf (l1 ++ c :: l2)) B := by
      rw [hG]
      exact ((hb B).mpr hB).1
    refine parts_block h1 hsub ?_ hbi ha hb' hne hab x hx y hy ?_
    · rw [hG]
      exact ht
    · rw [hG]
      exact hxy
  -- parts with a common edge are equal
  have huniq : ∀ c ∈ parts, ∀ d ∈ parts, ∀ e, e ∈ c.map (fun e => s(e.1, e.2)) → e ∈ d.map (fun e => s(e.1, e.2)) → c = d := by
    intro c hc d hd e hec hed
    by_contra hcd
    rw [List.map_flatten, List.nodup_flatten] at h2
    have hpw := (List.pairwise_map.mp h2.2)
    exact (pairwise_of_ne hpw (fun a b hab => hab.symm) hc hd hcd) hec hed
  -- a block for every part
  have hex : ∀ c ∈ parts, ∃ B ∈ blocks, ∃ a ∈ B, ∃ b ∈ B, s(a, b) ∈ c.map (fun e => s(e.1, e.2)) := by
    intro c hc
    obtain ⟨e, l, he⟩ := List.exists_cons_of_ne_nil (h1 c hc)
    have hec : e ∈ c := by rw [he]; simp
    have hadj : g.toSimple.Adj e.1 e.2 := by
      rw [h.adj_iff, ← h.mem_edges, h3, List.mem_map]
      exact ⟨e, List.mem_flatten.mpr ⟨c, hc, hec⟩, rfl⟩
    obtain ⟨B, hB, hs⟩ := biSet_le_block h (biSet_edge hadj)
    exact ⟨B, (hb B).mp hB, e.1, hs (by simp), e.2, hs (by simp), List.mem_map.mpr ⟨e, hec, rfl⟩⟩
  choose! F hF using hex
  have hFinj : ∀ c ∈ parts, ∀ d ∈ parts, F c = F d → c = d := by
    intro c hc d hd hcd
    obtain ⟨hB, a, ha, b, hb', hab⟩ := hF c hc
    obtain ⟨_, a', ha', b', hb'', hab'⟩ := hF d hd
    have hadj : g.toSimple.Adj a' b' := by
      rw [h.adj_iff, ← h.mem_edges, h3]
      rw [List.mem_map] at hab' ⊢
      obtain ⟨e, he, heq⟩ := hab'
      exact ⟨e, List.mem_flatten.mpr ⟨d, hd, he⟩, heq⟩
    have := hone c hc (F c) hB a ha b hb' hab a' (hcd ▸ ha') b' (hcd ▸ hb'') hadj
    exact huniq c hc d hd _ this hab'
  have hpnd : parts.Nodup := by
    rw [List.nodup_iff_pairwise_ne]
    have h4 := h2
    rw [List.map_flatten, List.nodup_flatten, List.pairwise_map] at h4
    rw [List.pairwise_iff_getElem] at h4 ⊢
    intro i j hi hj hij heq
    have h5 := h4.2 i j hi hj hij
    rw [← heq] at h5
    obtain ⟨e, l, he⟩ := List.exists_cons_of_ne_nil (h1 parts[i] (List.getElem_mem hi))
    have h6 : s(e.1, e.2) ∈ parts[i].map (fun e => s(e.1, e.2)) := by rw [he]; simp
    exact h5 h6 h6
  have hperm : (parts.map F).Perm blocks := by
    refine (List.subperm_of_subset (List.Nodup.map_on hFinj hpnd) ?_).perm_of_length_le (by rw [List.length_map, hlen])
    intro B hB
    rw [List.mem_map] at hB
    obtain ⟨c, hc, rfl⟩ := hB
    exact (hF c hc).1
  have hend : ∀ c ∈ parts, endPoints c = F c := by
    intro c hc
    obtain ⟨hB, a, ha, b, hb', hab⟩ := hF c hc
    ext x
    constructor
    · intro hx
      rw [endPoints, List.mem_toFinset, List.mem_flatMap] at hx
      obtain ⟨e, he, hx⟩ := hx
      have hadj : g.toSimple.Adj e.1 e.2 := by
        rw [h.adj_iff, ← h.mem_edges, h3, List.mem_map]
        exact ⟨e, List.mem_flatten.mpr ⟨c, hc, he⟩, rfl⟩
      obtain ⟨B', hB', hs⟩ := biSet_le_block h (biSet_edge hadj)
      have hB'' := hperm.mem_iff.mpr ((hb B').mp hB')
      rw [List.mem_map] at hB''
      obtain ⟨c', hc', rfl⟩ := hB''
      obtain ⟨hBc', a', ha', b', hb'', hab'⟩ := hF c' hc'
      have h7 := hone c' hc' (F c') hBc' a' ha' b' hb'' hab' e.1 (hs (by simp)) e.2 (hs (by simp)) hadj
      have h8 := huniq c' hc' c hc _ h7 (List.mem_map.mpr ⟨e, he, rfl⟩)
      rw [← h8]
      apply hs
      simpa using hx
    · intro hx
      have hbl := (hb (F c)).mpr hB
      obtain ⟨y, hy, hyx⟩ : ∃ y ∈ F c, y ≠ x := by
        obtain ⟨p, hp, q, hq, hpq⟩ := Finset.one_lt_card.mp (show 1 < (F c).card from hbl.1.two)
        by_cases hpx : p = x
        · exact ⟨q, hq, fun e => hpq (hpx.trans e.symm)⟩
        · exact ⟨p, hp, hpx⟩
      obtain ⟨u, w, huw, hu', hw', hu, _⟩ := (hbl.1.conn.joined hx hy).exit (P := fun z => z = x) rfl hyx
      subst hu
      exact (mem_endPoints (hone c hc (F c) hB a ha b hb' hab u hu' w hw' huw)).1
  rwa [List.map_congr_left hend]

/-- For every graph: the entries of the result sum to at least the sum of the sizes of the biconnected components.  The latter is the
vertex count plus the number of entries minus the number of connected components.  The result is right exactly if the sums are
equal; a user can compute both sides with the API. -/
theorem C21_sum {g : GenericGraph T A} (h : g.WF) :
    ∃ (r R : List ℕ) (blocks : List (Finset ℕ)), g.vertexBiconnectedComponents false = .ok r ∧ g.connectedComponents = .ok R ∧ blocks.Nodup ∧
      (∀ S, Block g.toSimple S ↔ S ∈ blocks) ∧
      (blocks.map Finset.card).sum + R.length = g.vertexCount + r.length ∧
      (blocks.map Finset.card).sum ≤ r.sum ∧
      (IsBlockSizes g.toSimple r ↔ r.sum = (blocks.map Finset.card).sum) := by
  obtain ⟨comps, h1, h2, h3, h4, done, htl, hcover, hcnt⟩ := biComponents_tree h
  obtain ⟨hb1, hb2⟩ := htl.blocks hcover
  obtain ⟨R, hR, _, hRm⟩ := connectedComponents_spec h
  have hRl : R.length = compCount g.toSimple g.vertexCount := by
    have := congrArg Multiset.card hRm
    rw [Multiset.coe_card, Multiset.card_map] at this
    rw [this]
    rfl
  have hperm : (sortDesc (comps.map GenericGraph.biSize)).Perm (comps.map (fun c => (endPoints c).card)) := by
    have : comps.map GenericGraph.biSize = comps.map (fun c => (endPoints c).card) := List.map_congr_left (fun c _ => biSize_eq c)
    rw [← this]
    exact sortDesc_perm _
  have hle := htl.sum_le (n := g.vertexCount) (fun a b hab => h.lt_left (h.adj_iff.mp hab))
  have hge := parts_sum_ge (n := g.vertexCount) h2 (fun c hc => endPoints_lt h h4 hc)
  rw [graphOf_parts h h4] at hge
  have hbs : ((done.map (fun d => insert d.1 d.2)).map Finset.card) = done.map (fun d => (insert d.1 d.2).card) := by
    rw [List.map_map]; rfl
  set blocks := done.map (fun d => insert d.1 d.2) with hblocks
  have hbl : comps.length = blocks.length := by rw [hblocks, List.length_map, hcnt]
  -- the lower bound, for the blocks
  have hbge : g.vertexCount + blocks.length ≤ compCount g.toSimple g.vertexCount + (blocks.map Finset.card).sum := by
    refine sets_sum_ge (fun S hS => ((hb1 S).mpr hS).1.two) ?_ ?_
    · intro S hS x hx
      have hbl := (hb1 S).mpr hS
      obtain ⟨y, hy, hyx⟩ : ∃ y ∈ S, y ≠ x := by
        obtain ⟨p, hp, q, hq, hpq⟩ := Finset.one_lt_card.mp (show 1 < S.card from hbl.1.two)
        by_cases hpx : p = x
        · exact ⟨q, hq, fun e => hpq (hpx.trans e.symm)⟩
        · exact ⟨p, hp, hpx⟩
      obtain ⟨u, w, huw, _, _, hu, _⟩ := (hbl.1.conn.joined hx hy).exit (P := fun z => z = x) rfl hyx
      subst hu
      exact Finset.mem_range.mpr (h.lt_left (h.adj_iff.mp huw))
    · intro a b hab
      obtain ⟨d, hd, h5, h6⟩ := hcover a b hab
      exact ⟨_, List.mem_map.mpr ⟨d, hd, rfl⟩, h5, h6⟩
  have hbsum : (blocks.map Finset.card).sum + compCount g.toSimple g.vertexCount = g.vertexCount + blocks.length := by
    rw [hbs]
    rw [hbs] at hbge
    have : blocks.length = done.length := by rw [hblocks, List.length_map]
    omega
  refine ⟨sortDesc (comps.map GenericGraph.biSize), R, blocks, ?_, hR, hb2, hb1, ?_, ?_, ?_⟩
  · rw [GenericGraph.vertexBiconnectedComponents, h1]
    rfl
  · rw [hRl, hperm.length_eq, List.length_map, hbl]
    exact hbsum
  · rw [hperm.sum_eq]
    omega
  · constructor
    · rintro ⟨_, bl', hnd', hb', hp'⟩
      have : bl'.Perm blocks := (List.perm_ext_iff_of_nodup hnd' hb2).mpr (fun S => by rw [← hb', ← hb1])
      rw [hp'.sum_eq, (this.map _).sum_eq]
    · intro hs
      refine ⟨sortDesc_sorted _, blocks, hb2, hb1, hperm.trans ?_⟩
      have hpb := parts_perm_blocks h ⟨h2, h3, h4⟩ hb1 hbl (by
        rw [hperm.sum_eq] at hs
        rw [hs, hbl]
        exact hbsum)
      have := hpb.map Finset.card
      rwa [List.map_map] at this

/-- A test for the user: the result of `vertex_biconnected_components(false)` is right exactly if its sum plus the number of entries of
`connected_components` is the vertex count plus its number of entries. -/
theorem C21_check {g : GenericGraph T A} (h : g.WF) {r R : List ℕ} (hr : g.vertexBiconnectedComponents false = .ok r)
    (hR : g.connectedComponents = .ok R) : IsBlockSizes g.toSimple r ↔ r.sum + R.length = g.vertexCount + r.length := by
  obtain ⟨r', R', blocks, h1, h2, _, _, h5, _, h7⟩ := C21_sum h
  rw [hr] at h1
  rw [hR] at h2
  cases h1
  cases h2
  rw [h7]
  omega

/-- The triangle with a tail and an isolated vertex passes the test, `exBi` does not. -/
example : exTail.WF ∧ exTail.vertexBiconnectedComponents false = .ok [3, 2] ∧ exTail.connectedComponents = .ok [4, 1] ∧
    [3, 2].sum + [4, 1].length = exTail.vertexCount + [3, 2].length := ⟨exTail_wf, by decide, by decide, by decide⟩

example : exBi.WF ∧ exBi.vertexBiconnectedComponents false = .ok [4, 3] ∧ exBi.connectedComponents = .ok [5] ∧
    [4, 3].sum + [5].length ≠ exBi.vertexCount + [4, 3].length := ⟨exBi_wf, by decide, by decide, by decide⟩

/-- The graph with the edges (1,3), (2,3), (0,4), (1,5), (3,4), (3,5), (0,1), added in this order. -/
def exBiSmall : Graph Nat := exGraph 7 [[4, 1], [3, 5, 0], [3], [1, 2, 4, 5], [0, 3], [1, 3]]

theorem exBiSmall_wf : exBiSmall.WF := GenericGraph.wf_of_check _ (fun _ _ => trivial) (by decide)

/-- `exBiSmall` is what the calls of `add_edge` produce. -/
example : (do
    let g : Graph Nat := GenericGraph.new 6
    let (_, g) ← g.addEdge 1 3
    let (_, g) ← g.addEdge 2 3
    let (_, g) ← g.addEdge 0 4
    let (_, g) ← g.addEdge 1 5
    let (_, g) ← g.addEdge 3 4
    let (_, g) ← g.addEdge 3 5
    let (_, g) ← g.addEdge 0 1
    return g.vertices.map (fun c => (c.id, c.adj)) : Res _) = .ok (exBiSmall.vertices.map (fun c => (c.id, c.adj))) := by decide

/-- Its biconnected components are a set of five vertices and an edge. -/
theorem exBiSmall_blocks (S : Finset ℕ) : Block exBiSmall.toSimple S ↔ S = {0, 1, 3, 4, 5} ∨ S = {2, 3} := by
  have adj : ∀ a b, b ∈ exBiSmall.nbrs a → exBiSmall.toSimple.Adj a b := fun a b hb => exBiSmall_wf.adj_iff.mpr hb
  have b1 : BiSet exBiSmall.toSimple {2, 3} := biSet_edge (adj 2 3 (by decide))
  have b2 : BiSet exBiSmall.toSimple {0, 1, 3, 4, 5} := by
    have h1 := (biSet_edge (adj 0 4 (by decide))).bi2 (a := 0) (b := 4) (by decide) (by decide) (by decide)
    have h2 := h1.append (b := 3) (biSet_edge (adj 4 3 (by decide))) (by decide) (by decide) (by decide) (by decide)
    have h3 := h2.append (b := 5) (biSet_edge (adj 3 5 (by decide))) (by decide) (by decide) (by decide) (by decide)
    have h4 := h3.append (b := 1) (biSet_edge (adj 5 1 (by decide))) (by decide) (by decide) (by decide) (by decide)
    have h5 := h4.close (adj 0 1 (by decide))
    have : ({0, 4} ∪ {4, 3} ∪ {3, 5} ∪ {5, 1} : Finset ℕ) = {0, 1, 3, 4, 5} := by decide
    rwa [this] at h5
  have htl : TreeLike exBiSmall.toSimple [(3, {2}), (0, {1, 3, 4, 5})] := by
    refine ⟨by decide, by decide, by decide, ?_⟩
    intro d hd
    simp only [List.mem_cons, List.not_mem_nil, or_false] at hd
    rcases hd with rfl | rfl
    · have : (insert 3 {2} : Finset ℕ) = {2, 3} := by decide
      exact this ▸ b1
    · exact b2
  have key : ∀ a < 6, ∀ b ∈ exBiSmall.nbrs a, ∃ d ∈ [((3, {2}) : ℕ × Finset ℕ), (0, {1, 3, 4, 5})],
      a ∈ insert d.1 d.2 ∧ b ∈ insert d.1 d.2 := by decide
  rw [(htl.blocks (fun a b hab => key a (exBiSmall_wf.lt_left (exBiSmall_wf.adj_iff.mp hab)) b (exBiSmall_wf.adj_iff.mp hab))).1 S]
  have : ({3, 2} : Finset ℕ) = {2, 3} := by decide
  simp [or_comm, this]

/-- The graph with the edges (3,4), (2,4), (1,4), (2,3), (0,4), (1,5), (4,5), (0,3), added in this order. -/
def exBiLarge : Graph Nat := exGraph 8 [[4, 3], [4, 5], [4, 3], [4, 2, 0], [3, 2, 1, 0, 5], [1, 4]]

theorem exBiLarge_wf : exBiLarge.WF := GenericGraph.wf_of_check _ (fun _ _ => trivial) (by decide)

/-- `exBiLarge` is what the calls of `add_edge` produce. -/
example : (do
    let g : Graph Nat := GenericGraph.new 6
    let (_, g) ← g.addEdge 3 4
    let (_, g) ← g.addEdge 2 4
    let (_, g) ← g.addEdge 1 4
    let (_, g) ← g.addEdge 2 3
    let (_, g) ← g.addEdge 0 4
    let (_, g) ← g.addEdge 1 5
    let (_, g) ← g.addEdge 4 5
    let (_, g) ← g.addEdge 0 3
    return g.vertices.map (fun c => (c.id, c.adj)) : Res _) = .ok (exBiLarge.vertices.map (fun c => (c.id, c.adj))) := by decide

/-- Its biconnected components are a set of four vertices and a triangle. -/
theorem exBiLarge_blocks (S : Finset ℕ) : Block exBiLarge.toSimple S ↔ S = {0, 2, 3, 4} ∨ S = {1, 4, 5} := by
  have adj : ∀ a b, b ∈ exBiLarge.nbrs a → exBiLarge.toSimple.Adj a b := fun a b hb => exBiLarge_wf.adj_iff.mpr hb
  have b1 : BiSet exBiLarge.toSimple {1, 4, 5} := by
    have h1 := (biSet_edge (adj 1 4 (by decide))).bi2 (a := 1) (b := 4) (by decide) (by decide) (by decide)
    have h2 := h1.append (b := 5) (biSet_edge (adj 4 5 (by decide))) (by decide) (by decide) (by decide) (by decide)
    have h5 := h2.close (adj 1 5 (by decide))
    have : ({1, 4} ∪ {4, 5} : Finset ℕ) = {1, 4, 5} := by decide
    rwa [this] at h5
  have b2 : BiSet exBiLarge.toSimple {0, 2, 3, 4} := by
    have h1 := (biSet_edge (adj 0 3 (by decide))).bi2 (a := 0) (b := 3) (by decide) (by decide) (by decide)
    have h2 := h1.append (b := 2) (biSet_edge (adj 3 2 (by decide))) (by decide) (by decide) (by decide) (by decide)
    have h3 := h2.append (b := 4) (biSet_edge (adj 2 4 (by decide))) (by decide) (by decide) (by decide) (by decide)
    have h5 := h3.close (adj 0 4 (by decide))
    have : ({0, 3} ∪ {3, 2} ∪ {2, 4} : Finset ℕ) = {0, 2, 3, 4} := by decide
    rwa [this] at h5
  have htl : TreeLike exBiLarge.toSimple [(4, {1, 5}), (0, {2, 3, 4})] := by
    refine ⟨by decide, by decide, by decide, ?_⟩
    intro d hd
    simp only [List.mem_cons, List.not_mem_nil, or_false] at hd
    rcases hd with rfl | rfl
    · have : (insert 4 {1, 5} : Finset ℕ) = {1, 4, 5} := by decide
      exact this ▸ b1
    · exact b2
  have key : ∀ a < 6, ∀ b ∈ exBiLarge.nbrs a, ∃ d ∈ [((4, {1, 5}) : ℕ × Finset ℕ), (0, {2, 3, 4})],
      a ∈ insert d.1 d.2 ∧ b ∈ insert d.1 d.2 := by decide
  rw [(htl.blocks (fun a b hab => key a (exBiLarge_wf.lt_left (exBiLarge_wf.adj_iff.mp hab)) b (exBiLarge_wf.adj_iff.mp hab))).1 S]
  have : ({4, 1, 5} : Finset ℕ) = {1, 4, 5} := by decide
  simp [or_comm, this]

/-- The documentation (src/lib.rs:121, src/sw.rs:136) takes the first entry as the size of the largest biconnected component.  It can be too small and too large. -/
theorem C21_largest_violation :
    (exBiSmall.vertexBiconnectedComponents false = .ok [4, 4] ∧ ∃ S, Block exBiSmall.toSimple S ∧ S.card = 5) ∧
    (exBiLarge.vertexBiconnectedComponents false = .ok [5, 3] ∧ ∀ S, Block exBiLarge.toSimple S → S.card ≤ 4) := by
  refine ⟨⟨by decide, {0, 1, 3, 4, 5}, (exBiSmall_blocks _).mpr (Or.inl rfl), by decide⟩, by decide, ?_⟩
  intro S hS
  rcases (exBiLarge_blocks S).mp hS with rfl | rfl <;> decide

end Verif
