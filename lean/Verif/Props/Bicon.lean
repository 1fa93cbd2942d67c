import Verif.Lemmas.Bicon4
import Mathlib.Data.Finset.Sym
import Mathlib.Combinatorics.SimpleGraph.Acyclic

/-!
# C21: biconnected components
-/

set_option linter.unusedSectionVars false
set_option linter.unusedSimpArgs false

namespace Verif
open AdjContainer

variable {T A : Type} [AdjContainer T A] [LawfulAdj T A]

/-- C21 as stated: the result of `vertex_biconnected_components(false)` lists the sizes of the biconnected components. -/
def C21Claim (T A : Type) [AdjContainer T A] [LawfulAdj T A] : Prop :=
  ∀ g : GenericGraph T A, g.WF → ∃ r, g.vertexBiconnectedComponents false = .ok r ∧ IsBlockSizes g.toSimple r

theorem biSize_eq (c : List (ℕ × ℕ)) : GenericGraph.biSize c = (endPoints c).card := by
  rw [GenericGraph.biSize, endPoints, List.card_toFinset]

theorem sorted_perm_eq {l l' : List ℕ} (h : l.Perm l') (h1 : l.Pairwise (fun a b => b ≤ a)) (h2 : l'.Pairwise (fun a b => b ≤ a)) :
    l = l' :=
  h.eq_of_pairwise (fun _ _ _ _ hab hba => Nat.le_antisymm hba hab) h1 h2

/-- Every biconnected set lies in a biconnected component. -/
theorem biSet_le_block {g : GenericGraph T A} (h : g.WF) {S : Finset ℕ} (hS : BiSet g.toSimple S) :
    ∃ S', Block g.toSimple S' ∧ S ⊆ S' := by
  obtain ⟨_, _, _, _, _, blocks, _, h6, h7, _⟩ := biComponents_spec h
  obtain ⟨B, hB, hsub⟩ := h7 S hS
  exact ⟨B, (h6 B).mpr hB, hsub⟩

/-- A graph without cycles has only biconnected components of two vertices. -/
theorem acyclic_block {G : SimpleGraph ℕ} (hG : G.IsAcyclic) {S : Finset ℕ} (hS : BiSet G S) : S.card = 2 := by
  by_contra hne
  have h3 : 2 < S.card := by have := hS.two; omega
  obtain ⟨x, y, z, hx, hy, hz, hxy, hxz, hyz⟩ := Finset.two_lt_card_iff.mp h3
  -- `x` has a neighbour `u`, and another one when `u` is removed
  obtain ⟨x', u, hxu, _, huS, rfl, _⟩ := (hS.conn.joined hx hy).exit (P := fun w => w = x) rfl (Ne.symm hxy)
  obtain ⟨t, ht, htx, htu⟩ : ∃ t ∈ S, t ≠ x' ∧ t ≠ u := by
    by_cases h1 : y = u
    · exact ⟨z, hz, Ne.symm hxz, fun e => hyz (h1.trans e.symm)⟩
    · exact ⟨y, hy, Ne.symm hxy, h1⟩
  obtain ⟨x'', w, hxw, _, hwS, rfl, _⟩ := (hS.joined_erase (w := u) hx ht hxu.ne htu).exit (P := fun w => w = x') rfl htx
  rw [Finset.mem_erase] at hwS
  have hj := hS.joined_erase (w := x'') hwS.2 huS hxw.ne' hxu.ne'
  have hb := SimpleGraph.isAcyclic_iff_forall_adj_isBridge.mp hG hxu
  rw [SimpleGraph.isBridge_iff] at hb
  apply hb
  have key : ∀ a b, Joined G (S.erase x'') a b → (G.deleteEdges {s(x'', u)}).Reachable a b := by
    intro a b hab
    induction hab with
    | refl => exact SimpleGraph.Reachable.refl _
    | @tail b c _ h2 ih =>
      refine ih.trans (SimpleGraph.Adj.reachable ?_)
      rw [SimpleGraph.deleteEdges_adj]
      refine ⟨h2.1, ?_⟩
      intro h5
      rw [Set.mem_singleton_iff, Sym2.eq_iff] at h5
      have h6 := (Finset.mem_erase.mp h2.2.1).1
      have h7 := (Finset.mem_erase.mp h2.2.2).1
      rcases h5 with ⟨h8, _⟩ | ⟨_, h8⟩
      · exact h6 h8
      · exact h7 h8
  refine SimpleGraph.Reachable.trans (SimpleGraph.Adj.reachable ?_) (key w u hj)
  rw [SimpleGraph.deleteEdges_adj]
  refine ⟨hxw, ?_⟩
  intro h5
  rw [Set.mem_singleton_iff, Sym2.eq_iff] at h5
  rcases h5 with ⟨_, h8⟩ | ⟨_, h8⟩
  · exact hwS.1 h8
  · exact hxw.ne' h8

/-- The result for all graphs: the call returns; the result is descending and has as many entries as the graph has biconnected
components; there is a partition of the edges into that many nonempty parts such that the entries are the numbers of
end points of the parts; every entry is at least 2.  Missing: the parts are the edge sets of the biconnected components, which is
false (`C21_sizes_violation`). -/
theorem C21_count_partial {g : GenericGraph T A} (h : g.WF) :
    ∃ r, g.vertexBiconnectedComponents false = .ok r ∧ r.Pairwise (fun a b => b ≤ a) ∧
      r.length = {S | Block g.toSimple S}.ncard ∧ (∀ k ∈ r, 2 ≤ k) ∧
      ∃ parts, PartitionsEdges g.edges parts ∧ r.Perm (parts.map (fun c => (endPoints c).card)) := by
  obtain ⟨comps, h1, h2, h3, h4, blocks, h5, h6, _, h7⟩ := biComponents_spec h
  have hperm : (sortDesc (comps.map GenericGraph.biSize)).Perm (comps.map (fun c => (endPoints c).card)) := by
    have : comps.map GenericGraph.biSize = comps.map (fun c => (endPoints c).card) := List.map_congr_left (fun c _ => biSize_eq c)
    rw [← this]
    exact sortDesc_perm _
  refine ⟨sortDesc (comps.map GenericGraph.biSize), ?_, sortDesc_sorted _, ?_, ?_, comps, ⟨h2, h3, h4⟩, hperm⟩
  · rw [GenericGraph.vertexBiconnectedComponents, h1]
    rfl
  · rw [hperm.length_eq, List.length_map, h7]
    have : {S | Block g.toSimple S} = (blocks.toFinset : Set (Finset ℕ)) := by
      ext S
      simp [h6]
    rw [this, Set.ncard_coe_finset, List.toFinset_card_of_nodup h5]
  · intro k hk
    rw [hperm.mem_iff, List.mem_map] at hk
    obtain ⟨c, hc, rfl⟩ := hk
    obtain ⟨e, l, rfl⟩ := List.exists_cons_of_ne_nil (h2 c hc)
    have he : s(e.1, e.2) ∈ g.edges := by
      rw [h4, List.mem_map]
      exact ⟨e, List.mem_flatten.mpr ⟨_, hc, by simp⟩, rfl⟩
    have hne : e.1 ≠ e.2 := h.ne (h.mem_edges.mp he)
    have hsub : ({e.1, e.2} : Finset ℕ) ⊆ endPoints (e :: l) := by
      intro x hx
      rw [Finset.mem_insert, Finset.mem_singleton] at hx
      rw [endPoints, List.mem_toFinset]
      rcases hx with rfl | rfl <;> simp
    have := Finset.card_le_card hsub
    rwa [Finset.card_pair hne] at this

/-- With the alternative definition the entries up to 2 are left out. -/
theorem C21_alternative (g : GenericGraph T A) {r : List ℕ} (hr : g.vertexBiconnectedComponents false = .ok r) :
    g.vertexBiconnectedComponents true = .ok (r.filter (fun k => decide (2 < k))) := by
  rw [GenericGraph.vertexBiconnectedComponents] at hr ⊢
  rw [Res.bind_eq_ok] at hr
  obtain ⟨comps, h1, h2⟩ := hr
  simp only [Bool.false_eq_true, if_false, Res.pure_eq, Res.ok.injEq] at h2
  rw [h1, Res.ok_bind, ← h2]
  simp only [if_true, Res.pure_eq, Res.ok.injEq]
  apply sorted_perm_eq
  · exact (sortDesc_perm _).trans ((sortDesc_perm _).symm.filter _)
  · exact sortDesc_sorted _
  · exact (sortDesc_sorted _).filter _

/-- A graph with exactly one biconnected component (and possibly isolated vertices): the result is its size. -/
theorem C21_single_block {g : GenericGraph T A} (h : g.WF) {S : Finset ℕ} (hS : ∀ S', Block g.toSimple S' ↔ S' = S) :
    g.vertexBiconnectedComponents false = .ok [S.card] := by
  obtain ⟨r, h1, h2, h3, h4, parts, ⟨h5, h6, h7⟩, h8⟩ := C21_count_partial h
  have hset : {S' | Block g.toSimple S'} = {S} := by ext S'; simp [hS]
  rw [hset, Set.ncard_singleton] at h3
  have hpl : parts.length = 1 := by
    have := h8.length_eq
    rw [List.length_map] at this
    omega
  obtain ⟨c, rfl⟩ := List.length_eq_one_iff.mp hpl
  have hc : endPoints c = S := by
    have hbl : Block g.toSimple S := (hS S).mpr rfl
    ext x
    rw [endPoints, List.mem_toFinset, List.mem_flatMap]
    have hflat : [c].flatten = c := by simp
    rw [hflat] at h6 h7
    constructor
    · rintro ⟨e, he, hx⟩
      have hadj : g.toSimple.Adj e.1 e.2 := h.adj_iff.mpr (h.mem_edges.mp ((h7 _).mpr (List.mem_map.mpr ⟨e, he, rfl⟩)))
      -- every edge lies in a block
      obtain ⟨S', hb, hs⟩ := biSet_le_block h (biSet_edge hadj)
      rw [(hS S').mp hb] at hs
      apply hs
      simpa using hx
    · intro hx
      obtain ⟨a, ha, b, hb, hab⟩ := Finset.one_lt_card.mp (show 1 < S.card from hbl.1.two)
      obtain ⟨y, hy, hxy⟩ : ∃ y ∈ S, y ≠ x := by
        by_cases hax : a = x
        · exact ⟨b, hb, fun e => hab (hax.trans e.symm)⟩
        · exact ⟨a, ha, hax⟩
      obtain ⟨u, w, huw, _, _, hu, _⟩ := (hbl.1.conn.joined hx hy).exit (P := fun z => z = x) rfl hxy
      subst hu
      have := (h7 s(u, w)).mp (h.mem_edges.mpr (h.adj_iff.mp huw))
      rw [List.mem_map] at this
      obtain ⟨e, he, heq⟩ := this
      refine ⟨e, he, ?_⟩
      rcases Sym2.eq_iff.mp heq with ⟨rfl, rfl⟩ | ⟨rfl, rfl⟩ <;> simp
  rw [h1]
  congr 1
  have h9 := h8
  simp only [List.map_cons, List.map_nil, hc] at h9
  exact List.perm_singleton.mp h9

theorem endPoints_pair {e : ℕ × ℕ} (he : e.1 ≠ e.2) : (endPoints [e]).card = 2 := by
  have : endPoints [e] = {e.1, e.2} := by
    ext x
    simp [endPoints]
  rw [this, Finset.card_pair he]

theorem singletons_of_length {α : Type} : ∀ (l : List (List α)), (∀ c ∈ l, c ≠ []) → l.flatten.length ≤ l.length → ∀ c ∈ l, c.length = 1
  | [], _, _ => by simp
  | c :: l, h, hl => by
    have h1 : 1 ≤ c.length := List.length_pos_iff.mpr (h c (by simp))
    have h2 : ∀ l : List (List α), (∀ c ∈ l, c ≠ []) → l.length ≤ l.flatten.length := by
      intro l
      induction l with
      | nil => simp
      | cons a l ih =>
        intro h
        have := ih (fun c hc => h c (List.mem_cons_of_mem _ hc))
        have h3 : 1 ≤ a.length := List.length_pos_iff.mpr (h a (by simp))
        simp only [List.flatten_cons, List.length_append, List.length_cons]
        omega
    have h3 := h2 l (fun c hc => h c (List.mem_cons_of_mem _ hc))
    simp only [List.flatten_cons, List.length_append, List.length_cons] at hl
    intro d hd
    rcases List.mem_cons.mp hd with rfl | hd
    · omega
    · exact singletons_of_length l (fun c hc => h c (List.mem_cons_of_mem _ hc)) (by omega) d hd

/-- If all biconnected components are single edges, the result has one entry 2 for every edge. -/
theorem C21_all_bridges {g : GenericGraph T A} (h : g.WF) (hS : ∀ S, Block g.toSimple S → S.card = 2) :
    g.vertexBiconnectedComponents false = .ok (List.replicate g.edgeCount 2) := by
  classical
  obtain ⟨comps, h1, h2, h3, h4, blocks, h5, h6, h7, h8⟩ := biComponents_spec h
  -- every edge is a biconnected component
  have hedge : ∀ e ∈ g.edges, e.toFinset ∈ blocks.toFinset := by
    intro e he
    induction e with
    | _ a b =>
      have hadj : g.toSimple.Adj a b := h.adj_iff.mpr (h.mem_edges.mp he)
      obtain ⟨B, hB, hsub⟩ := h7 _ (biSet_edge hadj)
      have hc := hS B ((h6 B).mpr hB)
      have : ({a, b} : Finset ℕ) = B := Finset.eq_of_subset_of_card_le hsub (by rw [hc, Finset.card_pair hadj.ne])
      rw [List.mem_toFinset, Sym2.toFinset_mk_eq, this]
      exact hB
  have hcard : g.edges.card ≤ blocks.toFinset.card := by
    refine Finset.card_le_card_of_injOn Sym2.toFinset hedge ?_
    intro e _ e' _ hee
    have : ∀ x, x ∈ e ↔ x ∈ e' := by
      intro x
      rw [← Sym2.mem_toFinset, ← Sym2.mem_toFinset, hee]
    exact Sym2.ext this
  rw [List.toFinset_card_of_nodup h5, ← h8] at hcard
  have hlen : comps.flatten.length = g.edges.card := by
    have : g.edges = (comps.flatten.map (fun e => s(e.1, e.2))).toFinset := by
      ext e
      rw [List.mem_toFinset]
      exact h4 e
    rw [this, List.toFinset_card_of_nodup h3, List.length_map]
  have hone := singletons_of_length comps h2 (by omega)
  have hcl : comps.length = g.edgeCount := by
    rw [h.edgeCount_eq_card, ← hlen, List.length_flatten]
    have : comps.map List.length = List.replicate comps.length 1 := by
      rw [List.eq_replicate_iff]
      refine ⟨by simp, ?_⟩
      intro b hb
      rw [List.mem_map] at hb
      obtain ⟨c, hc, rfl⟩ := hb
      exact hone c hc
    rw [this]
    simp
  have hmap : comps.map GenericGraph.biSize = List.replicate g.edgeCount 2 := by
    rw [List.eq_replicate_iff]
    refine ⟨by rw [List.length_map, hcl], ?_⟩
    intro b hb
    rw [List.mem_map] at hb
    obtain ⟨c, hc, rfl⟩ := hb
    obtain ⟨e, rfl⟩ := List.length_eq_one_iff.mp (hone c hc)
    rw [biSize_eq]
    apply endPoints_pair
    have he : s(e.1, e.2) ∈ g.edges := by
      rw [h4, List.mem_map]
      exact ⟨e, List.mem_flatten.mpr ⟨_, hc, by simp⟩, rfl⟩
    exact h.ne (h.mem_edges.mp he)
  rw [GenericGraph.vertexBiconnectedComponents, h1, Res.ok_bind, hmap]
  simp only [Bool.false_eq_true, if_false, Res.pure_eq, Res.ok.injEq]
  exact sorted_perm_eq (sortDesc_perm _) (sortDesc_sorted _) (by
    rw [List.pairwise_replicate]
    right
    exact Nat.le_refl _)

/-- Forests: one entry 2 for every edge, and nothing with the alternative definition. -/
theorem C21_forest {g : GenericGraph T A} (h : g.WF) (hG : g.toSimple.IsAcyclic) :
    g.vertexBiconnectedComponents false = .ok (List.replicate g.edgeCount 2) ∧ g.vertexBiconnectedComponents true = .ok [] := by
  have h1 := C21_all_bridges h (fun S hS => acyclic_block hG hS.1)
  refine ⟨h1, ?_⟩
  rw [C21_alternative g h1]
  simp

/-- The graph with the edges (0,1), (1,3), (1,4), (1,2), (2,3), (2,0), added in this order. -/
def exBi : Graph Nat := exGraph 6 [[1, 2], [0, 3, 4, 2], [1, 3, 0], [1, 2], [1]]

theorem exBi_wf : exBi.WF := GenericGraph.wf_of_check _ (fun _ _ => trivial) (by decide)

/-- `exBi` is what the calls of `add_edge` produce. -/
example : (do
    let g : Graph Nat := GenericGraph.new 5
    let (_, g) ← g.addEdge 0 1
    let (_, g) ← g.addEdge 1 3
    let (_, g) ← g.addEdge 1 4
    let (_, g) ← g.addEdge 1 2
    let (_, g) ← g.addEdge 2 3
    let (_, g) ← g.addEdge 2 0
    return g.vertices.map (fun c => (c.id, c.adj)) : Res _) = .ok (exBi.vertices.map (fun c => (c.id, c.adj))) := by decide

/-- The biconnected components of `exBi` are the square 0,1,3,2 with a diagonal and the edge 1-4. -/
theorem exBi_blocks (S : Finset ℕ) : Block exBi.toSimple S ↔ S = {0, 1, 2, 3} ∨ S = {1, 4} := by
  have adj : ∀ a b, b ∈ exBi.nbrs a → exBi.toSimple.Adj a b := fun a b hb => exBi_wf.adj_iff.mpr hb
  have b1 : BiSet exBi.toSimple {1, 4} := biSet_edge (adj 1 4 (by decide))
  have b2 : BiSet exBi.toSimple {0, 1, 2, 3} := by
    have h1 := (biSet_edge (adj 0 1 (by decide))).bi2 (a := 0) (b := 1) (by decide) (by decide) (by decide)
    have h2 := h1.append (b := 3) (biSet_edge (adj 1 3 (by decide))) (by decide) (by decide) (by decide) (by decide)
    have h3 := h2.append (b := 2) (biSet_edge (adj 3 2 (by decide))) (by decide) (by decide) (by decide) (by decide)
    have h4 := h3.close (adj 0 2 (by decide))
    have : ({0, 1} ∪ {1, 3} ∪ {3, 2} : Finset ℕ) = {0, 1, 2, 3} := by decide
    rwa [this] at h4
  have htl : TreeLike exBi.toSimple [(1, {4}), (0, {1, 2, 3})] := by
    refine ⟨by decide, by decide, by decide, ?_⟩
    intro d hd
    simp only [List.mem_cons, List.not_mem_nil, or_false] at hd
    rcases hd with rfl | rfl
    · exact b1
    · exact b2
  have hcover : ∀ a b, exBi.toSimple.Adj a b → ∃ d ∈ [((1, {4}) : ℕ × Finset ℕ), (0, {1, 2, 3})], a ∈ insert d.1 d.2 ∧ b ∈ insert d.1 d.2 := by
    intro a b hab
    have hb := exBi_wf.adj_iff.mp hab
    have ha : a < 5 := exBi_wf.lt_left hb
    have key : ∀ a < 5, ∀ b ∈ exBi.nbrs a, ∃ d ∈ [((1, {4}) : ℕ × Finset ℕ), (0, {1, 2, 3})], a ∈ insert d.1 d.2 ∧ b ∈ insert d.1 d.2 := by
      decide
    exact key a ha b hb
  rw [(htl.blocks hcover).1 S]
  simp [or_comm]

/-- The code violates C21: for `exBi` it returns `[4, 3]`, the biconnected components have 4 and 2 vertices. -/
theorem C21_sizes_violation : ¬ C21Claim Nat (NodeContainer Nat) := by
  intro hc
  obtain ⟨r, h1, _, blocks, _, h3, h4⟩ := hc exBi exBi_wf
  have h5 : exBi.vertexBiconnectedComponents false = .ok [4, 3] := by decide
  rw [h5] at h1
  simp only [Res.ok.injEq] at h1
  subst h1
  have h6 : 3 ∈ blocks.map Finset.card := h4.mem_iff.mp (by simp)
  rw [List.mem_map] at h6
  obtain ⟨S, hS, hcard⟩ := h6
  rcases (exBi_blocks S).mp ((h3 S).mpr hS) with rfl | rfl
  · exact absurd hcard (by decide)
  · exact absurd hcard (by decide)

/-- The alternative definition is affected as well. -/
theorem C21_alternative_violation : exBi.vertexBiconnectedComponents true = .ok [4, 3] ∧
    ∀ S, Block exBi.toSimple S → 2 < S.card → S.card = 4 := by
  refine ⟨by decide, ?_⟩
  intro S hS h2
  rcases (exBi_blocks S).mp hS with rfl | rfl
  · decide
  · exact absurd h2 (by decide)

/-- Cases that meet the hypotheses: the triangle with a tail, and the path, which has no cycles. -/
example : exTail.WF ∧ exTail.vertexBiconnectedComponents false = .ok [3, 2] ∧ exTail.vertexBiconnectedComponents true = .ok [3] :=
  ⟨exTail_wf, by decide, by decide⟩

example : exPath.WF ∧ exPath.vertexBiconnectedComponents false = .ok (List.replicate exPath.edgeCount 2) := ⟨exPath_wf, by decide⟩

/-- The path has no cycles (hypothesis of `C21_forest`). -/
theorem exPath_acyclic : exPath.toSimple.IsAcyclic := by
  have key : ∀ a < 4, ∀ b ∈ exPath.nbrs a, b = a + 1 ∨ a = b + 1 := by decide
  have hadj : ∀ a b, exPath.toSimple.Adj a b → b = a + 1 ∨ a = b + 1 := by
    intro a b hab
    have hb := exPath_wf.adj_iff.mp hab
    exact key a (exPath_wf.lt_left hb) b hb
  rw [SimpleGraph.isAcyclic_iff_forall_adj_isBridge]
  intro a b hab
  rw [SimpleGraph.isBridge_iff]
  intro hr
  rw [SimpleGraph.reachable_iff_reflTransGen] at hr
  have inv : ∀ x y, Relation.ReflTransGen (exPath.toSimple.deleteEdges {s(a, b)}).Adj x y → (x ≤ min a b ↔ y ≤ min a b) := by
    intro x y h
    induction h with
    | refl => exact Iff.rfl
    | @tail y z _ h2 ih =>
      rw [ih]
      rw [SimpleGraph.deleteEdges_adj, Set.mem_singleton_iff, Sym2.eq_iff] at h2
      have h3 := hadj _ _ h2.1
      have h4 := hadj _ _ hab
      have h5 := h2.2
      omega
  have h6 := inv a b hr
  have h7 := hadj _ _ hab
  omega

example : exPath.WF ∧ exPath.toSimple.IsAcyclic := ⟨exPath_wf, exPath_acyclic⟩

/-- A triangle and an isolated vertex: exactly one biconnected component (hypothesis of `C21_single_block`). -/
example : (exGraph 3 [[1, 2], [0, 2], [0, 1], []]).WF ∧
    (∀ S, Block (exGraph 3 [[1, 2], [0, 2], [0, 1], []]).toSimple S ↔ S = {0, 1, 2}) ∧
    (exGraph 3 [[1, 2], [0, 2], [0, 1], []]).vertexBiconnectedComponents false = .ok [3] := by
  have hwf : (exGraph 3 [[1, 2], [0, 2], [0, 1], []]).WF := GenericGraph.wf_of_check _ (fun _ _ => trivial) (by decide)
  have adj : ∀ a b, b ∈ (exGraph 3 [[1, 2], [0, 2], [0, 1], []]).nbrs a → (exGraph 3 [[1, 2], [0, 2], [0, 1], []]).toSimple.Adj a b :=
    fun a b hb => hwf.adj_iff.mpr hb
  refine ⟨hwf, ?_, by decide⟩
  intro S
  have b2 : BiSet (exGraph 3 [[1, 2], [0, 2], [0, 1], []]).toSimple {0, 1, 2} := by
    have h1 := (biSet_edge (adj 0 1 (by decide))).bi2 (a := 0) (b := 1) (by decide) (by decide) (by decide)
    have h2 := h1.append (b := 2) (biSet_edge (adj 1 2 (by decide))) (by decide) (by decide) (by decide) (by decide)
    have h4 := h2.close (adj 0 2 (by decide))
    have : ({0, 1} ∪ {1, 2} : Finset ℕ) = {0, 1, 2} := by decide
    rwa [this] at h4
  have htl : TreeLike (exGraph 3 [[1, 2], [0, 2], [0, 1], []]).toSimple [(0, {1, 2})] :=
    ⟨by decide, by decide, by decide, by
      intro d hd
      rw [List.mem_singleton] at hd
      subst hd
      exact b2⟩
  have key : ∀ a < 4, ∀ b ∈ (exGraph 3 [[1, 2], [0, 2], [0, 1], []]).nbrs a, ∃ d ∈ [((0, {1, 2}) : ℕ × Finset ℕ)],
      a ∈ insert d.1 d.2 ∧ b ∈ insert d.1 d.2 := by decide
  rw [(htl.blocks (fun a b hab => key a (hwf.lt_left (hwf.adj_iff.mp hab)) b (hwf.adj_iff.mp hab))).1 S]
  simp

end Verif
