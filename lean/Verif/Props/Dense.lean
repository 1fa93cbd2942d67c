import Verif.Props.Api
import Verif.Props.Agree
import Verif.Lemmas.Bicon4
import Verif.Lemmas.Ws4

/-!
# C114: many edges or large degrees force a network to be connected
-/

set_option linter.unusedSectionVars false
set_option linter.unusedSimpArgs false

namespace Verif
open AdjContainer GenericGraph

section
variable {T A : Type} [AdjContainer T A] [LawfulAdj T A]

/-! ## Proof -/

theorem sum_pairs_le (l : List ℕ) (h : ∀ k ∈ l, 0 < k) :
    l.length ≤ l.sum ∧ (l.map (fun k => k * (k - 1))).sum ≤ (l.sum - l.length) * (l.sum - l.length + 1) := by
  induction l with
  | nil => simp
  | cons a l ih =>
    obtain ⟨h1, h2⟩ := ih (fun k hk => h k (by simp [hk]))
    obtain ⟨b, rfl⟩ : ∃ b, a = b + 1 := ⟨a - 1, by have := h a (by simp); omega⟩
    obtain ⟨t, ht⟩ : ∃ t, l.sum = l.length + t := ⟨l.sum - l.length, by omega⟩
    rw [List.map_cons, List.sum_cons, List.sum_cons, List.length_cons]
    rw [ht, Nat.add_sub_cancel_left] at h2
    refine ⟨by omega, ?_⟩
    have h3 : b + 1 + l.sum - (l.length + 1) = b + t := by omega
    rw [h3, Nat.add_sub_cancel]
    nlinarith [Nat.zero_le (b * t)]

open Classical in
theorem two_edges_le {g : GenericGraph T A} (h : g.WF) {R : List ℕ} (hR : g.connectedComponents = .ok R) :
    2 * g.edgeCount ≤ (R.map (fun k => k * (k - 1))).sum := by
  obtain ⟨R', hR', _, hm⟩ := connectedComponents_spec h
  rw [hR] at hR'
  cases hR'
  have h1 : ∑ i ∈ Finset.range g.vertexCount, (g.nbrs i).length = 2 * g.edges.card :=
    Ws.degree_sum h.nodup (fun i _ j => (h.mem_edges).symm) (fun u v huv => h.mem_lt huv)
  rw [h.edgeCount_eq_card, ← h1]
  have h2 : (R.map (fun k => k * (k - 1))).sum = ∑ c ∈ componentSet g, componentSize g c * (componentSize g c - 1) := by
    rw [← Multiset.sum_coe, ← Multiset.map_coe, hm, Multiset.map_map]
    rfl
  rw [h2]
  have h3 : ∀ i ∈ Finset.range g.vertexCount, (g.nbrs i).length ≤ componentSize g (g.toSimple.connectedComponentMk i) - 1 := by
    intro i hi
    rw [← List.toFinset_card_of_nodup (h.nodup i)]
    unfold componentSize
    have hself : i ∈ (Finset.range g.vertexCount).filter
        (fun v => g.toSimple.connectedComponentMk v = g.toSimple.connectedComponentMk i) := Finset.mem_filter.mpr ⟨hi, rfl⟩
    rw [← Finset.card_erase_of_mem hself]
    apply Finset.card_le_card
    intro w hw
    rw [List.mem_toFinset] at hw
    have hmem : s(i, w) ∈ g.edges := (h.mem_edges).mpr hw
    obtain ⟨_, k2, k3⟩ := h.mem_lt hmem
    rw [Finset.mem_erase, Finset.mem_filter, Finset.mem_range]
    exact ⟨Ne.symm k3, k2, SimpleGraph.ConnectedComponent.sound (h.adj_iff.mpr hw : g.toSimple.Adj i w).reachable.symm⟩
  refine (Finset.sum_le_sum h3).trans (le_of_eq ?_)
  have hmap : ∀ i ∈ Finset.range g.vertexCount, g.toSimple.connectedComponentMk i ∈ componentSet g := by
    intro i hi
    unfold componentSet
    exact Finset.mem_image_of_mem _ hi
  rw [← Finset.sum_fiberwise_of_maps_to hmap]
  apply Finset.sum_congr rfl
  intro c _
  rw [Finset.sum_congr rfl (g := fun _ => componentSize g c - 1), Finset.sum_const, smul_eq_mul]
  · unfold componentSize
    rfl
  · intro i hi
    rw [(Finset.mem_filter.mp hi).2]

/-! ## Theorems -/

/-- **How many edges fit.** With the component sizes `k`, twice the number of edges is at most `∑ k (k - 1)`; with `c` components the
number of edges is at most `(n - c) (n - c + 1) / 2`. -/
theorem C114_edges {g : GenericGraph T A} (h : g.WF) :
    ∃ R, g.connectedComponents = .ok R ∧ 2 * g.edgeCount ≤ (R.map (fun k => k * (k - 1))).sum ∧ R.length ≤ g.vertexCount ∧
      2 * g.edgeCount ≤ (g.vertexCount - R.length) * (g.vertexCount - R.length + 1) := by
  obtain ⟨R, hR, hpos, hsum⟩ := C17_component_sizes_sum h
  have h1 := two_edges_le h hR
  obtain ⟨h2, h3⟩ := sum_pairs_le R hpos
  rw [hsum] at h2 h3
  exact ⟨R, hR, h1, h2, h1.trans h3⟩

/-- **Many edges.** A graph on `n` vertices with more than `(n - 1) (n - 2) / 2` edges is connected. -/
theorem C114_many_edges {g : GenericGraph T A} (h : g.WF) (hm : (g.vertexCount - 1) * (g.vertexCount - 2) / 2 < g.edgeCount) :
    g.isConnected = .ok (some true) := by
  obtain ⟨R, hR, _, h1, h2⟩ := C114_edges h
  have hn : 0 < g.vertexCount := by
    by_contra h0
    have h0 : g.vertexCount = 0 := by omega
    rw [h0] at h2
    simp at h2
    omega
  have hone : R.length ≤ 1 := by
    by_contra hc
    have h3 : g.vertexCount - R.length ≤ g.vertexCount - 2 := by omega
    have h4 : 2 * g.edgeCount ≤ (g.vertexCount - 2) * (g.vertexCount - 1) :=
      h2.trans (Nat.mul_le_mul h3 (by omega))
    rw [mul_comm] at h4
    have := Nat.div_lt_iff_lt_mul (by omega : 0 < 2) |>.mp hm
    rw [mul_comm ((g.vertexCount - 2)), ] at h4
    omega
  obtain ⟨r, hr1, _, hr2, _⟩ := C15_is_connected h
  rw [hr1, hr2.mpr ⟨hn, ?_⟩]
  intro v w hv hw
  have hcard : (componentSet g).card ≤ 1 := by
    obtain ⟨R', hR', _, hm⟩ := connectedComponents_spec h
    rw [hR] at hR'
    cases hR'
    have := congrArg Multiset.card hm
    rw [Multiset.coe_card, Multiset.card_map] at this
    have : R.length = (componentSet g).card := this
    omega
  have key : ∀ u, u < g.vertexCount → g.toSimple.connectedComponentMk u ∈ componentSet g := by
    intro u hu
    classical
    unfold componentSet
    exact Finset.mem_image_of_mem _ (Finset.mem_range.mpr hu)
  exact SimpleGraph.ConnectedComponent.exact (Finset.card_le_one.mp hcard _ (key v hv) _ (key w hw))

/-- **Large degrees.** If every vertex has at least `(n - 1) / 2` neighbours, the graph is connected and its diameter is at most two. -/
theorem C114_large_degrees {g : GenericGraph T A} (h : g.WF) (hn : 0 < g.vertexCount)
    (hd : ∀ v d, g.degree v = some d → g.vertexCount ≤ 2 * d + 1) :
    g.isConnected = .ok (some true) ∧ ∃ D ≤ 2, g.diameter = .ok (some D) := by
  classical
  have hdeg : ∀ v < g.vertexCount, g.vertexCount ≤ 2 * (g.nbrs v).length + 1 := fun v hv => hd v _ (BiInv.degree_nbrs h hv)
  have key : ∀ u v, u < g.vertexCount → v < g.vertexCount → g.toSimple.Reachable u v ∧ g.toSimple.dist u v ≤ 2 := by
    intro u v hu hv
    by_cases huv : u = v
    · subst huv
      exact ⟨SimpleGraph.Reachable.refl _, by simp⟩
    by_cases hadj : g.toSimple.Adj u v
    · exact ⟨hadj.reachable, by rw [SimpleGraph.dist_eq_one_iff_adj.mpr hadj]; omega⟩
    have hcommon : ((g.nbrs u).toFinset ∩ (g.nbrs v).toFinset).Nonempty := by
      by_contra he
      rw [Finset.not_nonempty_iff_eq_empty, ← Finset.disjoint_iff_inter_eq_empty] at he
      have hsub : (g.nbrs u).toFinset ∪ (g.nbrs v).toFinset ⊆ ((Finset.range g.vertexCount).erase u).erase v := by
        have hnb : ∀ x w, w ∈ g.nbrs x → w < g.vertexCount ∧ x ≠ w := by
          intro x w hw
          have hmem : s(x, w) ∈ g.edges := (h.mem_edges).mpr hw
          exact (h.mem_lt hmem).2
        intro w hw
        rw [Finset.mem_erase, Finset.mem_erase, Finset.mem_range]
        rcases Finset.mem_union.mp hw with hw | hw
        · rw [List.mem_toFinset] at hw
          obtain ⟨k1, k2⟩ := hnb _ _ hw
          exact ⟨fun hc => hadj (by rw [← hc]; exact h.adj_iff.mpr hw), Ne.symm k2, k1⟩
        · rw [List.mem_toFinset] at hw
          obtain ⟨k1, k2⟩ := hnb _ _ hw
          exact ⟨Ne.symm k2, fun hc => hadj (SimpleGraph.Adj.symm (by rw [← hc]; exact h.adj_iff.mpr hw)), k1⟩
      have hc := Finset.card_le_card hsub
      rw [Finset.card_union_of_disjoint he, List.toFinset_card_of_nodup (h.nodup u), List.toFinset_card_of_nodup (h.nodup v),
        Finset.card_erase_of_mem (Finset.mem_erase.mpr ⟨Ne.symm huv, Finset.mem_range.mpr hv⟩),
        Finset.card_erase_of_mem (Finset.mem_range.mpr hu), Finset.card_range] at hc
      have h1 := hdeg u hu
      have h2 := hdeg v hv
      omega
    obtain ⟨w, hw⟩ := hcommon
    rw [Finset.mem_inter, List.mem_toFinset, List.mem_toFinset] at hw
    have a1 : g.toSimple.Adj u w := h.adj_iff.mpr hw.1
    have a2 : g.toSimple.Adj w v := (h.adj_iff.mpr hw.2 : g.toSimple.Adj v w).symm
    let p : g.toSimple.Walk u v := .cons a1 (.cons a2 .nil)
    exact ⟨p.reachable, SimpleGraph.dist_le p⟩
  constructor
  · obtain ⟨r, hr1, _, hr2, _⟩ := C15_is_connected h
    rw [hr1, hr2.mpr ⟨hn, fun v w hv hw => (key v w hv hw).1⟩]
  · obtain ⟨D, h1, _, u, v, hu, hv, h2⟩ := C18_diameter h hn (fun v w hv hw => (key v w hv hw).1)
    exact ⟨D, by rw [← h2]; exact (key u v hu hv).2, h1⟩

end

variable {T R : Type} [Rng R]

/-- `ErEnsembleM` with more than `(n - 1) (n - 2) / 2` edges: the network is connected after every history of calls. -/
theorem C114_er_m [Node T] {n m : ℕ} (hn : 1 ≤ n) (hm : m ≤ n * (n - 1) / 2) (hlarge : (n - 1) * (n - 2) / 2 < m) (r : R) :
    ∃ e0 : ErM T R, ErM.new n m r = .ok e0 ∧ ∀ ws e, Hist ErM.Call ErM.setAt e0 ws e → e.graph.isConnected = .ok (some true) := by
  obtain ⟨e0, h1, h2⟩ := C75_er_m (T := T) hn hm r
  refine ⟨e0, h1, fun ws e he => ?_⟩
  obtain ⟨h3, h4, h5, _⟩ := h2 ws e he
  exact C114_many_edges h3 (by rw [h4, h5]; exact hlarge)

/-- `ConfigurationModel` with a degree vector in which every degree is at least `(n - 1) / 2`: the network is connected, with diameter
at most two, after every history of calls that does not replace the degree vector. -/
theorem C114_config [Node T] {d : List ℕ} (hne : d ≠ []) (hd : ∀ k ∈ d, d.length ≤ 2 * k + 1) (r : R) {fuel : ℕ} {e0 : Config T R}
    (h0 : Config.fromVecUnchecked fuel d r = .ok e0) {ws : List (ℕ × T)} {e : Config T R}
    (he : Hist (Config.Call false) Config.setAt e0 ws e) :
    e.graph.isConnected = .ok (some true) ∧ ∃ D ≤ 2, e.graph.diameter = .ok (some D) := by
  obtain ⟨h1, _⟩ := C75_config_degrees d r h0 he
  obtain ⟨h2, h3⟩ := realises_iff.mp h1
  have hlen : e.graph.vertexCount = d.length := h1.2.1
  apply C114_large_degrees h2
  · rw [hlen]; exact List.length_pos_of_ne_nil hne
  · intro v k hk
    rw [hlen]
    apply hd
    rw [← h3]
    unfold GenericGraph.degree at hk
    rw [Option.map_eq_some_iff] at hk
    obtain ⟨a, ha, rfl⟩ := hk
    exact List.mem_map_of_mem (List.mem_of_getElem? ha)

/-! ## The hypotheses are met, and the bounds are sharp for four and six vertices -/

/-- A triangle and a lonely vertex: `(n - 1) (n - 2) / 2` edges are not enough.  Two triangles: degrees `(n - 2) / 2` are not enough. -/
example : (exGraph 3 [[1, 2], [0, 2], [0, 1], []]).isConnected = .ok (some false) ∧
    exTwoTriangles.WF ∧ exTwoTriangles.vertexCount = 2 * 2 + 2 ∧ exTwoTriangles.degreeVec = [2, 2, 2, 2, 2, 2] ∧
    exTwoTriangles.isConnected = .ok (some false) :=
  ⟨by decide, exTwoTriangles_wf, by decide, by decide, by decide⟩

/-- A square with a diagonal (five edges, `5 > 3`), the ring of five vertices (degree 2, `5 ≤ 2 * 2 + 1`). -/
example : (exGraph 5 [[1, 2, 3], [0, 2], [1, 0, 3], [2, 0]]).WF ∧ (4 - 1) * (4 - 2) / 2 < 5 ∧ 5 ≤ 4 * (4 - 1) / 2 ∧
    (∀ k ∈ [2, 2, 2, 2, 2], [2, 2, 2, 2, 2].length ≤ 2 * k + 1) ∧
    ((Config.fromVecUnchecked 5 [2, 2, 2, 2, 2] ⟨[0, 2, 3, 4, 5, 6, 7, 8, 9, 1]⟩ : Res (Config Nat PermRng)).bind fun e =>
      .ok (e.graph.diameter)) = .ok (.ok (some 2)) :=
  ⟨GenericGraph.wf_of_check _ (fun _ _ => trivial) (by decide), by decide, by decide, by decide, by decide⟩

end Verif
