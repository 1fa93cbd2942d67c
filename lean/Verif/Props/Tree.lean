import Verif.Lemmas.TreeDist
import Verif.Props.OneEdge
import Verif.Props.LoadUnique
import Verif.Props.Degree
import Verif.Props.Traverse
import Verif.Props.Ba

/-!
# C102: trees

A user who has checked that a graph is connected and has one edge less than vertices can use shortcuts that hold for trees only.

* `C102_tree`: that check is exact.
* `C102_counts`: leaves, triangles, blocks, cores.
* `C102_double_sweep`: a breadth first search from any vertex, and `longest_shortest_path_from_index` of the vertex found last, give the
  diameter.
* `C102_eccentricity`, `C102_radius`: the longest shortest paths from all vertices follow from the distances to the two ends of one longest
  path; the smallest is half the diameter, rounded up.
* `C102_cut`: the components after the removal of an edge.
* `C102_load`: `vertex_load` from the sizes of the branches.
* `C102_ba`: the Barabási-Albert ensemble with `m = 1` makes a tree from a tree.
-/

set_option linter.unusedSectionVars false
set_option linter.unusedSimpArgs false

namespace Verif
open AdjContainer GenericGraph

variable {T A : Type} [AdjContainer T A] [LawfulAdj T A]

/-- Connected with one edge less than vertices: exactly the trees. -/
theorem C102_tree {g : GenericGraph T A} (h : g.WF) :
    (g.isConnected = .ok (some true) ∧ g.edgeCount + 1 = g.vertexCount) ↔
      (0 < g.vertexCount ∧ (∀ v w, v < g.vertexCount → w < g.vertexCount → g.toSimple.Reachable v w) ∧ g.toSimple.IsAcyclic) := by
  obtain ⟨r, hr, _, h2, _⟩ := C15_is_connected h
  obtain ⟨R, hR, _, hf, _⟩ := C76_forest h
  rw [hr]
  constructor
  · rintro ⟨h3, h4⟩
    obtain ⟨hn, hc⟩ := h2.mp (by cases h3; rfl)
    refine ⟨hn, hc, hf.mp ?_⟩
    obtain ⟨b, R', d, k1, k2, _, k3, _⟩ := C76_connected h hn
    rw [hR] at k2
    rw [hr, h3] at k1
    cases k1
    cases k2
    rw [k3.mp rfl]
    omega
  · rintro ⟨hn, hc, ha⟩
    have h3 := h2.mpr ⟨hn, hc⟩
    refine ⟨by rw [h3], ?_⟩
    obtain ⟨b, R', d, k1, k2, _, k3, _⟩ := C76_connected h hn
    rw [hR] at k2
    rw [hr, h3] at k1
    cases k1
    cases k2
    have := hf.mpr ha
    rw [k3.mp rfl] at this
    omega

theorem longest_of {g : GenericGraph T A} (h : g.WF) {v w d : ℕ} (hv : v < g.vertexCount) (hr : g.toSimple.Reachable v w)
    (h1 : g.toSimple.dist v w = d) (h2 : ∀ x < g.vertexCount, g.toSimple.dist v x ≤ d) : g.longestShortestPathFromIndex v = .ok (some d) := by
  obtain ⟨e, e1, ⟨y, e2, e3⟩, e4⟩ := (C19_eccentricity h v).2 hv
  have h3 := h2 y (h.reachable_lt e2 hv)
  have h4 := e4 w hr
  rw [e1, show e = d by omega]

theorem ncard_adj_pos {g : GenericGraph T A} (h : g.WF) {v w : ℕ} (hvw : g.toSimple.Adj v w) : 0 < {w | g.toSimple.Adj v w}.ncard := by
  have hf : {w | g.toSimple.Adj v w}.Finite := by
    refine (Finset.finite_toSet (Finset.range g.vertexCount)).subset fun x hx => ?_
    rw [Finset.mem_coe, Finset.mem_range]
    exact h.lt_left (h.adj_iff.mp (SimpleGraph.Adj.symm hx))
  exact (Set.ncard_pos hf).mpr ⟨w, hvw⟩

section
variable {g : GenericGraph T A} (h : g.WF) (hc : g.isConnected = .ok (some true)) (he : g.edgeCount + 1 = g.vertexCount)
include h hc he

/-- Leaves, triangles, cores and blocks of a tree. -/
theorem C102_counts (hn : 2 ≤ g.vertexCount) :
    g.leafCount = 2 + ∑ v ∈ Finset.range g.vertexCount, ({w | g.toSimple.Adj v w}.ncard - 2) ∧
    (∃ p, g.transitivity = .ok (0, p)) ∧
    (∀ q, 2 ≤ q → g.qCore q = .ok (some 0)) ∧
    g.vertexBiconnectedComponents false = .ok (List.replicate (g.vertexCount - 1) 2) ∧
    g.vertexBiconnectedComponents true = .ok [] := by
  obtain ⟨hn0, hr, ha⟩ := (C102_tree h).mp ⟨hc, he⟩
  obtain ⟨b1, b2⟩ := C21_forest h ha
  obtain ⟨R, _, _, _, hq, _⟩ := C76_forest h
  refine ⟨?_, ?_, ?_, by rw [b1]; congr 2; omega, b2⟩
  · obtain ⟨_, hd, hs, _⟩ := C26_degrees h
    have hsr : ((List.range g.vertexCount).map (fun v => {w | g.toSimple.Adj v w}.ncard)).sum =
        ∑ v ∈ Finset.range g.vertexCount, {w | g.toSimple.Adj v w}.ncard := by
      rw [Finset.sum, Finset.range_val, Multiset.range, Multiset.map_coe, Multiset.sum_coe]
    rw [hd, hsr] at hs
    have hl : g.leafCount = ∑ v ∈ Finset.range g.vertexCount, if {w | g.toSimple.Adj v w}.ncard = 1 then 1 else 0 := by
      rw [C26_leaf_count h, ← Finset.card_filter, ← Set.ncard_coe_finset]
      congr 1
      ext v
      simp
    have h1 : ∀ v ∈ Finset.range g.vertexCount, ({w | g.toSimple.Adj v w}.ncard - 2) + 2 =
        {w | g.toSimple.Adj v w}.ncard + if {w | g.toSimple.Adj v w}.ncard = 1 then 1 else 0 := by
      intro v hv
      rw [Finset.mem_range] at hv
      obtain ⟨w, hw, hne⟩ : ∃ w < g.vertexCount, v ≠ w := by
        by_cases h0 : v = 0
        · exact ⟨1, by omega, by omega⟩
        · exact ⟨0, by omega, h0⟩
      obtain ⟨p, hp, _⟩ := Forest.parent (hr w v hw hv) hne
      have := ncard_adj_pos h hp
      split <;> omega
    have h2 := Finset.sum_congr rfl h1
    rw [Finset.sum_add_distrib, Finset.sum_add_distrib, ← hl, hs, Finset.sum_const, Finset.card_range, smul_eq_mul] at h2
    omega
  · classical
    have ht := C24_transitivity h
    rw [Finset.card_eq_zero.mpr] at ht
    · exact ⟨_, ht⟩
    rw [Finset.filter_eq_empty_iff]
    rintro ⟨x, y, z⟩ _ ⟨k1, k2, _, k4⟩
    have k5 := Forest.adj_dist ha k1 k4.reachable
    rw [SimpleGraph.dist_eq_one_iff_adj.mpr k4, SimpleGraph.dist_eq_one_iff_adj.mpr k2] at k5
    omega
  · intro q hq2
    induction q, hq2 using Nat.le_induction with
    | base => exact (hq hn0).mpr ha
    | succ q hq2 ih =>
      obtain ⟨r, r', R, k1, k2, _, _, _, k3⟩ := C76_q_core h hq2 hn0
      rw [ih] at k1
      cases k1
      rw [k2, Nat.le_zero.mp k3]

/-- A breadth first search from any vertex `u` finds an end of a longest path last: `longest_shortest_path_from_index` of it is the
diameter. -/
theorem C102_double_sweep {u : ℕ} (hu : u < g.vertexCount) {fuel : ℕ} (hf : g.vertexCount < fuel) :
    ∃ L w t d D, g.bfs u fuel = .ok L ∧ L.getLast? = some (w, t, d) ∧ g.longestShortestPathFromIndex w = .ok (some D) ∧
      g.diameter = .ok (some D) := by
  obtain ⟨hn0, hr, ha⟩ := (C102_tree h).mp ⟨hc, he⟩
  obtain ⟨L, hL, hB⟩ := C11_bfs h hu hf
  obtain ⟨⟨w, t, d⟩, e1, e2, e3, e4⟩ := hB.last
  obtain ⟨D, d1, d2, x, y, hx, hy, d3⟩ := C18_diameter h hn0 hr
  simp only at e2 e3 e4
  have hw : w < g.vertexCount := h.reachable_lt e2 hu
  refine ⟨L, w, t, d, D, hL, e1, ?_, d1⟩
  have k1 := e4 x (hr u x hu hx)
  have k2 := e4 y (hr u y hu hy)
  have k3 := d2 y w hy hw
  have k4 := d2 x w hx hw
  rcases Forest.four_point ha (hr u x hu hx) (hr u y hu hy) e2 with k | k
  · exact longest_of h hw (hr w x hw hx) (by rw [SimpleGraph.dist_comm]; omega) (fun z hz => d2 w z hw hz)
  · exact longest_of h hw (hr w y hw hy) (by rw [SimpleGraph.dist_comm]; omega) (fun z hz => d2 w z hw hz)

/-- The longest shortest path from any vertex ends at one of the two ends `x` and `y` of a longest path. -/
theorem C102_eccentricity {x y : ℕ} (hx : x < g.vertexCount) (hy : y < g.vertexCount)
    (hd : g.diameter = .ok (some (g.toSimple.dist x y))) {v : ℕ} (hv : v < g.vertexCount) :
    g.longestShortestPathFromIndex v = .ok (some (max (g.toSimple.dist v x) (g.toSimple.dist v y))) := by
  obtain ⟨hn0, hr, ha⟩ := (C102_tree h).mp ⟨hc, he⟩
  obtain ⟨D, d1, d2, _⟩ := C18_diameter h hn0 hr
  rw [hd] at d1
  cases d1
  have key : ∀ z < g.vertexCount, g.toSimple.dist v z ≤ max (g.toSimple.dist v x) (g.toSimple.dist v y) := by
    intro z hz
    have k1 := d2 x z hx hz
    have k2 := d2 y z hy hz
    rcases Forest.four_point ha (hr v x hv hx) (hr v y hv hy) (hr v z hv hz) with k | k <;> omega
  rcases Nat.le_total (g.toSimple.dist v x) (g.toSimple.dist v y) with k | k
  · exact longest_of h hv (hr v y hv hy) (Nat.max_eq_right k).symm key
  · exact longest_of h hv (hr v x hv hx) (Nat.max_eq_left k).symm key

/-- The smallest `longest_shortest_path_from_index` is half the diameter, rounded up. -/
theorem C102_radius {D : ℕ} (hd : g.diameter = .ok (some D)) :
    (∀ v < g.vertexCount, ∃ e, g.longestShortestPathFromIndex v = .ok (some e) ∧ (D + 1) / 2 ≤ e) ∧
    ∃ v < g.vertexCount, g.longestShortestPathFromIndex v = .ok (some ((D + 1) / 2)) := by
  obtain ⟨hn0, hr, ha⟩ := (C102_tree h).mp ⟨hc, he⟩
  obtain ⟨_, k1, _⟩ := C76_diameter h hd
  obtain ⟨D', d1, d2, x, y, hx, hy, d3⟩ := C18_diameter h hn0 hr
  rw [hd] at d1
  cases d1
  refine ⟨fun v hv => ?_, ?_⟩
  · obtain ⟨e, e1, e2, e3⟩ := k1 v hv
    exact ⟨e, e1, by omega⟩
  · obtain ⟨p, hp⟩ := (hr x y hx hy).exists_walk_length_eq_dist
    set v := p.getVert ((D + 1) / 2) with hvd
    have r1 : g.toSimple.Reachable x v := ⟨p.take ((D + 1) / 2)⟩
    have hv : v < g.vertexCount := h.reachable_lt r1 hx
    refine ⟨v, hv, ?_⟩
    rw [C102_eccentricity h hc he hx hy (by rw [hd, d3]) hv]
    have l1 := SimpleGraph.dist_le (p.take ((D + 1) / 2))
    have l2 := SimpleGraph.dist_le (p.drop ((D + 1) / 2))
    rw [SimpleGraph.Walk.take_length] at l1
    rw [SimpleGraph.Walk.drop_length] at l2
    have l3 := Forest.tri r1 (r1.symm.trans (hr x y hx hy))
    rw [SimpleGraph.dist_comm (u := v) (v := x)]
    rw [← hvd] at l1 l2
    congr 2
    omega

/-- The two sides of an edge: after `remove_edge(u, v)` there are two components, with the numbers of vertices nearer to `u` and nearer
to `v`. -/
theorem C102_cut {u v : ℕ} {g' : GenericGraph T A} (e : g.removeEdge u v = .ok (.ok (), g')) {b : ℕ}
    (hb : b = ((Finset.range g.vertexCount).filter (fun t => g.toSimple.dist u t < g.toSimple.dist v t)).card) :
    g'.connectedComponents = .ok [max b (g.vertexCount - b), min b (g.vertexCount - b)] := by
  obtain ⟨hn0, hr, ha⟩ := (C102_tree h).mp ⟨hc, he⟩
  have o := oneMore_of_remove h e
  have huv : g.toSimple.Adj u v := o.adj_new
  have hu : u < g.vertexCount := h.lt_left (h.adj_iff.mp huv)
  have hv : v < g.vertexCount := h.lt_left (h.adj_iff.mp huv.symm)
  have hn' : g'.vertexCount = g.vertexCount := o.count.symm
  -- walks that avoid one end of the edge survive
  have hsurv : ∀ (a c : ℕ) (p : g.toSimple.Walk a c), s(u, v) ∉ p.edges → g'.toSimple.Reachable a c := by
    intro a c p
    induction p with
    | nil => exact fun _ => SimpleGraph.Reachable.refl _
    | cons hab q ih =>
      intro hp
      rw [SimpleGraph.Walk.edges_cons, List.mem_cons, not_or] at hp
      refine SimpleGraph.Reachable.trans (SimpleGraph.Adj.reachable ?_) (ih hp.2)
      rcases o.adj.mp hab with k | k
      · exact k
      · exact absurd k.symm hp.1
  have hcut : ¬ g'.toSimple.Reachable u v := by
    rintro ⟨q⟩
    have h1 := SimpleGraph.isBridge_iff_forall_walk_mem_edges.mp (SimpleGraph.isAcyclic_iff_forall_adj_isBridge.mp ha huv)
      (q.mapLe o.le)
    rw [SimpleGraph.Walk.edges_mapLe_eq_edges] at h1
    have := q.adj_of_mem_edges h1
    exact o.new (o.wf.mem_edges.mpr (o.wf.adj_iff.mp this))
  have hside : ∀ (a c t : ℕ), s(a, c) = s(u, v) → g.toSimple.Reachable a t → g.toSimple.dist a t < g.toSimple.dist c t →
      g'.toSimple.Reachable a t := by
    intro a c t hac hat hlt
    obtain ⟨p, hp⟩ := hat.exists_walk_length_eq_dist
    refine hsurv a t p fun hm => ?_
    rw [← hac] at hm
    have hc := p.snd_mem_support_of_mem_edges hm
    have h3 := SimpleGraph.dist_le (p.dropUntil c hc)
    have h4 := p.length_dropUntil_le_length hc
    omega
  have hiff : ∀ t < g.vertexCount, (g'.toSimple.Reachable u t ↔ g.toSimple.dist u t < g.toSimple.dist v t) := by
    intro t ht
    constructor
    · intro h1
      by_contra h2
      have h3 := Forest.adj_dist ha huv (hr u t hu ht)
      exact hcut (h1.trans (hside v u t Sym2.eq_swap (hr v t hv ht) (by omega)).symm)
    · exact hside u v t rfl (hr u t hu ht)
  obtain ⟨R, hR, hs, hm⟩ := C17_component_sizes o.wf
  obtain ⟨R', hR', _, hsum⟩ := C17_component_sizes_sum o.wf
  rw [hR] at hR'
  cases hR'
  have hlen : R.length = 2 := by
    obtain ⟨⟨R1, R2, k, ids, c1, c2, c3, _, c5, _⟩, _⟩ := C77_remove_edge h e
    rw [hR] at c2
    cases c2
    obtain ⟨b', R3, _, w1, w2, _, w3, _⟩ := C76_connected h hn0
    rw [hc] at w1
    rw [c1] at w2
    cases w1
    cases w2
    rw [c5, w3.mp rfl]
    intro hid
    obtain ⟨k', ids', i1, _, _, _, i5, _⟩ := C16_component_ids o.wf
    rw [c3] at i1
    cases i1
    exact hcut ((i5 u v (by rw [hn']; exact hu) (by rw [hn']; exact hv)).mp hid)
  have hbm : b ∈ R := by
    classical
    rw [← Multiset.mem_coe, hm, Multiset.mem_map]
    refine ⟨g'.toSimple.connectedComponentMk u, ?_, ?_⟩
    · rw [Finset.mem_val, componentSet]
      exact Finset.mem_image_of_mem _ (Finset.mem_range.mpr (by rw [hn']; exact hu))
    · rw [componentSize, hb, hn']
      congr 1
      ext t
      rw [Finset.mem_filter, Finset.mem_filter, and_congr_right_iff]
      intro ht
      rw [← hiff t (Finset.mem_range.mp ht), SimpleGraph.ConnectedComponent.eq]
      exact ⟨SimpleGraph.Reachable.symm, SimpleGraph.Reachable.symm⟩
  rw [hR]
  match R, hlen with
  | [a, c], _ =>
    simp only [List.pairwise_cons, List.mem_singleton, forall_eq] at hs
    simp only [List.sum_cons, List.sum_nil, hn'] at hsum
    simp only [List.mem_cons, List.not_mem_nil, or_false] at hbm
    congr 3 <;> [skip; congr 1] <;> omega

open Classical in
/-- `vertex_load` of a tree: a shortest path avoids `v` exactly if its ends are in the same branch at `v`.  The branch of the neighbour `u`
are the vertices nearer to `u` than to `v`; its size is a component size after `remove_edge(u, v)` (`C102_cut`). -/
theorem C102_load (incl : Bool) :
    g.vertexLoad incl = .ok ((List.range g.vertexCount).map (fun v =>
      ((g.vertexCount : ℚ) - 1) ^ 2 - ∑ u ∈ (Finset.range g.vertexCount).filter (g.toSimple.Adj v),
        (((Finset.range g.vertexCount).filter (fun t => g.toSimple.dist u t < g.toSimple.dist v t)).card : ℚ) ^ 2 +
        if incl then (g.vertexCount : ℚ) - 1 else 0)) := by
  obtain ⟨hn0, hr, ha⟩ := (C102_tree h).mp ⟨hc, he⟩
  have hu := uniqueShortest_of_acyclic ha
  rw [C22_load_counts_shortest_paths h hu incl]
  congr 1
  refine List.map_congr_left fun v hv => ?_
  rw [List.mem_range] at hv
  set n := g.vertexCount with hn
  set B : ℕ → Finset ℕ := fun u => (Finset.range n).filter (fun t => g.toSimple.dist u t < g.toSimple.dist v t) with hB
  set E := (Finset.range n).erase v with hE
  have hEc : E.card = n - 1 := by rw [hE, Finset.card_erase_of_mem (Finset.mem_range.mpr hv), Finset.card_range]
  -- pairs whose path avoids `v`
  have hnot : (E ×ˢ E).filter (fun p => ¬ OnShortest g.toSimple p.1 p.2 v) =
      ((Finset.range n).filter (g.toSimple.Adj v)).biUnion (fun u => B u ×ˢ B u) := by
    ext ⟨s, t⟩
    simp only [Finset.mem_filter, Finset.mem_product, Finset.mem_biUnion, Finset.mem_range, hE, Finset.mem_erase, hB]
    rw [onShortest_iff]
    constructor
    · rintro ⟨⟨⟨s1, s2⟩, t1, t2⟩, h1⟩
      obtain ⟨u, u1, u2, u3⟩ := Forest.parent (hr t v t2 hv) (Ne.symm t1)
      have hun : u < n := h.reachable_lt u2 t2
      rw [SimpleGraph.dist_comm (u := t) (v := v), SimpleGraph.dist_comm (u := t) (v := u)] at u3
      refine ⟨u, ⟨hun, u1⟩, ⟨s2, ?_⟩, t2, by omega⟩
      by_contra h2
      have h3 := Forest.adj_dist ha u1 (hr v s hv s2)
      refine h1 ⟨hr s v s2 hv, hr v t hv t2, ?_⟩
      have h4 := Forest.across ha u1.symm (hr s v s2 hv) (hr u t hun t2)
        (by rw [SimpleGraph.dist_comm (u := s), SimpleGraph.dist_comm (u := s)]; omega) u3
      omega
    · rintro ⟨u, ⟨hun, u1⟩, ⟨s2, s3⟩, t2, t3⟩
      refine ⟨⟨⟨?_, s2⟩, ?_, t2⟩, ?_⟩
      · rintro rfl
        rw [SimpleGraph.dist_self] at s3
        omega
      · rintro rfl
        rw [SimpleGraph.dist_self] at t3
        omega
      · rintro ⟨_, _, h1⟩
        have h2 := Forest.tri (hr s u s2 hun) (hr u t hun t2)
        rw [SimpleGraph.dist_comm (u := s) (v := v)] at h1
        rw [SimpleGraph.dist_comm (u := s) (v := u)] at h2
        omega
  have hcard : ((E ×ˢ E).filter (fun p => ¬ OnShortest g.toSimple p.1 p.2 v)).card =
      ∑ u ∈ (Finset.range n).filter (g.toSimple.Adj v), (B u).card ^ 2 := by
    rw [hnot, Finset.card_biUnion]
    · exact Finset.sum_congr rfl fun u _ => by rw [Finset.card_product, pow_two]
    · intro u hu1 u' hu2 hne
      rw [Function.onFun, Finset.disjoint_left]
      rintro ⟨s, t⟩ h1 h2
      rw [Finset.mem_coe, Finset.mem_filter] at hu1 hu2
      simp only [hB, Finset.mem_product, Finset.mem_filter, Finset.mem_range] at h1 h2
      obtain ⟨h1, _⟩ := h1
      obtain ⟨h2, _⟩ := h2
      have k1 := Forest.adj_dist ha hu1.2 (hr v s hv h1.1)
      have k2 := Forest.adj_dist ha hu2.2 (hr v s hv h1.1)
      refine hne (hu.prev (hr s v h1.1 hv) hu1.2.symm ?_ hu2.2.symm ?_)
      · rw [SimpleGraph.dist_comm (u := s), SimpleGraph.dist_comm (u := s)]; omega
      · rw [SimpleGraph.dist_comm (u := s), SimpleGraph.dist_comm (u := s)]; omega
  have hsum := Finset.card_filter_add_card_filter_not (s := E ×ˢ E) (fun p => OnShortest g.toSimple p.1 p.2 v)
  rw [hcard, Finset.card_product, hEc] at hsum
  have hcast : (((E ×ˢ E).filter (fun p => OnShortest g.toSimple p.1 p.2 v)).card : ℚ) =
      ((n : ℚ) - 1) ^ 2 - ∑ u ∈ (Finset.range n).filter (g.toSimple.Adj v), ((B u).card : ℚ) ^ 2 := by
    have h1 : ((((E ×ˢ E).filter (fun p => OnShortest g.toSimple p.1 p.2 v)).card +
      ∑ u ∈ (Finset.range n).filter (g.toSimple.Adj v), (B u).card ^ 2 : ℕ) : ℚ) = (((n - 1) * (n - 1) : ℕ) : ℚ) := by rw [hsum]
    push_cast [Nat.cast_sub (show 1 ≤ n by omega)] at h1
    linarith
  rw [← hcast]
  cases incl with
  | false =>
    rw [if_neg (by simp), add_zero]
    congr 2
    ext ⟨s, t⟩
    simp only [Finset.mem_filter, Finset.mem_product, hE, Finset.mem_erase, forall_true_left]
    tauto
  | true =>
    rw [if_pos rfl]
    have h1 : (Finset.range n ×ˢ Finset.range n).filter (fun p : ℕ × ℕ => p.1 ≠ v ∧ (true = false → p.2 ≠ v) ∧
        OnShortest g.toSimple p.1 p.2 v) = (E ×ˢ E).filter (fun p => OnShortest g.toSimple p.1 p.2 v) ∪ E ×ˢ {v} := by
      ext ⟨s, t⟩
      simp only [Finset.mem_filter, Finset.mem_product, Finset.mem_union, Finset.mem_singleton, Finset.mem_range, hE, Finset.mem_erase,
        Bool.true_eq_false, false_implies, true_and]
      constructor
      · rintro ⟨⟨s1, t1⟩, s2, h1⟩
        by_cases ht : t = v
        · exact .inr ⟨⟨s2, s1⟩, ht⟩
        · exact .inl ⟨⟨⟨s2, s1⟩, ht, t1⟩, h1⟩
      · rintro (⟨⟨⟨s2, s1⟩, ht, t1⟩, h1⟩ | ⟨⟨s2, s1⟩, rfl⟩)
        · exact ⟨⟨s1, t1⟩, s2, h1⟩
        · exact ⟨⟨s1, hv⟩, s2, onShortest_iff.mpr ⟨hr s t s1 hv, SimpleGraph.Reachable.refl _, by rw [SimpleGraph.dist_self, add_zero]⟩⟩
    have h2 : Disjoint ((E ×ˢ E).filter (fun p => OnShortest g.toSimple p.1 p.2 v)) (E ×ˢ {v}) := by
      rw [Finset.disjoint_left]
      rintro ⟨s, t⟩ h1 h2
      rw [Finset.mem_filter, Finset.mem_product, hE, Finset.mem_erase, Finset.mem_erase] at h1
      rw [Finset.mem_product, Finset.mem_singleton] at h2
      exact h1.1.2.1 h2.2
    have h3 := Finset.card_union_of_disjoint h2
    rw [← h1, Finset.card_product, Finset.card_singleton, mul_one, hEc] at h3
    refine (congrArg (fun k : ℕ => (k : ℚ)) (Eq.trans ?_ h3)).trans ?_
    · congr!
    · push_cast [Nat.cast_sub (show 1 ≤ n by omega)]
      ring

end

/-- Barabási-Albert networks with `m = 1` grown from a tree are trees. -/
theorem C102_ba {T R : Type} [Rng R] {e e' : Ba T R} (hv : e.Valid) (hc : e.source.isConnected = .ok (some true))
    (hs : e.source.edgeCount + 1 = e.source.vertexCount) (h2 : 2 ≤ e.source.vertexCount) (hm : e.m = 1) {fuel : ℕ}
    (he : e.randomize fuel = .ok e') :
    e'.graph.isConnected = .ok (some true) ∧ e'.graph.edgeCount + 1 = e'.graph.vertexCount := by
  obtain ⟨_, h1⟩ := C44_ba_randomize hv (by omega) fuel
  obtain ⟨w1, w2, w3, w4, w5, _⟩ := h1 e' he
  obtain ⟨s1, _, _, s4⟩ := C44_ba_structure hv (by omega) he
  obtain ⟨_, hr, _⟩ := (C102_tree hv.source).mp ⟨hc, hs⟩
  have hle := hv.le
  have hle' : e.source.vertexCount ≤ e.graph.vertexCount := hle
  have h3 : e'.graph.edgeCount + 1 = e'.graph.vertexCount := by
    rw [s1, w5, hm]
    omega
  refine ⟨?_, h3⟩
  obtain ⟨r, hr1, _, hr2, _⟩ := C15_is_connected w1.graph
  rw [hr1, hr2.mpr ⟨by omega, by rw [w5]; exact s4 hr (by omega)⟩]

/-! ## The hypotheses are met, and needed -/

/-- Vertex 0 with the branches 1, 2-3 and 4. -/
def exSpider : Graph Nat := exGraph 4 [[1, 2, 4], [0], [0, 3], [2], [0]]

theorem exSpider_wf : exSpider.WF := GenericGraph.wf_of_check _ (fun _ _ => trivial) (by decide)

/-- A tree with three leaves, diameter 3, and a search from vertex 0 that ends at vertex 3. -/
example : exSpider.WF ∧ exSpider.isConnected = .ok (some true) ∧ exSpider.edgeCount + 1 = exSpider.vertexCount ∧ exSpider.leafCount = 3 ∧
    (∃ L, exSpider.bfs 0 6 = .ok L ∧ L.getLast?.map (·.1) = some 3) ∧ exSpider.longestShortestPathFromIndex 3 = .ok (some 3) ∧
    exSpider.diameter = .ok (some 3) ∧ exSpider.longestShortestPathFromIndex 0 = .ok (some 2) ∧
    (∃ g', exSpider.removeEdge 0 2 = .ok (.ok (), g') ∧ g'.connectedComponents = .ok [3, 2]) :=
  ⟨exSpider_wf, by decide, by decide, by decide, ⟨_, rfl, by decide⟩, by decide, by decide, by decide, ⟨_, rfl, by decide⟩⟩

/-- The load of vertex 0 of this tree: `4² - 1² - 2² - 1²`, of vertex 2: `4² - 3² - 1²`. -/
example : exSpider.vertexLoad false = .ok [10, 0, 6, 0, 0] ∧ exSpider.vertexLoad true = .ok [14, 4, 10, 4, 4] := by decide +kernel

/-- Without the hypothesis the double sweep fails: two triangles with a common edge have diameter 2, the search from vertex 0 ends at
vertex 3, from which all vertices are at distance 1. -/
example : (exGraph 5 [[1, 2, 3], [0, 3], [0, 3], [0, 1, 2]]).isConnected = .ok (some true) ∧
    (∃ L, (exGraph 5 [[1, 2, 3], [0, 3], [0, 3], [0, 1, 2]]).bfs 0 6 = .ok L ∧ L.getLast?.map (·.1) = some 3) ∧
    (exGraph 5 [[1, 2, 3], [0, 3], [0, 3], [0, 1, 2]]).longestShortestPathFromIndex 3 = .ok (some 1) ∧
    (exGraph 5 [[1, 2, 3], [0, 3], [0, 3], [0, 1, 2]]).diameter = .ok (some 2) :=
  ⟨by decide, ⟨_, rfl, by decide⟩, by decide, by decide⟩

/-- A path of four vertices grown to six vertices with `m = 1`. -/
example : Ba.Valid { exBa [0, 0, 1] with m := 1 } ∧ exPath.isConnected = .ok (some true) ∧ exPath.edgeCount + 1 = exPath.vertexCount ∧
    2 ≤ exPath.vertexCount ∧ (∃ e', Ba.randomize 4 { exBa [0, 0, 1] with m := 1 } = .ok e') :=
  ⟨⟨exPath_wf, new_wf _, show exPath.vertexCount ≤ 6 by decide, rfl⟩, by decide, by decide, by decide, ⟨_, rfl⟩⟩

end Verif
