import Verif.Props.BiconSum
import Verif.Props.Degree
import Verif.Lemmas.Forest

/-!
# C76: the measures agree with each other
-/

set_option linter.unusedSectionVars false
set_option linter.unusedSimpArgs false

namespace Verif
open AdjContainer Classical

variable {T A : Type} [AdjContainer T A] [LawfulAdj T A]

theorem cc_length {g : GenericGraph T A} (h : g.WF) {R : List ℕ} (hR : g.connectedComponents = .ok R) :
    R.length = compCount g.toSimple g.vertexCount := by
  obtain ⟨R', hR', _, hm⟩ := connectedComponents_spec h
  rw [hR] at hR'
  cases hR'
  have := congrArg Multiset.card hm
  rw [Multiset.coe_card, Multiset.card_map] at this
  rw [this]
  rfl

theorem cc_mem {g : GenericGraph T A} (h : g.WF) {R : List ℕ} (hR : g.connectedComponents = .ok R) {v : ℕ} (hv : v < g.vertexCount) :
    componentSize g (g.toSimple.connectedComponentMk v) ∈ R := by
  obtain ⟨R', hR', _, hm⟩ := connectedComponents_spec h
  rw [hR] at hR'
  cases hR'
  rw [← Multiset.mem_coe, hm, Multiset.mem_map]
  refine ⟨_, ?_, rfl⟩
  show _ ∈ componentSet g
  rw [componentSet]
  exact Finset.mem_image_of_mem _ (Finset.mem_range.mpr hv)

theorem cc_le_head {g : GenericGraph T A} (h : g.WF) {R : List ℕ} (hR : g.connectedComponents = .ok R) {s : ℕ} (hs : s ∈ R) :
    s ≤ R.headD 0 := by
  obtain ⟨R', hR', hp, _⟩ := connectedComponents_spec h
  rw [hR] at hR'
  cases hR'
  cases R with
  | nil => simp at hs
  | cons a l =>
    rw [List.headD_cons]
    rcases List.mem_cons.mp hs with rfl | hs
    · exact Nat.le_refl _
    · exact (List.pairwise_cons.mp hp).1 s hs

theorem label_count (ids : List ℤ) (c : ℤ) : ids.count c = ((Finset.range ids.length).filter (fun v => ids[v]? = some c)).card := by
  induction ids using List.reverseRecOn with
  | nil => simp
  | append_singleton l a ih =>
    rw [List.count_append, List.length_append, List.length_singleton, Finset.range_add_one, Finset.filter_insert]
    have h1 : (Finset.range l.length).filter (fun v => (l ++ [a])[v]? = some c) = (Finset.range l.length).filter (fun v => l[v]? = some c) := by
      apply Finset.filter_congr
      intro v hv
      rw [List.getElem?_append_left (Finset.mem_range.mp hv)]
    rw [h1, ih]
    have h2 : (l ++ [a])[l.length]? = some a := by simp
    rw [h2]
    by_cases hac : a = c
    · subst hac
      simp
    · have h3 : ¬ (some a = some c) := by simpa using hac
      rw [if_neg h3, List.count_singleton]
      simp [hac]

/-- The three functions about components agree: `connected_components` has as many entries as `connected_components_ids` has labels
and as `suggest_connections` returns vertices; its entries are the numbers of vertices with each label. -/
theorem C76_components {g : GenericGraph T A} (h : g.WF) :
    ∃ R k ids reps, g.connectedComponents = .ok R ∧ g.connectedComponentsIds = .ok (k, ids) ∧ g.suggestConnections = .ok reps ∧
      R.length = k ∧ reps.length = k ∧ R.Perm ((List.range k).map (fun c : ℕ => ids.count (c : Int))) := by
  obtain ⟨R, hR, _, hm⟩ := connectedComponents_spec h
  obtain ⟨k, ids, h1, h2, h3, h4, h5, h6, _⟩ := C16_component_ids h
  obtain ⟨reps, r1, _, _, _, _, r6, _⟩ := C28_suggest_connections h
  have hRl : R.length = k := by
    rw [cc_length h hR, h6]
    rfl
  refine ⟨R, k, ids, reps, hR, h1, r1, hRl, by rw [r6, h6], ?_⟩
  choose! f hf using h4
  have hsize : ∀ c < k, componentSize g (g.toSimple.connectedComponentMk (f c)) = ids.count (c : Int) := by
    intro c hc
    rw [label_count, componentSize, h2]
    congr 1
    apply Finset.filter_congr
    intro v hv
    have := h5 v (f c) (Finset.mem_range.mp hv) (hf c hc).1
    rw [(hf c hc).2] at this
    rw [this]
    exact ⟨fun e => SimpleGraph.ConnectedComponent.exact e, fun e => SimpleGraph.ConnectedComponent.sound e⟩
  have hset : (componentSet g).val = ((List.range k).map (fun c => g.toSimple.connectedComponentMk (f c)) : Multiset _) := by
    have hnd : ((List.range k).map (fun c => g.toSimple.connectedComponentMk (f c))).Nodup := by
      refine List.Nodup.map_on ?_ List.nodup_range
      intro c hc d hd hcd
      rw [List.mem_range] at hc hd
      have hr : g.toSimple.Reachable (f c) (f d) := SimpleGraph.ConnectedComponent.exact hcd
      have := (h5 _ _ (hf c hc).1 (hf d hd).1).mpr hr
      rw [(hf c hc).2, (hf d hd).2] at this
      simpa using this
    refine (Multiset.Nodup.ext (componentSet g).nodup (Multiset.coe_nodup.mpr hnd)).mpr ?_
    intro x
    rw [Multiset.mem_coe, List.mem_map]
    show x ∈ componentSet g ↔ _
    rw [componentSet, Finset.mem_image]
    constructor
    · rintro ⟨v, hv, rfl⟩
      obtain ⟨c, hc, hvc⟩ := h3 v (Finset.mem_range.mp hv)
      refine ⟨c, List.mem_range.mpr hc, ?_⟩
      apply SimpleGraph.ConnectedComponent.sound
      rw [← h5 _ _ (hf c hc).1 (Finset.mem_range.mp hv), (hf c hc).2, hvc]
    · rintro ⟨c, hc, rfl⟩
      exact ⟨f c, Finset.mem_range.mpr (hf c (List.mem_range.mp hc)).1, rfl⟩
  rw [← Multiset.coe_eq_coe, hm, hset, Multiset.map_coe, List.map_map]
  congr 1
  apply List.map_congr_left
  intro c hc
  exact hsize c (List.mem_range.mp hc)

/-- `is_connected`, `connected_components` and `diameter` agree on whether the graph is connected. -/
theorem C76_connected {g : GenericGraph T A} (h : g.WF) (hn : 0 < g.vertexCount) :
    ∃ b R d, g.isConnected = .ok (some b) ∧ g.connectedComponents = .ok R ∧ g.diameter = .ok d ∧
      (b = true ↔ R.length = 1) ∧ (b = true ↔ R = [g.vertexCount]) ∧ (b = true ↔ d.isSome) := by
  obtain ⟨b, h1, h2⟩ := isConnected_spec h hn
  obtain ⟨R, hR, hpos, hsum⟩ := C17_component_sizes_sum h
  have hlen := cc_length h hR
  have hb : b = true ↔ R.length = 1 := by
    rw [h2, hlen, compCount, Finset.card_eq_one]
    constructor
    · intro hc
      refine ⟨g.toSimple.connectedComponentMk 0, ?_⟩
      ext x
      rw [Finset.mem_image, Finset.mem_singleton]
      constructor
      · rintro ⟨v, hv, rfl⟩
        exact SimpleGraph.ConnectedComponent.sound (hc v 0 (Finset.mem_range.mp hv) hn)
      · rintro rfl
        exact ⟨0, Finset.mem_range.mpr hn, rfl⟩
    · rintro ⟨c, hc⟩ v w hv hw
      have hv' := Finset.mem_image_of_mem g.toSimple.connectedComponentMk (Finset.mem_range.mpr hv)
      have hw' := Finset.mem_image_of_mem g.toSimple.connectedComponentMk (Finset.mem_range.mpr hw)
      change _ ∈ Finset.image _ (Finset.range g.vertexCount) at hv' hw'
      rw [hc, Finset.mem_singleton] at hv' hw'
      exact SimpleGraph.ConnectedComponent.exact (hv'.trans hw'.symm)
  have hRn : R.length = 1 ↔ R = [g.vertexCount] := by
    constructor
    · intro hl
      obtain ⟨a, rfl⟩ := List.length_eq_one_iff.mp hl
      rw [List.sum_singleton] at hsum
      rw [hsum]
    · intro e
      rw [e]
      rfl
  by_cases hc : ∀ v w, v < g.nextId → w < g.nextId → g.toSimple.Reachable v w
  · obtain ⟨d, hd, _⟩ := diameter_spec h hn hc
    refine ⟨b, R, some d, h1, hR, hd, hb, hb.trans hRn, ?_⟩
    rw [h2]
    simp only [Option.isSome_some, iff_true]
    exact hc
  · have hd := C18_diameter_none h (Or.inr (by
      push Not at hc
      obtain ⟨v, w, hv, hw, hr⟩ := hc
      exact ⟨v, w, hv, hw, hr⟩))
    refine ⟨b, R, none, h1, hR, hd, hb, hb.trans hRn, ?_⟩
    rw [h2]
    simp only [Option.isSome_none, Bool.false_eq_true, iff_false]
    exact hc

/-- `longest_shortest_path_from_index(v)` is smaller than the size of the component of `v`. -/
theorem C76_eccentricity {g : GenericGraph T A} (h : g.WF) {v : ℕ} (hv : v < g.vertexCount) :
    ∃ e k ids c, g.longestShortestPathFromIndex v = .ok (some e) ∧ g.connectedComponentsIds = .ok (k, ids) ∧ ids[v]? = some c ∧
      e < ids.count c := by
  obtain ⟨e, h1, ⟨w, h2, h3⟩, _⟩ := longest_spec h hv
  obtain ⟨k, ids, i1, i2, i3, _, i5, _, _⟩ := C16_component_ids h
  obtain ⟨c, _, hvc⟩ := i3 v hv
  refine ⟨e, k, ids, c, h1, i1, hvc, ?_⟩
  have := dist_lt_size h hv h2
  rw [h3, componentSize] at this
  rw [label_count, i2]
  refine lt_of_lt_of_le this (Finset.card_le_card ?_)
  intro x hx
  rw [Finset.mem_filter] at hx ⊢
  refine ⟨hx.1, ?_⟩
  rw [← hvc, i5 x v (Finset.mem_range.mp hx.1) hv]
  exact SimpleGraph.ConnectedComponent.exact hx.2

/-- If `diameter` returns `d`: `d` is less than the number of vertices, the longest shortest path from each vertex is at most `d` and at
least half of it, and some vertex attains `d`. -/
theorem C76_diameter {g : GenericGraph T A} (h : g.WF) {d : ℕ} (hd : g.diameter = .ok (some d)) :
    d < g.vertexCount ∧
    (∀ v < g.vertexCount, ∃ e, g.longestShortestPathFromIndex v = .ok (some e) ∧ e ≤ d ∧ d ≤ 2 * e) ∧
    ∃ v < g.vertexCount, g.longestShortestPathFromIndex v = .ok (some d) := by
  have hn : 0 < g.vertexCount := by
    by_contra h0
    have := C18_diameter_none h (Or.inl (by omega))
    rw [this] at hd
    cases hd
  have hc : ∀ v w, v < g.nextId → w < g.nextId → g.toSimple.Reachable v w := by
    by_contra hc
    have := C18_diameter_none h (Or.inr (by
      push Not at hc
      obtain ⟨v, w, hv, hw, hr⟩ := hc
      exact ⟨v, w, hv, hw, hr⟩))
    rw [this] at hd
    cases hd
  obtain ⟨d', h1, h2, x, y, hx, hy, hxy⟩ := diameter_spec h hn hc
  rw [hd] at h1
  cases h1
  have hecc : ∀ v < g.vertexCount, ∃ e, g.longestShortestPathFromIndex v = .ok (some e) ∧ e ≤ d ∧
      ∀ w < g.vertexCount, g.toSimple.dist v w ≤ e := by
    intro v hv
    obtain ⟨e, e1, ⟨w, e2, e3⟩, e4⟩ := longest_spec h hv
    refine ⟨e, e1, ?_, fun w hw => e4 w (hc v w hv hw)⟩
    rw [← e3]
    exact h2 v w hv (h.reachable_lt e2 hv)
  refine ⟨?_, ?_, x, hx, ?_⟩
  · have h3 := dist_lt_size h hx (hc x y hx hy)
    have h4 : componentSize g (g.toSimple.connectedComponentMk x) ≤ g.vertexCount := by
      rw [componentSize]
      refine (Finset.card_filter_le _ _).trans ?_
      rw [Finset.card_range]
    rw [hxy] at h3
    omega
  · intro v hv
    obtain ⟨e, e1, e2, e3⟩ := hecc v hv
    refine ⟨e, e1, e2, ?_⟩
    have h3 := (hc x v hx hv).dist_triangle_left y
    have h4 := e3 x hx
    have h5 := e3 y hy
    rw [SimpleGraph.dist_comm] at h4
    omega
  · obtain ⟨e, e1, e2, e3⟩ := hecc x hx
    have := e3 y hy
    rw [hxy] at this
    rw [e1, Nat.le_antisymm e2 this]

/-- Every edge as a part of its own. -/
theorem single_parts {g : GenericGraph T A} (h : g.WF) :
    ∃ L : List (ℕ × ℕ), L.length = g.edgeCount ∧ (∀ e ∈ L, e.1 < g.vertexCount ∧ e.2 < g.vertexCount ∧ e.1 ≠ e.2) ∧
      graphOf (L.map (fun e => [e])) = g.toSimple ∧ (L.map (fun e => s(e.1, e.2))).Nodup := by
  have hout : ∀ e : Sym2 ℕ, s(e.out.1, e.out.2) = e := fun e => Quot.out_eq e
  have hmap : (g.edges.toList.map (fun e => e.out)).map (fun e => s(e.1, e.2)) = g.edges.toList := by
    rw [List.map_map]
    conv_rhs => rw [← List.map_id g.edges.toList]
    apply List.map_congr_left
    intro e _
    exact hout e
  refine ⟨g.edges.toList.map (fun e => e.out), ?_, ?_, ?_, ?_⟩
  · rw [List.length_map, Finset.length_toList, h.edgeCount_eq_card]
  · intro e he
    rw [List.mem_map] at he
    obtain ⟨d, hd, rfl⟩ := he
    rw [Finset.mem_toList, ← hout d] at hd
    have := h.mem_edges.mp hd
    exact ⟨h.lt_left this, h.lt_left (h.adj_iff.mp (h.adj_iff.mpr this).symm), h.ne this⟩
  · refine graphOf_parts h ?_
    intro e
    have : ((g.edges.toList.map (fun e => e.out)).map (fun e => [e])).flatten = g.edges.toList.map (fun e => e.out) := by
      rw [← List.flatMap_def]
      simp
    rw [this, hmap, Finset.mem_toList]
  · rw [hmap]
    exact Finset.nodup_toList _

/-- Cycles and counts: the edge count is at least the vertex count minus the number of components, with equality exactly for forests;
the graph is a forest exactly if `q_core(2)` is 0, and exactly if `vertex_biconnected_components(true)` is empty. -/
theorem C76_forest {g : GenericGraph T A} (h : g.WF) :
    ∃ R, g.connectedComponents = .ok R ∧ g.vertexCount ≤ g.edgeCount + R.length ∧
      (g.vertexCount = g.edgeCount + R.length ↔ g.toSimple.IsAcyclic) ∧
      (0 < g.vertexCount → (g.qCore 2 = .ok (some 0) ↔ g.toSimple.IsAcyclic)) ∧
      (g.vertexBiconnectedComponents true = .ok [] ↔ g.toSimple.IsAcyclic) := by
  obtain ⟨R, hR, _⟩ := connectedComponents_spec h
  have hlen := cc_length h hR
  obtain ⟨L, hL1, hL2, hL3, hL4⟩ := single_parts h
  have hend : ∀ e ∈ L, endPoints [e] = {e.1, e.2} := by
    intro e _
    ext x
    simp [endPoints]
  have hsum : ((L.map (fun e => [e])).map (fun c => (endPoints c).card)).sum = 2 * L.length := by
    rw [List.map_map]
    have : L.map ((fun c => (endPoints c).card) ∘ fun e => [e]) = L.map (fun _ => 2) := by
      apply List.map_congr_left
      intro e he
      show (endPoints [e]).card = 2
      exact endPoints_pair (hL2 e he).2.2
    rw [this, List.map_const', List.sum_replicate, smul_eq_mul, Nat.mul_comm]
  have hrange : ∀ c ∈ L.map (fun e => [e]), endPoints c ⊆ Finset.range g.vertexCount := by
    intro c hc
    rw [List.mem_map] at hc
    obtain ⟨e, he, rfl⟩ := hc
    rw [hend e he]
    intro x hx
    rw [Finset.mem_insert, Finset.mem_singleton] at hx
    rw [Finset.mem_range]
    rcases hx with rfl | rfl
    · exact (hL2 e he).1
    · exact (hL2 e he).2.1
  have hne : ∀ c ∈ L.map (fun e => [e]), c ≠ [] := by
    intro c hc
    rw [List.mem_map] at hc
    obtain ⟨e, he, rfl⟩ := hc
    simp
  have hge := parts_sum_ge hne hrange
  rw [hL3, hsum, List.length_map, ← hlen] at hge
  obtain ⟨r, R', blocks, b1, b2, b3, b4, b5, b6, b7⟩ := C21_sum h
  rw [hR] at b2
  cases b2
  have hbpos : 2 * blocks.length ≤ (blocks.map Finset.card).sum := by
    have : ∀ l : List (Finset ℕ), (∀ S ∈ l, 2 ≤ S.card) → 2 * l.length ≤ (l.map Finset.card).sum := by
      intro l
      induction l with
      | nil => simp
      | cons S l ih =>
        intro hl
        have h1 := ih (fun S hS => hl S (List.mem_cons_of_mem _ hS))
        have h2 := hl S (by simp)
        simp only [List.length_cons, List.map_cons, List.sum_cons]
        omega
    exact this blocks (fun S hS => ((b4 S).mpr hS).1.two)
  have hrl : r.length = blocks.length := by
    obtain ⟨r', c1, _, c3, _⟩ := C21_count_partial h
    rw [b1] at c1
    cases c1
    have : {S | Block g.toSimple S} = (blocks.toFinset : Set (Finset ℕ)) := by
      ext S
      simp [b4]
    rw [c3, this, Set.ncard_coe_finset, List.toFinset_card_of_nodup b3]
  have htight : g.vertexCount = g.edgeCount + R.length → g.toSimple.IsAcyclic := by
    intro heq
    rw [SimpleGraph.isAcyclic_iff_forall_adj_isBridge]
    intro a b hab
    rw [SimpleGraph.isBridge_iff]
    intro hr
    rw [← hL3, graphOf_adj] at hab
    obtain ⟨⟨c, hc, hmem⟩, hab⟩ := hab
    obtain ⟨l1, l2, hl⟩ := List.append_of_mem hc
    rw [hl] at hne hrange hL3 hsum
    have ht := parts_tight hne hrange (by
      have h1 := congrArg List.length hl
      rw [List.length_map] at h1
      rw [hL3, hsum, ← hlen, ← h1]
      omega)
    refine hab (ht a (mem_endPoints hmem).1 b (mem_endPoints hmem).2 (hr.mono ?_))
    intro x y hxy
    rw [SimpleGraph.deleteEdges_adj, Set.mem_singleton_iff, ← hL3, graphOf_adj] at hxy
    obtain ⟨⟨⟨d, hd, hd'⟩, hxy⟩, hne'⟩ := hxy
    rw [graphOf_adj]
    refine ⟨⟨d, ?_, hd'⟩, hxy⟩
    rw [List.mem_append, List.mem_cons] at hd
    rw [List.mem_append]
    rcases hd with hd | rfl | hd
    · exact Or.inl hd
    · exfalso
      rw [List.mem_map] at hc
      obtain ⟨e, _, rfl⟩ := hc
      simp only [List.map_cons, List.map_nil, List.mem_singleton] at hmem hd'
      exact hne' (hd'.trans hmem.symm)
    · exact Or.inr hd
  have hbic : g.vertexBiconnectedComponents true = .ok [] ↔ g.toSimple.IsAcyclic := by
    constructor
    · intro ht
      rw [C21_alternative g b1] at ht
      simp only [Res.ok.injEq, List.filter_eq_nil_iff, decide_eq_true_eq, Nat.not_lt] at ht
      obtain ⟨r', c1, _, _, c4, parts, ⟨c5, c6, c7⟩, c8⟩ := C21_count_partial h
      rw [b1] at c1
      cases c1
      -- every part is a single edge
      apply htight
      have hpe : parts.flatten.length = g.edgeCount := by
        have : g.edges = (parts.flatten.map (fun e => s(e.1, e.2))).toFinset := by
          ext e
          rw [List.mem_toFinset]
          exact c7 e
        rw [h.edgeCount_eq_card, this, List.toFinset_card_of_nodup c6, List.length_map]
      have hone : ∀ c ∈ parts, c.length ≤ 1 := by
        intro c hc
        have hk := ht ((endPoints c).card) (c8.mem_iff.mpr (List.mem_map.mpr ⟨c, hc, rfl⟩))
        by_contra hlt
        have hnd : (c.map (fun e => s(e.1, e.2))).Nodup := by
          rw [List.map_flatten, List.nodup_flatten] at c6
          exact c6.1 _ (List.mem_map.mpr ⟨c, hc, rfl⟩)
        match c, hlt, hnd, hk, hc with
        | [], hlt, _, _, _ => exact hlt (by simp)
        | [e], hlt, _, _, _ => exact hlt (by simp)
        | e :: f :: c', _, hnd, hk, hc =>
          have hedge : ∀ e' ∈ e :: f :: c', e'.1 ≠ e'.2 := by
            intro e' he'
            have : s(e'.1, e'.2) ∈ g.edges := by
              rw [c7, List.mem_map]
              exact ⟨e', List.mem_flatten.mpr ⟨_, hc, he'⟩, rfl⟩
            exact h.ne (h.mem_edges.mp this)
          have h1 := hedge e (by simp)
          have h2 := hedge f (by simp)
          simp only [List.map_cons, List.nodup_cons, List.mem_cons, not_or] at hnd
          have h3 := hnd.1.1
          have hsub1 : ({e.1, e.2} : Finset ℕ) ⊆ endPoints (e :: f :: c') := by
            intro x hx
            rw [Finset.mem_insert, Finset.mem_singleton] at hx
            rcases hx with rfl | rfl <;> simp [endPoints]
          have hsub2 : ({f.1, f.2} : Finset ℕ) ⊆ endPoints (e :: f :: c') := by
            intro x hx
            rw [Finset.mem_insert, Finset.mem_singleton] at hx
            rcases hx with rfl | rfl <;> simp [endPoints]
          have e1 := Finset.eq_of_subset_of_card_le hsub1 (by rw [Finset.card_pair h1]; exact hk)
          have e2 := Finset.eq_of_subset_of_card_le hsub2 (by rw [Finset.card_pair h2]; exact hk)
          apply h3
          have e3 : ({e.1, e.2} : Finset ℕ) = {f.1, f.2} := e1.trans e2.symm
          rw [← Sym2.toFinset_mk_eq, ← Sym2.toFinset_mk_eq] at e3
          apply Sym2.ext
          intro x
          rw [← Sym2.mem_toFinset, ← Sym2.mem_toFinset, e3]
      have hfl : parts.flatten.length ≤ parts.length := by
        rw [List.length_flatten]
        have : (parts.map List.length).sum ≤ (parts.map (fun _ => 1)).sum := List.sum_le_sum hone
        simpa using this
      have hpl : parts.length = r.length := by
        rw [c8.length_eq, List.length_map]
      omega
    · intro ha
      exact (C21_forest h ha).2
  refine ⟨R, hR, by omega, ⟨htight, ?_⟩, ?_, hbic⟩
  · intro ha
    have hf := C21_all_bridges h (fun S hS => acyclic_block ha hS.1)
    rw [b1] at hf
    simp only [Res.ok.injEq] at hf
    have hcard : (blocks.map Finset.card).sum = 2 * blocks.length := by
      have : blocks.map Finset.card = blocks.map (fun _ => 2) :=
        List.map_congr_left (fun S hS => acyclic_block ha ((b4 S).mpr hS).1)
      rw [this, List.map_const', List.sum_replicate, smul_eq_mul, Nat.mul_comm]
    have : r.length = g.edgeCount := by rw [hf, List.length_replicate]
    omega
  · intro hn
    obtain ⟨q, K, q1, q2, q3, q4, q5, q6⟩ := C20_q_core h (Nat.le_refl 2) hn
    rw [q1]
    constructor
    · intro hq
      simp only [Res.ok.injEq, Option.some.injEq] at hq
      by_contra ha
      obtain ⟨S, hS, hSne⟩ := cycle_core h ha
      obtain ⟨v, hv⟩ := Finset.nonempty_iff_ne_empty.mpr hSne
      have h1 := q4 v (q3 S hS hv)
      rw [hq, Nat.le_zero, sizeWithin, Finset.card_eq_zero] at h1
      have : v ∈ K.filter (fun w => (inducedOn g K).Reachable v w) :=
        Finset.mem_filter.mpr ⟨q3 S hS hv, SimpleGraph.Reachable.refl _⟩
      rw [h1] at this
      simp at this
    · intro ha
      rw [q5 (acyclic_no_core ha q2)]

theorem sizeWithin_mono {g g' : GenericGraph T A} (hle : g.toSimple ≤ g'.toSimple) {K K' : Finset ℕ} (hK : K ⊆ K') (v : ℕ) :
    sizeWithin g K v ≤ sizeWithin g' K' v := by
  rw [sizeWithin, sizeWithin]
  apply Finset.card_le_card
  intro w hw
  rw [Finset.mem_filter] at hw ⊢
  refine ⟨hK hw.1, hw.2.mono ?_⟩
  intro x y hxy
  exact ⟨hle hxy.1, hK hxy.2.1, hK hxy.2.2⟩

/-- `q_core`: at most the size of the largest component; 0 or more than `q`; not increasing in `q`. -/
theorem C76_q_core {g : GenericGraph T A} (h : g.WF) {q : ℕ} (hq : 2 ≤ q) (hn : 0 < g.vertexCount) :
    ∃ r r' R, g.qCore q = .ok (some r) ∧ g.qCore (q + 1) = .ok (some r') ∧ g.connectedComponents = .ok R ∧
      r ≤ R.headD 0 ∧ (r = 0 ∨ q < r) ∧ r' ≤ r := by
  obtain ⟨R, hR, _⟩ := connectedComponents_spec h
  obtain ⟨r, K, q1, q2, q3, q4, q5, q6⟩ := C20_q_core h hq hn
  obtain ⟨r', K', p1, p2, p3, p4, p5, p6⟩ := C20_q_core h (q := q + 1) (by omega) hn
  refine ⟨r, r', R, q1, p1, hR, ?_, ?_, ?_⟩
  · by_cases hK : K = ∅
    · rw [q5 hK]
      exact Nat.zero_le _
    · obtain ⟨v, hv, hr⟩ := q6 hK
      have hvn := (q2 v hv).1
      refine le_trans ?_ (cc_le_head h hR (cc_mem h hR hvn))
      rw [← hr, sizeWithin, componentSize]
      apply Finset.card_le_card
      intro w hw
      rw [Finset.mem_filter] at hw ⊢
      refine ⟨Finset.mem_range.mpr (q2 w hw.1).1, SimpleGraph.ConnectedComponent.sound ?_⟩
      have hle : inducedOn g K ≤ g.toSimple := fun _ _ h => h.1
      exact (hw.2.mono hle).symm
  · by_cases hK : K = ∅
    · exact Or.inl (q5 hK)
    · right
      obtain ⟨v, hv, hr⟩ := q6 hK
      have h1 := (q2 v hv).2
      rw [← hr, sizeWithin]
      have hnot : v ∉ K.filter (fun w => g.toSimple.Adj v w) := by simp
      have hsub : insert v (K.filter (fun w => g.toSimple.Adj v w)) ⊆ K.filter (fun w => (inducedOn g K).Reachable v w) := by
        intro w hw
        rw [Finset.mem_insert, Finset.mem_filter] at hw
        rw [Finset.mem_filter]
        rcases hw with rfl | ⟨hw, hadj⟩
        · exact ⟨hv, SimpleGraph.Reachable.refl _⟩
        · exact ⟨hw, SimpleGraph.Adj.reachable ⟨hadj, hv, hw⟩⟩
      have h2 := Finset.card_le_card hsub
      rw [Finset.card_insert_of_notMem hnot] at h2
      omega
  · by_cases hK : K' = ∅
    · rw [p5 hK]
      exact Nat.zero_le _
    · obtain ⟨v, hv, hr⟩ := p6 hK
      have hsub : K' ⊆ K := q3 K' (fun v hv => ⟨(p2 v hv).1, le_trans (Nat.le_succ q) (p2 v hv).2⟩)
      rw [← hr]
      exact (sizeWithin_mono (le_refl _) hsub v).trans (q4 v (hsub hv))

/-- Cases: the triangle with a tail and an isolated vertex; the path, a forest. -/
example : exTail.WF ∧ exTail.connectedComponents = .ok [4, 1] ∧ exTail.connectedComponentsIds = .ok (2, [0, 0, 0, 0, 1]) ∧
    exTail.suggestConnections = .ok [0, 4] ∧ exTail.isConnected = .ok (some false) ∧ exTail.diameter = .ok none ∧
    exTail.longestShortestPathFromIndex 3 = .ok (some 2) ∧ exTail.qCore 2 = .ok (some 3) ∧ exTail.qCore 3 = .ok (some 0) :=
  ⟨exTail_wf, by decide, by decide, by decide, by decide, by decide, by decide, by decide, by decide⟩

example : exPath.WF ∧ exPath.connectedComponents = .ok [4] ∧ exPath.edgeCount = 3 ∧ exPath.diameter = .ok (some 3) ∧
    exPath.longestShortestPathFromIndex 1 = .ok (some 2) ∧ exPath.qCore 2 = .ok (some 0) :=
  ⟨exPath_wf, by decide, by decide, by decide, by decide, by decide⟩

end Verif
