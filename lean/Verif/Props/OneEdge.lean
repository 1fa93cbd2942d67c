import Verif.Props.Agree
import Verif.Props.Api
import Verif.Lemmas.OneEdgeLess

/-!
# C77: what one edge changes
-/

set_option linter.unusedSectionVars false
set_option linter.unusedSimpArgs false

namespace Verif
open AdjContainer Classical

variable {T A : Type} [AdjContainer T A] [LawfulAdj T A]

/-- `g'` has exactly one edge more than `g`. -/
structure OneMore (g g' : GenericGraph T A) (i j : ℕ) : Prop where
  wf : g.WF
  wf' : g'.WF
  count : g'.vertexCount = g.vertexCount
  new : s(i, j) ∉ g.edges
  edges : g'.edges = insert s(i, j) g.edges
  ne : i ≠ j

namespace OneMore
variable {g g' : GenericGraph T A} {i j : ℕ}

theorem adj (o : OneMore g g' i j) {a b : ℕ} : g'.toSimple.Adj a b ↔ g.toSimple.Adj a b ∨ s(a, b) = s(i, j) := by
  rw [o.wf'.adj_iff, ← o.wf'.mem_edges, o.edges, Finset.mem_insert, o.wf.mem_edges, o.wf.adj_iff, or_comm]

theorem le (o : OneMore g g' i j) : g.toSimple ≤ g'.toSimple := fun _ _ h => o.adj.mpr (Or.inl h)

theorem adj_new (o : OneMore g g' i j) : g'.toSimple.Adj i j := o.adj.mpr (Or.inr rfl)

theorem lt_i (o : OneMore g g' i j) : i < g.vertexCount := by
  have := o.wf'.lt_left (o.wf'.adj_iff.mp o.adj_new)
  have h2 : g'.vertexCount = g.vertexCount := o.count
  exact h2 ▸ this

theorem lt_j (o : OneMore g g' i j) : j < g.vertexCount := by
  have := o.wf'.lt_left (o.wf'.adj_iff.mp o.adj_new.symm)
  have h2 : g'.vertexCount = g.vertexCount := o.count
  exact h2 ▸ this

theorem split (o : OneMore g g' i j) : ∀ a b, g'.toSimple.Adj a b → g.toSimple.Adj a b ∨ (a ∈ ({i, j} : Finset ℕ) ∧ b ∈ ({i, j} : Finset ℕ)) := by
  intro a b hab
  rcases o.adj.mp hab with h | h
  · exact Or.inl h
  · right
    rcases Sym2.eq_iff.mp h with ⟨rfl, rfl⟩ | ⟨rfl, rfl⟩ <;> simp

/-- If the ends were joined before, nothing changes for the components. -/
theorem reachable_iff (o : OneMore g g' i j) (hij : g.toSimple.Reachable i j) {a b : ℕ} :
    g'.toSimple.Reachable a b ↔ g.toSimple.Reachable a b := by
  refine ⟨?_, fun h => h.mono o.le⟩
  intro h
  rw [SimpleGraph.reachable_iff_reflTransGen] at h
  induction h with
  | refl => exact SimpleGraph.Reachable.refl _
  | tail _ h2 ih =>
    refine ih.trans ?_
    rcases o.adj.mp h2 with h3 | h3
    · exact h3.reachable
    · rcases Sym2.eq_iff.mp h3 with ⟨rfl, rfl⟩ | ⟨rfl, rfl⟩
      · exact hij
      · exact hij.symm

theorem compCount_same (o : OneMore g g' i j) (hij : g.toSimple.Reachable i j) :
    compCount g'.toSimple g.vertexCount = compCount g.toSimple g.vertexCount := by
  refine Nat.le_antisymm (compCount_anti o.le _) ?_
  rw [compCount, compCount]
  refine Finset.card_le_card_of_injOn (fun c => c.map (SimpleGraph.Hom.ofLE o.le)) ?_ ?_
  · intro c hc
    rw [Finset.mem_coe, Finset.mem_image] at hc
    obtain ⟨a, ha, rfl⟩ := hc
    exact Finset.mem_coe.mpr (Finset.mem_image.mpr ⟨a, ha, rfl⟩)
  · intro c hc c' hc' hcc
    rw [Finset.mem_coe, Finset.mem_image] at hc hc'
    obtain ⟨a, _, rfl⟩ := hc
    obtain ⟨b, _, rfl⟩ := hc'
    have hr : g'.toSimple.Reachable a b := SimpleGraph.ConnectedComponent.exact hcc
    exact SimpleGraph.ConnectedComponent.sound ((o.reachable_iff hij).mp hr)

theorem compCount_joined (o : OneMore g g' i j) (hij : ¬ g.toSimple.Reachable i j) :
    compCount g'.toSimple g.vertexCount + 1 = compCount g.toSimple g.vertexCount := by
  refine Nat.le_antisymm (compCount_lt o.le o.lt_i o.lt_j o.adj_new.reachable hij) ?_
  have hm := compCount_merge (n := g.vertexCount) o.le o.split (by
    intro x hx
    rw [Finset.mem_insert, Finset.mem_singleton] at hx
    rw [Finset.mem_range]
    rcases hx with rfl | rfl
    · exact o.lt_i
    · exact o.lt_j) ⟨i, by simp⟩
  have hc := Finset.card_image_le (s := ({i, j} : Finset ℕ)) (f := g.toSimple.connectedComponentMk)
  rw [Finset.card_pair o.ne] at hc
  omega

theorem sizes_same (o : OneMore g g' i j) (hij : g.toSimple.Reachable i j) {R R' : List ℕ} (hR : g.connectedComponents = .ok R)
    (hR' : g'.connectedComponents = .ok R') : R' = R := by
  obtain ⟨S, hS, hs, hm⟩ := connectedComponents_spec o.wf
  obtain ⟨S', hS', hs', hm'⟩ := connectedComponents_spec o.wf'
  rw [hR] at hS
  rw [hR'] at hS'
  cases hS
  cases hS'
  refine List.Perm.eq_of_pairwise (fun a b _ _ h1 h2 => le_antisymm h2 h1) hs' hs (Multiset.coe_eq_coe.mp ?_)
  have himg : componentSet g' = (componentSet g).image (fun c => c.map (SimpleGraph.Hom.ofLE o.le)) := by
    ext x
    rw [componentSet, componentSet, Finset.mem_image, Finset.mem_image, o.count]
    constructor
    · rintro ⟨v, hv, rfl⟩
      exact ⟨_, Finset.mem_image_of_mem _ hv, rfl⟩
    · rintro ⟨c, hc, rfl⟩
      rw [Finset.mem_image] at hc
      obtain ⟨v, hv, rfl⟩ := hc
      exact ⟨v, hv, rfl⟩
  have hinj : Set.InjOn (fun c => c.map (SimpleGraph.Hom.ofLE o.le)) (componentSet g : Set g.toSimple.ConnectedComponent) := by
    intro c hc c' hc' hcc
    rw [Finset.mem_coe, componentSet, Finset.mem_image] at hc hc'
    obtain ⟨a, _, rfl⟩ := hc
    obtain ⟨b, _, rfl⟩ := hc'
    have hr : g'.toSimple.Reachable a b := SimpleGraph.ConnectedComponent.exact hcc
    exact SimpleGraph.ConnectedComponent.sound ((o.reachable_iff hij).mp hr)
  rw [hm', himg, Finset.image_val_of_injOn hinj, Multiset.map_map, hm]
  apply Multiset.map_congr rfl
  intro c hc
  have hc' : c ∈ componentSet g := hc
  rw [componentSet, Finset.mem_image] at hc'
  obtain ⟨v, _, rfl⟩ := hc'
  show componentSize g' (g'.toSimple.connectedComponentMk v) = componentSize g (g.toSimple.connectedComponentMk v)
  rw [componentSize, componentSize, o.count]
  congr 1
  apply Finset.filter_congr
  intro x _
  constructor
  · intro e
    exact SimpleGraph.ConnectedComponent.sound ((o.reachable_iff hij).mp (SimpleGraph.ConnectedComponent.exact e))
  · intro e
    exact SimpleGraph.ConnectedComponent.sound ((o.reachable_iff hij).mpr (SimpleGraph.ConnectedComponent.exact e))

theorem dist_le (o : OneMore g g' i j) {a b : ℕ} (h : g.toSimple.Reachable a b) : g'.toSimple.dist a b ≤ g.toSimple.dist a b := by
  obtain ⟨p, hp⟩ := h.exists_walk_length_eq_dist
  rw [← hp, ← SimpleGraph.Walk.length_map (SimpleGraph.Hom.ofLE o.le) p]
  exact SimpleGraph.dist_le _

end OneMore

/-- The number of connected components (entries of `connected_components`) differs by one if the edge joins two components, that is if
the labels of its ends differ before; else it is the same. -/
theorem oneMore_components {g g' : GenericGraph T A} {i j : ℕ} (o : OneMore g g' i j) :
    ∃ R R' k ids, g.connectedComponents = .ok R ∧ g'.connectedComponents = .ok R' ∧ g.connectedComponentsIds = .ok (k, ids) ∧
      (ids[i]? = ids[j]? → R' = R) ∧ (ids[i]? ≠ ids[j]? → R'.length + 1 = R.length) ∧ R.headD 0 ≤ R'.headD 0 := by
  obtain ⟨R, hR, hs, hm⟩ := connectedComponents_spec o.wf
  obtain ⟨R', hR', hs', hm'⟩ := connectedComponents_spec o.wf'
  obtain ⟨k, ids, i1, _, _, _, i5, _, _⟩ := C16_component_ids o.wf
  have hl := cc_length o.wf hR
  have hl' := cc_length o.wf' hR'
  rw [o.count] at hl'
  have hlab := i5 i j o.lt_i o.lt_j
  refine ⟨R, R', k, ids, hR, hR', i1, ?_, ?_, ?_⟩
  · intro e
    exact o.sizes_same (hlab.mp e) hR hR'
  · intro e
    have := o.compCount_joined (fun hr => e (hlab.mpr hr))
    omega
  · cases R with
    | nil => exact Nat.zero_le _
    | cons a l =>
      rw [List.headD_cons]
      have ha : a ∈ (componentSet g).val.map (componentSize g) := by rw [← hm]; simp
      rw [Multiset.mem_map] at ha
      obtain ⟨c, hc, rfl⟩ := ha
      have hc' : c ∈ componentSet g := hc
      rw [componentSet, Finset.mem_image] at hc'
      obtain ⟨v, hv, rfl⟩ := hc'
      rw [Finset.mem_range] at hv
      refine le_trans ?_ (cc_le_head o.wf' hR' (cc_mem o.wf' hR' (v := v) (by rw [o.count]; exact hv)))
      rw [componentSize, componentSize, o.count]
      apply Finset.card_le_card
      intro x hx
      rw [Finset.mem_filter] at hx ⊢
      refine ⟨hx.1, SimpleGraph.ConnectedComponent.sound ?_⟩
      have hr : g.toSimple.Reachable x v := SimpleGraph.ConnectedComponent.exact hx.2
      exact hr.mono o.le

/-- With one more edge `diameter` is never larger, unless it was `None`. -/
theorem oneMore_diameter {g g' : GenericGraph T A} {i j : ℕ} (o : OneMore g g' i j) {d : ℕ} (hd : g.diameter = .ok (some d)) :
    ∃ d', g'.diameter = .ok (some d') ∧ d' ≤ d := by
  have hn : 0 < g.vertexCount := lt_of_le_of_lt (Nat.zero_le _) o.lt_i
  have hc : ∀ v w, v < g.nextId → w < g.nextId → g.toSimple.Reachable v w := by
    by_contra hc
    have := C18_diameter_none o.wf (Or.inr (by
      push Not at hc
      obtain ⟨v, w, hv, hw, hr⟩ := hc
      exact ⟨v, w, hv, hw, hr⟩))
    rw [this] at hd
    cases hd
  obtain ⟨d1, h1, h2, _⟩ := diameter_spec o.wf hn hc
  rw [hd] at h1
  cases h1
  have hcnt : g'.nextId = g.nextId := o.count
  obtain ⟨d', h1', _, x, y, hx, hy, hxy⟩ := diameter_spec o.wf' (by rw [hcnt]; exact hn) (by
    intro v w hv hw
    rw [hcnt] at hv hw
    exact (hc v w hv hw).mono o.le)
  rw [hcnt] at hx hy
  refine ⟨d', h1', ?_⟩
  rw [← hxy]
  exact (o.dist_le (hc x y hx hy)).trans (h2 x y hx hy)

/-- With one more edge `q_core` is never smaller. -/
theorem oneMore_q_core {g g' : GenericGraph T A} {i j : ℕ} (o : OneMore g g' i j) {q : ℕ} (hq : 2 ≤ q) :
    ∃ r r', g.qCore q = .ok (some r) ∧ g'.qCore q = .ok (some r') ∧ r ≤ r' := by
  have hn : 0 < g.vertexCount := lt_of_le_of_lt (Nat.zero_le _) o.lt_i
  obtain ⟨r, K, q1, q2, q3, q4, q5, q6⟩ := C20_q_core o.wf hq hn
  obtain ⟨r', K', p1, p2, p3, p4, p5, p6⟩ := C20_q_core o.wf' hq (by rw [o.count]; exact hn)
  refine ⟨r, r', q1, p1, ?_⟩
  by_cases hK : K = ∅
  · rw [q5 hK]
    exact Nat.zero_le _
  · obtain ⟨v, hv, hr⟩ := q6 hK
    have hsub : K ⊆ K' := by
      refine p3 K (fun v hv => ⟨by rw [o.count]; exact (q2 v hv).1, le_trans (q2 v hv).2 (Finset.card_le_card ?_)⟩)
      intro w hw
      rw [Finset.mem_filter] at hw ⊢
      exact ⟨hw.1, o.le hw.2⟩
    rw [← hr]
    exact (sizeWithin_mono o.le hsub v).trans (p4 v (hsub hv))

theorem oneMore_of_add {g g' : GenericGraph T A} {i j : ℕ} (h : g.WF) (e : g.addEdge i j = .ok (.ok (), g')) : OneMore g g' i j := by
  rcases addEdge_ret h e with ⟨_, h2, h3, h4, h5, _, _, h8⟩ | ⟨⟨err, h1⟩, _⟩
  · exact ⟨h, h4, h5, h2, h8, h3⟩
  · cases h1

theorem oneMore_of_remove {g g' : GenericGraph T A} {i j : ℕ} (h : g.WF) (e : g.removeEdge i j = .ok (.ok (), g')) :
    OneMore g' g i j := by
  rcases removeEdge_ret h e with ⟨_, h2, h3, h4, h5, _, _, h8⟩ | ⟨⟨err, h1⟩, _⟩
  · refine ⟨h4, h, h5.symm, ?_, ?_, h3⟩
    · rw [h8]
      exact Finset.notMem_erase _ _
    · rw [h8, Finset.insert_erase h2]
  · cases h1

/-- A successful `add_edge(i, j)`: if `i` and `j` had the same label in `connected_components_ids`, the component sizes stay the same, else
there is one component less; the largest component and `q_core` do not get smaller, the diameter does not get larger. -/
theorem C77_add_edge {g g' : GenericGraph T A} {i j : ℕ} (h : g.WF) (e : g.addEdge i j = .ok (.ok (), g')) :
    (∃ R R' k ids, g.connectedComponents = .ok R ∧ g'.connectedComponents = .ok R' ∧ g.connectedComponentsIds = .ok (k, ids) ∧
      (ids[i]? = ids[j]? → R' = R) ∧ (ids[i]? ≠ ids[j]? → R'.length + 1 = R.length) ∧ R.headD 0 ≤ R'.headD 0) ∧
    (∀ d, g.diameter = .ok (some d) → ∃ d', g'.diameter = .ok (some d') ∧ d' ≤ d) ∧
    (∀ q, 2 ≤ q → ∃ r r', g.qCore q = .ok (some r) ∧ g'.qCore q = .ok (some r') ∧ r ≤ r') := by
  have o := oneMore_of_add h e
  exact ⟨oneMore_components o, fun d hd => oneMore_diameter o hd, fun q hq => oneMore_q_core o hq⟩

/-- A successful `remove_edge(i, j)`: if `i` and `j` still have the same label afterwards, the component sizes stay the same, else there is
one component more; the largest component and `q_core` do not get larger, the diameter does not get smaller. -/
theorem C77_remove_edge {g g' : GenericGraph T A} {i j : ℕ} (h : g.WF) (e : g.removeEdge i j = .ok (.ok (), g')) :
    (∃ R R' k ids, g.connectedComponents = .ok R ∧ g'.connectedComponents = .ok R' ∧ g'.connectedComponentsIds = .ok (k, ids) ∧
      (ids[i]? = ids[j]? → R' = R) ∧ (ids[i]? ≠ ids[j]? → R'.length = R.length + 1) ∧ R'.headD 0 ≤ R.headD 0) ∧
    (∀ d', g'.diameter = .ok (some d') → ∃ d, g.diameter = .ok (some d) ∧ d ≤ d') ∧
    (∀ q, 2 ≤ q → ∃ r r', g.qCore q = .ok (some r) ∧ g'.qCore q = .ok (some r') ∧ r' ≤ r) := by
  have o := oneMore_of_remove h e
  refine ⟨?_, fun d hd => oneMore_diameter o hd, fun q hq => ?_⟩
  · obtain ⟨R', R, k, ids, h1, h2, h3, h4, h5, h6⟩ := oneMore_components o
    exact ⟨R, R', k, ids, h2, h1, h3, fun e => (h4 e).symm, fun e => (h5 e).symm, h6⟩
  · obtain ⟨r', r, h1, h2, h3⟩ := oneMore_q_core o hq
    exact ⟨r, r', h2, h1, h3⟩

/-- With one edge less `diameter` is at most twice as large, unless it is `None`. -/
theorem oneMore_diameter_twice {g g' : GenericGraph T A} {i j : ℕ} (o : OneMore g g' i j) {d d' : ℕ}
    (hd : g.diameter = .ok (some d)) (hd' : g'.diameter = .ok (some d')) : d ≤ 2 * d' := by
  have hn : 0 < g.vertexCount := lt_of_le_of_lt (Nat.zero_le _) o.lt_i
  have hcnt : g'.nextId = g.nextId := o.count
  have hc : ∀ v w, v < g.nextId → w < g.nextId → g.toSimple.Reachable v w := by
    by_contra hc
    have := C18_diameter_none o.wf (Or.inr (by
      push Not at hc
      obtain ⟨v, w, hv, hw, hr⟩ := hc
      exact ⟨v, w, hv, hw, hr⟩))
    rw [this] at hd
    cases hd
  obtain ⟨d1, h1, _, x, y, hx, hy, hxy⟩ := diameter_spec o.wf hn hc
  rw [hd] at h1
  cases h1
  obtain ⟨d2, h1', h2', _⟩ := diameter_spec o.wf' (by rw [hcnt]; exact hn) (by
    intro v w hv hw
    rw [hcnt] at hv hw
    exact (hc v w hv hw).mono o.le)
  rw [hd'] at h1'
  cases h1'
  have hin : ∀ z, g.toSimple.Reachable x z → z < g.nextId := by
    intro z hz
    rw [SimpleGraph.reachable_iff_reflTransGen] at hz
    rcases Relation.ReflTransGen.cases_tail hz with rfl | ⟨w, _, hw⟩
    · exact hx
    · exact o.wf.lt_left (o.wf.adj_iff.mp hw.symm)
  rw [← hxy]
  refine dist_twice (a := i) (b := j) o.le ?_ o.adj_new ?_ (hc x y hx hy)
  · intro z w hzw
    rcases o.adj.mp hzw with k | k
    · exact Or.inl k
    · exact Or.inr (Sym2.eq_iff.mp k)
  · intro z w hz hw
    exact h2' z w (by rw [hcnt]; exact hin z hz) (by rw [hcnt]; exact hin w hw)

/-- A successful `remove_edge` at most doubles the diameter: if it is `Some(d')` afterwards, it was `Some(d)` with `d <= d' <= 2 * d`. -/
theorem C77_remove_edge_diameter {g g' : GenericGraph T A} {i j : ℕ} (h : g.WF) (e : g.removeEdge i j = .ok (.ok (), g')) :
    ∀ d', g'.diameter = .ok (some d') → ∃ d, g.diameter = .ok (some d) ∧ d ≤ d' ∧ d' ≤ 2 * d := by
  intro d' hd'
  have o := oneMore_of_remove h e
  obtain ⟨d, hd, hle⟩ := oneMore_diameter o hd'
  exact ⟨d, hd, hle, oneMore_diameter_twice o hd' hd⟩

/-- A successful `add_edge` at most halves the diameter: if it was `Some(d)`, it is `Some(d')` with `d' <= d <= 2 * d'`. -/
theorem C77_add_edge_diameter {g g' : GenericGraph T A} {i j : ℕ} (h : g.WF) (e : g.addEdge i j = .ok (.ok (), g')) :
    ∀ d, g.diameter = .ok (some d) → ∃ d', g'.diameter = .ok (some d') ∧ d' ≤ d ∧ d ≤ 2 * d' := by
  intro d hd
  have o := oneMore_of_add h e
  obtain ⟨d', hd', hle⟩ := oneMore_diameter o hd
  exact ⟨d', hd', hle, oneMore_diameter_twice o hd hd'⟩

/-- A case in which the factor two is met: opening the triangle. -/
example : (exGraph 3 [[1, 2], [0, 2], [1, 0]]).WF ∧ (exGraph 3 [[1, 2], [0, 2], [1, 0]]).diameter = .ok (some 1) ∧
    ∃ g', (exGraph 3 [[1, 2], [0, 2], [1, 0]]).removeEdge 0 1 = .ok (.ok (), g') ∧ g'.diameter = .ok (some 2) :=
  ⟨GenericGraph.wf_of_check _ (fun _ _ => trivial) (by decide), by decide, _, rfl, by decide⟩

/-- What `add_edge` does to the sums of the distances, which are the denominators of `closeness_centrality`. -/
theorem oneMore_closeness {g g' : GenericGraph T A} {i j : ℕ} (o : OneMore g g' i j) :
    ∃ L L' k ids, g.closenessCentrality = .ok L ∧ g'.closenessCentrality = .ok L' ∧ g.connectedComponentsIds = .ok (k, ids) ∧
      ∀ v < g.vertexCount, ∃ s s', L[v]? = some (g.vertexCount - 1, s) ∧ L'[v]? = some (g.vertexCount - 1, s') ∧
        (ids[i]? = ids[j]? → s' ≤ s ∧ (v = i ∨ v = j → s' < s)) ∧
        (ids[i]? ≠ ids[j]? → s ≤ s' ∧ (s < s' ↔ ids[v]? = ids[i]? ∨ ids[v]? = ids[j]?)) := by
  have hn : 0 < g.vertexCount := lt_of_le_of_lt (Nat.zero_le _) o.lt_i
  obtain ⟨L, hL, _, hs⟩ := C23_closeness o.wf hn
  obtain ⟨L', hL', _, hs'⟩ := C23_closeness o.wf' (by rw [o.count]; exact hn)
  obtain ⟨k, ids, i1, _, _, _, i5, _, _⟩ := C16_component_ids o.wf
  have hcnt := o.count
  rw [hcnt] at hs'
  have hsub : ∀ z w, g'.toSimple.Adj z w → g.toSimple.Adj z w ∨ (z = i ∧ w = j) ∨ (z = j ∧ w = i) := by
    intro z w hzw
    rcases o.adj.mp hzw with k | k
    · exact Or.inl k
    · exact Or.inr (Sym2.eq_iff.mp k)
  have hone : g'.toSimple.dist i j = 1 := SimpleGraph.dist_eq_one_iff_adj.mpr o.adj_new
  have hone' : g'.toSimple.dist j i = 1 := SimpleGraph.dist_eq_one_iff_adj.mpr o.adj_new.symm
  have hnadj : ¬ g.toSimple.Adj i j := fun h => o.new (o.wf.mem_edges.mpr (o.wf.adj_iff.mp h))
  refine ⟨L, L', k, ids, hL, hL', i1, fun v hv => ⟨_, _, hs v hv, hs' v hv, ?_, ?_⟩⟩
  · intro e
    have hij := (i5 i j o.lt_i o.lt_j).mp e
    have hf : (Finset.range g.vertexCount).filter (fun w => g'.toSimple.Reachable v w) =
        (Finset.range g.vertexCount).filter (fun w => g.toSimple.Reachable v w) :=
      Finset.filter_congr fun w _ => o.reachable_iff hij
    rw [hf]
    have hle : ∀ w ∈ (Finset.range g.vertexCount).filter (fun w => g.toSimple.Reachable v w),
        g'.toSimple.dist v w ≤ g.toSimple.dist v w := fun w hw => o.dist_le (Finset.mem_filter.mp hw).2
    refine ⟨Finset.sum_le_sum hle, ?_⟩
    have far : ∀ a b, g.toSimple.Reachable a b → a ≠ b → ¬ g.toSimple.Adj a b → 1 < g.toSimple.dist a b := by
      intro a b hr hne hna
      have h0 : g.toSimple.dist a b ≠ 0 := fun h => hne (hr.dist_eq_zero_iff.mp h)
      have h1 : g.toSimple.dist a b ≠ 1 := fun h => hna (SimpleGraph.dist_eq_one_iff_adj.mp h)
      omega
    rintro (rfl | rfl)
    · refine Finset.sum_lt_sum hle ⟨j, Finset.mem_filter.mpr ⟨Finset.mem_range.mpr o.lt_j, hij⟩, ?_⟩
      rw [hone]
      exact far _ _ hij o.ne hnadj
    · refine Finset.sum_lt_sum hle ⟨i, Finset.mem_filter.mpr ⟨Finset.mem_range.mpr o.lt_i, hij.symm⟩, ?_⟩
      rw [hone']
      exact far _ _ hij.symm o.ne.symm (fun h => hnadj h.symm)
  · intro e
    have hij : ¬ g.toSimple.Reachable i j := fun h => e ((i5 i j o.lt_i o.lt_j).mpr h)
    have hsum : ∑ w ∈ (Finset.range g.vertexCount).filter (fun w => g.toSimple.Reachable v w), g.toSimple.dist v w =
        ∑ w ∈ (Finset.range g.vertexCount).filter (fun w => g.toSimple.Reachable v w), g'.toSimple.dist v w :=
      Finset.sum_congr rfl fun w hw => (dist_bridge o.le hsub hij (Finset.mem_filter.mp hw).2).symm
    have hss : (Finset.range g.vertexCount).filter (fun w => g.toSimple.Reachable v w) ⊆
        (Finset.range g.vertexCount).filter (fun w => g'.toSimple.Reachable v w) := by
      intro w hw
      rw [Finset.mem_filter] at hw ⊢
      exact ⟨hw.1, hw.2.mono o.le⟩
    rw [hsum]
    refine ⟨Finset.sum_le_sum_of_subset hss, ?_, ?_⟩
    · intro hlt
      by_contra hno
      push Not at hno
      have ni : ¬ g.toSimple.Reachable v i := fun h => hno.1 ((i5 v i hv o.lt_i).mpr h)
      have nj : ¬ g.toSimple.Reachable v j := fun h => hno.2 ((i5 v j hv o.lt_j).mpr h)
      have stay : ∀ w, g'.toSimple.Reachable v w → g.toSimple.Reachable v w := by
        intro w hw
        rw [SimpleGraph.reachable_iff_reflTransGen] at hw
        induction hw with
        | refl => exact .refl _
        | tail _ h2 ih =>
          rcases hsub _ _ h2 with k | ⟨rfl, rfl⟩ | ⟨rfl, rfl⟩
          · exact ih.trans k.reachable
          · exact absurd ih ni
          · exact absurd ih nj
      have heq : (Finset.range g.vertexCount).filter (fun w => g'.toSimple.Reachable v w) =
          (Finset.range g.vertexCount).filter (fun w => g.toSimple.Reachable v w) :=
        Finset.filter_congr fun w _ => ⟨stay w, fun h => h.mono o.le⟩
      rw [heq] at hlt
      exact lt_irrefl _ hlt
    · have more : ∀ b, b < g.vertexCount → ¬ g.toSimple.Reachable v b → g'.toSimple.Reachable v b →
          ∑ w ∈ (Finset.range g.vertexCount).filter (fun w => g.toSimple.Reachable v w), g'.toSimple.dist v w <
          ∑ w ∈ (Finset.range g.vertexCount).filter (fun w => g'.toSimple.Reachable v w), g'.toSimple.dist v w := by
        intro b hb hnb hb'
        refine Finset.sum_lt_sum_of_subset hss (i := b) (Finset.mem_filter.mpr ⟨Finset.mem_range.mpr hb, hb'⟩)
          (fun h => hnb (Finset.mem_filter.mp h).2) (hb'.pos_dist_of_ne ?_) (fun _ _ _ => Nat.zero_le _)
        rintro rfl
        exact hnb (.refl _)
      rintro (h | h)
      · have hr := (i5 v i hv o.lt_i).mp h
        exact more j o.lt_j (fun h' => hij (hr.symm.trans h')) ((hr.mono o.le).trans o.adj_new.reachable)
      · have hr := (i5 v j hv o.lt_j).mp h
        exact more i o.lt_i (fun h' => hij (h'.symm.trans hr)) ((hr.mono o.le).trans o.adj_new.symm.reachable)

/-- A successful `add_edge(i, j)` and `closeness_centrality` (number of other vertices over the sum of distances to the vertices of the own
component): if `i` and `j` had the same label, no entry gets smaller (no sum gets larger) and those of `i` and `j` get larger. If the edge
joins two components, the entries of all their vertices get *smaller* and all others stay as they are. -/
theorem C77_add_edge_closeness {g g' : GenericGraph T A} {i j : ℕ} (h : g.WF) (e : g.addEdge i j = .ok (.ok (), g')) :
    ∃ L L' k ids, g.closenessCentrality = .ok L ∧ g'.closenessCentrality = .ok L' ∧ g.connectedComponentsIds = .ok (k, ids) ∧
      ∀ v < g.vertexCount, ∃ s s', L[v]? = some (g.vertexCount - 1, s) ∧ L'[v]? = some (g.vertexCount - 1, s') ∧
        (ids[i]? = ids[j]? → s' ≤ s ∧ (v = i ∨ v = j → s' < s)) ∧
        (ids[i]? ≠ ids[j]? → s ≤ s' ∧ (s < s' ↔ ids[v]? = ids[i]? ∨ ids[v]? = ids[j]?)) :=
  oneMore_closeness (oneMore_of_add h e)

/-- The same for `remove_edge(i, j)`, by the labels afterwards. -/
theorem C77_remove_edge_closeness {g g' : GenericGraph T A} {i j : ℕ} (h : g.WF) (e : g.removeEdge i j = .ok (.ok (), g')) :
    ∃ L L' k ids, g.closenessCentrality = .ok L ∧ g'.closenessCentrality = .ok L' ∧ g'.connectedComponentsIds = .ok (k, ids) ∧
      ∀ v < g.vertexCount, ∃ s s', L[v]? = some (g.vertexCount - 1, s) ∧ L'[v]? = some (g.vertexCount - 1, s') ∧
        (ids[i]? = ids[j]? → s ≤ s' ∧ (v = i ∨ v = j → s < s')) ∧
        (ids[i]? ≠ ids[j]? → s' ≤ s ∧ (s' < s ↔ ids[v]? = ids[i]? ∨ ids[v]? = ids[j]?)) := by
  have o := oneMore_of_remove h e
  obtain ⟨L', L, k, ids, h1, h2, h3, h4⟩ := oneMore_closeness o
  have hc : g.vertexCount = g'.vertexCount := o.count
  refine ⟨L, L', k, ids, h2, h1, h3, fun v hv => ?_⟩
  rw [hc] at hv ⊢
  obtain ⟨s', s, k1, k2, k3, k4⟩ := h4 v hv
  exact ⟨s, s', k2, k1, k3, k4⟩

/-- Cases: joining the isolated vertex to the triangle with the tail makes the sums of the distances of all vertices larger; closing the
path makes those of its ends smaller. -/
example : exTail.WF ∧ exTail.closenessCentrality = .ok [(4, 4), (4, 4), (4, 3), (4, 5), (4, 0)] ∧
    ∃ g', exTail.addEdge 0 4 = .ok (.ok (), g') ∧ g'.closenessCentrality = .ok [(4, 5), (4, 6), (4, 5), (4, 8), (4, 8)] :=
  ⟨exTail_wf, by decide, _, rfl, by decide⟩

example : exPath.WF ∧ exPath.closenessCentrality = .ok [(3, 6), (3, 4), (3, 4), (3, 6)] ∧
    ∃ g', exPath.addEdge 0 3 = .ok (.ok (), g') ∧ g'.closenessCentrality = .ok [(3, 4), (3, 4), (3, 4), (3, 4)] :=
  ⟨exPath_wf, by decide, _, rfl, by decide⟩

/-- Cases: an edge within a component, and one between two components. -/
example : exTail.WF ∧ ∃ g', exTail.addEdge 0 3 = .ok (.ok (), g') ∧ g'.connectedComponents = .ok [4, 1] :=
  ⟨exTail_wf, _, rfl, by decide⟩

example : exTail.WF ∧ ∃ g', exTail.addEdge 0 4 = .ok (.ok (), g') ∧ g'.connectedComponents = .ok [5] ∧ g'.diameter = .ok (some 3) :=
  ⟨exTail_wf, _, rfl, by decide, by decide⟩

example : exPath.WF ∧ ∃ g', exPath.removeEdge 1 2 = .ok (.ok (), g') ∧ g'.connectedComponents = .ok [2, 2] :=
  ⟨exPath_wf, _, rfl, by decide⟩

end Verif
