import Verif.Props.Topology

/-!
# C103: the measures do not depend on the names of the vertices

`g'` arises from `g` by renaming the vertices with a permutation `π`.  The numbers describing the whole network are the same, those of a
vertex move with it.  `vertex_biconnected_components` is an exception (`C103_biconnected_violation`): only its length is invariant.
-/

set_option linter.unusedSectionVars false
set_option linter.unusedSimpArgs false

namespace Verif
open AdjContainer GenericGraph

variable {T A T' A' : Type} [AdjContainer T A] [LawfulAdj T A] [AdjContainer T' A'] [LawfulAdj T' A']

/-- Vertex `v` of `g` is vertex `π v` of `g'`. -/
structure Renamed (π : Equiv.Perm ℕ) (g : GenericGraph T A) (g' : GenericGraph T' A') : Prop where
  n : g'.vertexCount = g.vertexCount
  lt : ∀ v, π v < g.vertexCount ↔ v < g.vertexCount
  edges : g'.edges = g.edges.image (Sym2.map π)

theorem iso_dist_le {G G' : SimpleGraph ℕ} (f : G ≃g G') {a b : ℕ} (h : G.Reachable a b) : G'.dist (f a) (f b) ≤ G.dist a b := by
  obtain ⟨p, hp⟩ := h.exists_walk_length_eq_dist
  rw [← hp, ← SimpleGraph.Walk.length_map f.toHom]
  exact SimpleGraph.dist_le _

theorem iso_dist {G G' : SimpleGraph ℕ} (f : G ≃g G') (a b : ℕ) : G'.dist (f a) (f b) = G.dist a b := by
  by_cases h : G.Reachable a b
  · refine le_antisymm (iso_dist_le f h) ?_
    have h1 := iso_dist_le f.symm (f.reachable_iff.mpr h)
    simpa using h1
  · rw [SimpleGraph.dist_eq_zero_of_not_reachable h, SimpleGraph.dist_eq_zero_of_not_reachable (fun h1 => h (f.reachable_iff.mp h1))]

theorem sum_rename {n : ℕ} {π : Equiv.Perm ℕ} (hπ : ∀ v, π v < n ↔ v < n) {M : Type*} [AddCommMonoid M] (f : ℕ → M) :
    ∑ v ∈ Finset.range n, f (π v) = ∑ v ∈ Finset.range n, f v :=
  Finset.sum_equiv π (fun v => by rw [Finset.mem_range, Finset.mem_range, hπ]) (fun _ _ => rfl)

theorem sum_filter_rename {n : ℕ} {π : Equiv.Perm ℕ} (hπ : ∀ v, π v < n ↔ v < n) {M : Type*} [AddCommMonoid M] {P Q : ℕ → Prop}
    [DecidablePred P] [DecidablePred Q] (hPQ : ∀ v < n, (Q (π v) ↔ P v)) {f f' : ℕ → M} (hf : ∀ v < n, P v → f' (π v) = f v) :
    ∑ v ∈ (Finset.range n).filter Q, f' v = ∑ v ∈ (Finset.range n).filter P, f v := by
  rw [Finset.sum_filter, Finset.sum_filter, ← sum_rename hπ]
  refine Finset.sum_congr rfl fun v hv => ?_
  rw [Finset.mem_range] at hv
  by_cases h : P v
  · rw [if_pos ((hPQ v hv).mpr h), if_pos h, hf v hv h]
  · rw [if_neg (fun h1 => h ((hPQ v hv).mp h1)), if_neg h]

theorem card_filter_rename {n : ℕ} {π : Equiv.Perm ℕ} (hπ : ∀ v, π v < n ↔ v < n) {P Q : ℕ → Prop}
    [DecidablePred P] [DecidablePred Q] (hPQ : ∀ v < n, (Q (π v) ↔ P v)) :
    ((Finset.range n).filter Q).card = ((Finset.range n).filter P).card := by
  rw [Finset.card_eq_sum_ones, Finset.card_eq_sum_ones]
  exact sum_filter_rename hπ hPQ (fun _ _ _ => rfl)

namespace Renamed
variable {π : Equiv.Perm ℕ} {g : GenericGraph T A} {g' : GenericGraph T' A'}

theorem symm (s : Renamed π g g') : Renamed π.symm g' g := by
  refine ⟨s.n.symm, fun v => ?_, ?_⟩
  · rw [s.n, ← s.lt, Equiv.apply_symm_apply]
  · rw [s.edges, Finset.image_image]
    have : Sym2.map π.symm ∘ Sym2.map π = id := by
      rw [← Sym2.map_comp, Equiv.symm_comp_self, Sym2.map_id]
    rw [this, Finset.image_id]

theorem adj (s : Renamed π g g') (h : g.WF) (h' : g'.WF) {a b : ℕ} : g'.toSimple.Adj (π a) (π b) ↔ g.toSimple.Adj a b := by
  rw [h.adj_iff, h'.adj_iff, ← h.mem_edges, ← h'.mem_edges, s.edges, ← Sym2.map_mk]
  exact (Sym2.map.injective π.injective).mem_finset_image

/-- The isomorphism. -/
def iso (s : Renamed π g g') (h : g.WF) (h' : g'.WF) : g.toSimple ≃g g'.toSimple := ⟨π, s.adj h h'⟩

theorem reach (s : Renamed π g g') (h : g.WF) (h' : g'.WF) {a b : ℕ} : g'.toSimple.Reachable (π a) (π b) ↔ g.toSimple.Reachable a b :=
  (s.iso h h').reachable_iff

theorem dist (s : Renamed π g g') (h : g.WF) (h' : g'.WF) (a b : ℕ) : g'.toSimple.dist (π a) (π b) = g.toSimple.dist a b :=
  iso_dist (s.iso h h') a b

theorem edgeCount (s : Renamed π g g') (h : g.WF) (h' : g'.WF) : g'.edgeCount = g.edgeCount := by
  rw [h.edgeCount_eq_card, h'.edgeCount_eq_card, s.edges, Finset.card_image_of_injective _ (Sym2.map.injective π.injective)]

theorem ncard (s : Renamed π g g') (h : g.WF) (h' : g'.WF) (v : ℕ) : {w | g'.toSimple.Adj (π v) w}.ncard = {w | g.toSimple.Adj v w}.ncard := by
  have : {w | g'.toSimple.Adj (π v) w} = π '' {w | g.toSimple.Adj v w} := by
    ext w
    constructor
    · intro hw
      refine ⟨π.symm w, ?_, Equiv.apply_symm_apply _ _⟩
      rw [← Equiv.apply_symm_apply π w] at hw
      exact (s.adj h h').mp hw
    · rintro ⟨x, hx, rfl⟩
      exact (s.adj h h').mpr hx
  rw [this, Set.ncard_image_of_injective _ π.injective]

theorem degree (s : Renamed π g g') (h : g.WF) (h' : g'.WF) (v : ℕ) : g'.degree (π v) = g.degree v := by
  rw [(C26_degrees h).1, (C26_degrees h').1, s.n, s.ncard h h']
  exact if_congr (s.lt v) rfl rfl

theorem isConnected_of (s : Renamed π g g') (h : g.WF) (h' : g'.WF) (hc : ∀ v w, v < g.vertexCount → w < g.vertexCount → g.toSimple.Reachable v w) :
    ∀ v w, v < g'.vertexCount → w < g'.vertexCount → g'.toSimple.Reachable v w := by
  intro v w hv hw
  rw [← Equiv.apply_symm_apply π v, ← Equiv.apply_symm_apply π w, s.reach h h']
  rw [← s.symm.lt, s.n] at hv hw
  exact hc _ _ hv hw

theorem isConnected (s : Renamed π g g') (h : g.WF) (h' : g'.WF) : g'.isConnected = g.isConnected := by
  obtain ⟨r, a1, a2, a3, a4⟩ := C15_is_connected h
  obtain ⟨r', b1, b2, b3, b4⟩ := C15_is_connected h'
  rw [a1, b1]
  congr 1
  rcases r with _ | _ | _
  · exact b2.mpr (by rw [s.n]; exact a2.mp rfl)
  · obtain ⟨v, w, k1, k2, k3⟩ := a4.mp rfl
    exact b4.mpr ⟨π v, π w, by rw [s.n]; exact (s.lt v).mpr k1, by rw [s.n]; exact (s.lt w).mpr k2, fun k => k3 ((s.reach h h').mp k)⟩
  · obtain ⟨k1, k2⟩ := a3.mp rfl
    exact b3.mpr ⟨by rw [s.n]; exact k1, s.isConnected_of h h' k2⟩

theorem sizes (s : Renamed π g g') (h : g.WF) (h' : g'.WF) : sizesOf g'.vertexCount g'.toSimple = sizesOf g.vertexCount g.toSimple := by
  classical
  have e := (s.iso h h').connectedComponentEquiv
  have he : ∀ v, (s.iso h h').connectedComponentEquiv (g.toSimple.connectedComponentMk v) = g'.toSimple.connectedComponentMk (π v) :=
    fun v => rfl
  unfold sizesOf
  have himg : (Finset.range g'.vertexCount).image g'.toSimple.connectedComponentMk =
      ((Finset.range g.vertexCount).image g.toSimple.connectedComponentMk).map (s.iso h h').connectedComponentEquiv.toEmbedding := by
    ext c
    simp only [Finset.mem_image, Finset.mem_map, Finset.mem_range, Equiv.coe_toEmbedding]
    constructor
    · rintro ⟨w, hw, rfl⟩
      refine ⟨_, ⟨π.symm w, ?_, rfl⟩, ?_⟩
      · rw [← s.symm.lt, s.n] at hw
        exact hw
      · rw [he, Equiv.apply_symm_apply]
    · rintro ⟨_, ⟨v, hv, rfl⟩, rfl⟩
      exact ⟨π v, by rw [s.n]; exact (s.lt v).mpr hv, (he v).symm⟩
  rw [himg, Finset.map_val, Multiset.map_map]
  refine Multiset.map_congr rfl fun c _ => ?_
  rw [Function.comp_apply, Equiv.coe_toEmbedding, s.n]
  refine card_filter_rename s.lt fun v _ => ?_
  rw [← he, EmbeddingLike.apply_eq_iff_eq]

theorem connectedComponents (s : Renamed π g g') (h : g.WF) (h' : g'.WF) : g'.connectedComponents = g.connectedComponents := by
  obtain ⟨R, a1, a2, a3⟩ := C17_component_sizes h
  obtain ⟨R', b1, b2, b3⟩ := C17_component_sizes h'
  rw [sizesOf_eq] at a3 b3
  rw [s.sizes h h', ← a3] at b3
  rw [a1, b1]
  congr 1
  exact List.Perm.eq_of_pairwise (fun a b _ _ h1 h2 => le_antisymm h2 h1) b2 a2 (Multiset.coe_eq_coe.mp b3)

theorem diameter (s : Renamed π g g') (h : g.WF) (h' : g'.WF) : g'.diameter = g.diameter := by
  by_cases hc : g.vertexCount = 0 ∨ ∃ v w, v < g.vertexCount ∧ w < g.vertexCount ∧ ¬ g.toSimple.Reachable v w
  · rw [C18_diameter_none h hc, C18_diameter_none h' ?_]
    rw [s.n]
    rcases hc with hc | ⟨v, w, k1, k2, k3⟩
    · exact .inl hc
    · exact .inr ⟨π v, π w, (s.lt v).mpr k1, (s.lt w).mpr k2, fun k => k3 ((s.reach h h').mp k)⟩
  · push Not at hc
    obtain ⟨d, a1, a2, v, w, a3, a4, a5⟩ := C18_diameter h (by omega) hc.2
    obtain ⟨d', b1, b2, v', w', b3, b4, b5⟩ := C18_diameter h' (by rw [s.n]; omega) (s.isConnected_of h h' hc.2)
    rw [← Equiv.apply_symm_apply π v', ← Equiv.apply_symm_apply π w', s.dist h h'] at b5
    rw [← s.symm.lt, s.n] at b3 b4
    have c1 := a2 _ _ b3 b4
    have c2 := b2 (π v) (π w) (by rw [s.n]; exact (s.lt v).mpr a3) (by rw [s.n]; exact (s.lt w).mpr a4)
    rw [s.dist h h'] at c2
    rw [a1, b1]
    congr 2
    omega

theorem longestShortestPathFromIndex (s : Renamed π g g') (h : g.WF) (h' : g'.WF) (v : ℕ) :
    g'.longestShortestPathFromIndex (π v) = g.longestShortestPathFromIndex v := by
  obtain ⟨a1, a2⟩ := C19_eccentricity h v
  obtain ⟨b1, b2⟩ := C19_eccentricity h' (π v)
  rw [s.n] at b1 b2
  by_cases hv : v < g.vertexCount
  · obtain ⟨d, c1, ⟨w, c2, c3⟩, c4⟩ := a2 hv
    obtain ⟨d', e1, ⟨w', e2, e3⟩, e4⟩ := b2 ((s.lt v).mpr hv)
    rw [← Equiv.apply_symm_apply π w', s.reach h h'] at e2
    rw [← Equiv.apply_symm_apply π w', s.dist h h'] at e3
    have := c4 _ e2
    have := e4 (π w) ((s.reach h h').mpr c2)
    rw [s.dist h h'] at this
    rw [c1, e1]
    congr 2
    omega
  · rw [a1 (by omega), b1 (by rw [← not_lt, s.lt]; exact hv)]

theorem qSet (s : Renamed π g g') (h : g.WF) (h' : g'.WF) {q : ℕ} {S : Finset ℕ} (hS : QSet g q S) : QSet g' q (S.map π.toEmbedding) := by
  classical
  intro w hw
  rw [Finset.mem_map] at hw
  obtain ⟨v, hv, rfl⟩ := hw
  obtain ⟨h1, h2⟩ := hS v hv
  refine ⟨by rw [s.n]; exact (s.lt v).mpr h1, ?_⟩
  rw [Finset.filter_map, Finset.card_map]
  refine h2.trans (Finset.card_le_card ?_)
  intro x hx
  rw [Finset.mem_filter] at hx ⊢
  exact ⟨hx.1, (s.adj h h').mpr hx.2⟩

theorem sizeWithin_le (s : Renamed π g g') (h : g.WF) (h' : g'.WF) (K : Finset ℕ) (v : ℕ) :
    sizeWithin g K v ≤ sizeWithin g' (K.map π.toEmbedding) (π v) := by
  classical
  have hhom : ∀ {a b : ℕ}, (inducedOn g K).Reachable a b → (inducedOn g' (K.map π.toEmbedding)).Reachable (π a) (π b) := by
    intro a b hab
    rw [SimpleGraph.reachable_iff_reflTransGen] at hab ⊢
    refine hab.lift π fun x y hxy => ?_
    exact ⟨(s.adj h h').mpr hxy.1, Finset.mem_map_of_mem _ hxy.2.1, Finset.mem_map_of_mem _ hxy.2.2⟩
  unfold sizeWithin
  rw [Finset.filter_map, Finset.card_map]
  refine Finset.card_le_card fun x hx => ?_
  rw [Finset.mem_filter] at hx ⊢
  exact ⟨hx.1, hhom hx.2⟩

theorem qCore_le (s : Renamed π g g') (h : g.WF) (h' : g'.WF) {q : ℕ} (hq : 2 ≤ q) (hn : 0 < g.vertexCount) :
    ∃ r r', g.qCore q = .ok (some r) ∧ g'.qCore q = .ok (some r') ∧ r ≤ r' := by
  obtain ⟨r, K, a1, a2, a3, a4, a5, a6⟩ := C20_q_core h hq hn
  obtain ⟨r', K', b1, b2, b3, b4, b5, b6⟩ := C20_q_core h' hq (by rw [s.n]; exact hn)
  have hK' : K' = K.map π.toEmbedding := by
    refine Finset.Subset.antisymm ?_ (b3 _ (s.qSet h h' a2))
    have h1 := a3 _ (s.symm.qSet h' h b2)
    intro w hw
    have h2 := h1 (Finset.mem_map_of_mem _ hw)
    rw [Finset.mem_map]
    exact ⟨_, h2, Equiv.apply_symm_apply π w⟩
  refine ⟨r, r', a1, b1, ?_⟩
  by_cases hK : K = ∅
  · rw [a5 hK]
    exact Nat.zero_le _
  · obtain ⟨v, c1, c2⟩ := a6 hK
    rw [← c2]
    refine (s.sizeWithin_le h h' K v).trans ?_
    rw [← hK']
    exact b4 _ (by rw [hK']; exact Finset.mem_map_of_mem _ c1)

theorem qCore (s : Renamed π g g') (h : g.WF) (h' : g'.WF) (q : ℕ) : g'.qCore q = g.qCore q := by
  by_cases hq : q < 2 ∨ g.vertexCount = 0
  · rw [C20_q_core_none q hq, C20_q_core_none q (by rw [s.n]; exact hq)]
  · push Not at hq
    obtain ⟨r, r', a1, a2, a3⟩ := s.qCore_le h h' hq.1 (by omega)
    obtain ⟨t, t', b1, b2, b3⟩ := s.symm.qCore_le h' h hq.1 (by rw [s.n]; omega)
    rw [a2] at b1
    rw [a1] at b2
    cases b1
    cases b2
    rw [a1, a2]
    congr 2
    omega

theorem transitivity (s : Renamed π g g') (h : g.WF) (h' : g'.WF) : g'.transitivity = g.transitivity := by
  classical
  have key : ∀ (P P' : ℕ × ℕ × ℕ → Prop) [DecidablePred P] [DecidablePred P'], (∀ a b c, P' (π a, π b, π c) ↔ P (a, b, c)) →
      ((Finset.range g.vertexCount ×ˢ Finset.range g.vertexCount ×ˢ Finset.range g.vertexCount).filter P').card =
      ((Finset.range g.vertexCount ×ˢ Finset.range g.vertexCount ×ˢ Finset.range g.vertexCount).filter P).card := by
    intro P P' _ _ hP
    symm
    refine Finset.card_equiv (π.prodCongr (π.prodCongr π)) ?_
    rintro ⟨a, b, c⟩
    simp only [Finset.mem_filter, Finset.mem_product, Finset.mem_range, Equiv.prodCongr_apply, Prod.map, s.lt, hP]
  rw [C24_transitivity h, C24_transitivity h', s.n]
  congr 2
  · refine key _ _ fun a b c => ?_
    simp only [s.adj h h', ne_eq, π.injective.eq_iff]
  · refine key _ _ fun a b c => ?_
    simp only [s.adj h h', ne_eq, π.injective.eq_iff]

theorem closeness (s : Renamed π g g') (h : g.WF) (h' : g'.WF) (hn : 0 < g.vertexCount) : ∃ L L', g.closenessCentrality = .ok L ∧
    g'.closenessCentrality = .ok L' ∧ ∀ v, L'[π v]? = L[v]? := by
  classical
  obtain ⟨L, a1, a2, a3⟩ := C23_closeness h hn
  obtain ⟨L', b1, b2, b3⟩ := C23_closeness h' (by rw [s.n]; exact hn)
  refine ⟨L, L', a1, b1, fun v => ?_⟩
  by_cases hv : v < g.vertexCount
  · rw [a3 v hv, b3 (π v) (by rw [s.n]; exact (s.lt v).mpr hv), s.n]
    congr 2
    exact sum_filter_rename s.lt (fun w _ => s.reach h h') (fun w _ _ => s.dist h h' v w)
  · have h1 : ¬ π v < g.vertexCount := by rw [s.lt]; exact hv
    rw [List.getElem?_eq_none (by rw [b2, s.n]; omega), List.getElem?_eq_none (by omega)]

theorem load (s : Renamed π g g') (h : g.WF) (h' : g'.WF) (incl : Bool) : ∃ L L', g.vertexLoad incl = .ok L ∧
    g'.vertexLoad incl = .ok L' ∧ ∀ v, L'[π v]? = L[v]? := by
  classical
  choose F hF using fun s => (C22_flow_exists_unique h s).1
  have hcl : ∀ t v, (closer g' (π t) (π v)).card = (closer g t v).card := by
    intro t v
    unfold closer
    rw [s.n]
    refine card_filter_rename s.lt fun u _ => ?_
    rw [s.adj h h', s.dist h h', s.dist h h']
  have hF' : ∀ t, IsFlow g' t (fun v => F (π.symm t) (π.symm v)) := by
    intro t v hv
    rw [← Equiv.apply_symm_apply π t, ← Equiv.apply_symm_apply π v, s.reach h h'] at hv
    have h1 := hF _ _ hv
    dsimp only
    rw [h1]
    congr 1
    symm
    unfold farther
    rw [s.n]
    refine sum_filter_rename s.lt (fun w _ => ?_) (fun w _ _ => ?_)
    · have e1 := s.adj h h' (a := π.symm v) (b := w)
      have e2 := s.dist h h' (π.symm t) (π.symm v)
      have e3 := s.dist h h' (π.symm t) w
      rw [Equiv.apply_symm_apply] at e1 e2 e3
      rw [Equiv.apply_symm_apply] at e2
      rw [e1, e2, e3]
    · have e4 := hcl (π.symm t) w
      rw [Equiv.apply_symm_apply] at e4
      rw [e4, Equiv.symm_apply_apply]
  refine ⟨_, _, C22_vertex_load h hF incl, C22_vertex_load h' hF' incl, fun v => ?_⟩
  rw [List.getElem?_map, List.getElem?_map, s.n]
  by_cases hv : v < g.vertexCount
  · rw [List.getElem?_range hv, List.getElem?_range ((s.lt v).mpr hv), Option.map_some, Option.map_some]
    congr 1
    unfold sources
    rw [s.n]
    refine sum_filter_rename s.lt (fun w _ => ?_) (fun w _ _ => ?_)
    · rw [s.reach h h', ne_eq, π.injective.eq_iff]
    · rw [Equiv.symm_apply_apply, Equiv.symm_apply_apply]
  · have h1 : ¬ π v < g.vertexCount := by rw [s.lt]; exact hv
    rw [List.getElem?_eq_none (by rw [List.length_range]; omega), List.getElem?_eq_none (by rw [List.length_range]; omega)]
    rfl

theorem averageDegree (s : Renamed π g g') (h : g.WF) (h' : g'.WF) : g'.averageDegree = g.averageDegree := by
  rw [C26_average_degree h, C26_average_degree h', ← (C26_degrees h).2.2.2, ← (C26_degrees h').2.2.2, s.n, s.edgeCount h h']

theorem ncardDegree (s : Renamed π g g') (h : g.WF) (h' : g'.WF) (d : ℕ) :
    {v | v < g'.vertexCount ∧ {w | g'.toSimple.Adj v w}.ncard = d}.ncard = {v | v < g.vertexCount ∧ {w | g.toSimple.Adj v w}.ncard = d}.ncard := by
  have : {v | v < g'.vertexCount ∧ {w | g'.toSimple.Adj v w}.ncard = d} = π '' {v | v < g.vertexCount ∧ {w | g.toSimple.Adj v w}.ncard = d} := by
    ext v
    constructor
    · rintro ⟨h1, h2⟩
      rw [s.n, ← Equiv.apply_symm_apply π v, s.lt] at h1
      rw [← Equiv.apply_symm_apply π v, s.ncard h h'] at h2
      exact ⟨π.symm v, ⟨h1, h2⟩, Equiv.apply_symm_apply _ _⟩
    · rintro ⟨x, ⟨h1, h2⟩, rfl⟩
      exact ⟨by rw [s.n]; exact (s.lt x).mpr h1, by rw [s.ncard h h']; exact h2⟩
  rw [this, Set.ncard_image_of_injective _ π.injective]

theorem leafCount (s : Renamed π g g') (h : g.WF) (h' : g'.WF) : g'.leafCount = g.leafCount := by
  rw [C26_leaf_count h, C26_leaf_count h', s.ncardDegree h h']

theorem degreeHistogram (s : Renamed π g g') (h : g.WF) (h' : g'.WF) : g'.degreeHistogram = g.degreeHistogram := by
  obtain ⟨a1, a2⟩ := C26_degree_histogram h
  obtain ⟨b1, b2⟩ := C26_degree_histogram h'
  rw [s.n] at b1 b2
  rcases Nat.eq_zero_or_pos g.vertexCount with hn | hn
  · rw [a1 hn, b1 hn]
  · obtain ⟨H, c1, c2, c3, c4, ⟨v, hv, hvl⟩, w, hw, hwr⟩ := a2 hn
    obtain ⟨H', d1, d2, d3, d4, ⟨v', hv', hvl'⟩, w', hw', hwr'⟩ := b2 hn
    rw [← Equiv.apply_symm_apply π v', s.lt] at hv'
    rw [← Equiv.apply_symm_apply π w', s.lt] at hw'
    rw [← Equiv.apply_symm_apply π v', s.ncard h h'] at hvl'
    rw [← Equiv.apply_symm_apply π w', s.ncard h h'] at hwr'
    have e1 := c3 _ hv'
    have e2 := c3 _ hw'
    have e3 := d3 _ ((s.lt v).mpr hv)
    have e4 := d3 _ ((s.lt w).mpr hw)
    rw [s.ncard h h'] at e3 e4
    have hl : H'.left = H.left := by omega
    have hr : H'.right = H.right := by omega
    rw [c1, d1]
    congr 1
    obtain ⟨l, r, bs⟩ := H
    obtain ⟨l', r', bs'⟩ := H'
    dsimp only at *
    subst hl hr
    congr 1
    refine List.ext_getElem? fun i => ?_
    by_cases hi : i < bs.length
    · have f1 := c2 (l' + i) (by omega) (by omega)
      have f2 := d2 (l' + i) (by omega) (by omega)
      rw [Nat.add_sub_cancel_left] at f1 f2
      rw [f1, f2]
      congr 1
      have f3 := s.ncardDegree h h' (l' + i)
      rw [s.n] at f3
      exact f3
    · rw [List.getElem?_eq_none (by omega), List.getElem?_eq_none (by omega)]

theorem connOn (s : Renamed π g g') (h : g.WF) (h' : g'.WF) {K : Finset ℕ} (hK : ConnOn g.toSimple K) :
    ConnOn g'.toSimple (K.map π.toEmbedding) := by
  have hmem : ∀ x : (K : Set ℕ), π x.1 ∈ ((K.map π.toEmbedding : Finset ℕ) : Set ℕ) := fun x =>
    Finset.mem_coe.mpr (Finset.mem_map_of_mem _ (Finset.mem_coe.mp x.2))
  refine SimpleGraph.Preconnected.map (⟨fun x => ⟨π x.1, hmem x⟩, fun {a b} hab => ?_⟩ :
    g.toSimple.induce (K : Set ℕ) →g g'.toSimple.induce ((K.map π.toEmbedding : Finset ℕ) : Set ℕ)) ?_ hK
  · exact (s.adj h h').mpr hab
  · rintro ⟨y, hy⟩
    obtain ⟨x, hx, rfl⟩ := Finset.mem_map.mp (Finset.mem_coe.mp hy)
    exact ⟨⟨x, Finset.mem_coe.mpr hx⟩, rfl⟩

theorem biSet (s : Renamed π g g') (h : g.WF) (h' : g'.WF) {S : Finset ℕ} (hS : BiSet g.toSimple S) :
    BiSet g'.toSimple (S.map π.toEmbedding) := by
  refine ⟨by rw [Finset.card_map]; exact hS.two, s.connOn h h' hS.conn, fun v hv => ?_⟩
  obtain ⟨x, hx, rfl⟩ := Finset.mem_map.mp hv
  rw [← Finset.map_erase]
  exact s.connOn h h' (hS.del x hx)

theorem map_symm_map (π : Equiv.Perm ℕ) (S : Finset ℕ) : (S.map π.symm.toEmbedding).map π.toEmbedding = S := by
  rw [Finset.map_map]
  ext x
  simp

theorem block (s : Renamed π g g') (h : g.WF) (h' : g'.WF) {S : Finset ℕ} (hS : Block g.toSimple S) :
    Block g'.toSimple (S.map π.toEmbedding) := by
  refine ⟨s.biSet h h' hS.1, fun S' h1 h2 => ?_⟩
  have h3 := hS.2 _ (s.symm.biSet h' h h1) (fun x hx => by
    rw [Finset.mem_map]
    exact ⟨π x, h2 (Finset.mem_map_of_mem _ hx), Equiv.symm_apply_apply _ _⟩)
  rw [← h3, map_symm_map]

theorem blocks (s : Renamed π g g') (h : g.WF) (h' : g'.WF) : {S | Block g'.toSimple S}.ncard = {S | Block g.toSimple S}.ncard := by
  have : {S | Block g'.toSimple S} = (Finset.map π.toEmbedding) '' {S | Block g.toSimple S} := by
    ext S
    constructor
    · intro hS
      exact ⟨S.map π.symm.toEmbedding, s.symm.block h' h hS, map_symm_map π S⟩
    · rintro ⟨S, hS, rfl⟩
      exact s.block h h' hS
  rw [this, Set.ncard_image_of_injective _ (Finset.map_injective _)]

end Renamed

/-- **C103.** If a graph is another one with renamed vertices (the containers may differ, and also the orders in the adjacency lists and
the stored values), the measures return the same numbers: edge count, average degree, number of leaves, degree histogram,
connectedness, sizes of the components, diameter, q-cores and transitivity. -/
theorem C103_measures_rename {π : Equiv.Perm ℕ} {g : GenericGraph T A} {g' : GenericGraph T' A'} (s : Renamed π g g') (h : g.WF) (h' : g'.WF) :
    g'.edgeCount = g.edgeCount ∧ g'.averageDegree = g.averageDegree ∧ g'.leafCount = g.leafCount ∧
    g'.degreeHistogram = g.degreeHistogram ∧ g'.isConnected = g.isConnected ∧ g'.connectedComponents = g.connectedComponents ∧
    g'.diameter = g.diameter ∧ (∀ q, g'.qCore q = g.qCore q) ∧ g'.transitivity = g.transitivity :=
  ⟨s.edgeCount h h', s.averageDegree h h', s.leafCount h h', s.degreeHistogram h h', s.isConnected h h', s.connectedComponents h h',
    s.diameter h h', s.qCore h h', s.transitivity h h'⟩

/-- **C103.** The measures of single vertices are those of the vertex with the new name: degree, longest of the shortest paths,
closeness, and vertex load. -/
theorem C103_vertices_rename {π : Equiv.Perm ℕ} {g : GenericGraph T A} {g' : GenericGraph T' A'} (s : Renamed π g g') (h : g.WF) (h' : g'.WF) :
    (∀ v, g'.degree (π v) = g.degree v) ∧
    (∀ v, g'.longestShortestPathFromIndex (π v) = g.longestShortestPathFromIndex v) ∧
    (0 < g.vertexCount → ∃ L L', g.closenessCentrality = .ok L ∧ g'.closenessCentrality = .ok L' ∧ ∀ v, L'[π v]? = L[v]?) ∧
    (∀ incl, ∃ L L', g.vertexLoad incl = .ok L ∧ g'.vertexLoad incl = .ok L' ∧ ∀ v, L'[π v]? = L[v]?) :=
  ⟨s.degree h h', s.longestShortestPathFromIndex h h', s.closeness h h', s.load h h'⟩

/-- **C103.** `vertex_biconnected_components(false)` returns the same number of entries. -/
theorem C103_biconnected_count {π : Equiv.Perm ℕ} {g : GenericGraph T A} {g' : GenericGraph T' A'} (s : Renamed π g g') (h : g.WF) (h' : g'.WF) :
    ∃ r r', g.vertexBiconnectedComponents false = .ok r ∧ g'.vertexBiconnectedComponents false = .ok r' ∧ r'.length = r.length := by
  obtain ⟨r, a1, _, a2, _⟩ := C21_count_partial h
  obtain ⟨r', b1, _, b2, _⟩ := C21_count_partial h'
  exact ⟨r, r', a1, b1, by rw [a2, b2, s.blocks h h']⟩

/-- One graph ... -/
def exName : GenericGraph Nat (NodeContainer Nat) := exGraph 6 [[1, 2], [0, 2, 3, 4], [0, 1, 3], [1, 2], [1]]

/-- ... and the same one with the names 3 and 4 exchanged. -/
def exName' : GenericGraph Nat (NodeContainer Nat) := exGraph 6 [[1, 2], [0, 2, 3, 4], [0, 1, 4], [1], [1, 2]]

theorem exName_wf : exName.WF := GenericGraph.wf_of_check _ (fun _ _ => trivial) (by decide)
theorem exName'_wf : exName'.WF := GenericGraph.wf_of_check _ (fun _ _ => trivial) (by decide)

theorem exName_renamed : Renamed (Equiv.swap 3 4) exName exName' := by
  refine ⟨rfl, fun v => ?_, by decide⟩
  show Equiv.swap 3 4 v < 5 ↔ v < 5
  rcases eq_or_ne v 3 with rfl | h3
  · decide
  rcases eq_or_ne v 4 with rfl | h4
  · decide
  rw [Equiv.swap_apply_of_ne_of_ne h3 h4]

/-- The entries of `vertex_biconnected_components` do depend on the names, also if all adjacency lists are sorted.  This
is again the defect of `C21_sizes_violation`: the sizes of the biconnected components do not depend on the names. -/
theorem C103_biconnected_violation : Renamed (Equiv.swap 3 4) exName exName' ∧ exName.WF ∧ exName'.WF ∧
    exName.vertexBiconnectedComponents false = .ok [4, 2] ∧ exName'.vertexBiconnectedComponents false = .ok [4, 3] :=
  ⟨exName_renamed, exName_wf, exName'_wf, by decide, by decide⟩

/-- The example meets the hypotheses; its measures are not trivial. -/
example : Renamed (Equiv.swap 3 4) exName exName' ∧ exName.WF ∧ exName'.WF ∧ exName.diameter = .ok (some 2) ∧ exName'.diameter = .ok (some 2) ∧
    exName.degree 3 = some 2 ∧ exName'.degree 4 = some 2 :=
  ⟨exName_renamed, exName_wf, exName'_wf, by decide, by decide, by decide, by decide⟩

end Verif
