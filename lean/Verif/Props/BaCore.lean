import Verif.Props.Ba
import Verif.Props.ClosedForm
import Verif.Lemmas.Bicon4

/-!
# C112: cores, components and isolated vertices of Barabási-Albert networks
-/

set_option linter.unusedSectionVars false
set_option linter.unusedSimpArgs false

namespace Verif
open AdjContainer GenericGraph

variable {T R : Type} [Rng R]

/-! ## Proof -/

namespace Grows

variable {E0 E : Finset (Sym2 ℕ)} {m : Nat} {pre : List Nat}

/-- A set in which every vertex has more than `m` neighbours contains no vertex that was attached to `m` vertices. -/
theorem not_mem_core (h : Grows E0 m pre E) {q : ℕ} (hq : m < q) {K : Finset ℕ}
    (hK : ∀ v ∈ K, q ≤ (K.filter (fun w => s(v, w) ∈ E)).card) : ∀ i ∈ pre, i ∉ K := by
  induction h with
  | start => simp
  | @grow pre E j S _ hj hS _ ih =>
    have hjK : j ∉ K := by
      intro hjK
      have h1 := hK j hjK
      have h2 : K.filter (fun w => s(j, w) ∈ E ∪ S.image (fun v => s(j, v))) ⊆ S := by
        intro w hw
        rw [Finset.mem_filter, Finset.mem_union] at hw
        rcases hw.2 with h3 | h3
        · exact absurd (by simp) (hj _ h3)
        · obtain ⟨v, hv, h4⟩ := Finset.mem_image.mp h3
          rw [← Sym2.congr_right.mp h4]
          exact hv
      have := Finset.card_le_card h2
      omega
    have hold : ∀ i ∈ pre, i ∉ K := by
      apply ih
      intro v hv
      refine (hK v hv).trans (Finset.card_le_card ?_)
      intro w hw
      rw [Finset.mem_filter, Finset.mem_union] at hw
      rw [Finset.mem_filter]
      refine ⟨hw.1, hw.2.resolve_right fun h3 => ?_⟩
      obtain ⟨u, hu, h4⟩ := Finset.mem_image.mp h3
      have h5 : j ∈ s(v, w) := by rw [← h4]; simp
      rcases Sym2.mem_iff.mp h5 with rfl | rfl
      · exact hjK hv
      · exact hjK hw.1
    intro i hi
    rcases List.mem_append.mp hi with h1 | h1
    · exact hold i h1
    · rw [List.mem_singleton.mp h1]
      exact hjK

/-- A vertex attached to one vertex connects nothing. -/
theorem reach_one (h : Grows E0 m pre E) (hm : m ≤ 1) {u v : ℕ} (hu : u ∉ pre) (hv : v ∉ pre)
    (hr : (SimpleGraph.fromEdgeSet (E : Set (Sym2 ℕ))).Reachable u v) : (SimpleGraph.fromEdgeSet (E0 : Set (Sym2 ℕ))).Reachable u v := by
  induction h with
  | start => exact hr
  | @grow pre E j S _ hj hS _ ih =>
    apply ih (fun h => hu (by simp [h])) (fun h => hv (by simp [h]))
    have huj : u ≠ j := fun h => hu (by simp [h])
    have hvj : v ≠ j := fun h => hv (by simp [h])
    -- the place of the new vertex
    obtain ⟨c, hc⟩ : ∃ c, ∀ x ∈ S, x = c := by
      rcases Finset.card_le_one_iff_subset_singleton.mp (by omega : S.card ≤ 1) with ⟨c, hc⟩
      exact ⟨c, fun x hx => Finset.mem_singleton.mp (hc hx)⟩
    have key : ∀ {x y : ℕ}, (SimpleGraph.fromEdgeSet ((E ∪ S.image (fun v => s(j, v)) : Finset (Sym2 ℕ)) : Set (Sym2 ℕ))).Reachable x y →
        (SimpleGraph.fromEdgeSet (E : Set (Sym2 ℕ))).Reachable (if x = j then c else x) (if y = j then c else y) := by
      intro x y hxy
      obtain ⟨p⟩ := hxy
      induction p with
      | nil => exact SimpleGraph.Reachable.refl _
      | @cons x y z hadj p ih' =>
        refine SimpleGraph.Reachable.trans ?_ ih'
        rw [SimpleGraph.fromEdgeSet_adj] at hadj
        obtain ⟨h1, hne⟩ := hadj
        have h1 : s(x, y) ∈ E ∪ S.image (fun v => s(j, v)) := by exact_mod_cast h1
        rcases Finset.mem_union.mp h1 with h2 | h2
        · have hx : x ≠ j := fun h => hj _ h2 (by simp [h])
          have hy : y ≠ j := fun h => hj _ h2 (by simp [h])
          rw [if_neg hx, if_neg hy]
          apply SimpleGraph.Adj.reachable
          rw [SimpleGraph.fromEdgeSet_adj]
          exact ⟨by exact_mod_cast h2, hne⟩
        · obtain ⟨w, hw, h3⟩ := Finset.mem_image.mp h2
          have hwc := hc w hw
          subst hwc
          rcases Sym2.eq_iff.mp h3 with ⟨rfl, rfl⟩ | ⟨rfl, rfl⟩
          · rw [if_pos rfl, if_neg (Ne.symm hne)]
          · rw [if_pos rfl, if_neg hne]
    have := key hr
    rwa [if_neg huj, if_neg hvj] at this

end Grows

/-- The result of `q_core` is determined by the sets in which every vertex has `q` neighbours and by the edges within them. -/
theorem qCore_congr {A A' T T' : Type} [AdjContainer T A] [LawfulAdj T A] [AdjContainer T' A'] [LawfulAdj T' A'] {g : GenericGraph T A}
    {g' : GenericGraph T' A'} (h : g.WF) (h' : g'.WF) {q : ℕ} (hq : 2 ≤ q) (hn : 0 < g.vertexCount) (hn' : 0 < g'.vertexCount)
    (hQ : ∀ K, QSet g q K ↔ QSet g' q K)
    (hA : ∀ K, QSet g q K → ∀ u ∈ K, ∀ v ∈ K, (g.toSimple.Adj u v ↔ g'.toSimple.Adj u v)) : g'.qCore q = g.qCore q := by
  obtain ⟨r, K, a1, a2, a3, a4, a5, a6⟩ := C20_q_core h hq hn
  obtain ⟨r', K', b1, b2, b3, b4, b5, b6⟩ := C20_q_core h' hq hn'
  obtain rfl : K' = K := Finset.Subset.antisymm (a3 _ ((hQ _).mpr b2)) (b3 _ ((hQ _).mp a2))
  have hind : inducedOn g' K' = inducedOn g K' := by
    ext u v
    simp only [inducedOn]
    constructor
    · rintro ⟨h1, h2, h3⟩; exact ⟨(hA _ a2 u h2 v h3).mpr h1, h2, h3⟩
    · rintro ⟨h1, h2, h3⟩; exact ⟨(hA _ a2 u h2 v h3).mp h1, h2, h3⟩
  have hsz : ∀ v, sizeWithin g' K' v = sizeWithin g K' v := by
    intro v
    unfold sizeWithin
    rw [hind]
  rw [a1, b1]
  congr 2
  by_cases hK : K' = ∅
  · rw [a5 hK, b5 hK]
  · obtain ⟨v, hv, h1⟩ := a6 hK
    obtain ⟨w, hw, h2⟩ := b6 hK
    apply le_antisymm
    · rw [← h2, hsz]; exact a4 w hw
    · rw [← h1, ← hsz]; exact b4 v hv

/-! ## Theorems -/

/-- **Above `m` the cores are those of the source.** For `q > m` the result of `q_core(q)` is the same before and after the growth:
no vertex that `randomize` attaches belongs to such a core. -/
theorem C112_ba_core_above {e e' : Ba T R} (hv : e.Valid) (hE : 1 ≤ e.source.edgeCount) {fuel : ℕ} (he : e.randomize fuel = .ok e')
    {q : ℕ} (hq : e.m < q) : e'.graph.qCore q = e.source.qCore q := by
  classical
  obtain ⟨h1, h2, h3, h4, h5, h6, order, hp, hg⟩ := (C44_ba_randomize hv hE fuel).2 e' he
  obtain ⟨_, hadj, _, _⟩ := C44_ba_structure hv hE he
  have hpos : 0 < e.source.vertexCount := by
    rw [hv.source.edgeCount_eq_card] at hE
    obtain ⟨x, hx⟩ := Finset.card_pos.mp hE
    induction x using Sym2.ind with
    | h a b => exact lt_of_le_of_lt (Nat.zero_le _) (hv.source.mem_lt hx).1
  have hle : e.source.vertexCount ≤ e'.graph.vertexCount := by rw [h5]; exact hv.le
  by_cases hq2 : 2 ≤ q
  · have hsub : ∀ K, QSet e'.graph q K → ∀ v ∈ K, v < e.source.vertexCount := by
      intro K hK v hvK
      by_contra hge
      have h7 := (hK v hvK).1
      refine hg.not_mem_core hq (K := K) ?_ v ?_ hvK
      · intro w hw
        refine (hK w hw).2.trans (Finset.card_le_card ?_)
        intro z hz
        rw [Finset.mem_filter] at hz ⊢
        exact ⟨hz.1, by rw [h1.graph.mem_edges]; exact h1.graph.adj_iff.mp hz.2⟩
      · rw [hp.mem_iff, List.mem_range'_1]
        rw [h5] at h7
        omega
    have hQ : ∀ K, QSet e.source q K ↔ QSet e'.graph q K := by
      intro K
      constructor
      · intro hK v hvK
        obtain ⟨k1, k2⟩ := hK v hvK
        refine ⟨by omega, k2.trans (Finset.card_le_card ?_)⟩
        intro w hw
        rw [Finset.mem_filter] at hw ⊢
        exact ⟨hw.1, (hadj v w k1 (hK w hw.1).1).mpr hw.2⟩
      · intro hK v hvK
        have k1 := hsub K hK v hvK
        refine ⟨k1, (hK v hvK).2.trans (Finset.card_le_card ?_)⟩
        intro w hw
        rw [Finset.mem_filter] at hw ⊢
        exact ⟨hw.1, (hadj v w k1 (hsub K hK w hw.1)).mp hw.2⟩
    exact qCore_congr hv.source h1.graph hq2 hpos (by omega) hQ
      (fun K hK u hu v hv' => (hadj u v (hK u hu).1 (hK v hv').1).symm)
  · rw [C20_q_core_none q (.inl (by omega)), C20_q_core_none q (.inl (by omega))]

/-- **Up to `m` the core is everything**, if the source is connected and every vertex of the source has `q` neighbours. -/
theorem C112_ba_core_below {e e' : Ba T R} (hv : e.Valid) (hc : e.source.isConnected = .ok (some true)) {fuel : ℕ}
    (he : e.randomize fuel = .ok e') {q : ℕ} (hq : 2 ≤ q) (hqm : q ≤ e.m) (hd : ∀ v d, e.source.degree v = some d → q ≤ d) :
    e'.graph.qCore q = .ok (some e'.graph.vertexCount) := by
  classical
  obtain ⟨r0, hr0, _, hr1, _⟩ := C15_is_connected hv.source
  rw [hr0, Res.ok.injEq] at hc
  obtain ⟨hpos, hreach⟩ := hr1.mp hc
  have hdeg : ∀ v, v < e.source.vertexCount → q ≤ (e.source.nbrs v).length := fun v h => hd v _ (BiInv.degree_nbrs hv.source h)
  have hE : 1 ≤ e.source.edgeCount := by
    rw [hv.source.edgeCount_eq_card]
    apply Finset.card_pos.mpr
    obtain ⟨w, hw⟩ := List.exists_mem_of_length_pos (lt_of_lt_of_le (by omega : 0 < q) (hdeg 0 hpos))
    exact ⟨s(0, w), (hv.source.mem_edges).mpr hw⟩
  obtain ⟨h1, h2, h3, h4, h5, h6, order, hp, hg⟩ := (C44_ba_randomize hv hE fuel).2 e' he
  obtain ⟨_, hadj, hnew, hall⟩ := C44_ba_structure hv hE he
  have hle : e.source.vertexCount ≤ e'.graph.vertexCount := by rw [h5]; exact hv.le
  set n := e'.graph.vertexCount with hn
  have hlen : ∀ v, v < n → q ≤ (e'.graph.nbrs v).length := by
    intro v hvn
    by_cases hvs : v < e.source.vertexCount
    · refine (hdeg v hvs).trans ?_
      rw [hv.source.deg_eq, h1.graph.deg_eq]
      exact Finset.card_le_card (Finset.filter_subset_filter _ hg.subset)
    · exact hqm.trans (hnew v (by omega) (by omega))
  have hfull : QSet e'.graph q (Finset.range n) := by
    intro v hvn
    rw [Finset.mem_range] at hvn
    refine ⟨hvn, (hlen v hvn).trans ?_⟩
    rw [← List.toFinset_card_of_nodup (h1.graph.nodup v)]
    apply Finset.card_le_card
    intro w hw
    rw [List.mem_toFinset] at hw
    rw [Finset.mem_filter, Finset.mem_range]
    have hmem : s(v, w) ∈ e'.graph.edges := (h1.graph.mem_edges).mpr hw
    exact ⟨(h1.graph.mem_lt hmem).2.1, h1.graph.adj_iff.mpr hw⟩
  obtain ⟨r, K, a1, a2, a3, a4, a5, a6⟩ := C20_q_core h1.graph hq (by omega : 0 < e'.graph.vertexCount)
  have hKn : K = Finset.range n := Finset.Subset.antisymm (fun v hvK => Finset.mem_range.mpr (a2 v hvK).1) (a3 _ hfull)
  subst hKn
  have hind : ∀ u v, u < n → v < n → (inducedOn e'.graph (Finset.range n)).Reachable u v := by
    intro u v hu hv'
    have hgr := hall hreach (by omega) u v (by omega) (by omega)
    refine hgr.mono ?_
    intro a b hab
    have hmem : s(a, b) ∈ e'.graph.edges := (h1.graph.mem_edges).mpr (h1.graph.adj_iff.mp hab)
    obtain ⟨k1, k2, _⟩ := h1.graph.mem_lt hmem
    exact ⟨hab, Finset.mem_range.mpr k1, Finset.mem_range.mpr k2⟩
  obtain ⟨v, hvK, hr⟩ := a6 (Finset.nonempty_iff_ne_empty.mp ⟨0, Finset.mem_range.mpr (by omega)⟩)
  rw [a1, ← hr]
  congr 2
  unfold sizeWithin
  rw [Finset.filter_true_of_mem, Finset.card_range]
  intro w hw
  exact hind v w (Finset.mem_range.mp hvK) (Finset.mem_range.mp hw)

/-- **`new`**: the network grows from the complete graph on `s` vertices.  If `m < s` the `q`-core is the whole network for `2 ≤ q ≤ m`,
the `s` first vertices for `m < q < s`, and empty from `q = max (m + 1, s)` on. -/
theorem C112_ba_new [Node T] {n m s fuel : ℕ} {r : R} {e : Ba T R} (h : Ba.new fuel n r m s = .ok e) (hm : m < s) {q : ℕ} (hq : 2 ≤ q) :
    e.graph.qCore q = .ok (some (if q ≤ m then n else if q < s then s else 0)) := by
  obtain ⟨hpan, _, _⟩ := C44_ba_new (T := T) n r m s fuel
  have hcond : 2 ≤ s ∧ s < n := by
    by_contra hc
    rw [hpan.mpr hc] at h
    cases h
  obtain ⟨hs, hn⟩ := hcond
  obtain ⟨g, h1, h2, h3, h4, h5, h6⟩ := completeGraph_spec (T := T) (n := s) (by omega)
  have heq : (Ba.new fuel n r m s : Res (Ba T R)) =
      Ba.randomize fuel { source := g, graph := GenericGraph.new n, rng := r, m, weights := List.replicate n 0 } := by
    simp [-Res.bind_eq_ok, Ba.new, hs, hn, h1]
  have hv : Ba.Valid ({ source := g, graph := GenericGraph.new n, rng := r, m, weights := List.replicate n 0 } : Ba T R) :=
    ⟨h2, new_wf _, by show g.nextId ≤ n; omega, by simp [GenericGraph.new, vertexCount]⟩
  have hvc : g.vertexCount = s := h3
  obtain ⟨g', k1, k2, _, _, k3, _⟩ := C78_complete (T := T) s hs
  rw [h1, Res.ok.injEq] at k1
  subst k1
  rw [heq] at h
  have hE : 1 ≤ g.edgeCount := by
    rw [h4]
    obtain ⟨k, rfl⟩ : ∃ k, s = k + 2 := ⟨s - 2, by omega⟩
    show 1 ≤ (k + 2) * (k + 1) / 2
    rw [Nat.le_div_iff_mul_le (by omega)]
    calc 1 * 2 ≤ 2 * 1 := by omega
      _ ≤ (k + 2) * (k + 1) := Nat.mul_le_mul (by omega) (by omega)
  have hN : e.graph.vertexCount = n := ((C44_ba_randomize hv hE fuel).2 e h).2.2.2.2.1
  by_cases hqm : q ≤ m
  · rw [if_pos hqm, C112_ba_core_below hv k2 h hq hqm, hN]
    intro v d hd
    have hvs : v < g.nextId := by
      by_contra hge
      rw [GenericGraph.degree, List.getElem?_eq_none (by rw [h2.len]; omega)] at hd
      cases hd
    rw [BiInv.degree_nbrs h2 hvs, Option.some.injEq] at hd
    have hcard : (Finset.range s).erase v ⊆ (g.nbrs v).toFinset := by
      intro w hw
      rw [Finset.mem_erase, Finset.mem_range] at hw
      rw [List.mem_toFinset, h5]
      exact ⟨by rw [← hvc]; exact hvs, hw.2, Ne.symm hw.1⟩
    have := Finset.card_le_card hcard
    rw [Finset.card_erase_of_mem (Finset.mem_range.mpr (by rw [← hvc]; exact hvs)), Finset.card_range,
      List.toFinset_card_of_nodup (h2.nodup v)] at this
    omega
  · rw [if_neg hqm, C112_ba_core_above hv hE h (show m < q by omega)]
    exact k3 q hq

/-- **Isolated vertices stay isolated**: a vertex of the source has a neighbour after the growth exactly if it has one before. -/
theorem C112_ba_isolated {e e' : Ba T R} (hv : e.Valid) (hE : 1 ≤ e.source.edgeCount) {fuel : ℕ} (he : e.randomize fuel = .ok e') {v : ℕ}
    (hvs : v < e.source.vertexCount) :
    ∃ d d', e.source.degree v = some d ∧ e'.graph.degree v = some d' ∧ d ≤ d' ∧ (d' = 0 ↔ d = 0) := by
  obtain ⟨h1, h2, h3, h4, h5, h6, order, hp, hg⟩ := (C44_ba_randomize hv hE fuel).2 e' he
  have hle : e.source.vertexCount ≤ e'.graph.vertexCount := by rw [h5]; exact hv.le
  have hmono : (e.source.nbrs v).length ≤ (e'.graph.nbrs v).length := by
    rw [hv.source.deg_eq, h1.graph.deg_eq]
    exact Finset.card_le_card (Finset.filter_subset_filter _ hg.subset)
  refine ⟨_, _, BiInv.degree_nbrs hv.source hvs, BiInv.degree_nbrs h1.graph (lt_of_lt_of_le hvs hle), hmono, ⟨fun h => by omega, fun h => ?_⟩⟩
  by_contra hne
  obtain ⟨w, hw⟩ := List.exists_mem_of_length_pos (Nat.pos_of_ne_zero hne)
  have hmem : s(v, w) ∈ e'.graph.edges := (h1.graph.mem_edges).mpr hw
  rcases hg.endpoint hmem (v := v) (by simp) with h7 | ⟨x, h7, h8⟩
  · rw [hp.mem_iff, List.mem_range'_1] at h7
    omega
  · obtain ⟨w', rfl⟩ := Sym2.mem_iff_exists.mp h8
    have := List.length_pos_of_mem ((hv.source.mem_edges).mp h7)
    omega

open Classical in
/-- **Components.** For `m ≥ 1` the growth never increases the number of connected components, and for `m = 1` it keeps it. -/
theorem C112_ba_components {e e' : Ba T R} (hv : e.Valid) (hE : 1 ≤ e.source.edgeCount) (hm : 1 ≤ e.m) {fuel : ℕ}
    (he : e.randomize fuel = .ok e') :
    ∃ s s', e.source.connectedComponents = .ok s ∧ e'.graph.connectedComponents = .ok s' ∧ s'.length ≤ s.length ∧
      (e.m = 1 → s'.length = s.length) := by
  obtain ⟨h1, h2, h3, h4, h5, h6, order, hp, hg⟩ := (C44_ba_randomize hv hE fuel).2 e' he
  have hle : e.source.vertexCount ≤ e'.graph.vertexCount := by rw [h5]; exact hv.le
  obtain ⟨s, a1, _, a2⟩ := C17_component_sizes hv.source
  obtain ⟨s', b1, _, b2⟩ := C17_component_sizes h1.graph
  have hs : s.length = (componentSet e.source).card := by
    have := congrArg Multiset.card a2
    rwa [Multiset.coe_card, Multiset.card_map] at this
  have hs' : s'.length = (componentSet e'.graph).card := by
    have := congrArg Multiset.card b2
    rwa [Multiset.coe_card, Multiset.card_map] at this
  have hG : e.source.toSimple ≤ e'.graph.toSimple := by
    rw [toSimple_eq_fromEdgeSet hv.source, toSimple_eq_fromEdgeSet h1.graph]
    exact SimpleGraph.fromEdgeSet_mono (by exact_mod_cast hg.subset)
  set f : e.source.toSimple.ConnectedComponent → e'.graph.toSimple.ConnectedComponent :=
    SimpleGraph.ConnectedComponent.map (SimpleGraph.Hom.ofLE hG) with hf
  have hfm : ∀ v, f (e.source.toSimple.connectedComponentMk v) = e'.graph.toSimple.connectedComponentMk v := fun v => rfl
  have himg : componentSet e'.graph = (componentSet e.source).image f := by
    unfold componentSet
    ext c
    simp only [Finset.mem_image, Finset.mem_range]
    constructor
    · rintro ⟨v, hvn, rfl⟩
      by_cases hvs : v < e.source.vertexCount
      · exact ⟨_, ⟨v, hvs, rfl⟩, hfm v⟩
      · obtain ⟨e0, k1, t, k2, k3⟩ := hg.reach hm (i := v) (by rw [hp.mem_iff, List.mem_range'_1]; omega)
        obtain ⟨w, rfl⟩ := Sym2.mem_iff_exists.mp k2
        refine ⟨_, ⟨t, (hv.source.mem_lt k1).1, rfl⟩, ?_⟩
        rw [hfm]
        apply SimpleGraph.ConnectedComponent.sound
        rw [toSimple_eq_fromEdgeSet h1.graph]
        exact k3.symm
    · rintro ⟨_, ⟨v, hvs, rfl⟩, rfl⟩
      exact ⟨v, by omega, (hfm v).symm⟩
  refine ⟨s, s', a1, b1, ?_, fun hm1 => ?_⟩
  · rw [hs, hs', himg]
    exact Finset.card_image_le
  · rw [hs, hs', himg]
    apply Finset.card_image_of_injOn
    intro c hc c' hc' hcc
    have hc : c ∈ componentSet e.source := hc
    have hc' : c' ∈ componentSet e.source := hc'
    unfold componentSet at hc hc'
    rw [Finset.mem_image] at hc hc'
    obtain ⟨u, hu, rfl⟩ := hc
    obtain ⟨v, hv', rfl⟩ := hc'
    rw [Finset.mem_range] at hu hv'
    have hcc : e'.graph.toSimple.connectedComponentMk u = e'.graph.toSimple.connectedComponentMk v := hcc
    have hr := SimpleGraph.ConnectedComponent.exact hcc
    apply SimpleGraph.ConnectedComponent.sound
    rw [toSimple_eq_fromEdgeSet hv.source]
    rw [toSimple_eq_fromEdgeSet h1.graph] at hr
    apply hg.reach_one (by omega) _ _ hr
    · rw [hp.mem_iff, List.mem_range'_1]; omega
    · rw [hp.mem_iff, List.mem_range'_1]; omega

/-! ## The hypotheses are met, and needed -/

/-- Growth from a triangle with `m = 2`: two vertices more. -/
def exBaTriangle (draws : List Nat) : Ba Nat Script :=
  { source := exGraph 3 [[1, 2], [0, 2], [0, 1]], graph := GenericGraph.new 5, rng := ⟨draws⟩, m := 2, weights := List.replicate 5 0 }

example : (exBaTriangle [0, 1, 2, 3]).Valid ∧ (exBaTriangle []).source.isConnected = .ok (some true) ∧
    (∀ v d, (exBaTriangle []).source.degree v = some d → 2 ≤ d) ∧
    (((exBaTriangle [0, 2, 4, 7]).randomize 9).bind fun e => .ok (e.graph.qCore 2, e.graph.qCore 3)) = .ok (.ok (some 5), .ok (some 0)) := by
  refine ⟨⟨GenericGraph.wf_of_check _ (fun _ _ => trivial) (by decide), new_wf _, by decide, rfl⟩, by decide, ?_, by decide⟩
  intro v d h
  match v with
  | 0 | 1 | 2 => cases h; decide
  | (v + 3) => cases h

/-- `new` with `n = 6`, `m = 2` and `s = 4` first vertices. -/
example : (((Ba.new 9 6 ⟨[0, 3, 6, 9, 1, 5]⟩ 2 4 : Res (Ba Nat Script))).bind fun e =>
    .ok (e.graph.qCore 2, e.graph.qCore 3, e.graph.qCore 4)) = .ok (.ok (some 6), .ok (some 4), .ok (some 0)) := by decide

/-- Two separate edges and an isolated vertex. -/
def exBaSplit (draws : List Nat) : Ba Nat Script :=
  { source := exGraph 2 [[1], [0], [3], [2], []], graph := GenericGraph.new 6, rng := ⟨draws⟩, m := 2, weights := List.replicate 6 0 }

/-- With `m = 2` the two edges may be connected, the isolated vertex stays alone. -/
example : (exBaSplit []).Valid ∧ 1 ≤ (exBaSplit []).source.edgeCount ∧
    ((exBaSplit [0, 2]).randomize 9).bind (fun e => .ok (e.graph.connectedComponents, e.graph.degree 4)) = .ok (.ok [5, 1], some 0) :=
  ⟨⟨GenericGraph.wf_of_check _ (fun _ _ => trivial) (by decide), new_wf _, by decide, rfl⟩, by decide, by decide⟩

end Verif
