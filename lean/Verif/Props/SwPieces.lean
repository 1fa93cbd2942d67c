import Verif.Props.Sw
import Verif.Props.Agree
import Verif.Lemmas.Bicon4
import Verif.Lemmas.EditAll

/-!
# C113: the pieces of small-world networks, and cores of networks without vertices of small degree
-/

set_option linter.unusedSectionVars false
set_option linter.unusedSimpArgs false

namespace Verif
open AdjContainer GenericGraph

/-! ## Cores -/

open Classical in
/-- **Where every vertex has `q` neighbours the core is everything**, and `q_core(q)` is the size of the largest component. -/
theorem C113_core_min_degree {T A : Type} [AdjContainer T A] [LawfulAdj T A] {g : GenericGraph T A} (h : g.WF) {q : ℕ} (hq : 2 ≤ q)
    (hn : 0 < g.vertexCount) (hd : ∀ v d, g.degree v = some d → q ≤ d) :
    ∃ R, g.connectedComponents = .ok R ∧ g.qCore q = .ok (some (R.headD 0)) := by
  obtain ⟨R, hR, hs, hm⟩ := connectedComponents_spec h
  obtain ⟨r, K, a1, a2, a3, a4, a5, a6⟩ := C20_q_core h hq hn
  have hfull : QSet g q (Finset.range g.vertexCount) := by
    intro v hvn
    rw [Finset.mem_range] at hvn
    refine ⟨hvn, (hd v _ (BiInv.degree_nbrs h hvn)).trans ?_⟩
    rw [← List.toFinset_card_of_nodup (h.nodup v)]
    apply Finset.card_le_card
    intro w hw
    rw [List.mem_toFinset] at hw
    rw [Finset.mem_filter, Finset.mem_range]
    have hmem : s(v, w) ∈ g.edges := (h.mem_edges).mpr hw
    exact ⟨(h.mem_lt hmem).2.1, h.adj_iff.mpr hw⟩
  have hKn : K = Finset.range g.vertexCount :=
    Finset.Subset.antisymm (fun v hvK => Finset.mem_range.mpr (a2 v hvK).1) (a3 _ hfull)
  subst hKn
  have hind : inducedOn g (Finset.range g.vertexCount) = g.toSimple := by
    ext a b
    simp only [inducedOn]
    refine ⟨fun hab => hab.1, fun hab => ⟨hab, ?_⟩⟩
    have hmem : s(a, b) ∈ g.edges := (h.mem_edges).mpr (h.adj_iff.mp hab)
    obtain ⟨k1, k2, _⟩ := h.mem_lt hmem
    exact ⟨Finset.mem_range.mpr k1, Finset.mem_range.mpr k2⟩
  have hsize : ∀ v, sizeWithin g (Finset.range g.vertexCount) v = componentSize g (g.toSimple.connectedComponentMk v) := by
    intro v
    unfold sizeWithin componentSize
    congr 1
    apply Finset.filter_congr
    intro w _
    rw [hind, SimpleGraph.ConnectedComponent.eq]
    exact ⟨fun h => h.symm, fun h => h.symm⟩
  refine ⟨R, hR, ?_⟩
  rw [a1]
  congr 2
  apply le_antisymm
  · obtain ⟨v, hvK, hr⟩ := a6 (Finset.nonempty_iff_ne_empty.mp ⟨0, Finset.mem_range.mpr hn⟩)
    rw [← hr, hsize]
    exact cc_le_head h hR (cc_mem h hR (Finset.mem_range.mp hvK))
  · cases R with
    | nil => exact Nat.zero_le _
    | cons a l =>
      rw [List.headD_cons]
      have : a ∈ (componentSet g).val.map (componentSize g) := by rw [← hm]; simp
      obtain ⟨c, hc, rfl⟩ := Multiset.mem_map.mp this
      have hc : c ∈ componentSet g := hc
      unfold componentSet at hc
      obtain ⟨v, hv, rfl⟩ := Finset.mem_image.mp hc
      rw [← hsize]
      exact a4 v hv

/-! ## Small-world networks -/

variable {T R : Type} [Rng R]

/-- A set of vertices no edge leaves has five vertices or more: each of its `k` vertices is the root of two edges, which lie within
the set, so that `2 k ≤ k (k - 1) / 2`. -/
theorem SwValid.piece {g : SwGraph T} (h : SwValid g) {C : Finset ℕ} (hC : C.Nonempty) (hlt : ∀ v ∈ C, v < g.nextId)
    (hcl : ∀ v ∈ C, ∀ w ∈ g.nbrs v, w ∈ C) : 5 ≤ C.card := by
  classical
  set A : Finset (ℕ × ℕ) := (C ×ˢ C).filter (fun p => ∃ o, (⟨p.2, some o⟩ : SwEdge) ∈ SwGraph.raw g p.1) with hA
  have hAc : A.card = 2 * C.card := by
    have h1 : A = C.biUnion (fun v => (C.filter (fun w => ∃ o, (⟨w, some o⟩ : SwEdge) ∈ SwGraph.raw g v)).image (fun w => (v, w))) := by
      ext ⟨v, w⟩
      simp only [hA, Finset.mem_filter, Finset.mem_product, Finset.mem_biUnion, Finset.mem_image, Prod.mk.injEq]
      constructor
      · rintro ⟨⟨k1, k2⟩, k3⟩; exact ⟨v, k1, w, ⟨k2, k3⟩, rfl, rfl⟩
      · rintro ⟨v', k1, w', ⟨k2, k3⟩, rfl, rfl⟩; exact ⟨⟨k1, k2⟩, k3⟩
    rw [h1, Finset.card_biUnion]
    · have h2 : ∀ v ∈ C, ((C.filter (fun w => ∃ o, (⟨w, some o⟩ : SwEdge) ∈ SwGraph.raw g v)).image (fun w => (v, w))).card = 2 := by
        intro v hv
        rw [Finset.card_image_of_injective _ (fun a b hab => (Prod.mk.inj hab).2)]
        obtain ⟨d1, o1, d2, o2, k1, k2, k3⟩ := h.rootPair (hlt v hv)
        have hmem : ∀ w o, (⟨w, some o⟩ : SwEdge) ∈ SwGraph.raw g v ↔ (w = d1 ∧ o = o1) ∨ (w = d2 ∧ o = o2) := by
          intro w o
          have : (⟨w, some o⟩ : SwEdge) ∈ SwGraph.raw g v ↔ (⟨w, some o⟩ : SwEdge) ∈ (SwGraph.raw g v).filter SwEdge.isRoot := by
            rw [List.mem_filter]; simp [SwEdge.isRoot]
          rw [this, k1]; simp
        have : C.filter (fun w => ∃ o, (⟨w, some o⟩ : SwEdge) ∈ SwGraph.raw g v) = {d1, d2} := by
          ext w
          simp only [Finset.mem_filter, hmem, Finset.mem_insert, Finset.mem_singleton]
          constructor
          · rintro ⟨_, o, h3⟩; omega
          · intro h3
            have hw : ∃ o, (⟨w, some o⟩ : SwEdge) ∈ SwGraph.raw g v := by
              rcases h3 with rfl | rfl
              · exact ⟨o1, (hmem _ _).mpr (.inl ⟨rfl, rfl⟩)⟩
              · exact ⟨o2, (hmem _ _).mpr (.inr ⟨rfl, rfl⟩)⟩
            obtain ⟨o, ho⟩ := hw
            exact ⟨hcl v hv w (sw_mem_nbrs.mpr ⟨_, ho, rfl⟩), o, (hmem _ _).mp ho⟩
        rw [this, Finset.card_pair k3]
      rw [Finset.sum_congr rfl h2, Finset.sum_const, smul_eq_mul, mul_comm]
    · intro v _ w _ hvw
      rw [Function.onFun, Finset.disjoint_left]
      intro p hp hq
      obtain ⟨_, _, rfl⟩ := Finset.mem_image.mp hp
      obtain ⟨_, _, h3⟩ := Finset.mem_image.mp hq
      exact hvw (Prod.mk.inj h3).1.symm
  set B : Finset (ℕ × ℕ) := A.image Prod.swap with hB
  have hBc : B.card = 2 * C.card := by
    rw [hB, Finset.card_image_of_injective _ Prod.swap_injective, hAc]
  have hdis : Disjoint A B := by
    rw [Finset.disjoint_left]
    rintro ⟨v, w⟩ h1 h2
    obtain ⟨⟨w', v'⟩, h3, h4⟩ := Finset.mem_image.mp h2
    simp only [Prod.swap_prod_mk, Prod.mk.injEq] at h4
    obtain ⟨rfl, rfl⟩ := h4
    obtain ⟨o, ho⟩ := (Finset.mem_filter.mp h1).2
    obtain ⟨o', ho'⟩ := (Finset.mem_filter.mp h3).2
    have := h.oneEnd _ _ ho _ ho' rfl
    simp [SwEdge.isRoot] at this
  have hoff : A ∪ B ⊆ C.offDiag := by
    have hA' : ∀ v w, (v, w) ∈ A → v ∈ C ∧ w ∈ C ∧ v ≠ w := by
      intro v w h1
      obtain ⟨h2, o, ho⟩ := Finset.mem_filter.mp h1
      rw [Finset.mem_product] at h2
      refine ⟨h2.1, h2.2, ?_⟩
      have hmem : s(v, w) ∈ g.edges := (h.wf.mem_edges).mpr (sw_mem_nbrs.mpr ⟨_, ho, rfl⟩)
      exact (h.wf.mem_lt hmem).2.2
    rintro ⟨v, w⟩ hp
    rw [Finset.mem_offDiag]
    rcases Finset.mem_union.mp hp with h1 | h1
    · exact hA' v w h1
    · obtain ⟨⟨w', v'⟩, h3, h4⟩ := Finset.mem_image.mp h1
      simp only [Prod.swap_prod_mk, Prod.mk.injEq] at h4
      obtain ⟨rfl, rfl⟩ := h4
      obtain ⟨k1, k2, k3⟩ := hA' _ _ h3
      exact ⟨k2, k1, Ne.symm k3⟩
  have hcard := Finset.card_le_card hoff
  rw [Finset.card_union_of_disjoint hdis, hAc, hBc, Finset.offDiag_card] at hcard
  have hpos := hC.card_pos
  by_contra hlt5
  generalize C.card = k at *
  have : k = 1 ∨ k = 2 ∨ k = 3 ∨ k = 4 := by omega
  rcases this with rfl | rfl | rfl | rfl <;> omega

open Classical in
/-- **Pieces have five vertices or more.** Every entry of `connected_components` is at least 5, so that there are at most `n / 5`
components and a network of fewer than ten vertices is connected; `q_core(2)` is the size of the largest component and there are no
leaves. -/
theorem C113_sw_pieces {g : SwGraph T} (h : SwValid g) :
    ∃ R, g.connectedComponents = .ok R ∧ (∀ k ∈ R, 5 ≤ k) ∧ 5 * R.length ≤ g.vertexCount ∧
      (g.vertexCount < 10 → g.isConnected = .ok (some true)) ∧ g.qCore 2 = .ok (some (R.headD 0)) ∧ g.leafCount = 0 := by
  have hn : 0 < g.vertexCount := by have := h.size; show 0 < g.nextId; omega
  have hdeg : ∀ v < g.nextId, 2 ≤ (g.nbrs v).length := by
    intro v hv
    obtain ⟨d1, o1, d2, o2, k1, _, _⟩ := h.rootPair hv
    rw [sw_nbrs, List.length_map]
    have := List.length_filter_le SwEdge.isRoot (SwGraph.raw g v)
    rw [k1] at this
    exact this
  obtain ⟨R, hR, hcore⟩ := C113_core_min_degree h.wf (le_refl 2) hn (by
    intro v d hd
    have hv : v < g.nextId := by
      by_contra hge
      rw [GenericGraph.degree, List.getElem?_eq_none (by rw [h.wf.len]; omega)] at hd
      cases hd
    rw [BiInv.degree_nbrs h.wf hv, Option.some.injEq] at hd
    rw [← hd]
    exact hdeg v hv)
  have hfive : ∀ k ∈ R, 5 ≤ k := by
    intro k hk
    obtain ⟨R', hR', _, hm⟩ := connectedComponents_spec h.wf
    rw [hR] at hR'
    cases hR'
    have : k ∈ (componentSet g).val.map (componentSize g) := by rw [← hm]; simpa using hk
    obtain ⟨c, hc, rfl⟩ := Multiset.mem_map.mp this
    have hc : c ∈ componentSet g := hc
    unfold componentSet at hc
    obtain ⟨v, hv, rfl⟩ := Finset.mem_image.mp hc
    unfold componentSize
    apply h.piece
    · exact ⟨v, Finset.mem_filter.mpr ⟨hv, rfl⟩⟩
    · intro w hw
      exact Finset.mem_range.mp (Finset.mem_filter.mp hw).1
    · intro w hw x hx
      rw [Finset.mem_filter] at hw ⊢
      have hmem : s(w, x) ∈ g.edges := (h.wf.mem_edges).mpr hx
      refine ⟨Finset.mem_range.mpr (h.wf.mem_lt hmem).2.1, ?_⟩
      rw [← hw.2]
      exact SimpleGraph.ConnectedComponent.sound (h.wf.adj_iff.mpr hx : g.toSimple.Adj w x).reachable.symm
  obtain ⟨R', hR', -, hsum⟩ := C17_component_sizes_sum h.wf
  rw [hR] at hR'
  cases hR'
  have hlen : 5 * R.length ≤ g.vertexCount := by
    rw [← hsum]
    clear hsum hR hcore
    induction R with
    | nil => simp
    | cons a l ih =>
      have h1 := hfive a (by simp)
      have h2 := ih (fun k hk => hfive k (by simp [hk]))
      rw [List.length_cons, List.sum_cons]
      omega
  refine ⟨R, hR, hfive, hlen, fun hlt => ?_, hcore, ?_⟩
  · obtain ⟨r, hr1, _, hr2, _⟩ := C15_is_connected h.wf
    rw [hr1, hr2.mpr ⟨hn, ?_⟩]
    intro v w hv hw
    have hone : (componentSet g).card ≤ 1 := by
      obtain ⟨R', hR', _, hm⟩ := connectedComponents_spec h.wf
      rw [hR] at hR'
      cases hR'
      have := congrArg Multiset.card hm
      rw [Multiset.coe_card, Multiset.card_map] at this
      have : R.length = (componentSet g).card := this
      omega
    have key : ∀ u, u < g.vertexCount → g.toSimple.connectedComponentMk u ∈ componentSet g := by
      intro u hu
      unfold componentSet
      exact Finset.mem_image_of_mem _ (Finset.mem_range.mpr hu)
    exact SimpleGraph.ConnectedComponent.exact (Finset.card_le_one.mp hone _ (key v hv) _ (key w hw))
  · unfold GenericGraph.leafCount
    rw [List.length_eq_zero_iff, List.filter_eq_nil_iff]
    intro a ha hc
    obtain ⟨i, hi, rfl⟩ := List.mem_iff_getElem.mp ha
    have hi' : i < g.nextId := by rw [← h.wf.len]; exact hi
    have h1 := hdeg i hi'
    have h2 := BiInv.degree_nbrs h.wf hi'
    rw [GenericGraph.degree, List.getElem?_eq_getElem hi, Option.map_some, Option.some.injEq] at h2
    rw [beq_iff_eq, h2] at hc
    omega

/-- The same for everything that can be reached from `new` by public calls, with any generator. -/
theorem C113_sw_history [Node T] {n : ℕ} (hn : 5 ≤ n) (p : ℚ) (r : R) :
    ∃ e0 : SwEns T R, SwEns.new n p r = .ok e0 ∧ ∀ e, SwHist e0 e →
      ∃ C, e.graph.connectedComponents = .ok C ∧ (∀ k ∈ C, 5 ≤ k) ∧ 5 * C.length ≤ n ∧
        (n < 10 → e.graph.isConnected = .ok (some true)) ∧ e.graph.qCore 2 = .ok (some (C.headD 0)) ∧ e.graph.leafCount = 0 := by
  obtain ⟨e0, h1, h2⟩ := C35_sw_invariant (T := T) hn p r
  refine ⟨e0, h1, fun e he => ?_⟩
  obtain ⟨h3, h4, _⟩ := h2 e he
  have := C113_sw_pieces h3
  rwa [h4] at this

/-- The bounds are sharp: ten vertices can fall into two pieces of five.  A network in which every vertex has two neighbours that is not
connected: `q_core(2)` is the size of the larger piece. -/
example : SwValid exSwSplit ∧ exSwSplit.vertexCount = 10 ∧ exSwSplit.connectedComponents = .ok [5, 5] ∧
    exSwSplit.isConnected = .ok (some false) ∧ exSwSplit.qCore 2 = .ok (some 5) ∧
    (exGraph 7 [[1, 2], [0, 2], [0, 1], [4, 6], [3, 5], [4, 6], [5, 3]]).qCore 2 = .ok (some 4) :=
  ⟨exSwSplit_valid, by decide, by decide, by decide, by decide, by decide⟩

example : (exGraph 7 [[1, 2], [0, 2], [0, 1], [4, 6], [3, 5], [4, 6], [5, 3]]).WF ∧
    ∀ v d, (exGraph 7 [[1, 2], [0, 2], [0, 1], [4, 6], [3, 5], [4, 6], [5, 3]]).degree v = some d → 2 ≤ d := by
  refine ⟨GenericGraph.wf_of_check _ (fun _ _ => trivial) (by decide), fun v d h => ?_⟩
  match v with
  | 0 | 1 | 2 | 3 | 4 | 5 | 6 => cases h; decide
  | (v + 7) => cases h

end Verif
