import Verif.Lemmas.BiconSum
import Verif.Lemmas.Connect2
import Mathlib.Combinatorics.SimpleGraph.Acyclic
import Mathlib.Combinatorics.SimpleGraph.Connectivity.Subgraph

/-!
# Forests, cores and the number of connected components

For C76 and C77: how the measures depend on each other.
-/

set_option linter.unusedSectionVars false
set_option linter.unusedSimpArgs false

namespace Verif
open AdjContainer Classical

/-- If an added edge joins two components, there are fewer components afterwards. -/
theorem compCount_lt {H H' : SimpleGraph ℕ} (hle : H ≤ H') {n a b : ℕ} (ha : a < n) (hb : b < n) (h' : H'.Reachable a b)
    (hn : ¬ H.Reachable a b) : compCount H' n + 1 ≤ compCount H n := by
  have hmem : H.connectedComponentMk a ∈ (Finset.range n).image H.connectedComponentMk :=
    Finset.mem_image_of_mem _ (Finset.mem_range.mpr ha)
  rw [compCount, compCount, ← Finset.card_erase_add_one hmem]
  apply Nat.add_le_add_right
  refine Finset.card_le_card_of_surjOn (fun c => c.map (SimpleGraph.Hom.ofLE hle)) ?_
  intro c hc
  rw [Finset.mem_coe, Finset.mem_image] at hc
  obtain ⟨v, hv, rfl⟩ := hc
  by_cases hva : H.Reachable v a
  · refine ⟨H.connectedComponentMk b, ?_, ?_⟩
    · rw [Finset.mem_coe, Finset.mem_erase]
      exact ⟨fun e => hn (SimpleGraph.ConnectedComponent.exact e).symm, Finset.mem_image_of_mem _ (Finset.mem_range.mpr hb)⟩
    · exact SimpleGraph.ConnectedComponent.sound (h'.symm.trans (hva.mono hle).symm)
  · refine ⟨H.connectedComponentMk v, ?_, rfl⟩
    rw [Finset.mem_coe, Finset.mem_erase]
    exact ⟨fun e => hva (SimpleGraph.ConnectedComponent.exact e), Finset.mem_image_of_mem _ hv⟩

/-- The vertex before the last one on a shortest path. -/
theorem dist_pred {H : SimpleGraph ℕ} {r x k : ℕ} (hr : H.Reachable r x) (hd : H.dist r x = k + 1) :
    ∃ y, H.Adj y x ∧ H.Reachable r y ∧ H.dist r y = k := by
  obtain ⟨p, hp⟩ := hr.exists_walk_length_eq_dist
  have hnn : ¬ p.Nil := by
    rw [← SimpleGraph.Walk.length_eq_zero_iff]
    omega
  refine ⟨p.penultimate, p.adj_penultimate hnn, p.dropLast.reachable, ?_⟩
  have h1 : H.dist r p.penultimate ≤ k := by
    refine (SimpleGraph.dist_le p.dropLast).trans ?_
    have := SimpleGraph.Walk.length_dropLast_add_one hnn
    omega
  have h2 : H.dist r x ≤ H.dist r p.penultimate + 1 := by
    obtain ⟨q, hq⟩ := p.dropLast.reachable.exists_walk_length_eq_dist
    have := SimpleGraph.dist_le (q.concat (p.adj_penultimate hnn))
    rw [SimpleGraph.Walk.length_concat] at this
    omega
  omega

/-- A vertex at distance at most that of `v` is reached without touching `v`. -/
theorem reach_avoiding {H : SimpleGraph ℕ} {r v : ℕ} : ∀ k x, H.Reachable r x → H.dist r x = k → k ≤ H.dist r v → x ≠ v →
    (H.deleteEdges {e | v ∈ e}).Reachable r x
  | 0, x, hr, hd, _, _ => by
    have := (hr.dist_eq_zero_iff).mp hd
    subst this
    exact SimpleGraph.Reachable.refl _
  | k + 1, x, hr, hd, hk, hx => by
    obtain ⟨y, hyx, hry, hy⟩ := dist_pred hr hd
    have hyv : y ≠ v := by
      intro e
      subst e
      omega
    refine (reach_avoiding k y hry hy (by omega) hyv).trans (SimpleGraph.Adj.reachable ?_)
    rw [SimpleGraph.deleteEdges_adj]
    refine ⟨hyx, ?_⟩
    intro hv
    have hv' : v ∈ s(y, x) := hv
    rw [Sym2.mem_iff] at hv'
    rcases hv' with e | e
    · exact hyv e.symm
    · exact hx e.symm

section
variable {T A : Type} [AdjContainer T A] [LawfulAdj T A]

/-- In a graph without cycles no nonempty set gives each of its vertices two neighbours. -/
theorem acyclic_no_core {g : GenericGraph T A} (hG : g.toSimple.IsAcyclic) {K : Finset ℕ} (hK : QSet g 2 K) : K = ∅ := by
  by_contra hne
  obtain ⟨r, hr⟩ := Finset.nonempty_iff_ne_empty.mpr hne
  have hne' : (K.filter (fun w => (inducedOn g K).Reachable r w)).Nonempty :=
    ⟨r, Finset.mem_filter.mpr ⟨hr, SimpleGraph.Reachable.refl _⟩⟩
  obtain ⟨v, hv, hmax⟩ := Finset.exists_max_image _ (fun w => (inducedOn g K).dist r w) hne'
  rw [Finset.mem_filter] at hv
  have hle : inducedOn g K ≤ g.toSimple := fun _ _ h => h.1
  have hH := hG.anti hle
  have h2 := (hK v hv.1).2
  obtain ⟨u, hu, w, hw, huw⟩ := Finset.one_lt_card.mp (show 1 < _ from h2)
  rw [Finset.mem_filter] at hu hw
  have hvu : (inducedOn g K).Adj v u := ⟨hu.2, hv.1, hu.1⟩
  have hvw : (inducedOn g K).Adj v w := ⟨hw.2, hv.1, hw.1⟩
  have key : ∀ z, (inducedOn g K).Adj v z → ((inducedOn g K).deleteEdges {e | v ∈ e}).Reachable r z := by
    intro z hz
    have hrz : (inducedOn g K).Reachable r z := hv.2.trans hz.reachable
    refine reach_avoiding _ z hrz rfl ?_ hz.ne'
    exact hmax z (Finset.mem_filter.mpr ⟨hz.2.2, hrz⟩)
  have hb := SimpleGraph.isAcyclic_iff_forall_adj_isBridge.mp hH hvu
  rw [SimpleGraph.isBridge_iff] at hb
  apply hb
  have hwu : ((inducedOn g K).deleteEdges {s(v, u)}).Reachable w u := by
    refine ((key w hvw).symm.trans (key u hvu)).mono ?_
    refine SimpleGraph.deleteEdges_anti ?_
    intro e he
    rw [Set.mem_singleton_iff] at he
    subst he
    exact Sym2.mem_mk_left v u
  refine SimpleGraph.Reachable.trans (SimpleGraph.Adj.reachable ?_) hwu
  rw [SimpleGraph.deleteEdges_adj]
  refine ⟨hvw, ?_⟩
  intro e
  rw [Set.mem_singleton_iff, Sym2.eq_iff] at e
  rcases e with ⟨_, e⟩ | ⟨e, _⟩
  · exact huw e.symm
  · exact hvu.ne e

/-- A cycle gives each of its vertices two neighbours. -/
theorem cycle_core {g : GenericGraph T A} (h : g.WF) (hG : ¬ g.toSimple.IsAcyclic) : ∃ K : Finset ℕ, QSet g 2 K ∧ K ≠ ∅ := by
  rw [SimpleGraph.IsAcyclic] at hG
  push Not at hG
  obtain ⟨u, p, hp⟩ := hG
  refine ⟨p.support.toFinset, ?_, ?_⟩
  · intro v hv
    rw [List.mem_toFinset] at hv
    have h2 := hp.ncard_neighborSet_toSubgraph_eq_two hv
    have hsub : p.toSubgraph.neighborSet v ⊆ ((p.support.toFinset.filter (fun w => g.toSimple.Adj v w) : Finset ℕ) : Set ℕ) := by
      intro w hw
      rw [Finset.mem_coe, Finset.mem_filter, List.mem_toFinset]
      have hadj : p.toSubgraph.Adj v w := hw
      exact ⟨(SimpleGraph.Walk.mem_verts_toSubgraph p).mp hadj.snd_mem, hadj.adj_sub⟩
    have hcard := Set.ncard_le_ncard hsub (Finset.finite_toSet _)
    rw [h2, Set.ncard_coe_finset] at hcard
    refine ⟨?_, hcard⟩
    obtain ⟨w, hw⟩ : (p.toSubgraph.neighborSet v).Nonempty := by
      rw [Set.nonempty_iff_ne_empty]
      intro e
      rw [e, Set.ncard_empty] at h2
      omega
    have hadj : p.toSubgraph.Adj v w := hw
    exact h.lt_left (h.adj_iff.mp hadj.adj_sub)
  · intro e
    have : u ∈ p.support.toFinset := List.mem_toFinset.mpr p.start_mem_support
    rw [e] at this
    simp at this

/-- A shortest path has no more edges than the component has further vertices. -/
theorem dist_lt_size {g : GenericGraph T A} (h : g.WF) {v w : ℕ} (hv : v < g.vertexCount) (hr : g.toSimple.Reachable v w) :
    g.toSimple.dist v w < componentSize g (g.toSimple.connectedComponentMk v) := by
  obtain ⟨p, hp, hlen⟩ := hr.exists_path_of_dist
  rw [componentSize, ← hlen]
  have hsub : p.support.toFinset ⊆ (Finset.range g.vertexCount).filter
      (fun x => g.toSimple.connectedComponentMk x = g.toSimple.connectedComponentMk v) := by
    intro x hx
    rw [List.mem_toFinset] at hx
    have hvx : g.toSimple.Reachable v x := (p.takeUntil x hx).reachable
    rw [Finset.mem_filter, Finset.mem_range]
    exact ⟨h.reachable_lt hvx hv, SimpleGraph.ConnectedComponent.sound hvx.symm⟩
  have hc := Finset.card_le_card hsub
  rw [List.toFinset_card_of_nodup hp.support_nodup, SimpleGraph.Walk.length_support] at hc
  omega

end

end Verif
