import Verif.Props.Load
import Verif.Lemmas.LoadRound
import Verif.Lemmas.Bicon4

/-!
# C118: which vertices carry no load, and how large a load can be
-/

set_option linter.unusedSectionVars false
set_option linter.unusedSimpArgs false

namespace Verif
open AdjContainer GenericGraph

variable {T A : Type} [AdjContainer T A] [LawfulAdj T A]

/-! ## Proof -/

open Classical in
/-- The flow through any set of vertices at the same distance `d` from the source is at most the number of vertices at distance `d` or
farther. -/
theorem flow_layer_le {g : GenericGraph T A} (hg : g.WF) {s : Nat} (hs : s < g.vertexCount) {F : ℕ → ℚ} (hF : IsFlow g s F) {d : ℕ}
    {L : Finset ℕ} (hL : ∀ v ∈ L, g.toSimple.Reachable s v ∧ g.toSimple.dist s v = d) :
    ∑ v ∈ L, F v ≤ (((Finset.range g.vertexCount).filter
      (fun x => g.toSimple.Reachable s x ∧ d ≤ g.toSimple.dist s x)).card : ℚ) := by
  have hlow' : ∀ v, g.toSimple.Reachable s v → 1 ≤ F v := fun v hr => (flow_bounds hg hs hF v hr).1
  have hlt : ∀ v, g.toSimple.Reachable s v → v < g.vertexCount := by
    intro v hr
    by_cases hv : v = s
    · exact hv ▸ hs
    · obtain ⟨u, hu⟩ := closer_nonempty hg hr hv
      exact hg.lt _ _ (hg.adj_iff.mp ((mem_closer_iff hg).mp hu).1)
  let R : Nat → Finset ℕ := fun k => (Finset.range g.vertexCount).filter (fun v => g.toSimple.Reachable s v ∧ k ≤ g.toSimple.dist s v)
  have hR : ∀ k v, v ∈ R k ↔ g.toSimple.Reachable s v ∧ k ≤ g.toSimple.dist s v := by
    intro k v
    simp only [R, Finset.mem_filter, Finset.mem_range]
    exact ⟨fun h => h.2, fun h => ⟨hlt v h.1, h⟩⟩
  have hstep : ∀ k, ∑ v ∈ R k, F v = ((R k).card : ℚ) + ∑ w ∈ R (k + 1), F w := by
    intro k
    have h1 : ∑ v ∈ R k, F v = ∑ v ∈ R k, (1 + ∑ w ∈ farther g s v, F w / ((closer g s w).card : ℚ)) := by
      apply Finset.sum_congr rfl
      intro v hv
      rw [hR] at hv
      exact hF v hv.1
    rw [h1, Finset.sum_add_distrib, Finset.sum_const, nsmul_eq_mul, mul_one]
    congr 1
    have hswap : ∑ v ∈ R k, ∑ w ∈ farther g s v, F w / ((closer g s w).card : ℚ) =
        ∑ w ∈ R (k + 1), ∑ _v ∈ closer g s w, F w / ((closer g s w).card : ℚ) := by
      apply Finset.sum_comm'
      intro v w
      rw [hR, hR, mem_farther_iff hg, mem_closer_iff hg]
      constructor
      · rintro ⟨⟨h1, h2⟩, h3, h4⟩
        exact ⟨⟨h3, h4⟩, h1.trans h3.reachable, by omega⟩
      · rintro ⟨⟨h3, h4⟩, h1, h2⟩
        exact ⟨⟨h1.trans h3.symm.reachable, by omega⟩, h3, h4⟩
    rw [hswap]
    apply Finset.sum_congr rfl
    intro w hw
    rw [hR] at hw
    have hne : w ≠ s := by rintro rfl; rw [SimpleGraph.dist_self] at hw; omega
    have hc : ((closer g s w).card : ℚ) ≠ 0 := by
      exact_mod_cast Finset.card_ne_zero.mpr (closer_nonempty hg hw.1 hne)
    rw [Finset.sum_const, nsmul_eq_mul]
    field_simp
  have hsub : R (d + 1) ⊆ R d := by
    intro x hx; rw [hR] at hx ⊢; exact ⟨hx.1, by omega⟩
  have hsplit := Finset.sum_sdiff (f := F) hsub
  have hv : L ⊆ R d \ R (d + 1) := by
    intro v hv
    obtain ⟨h1, h2⟩ := hL v hv
    rw [Finset.mem_sdiff, hR, hR]
    exact ⟨⟨h1, by omega⟩, fun h => by omega⟩
  have hle := Finset.sum_le_sum_of_subset_of_nonneg (f := F) hv (fun x hx _ => by
    have := hlow' x ((hR _ x).mp (Finset.mem_sdiff.mp hx).1).1
    linarith)
  have := hstep d
  show ∑ v ∈ L, F v ≤ ((R d).card : ℚ)
  linarith

open Classical in
/-- The flow through `v` is at most the number of vertices that are as far from the source as `v`, or farther. -/
theorem flow_le_far {g : GenericGraph T A} (hg : g.WF) {s : Nat} (hs : s < g.vertexCount) {F : ℕ → ℚ} (hF : IsFlow g s F) {v : ℕ}
    (hr : g.toSimple.Reachable s v) :
    F v ≤ (((Finset.range g.vertexCount).filter
      (fun x => g.toSimple.Reachable s x ∧ g.toSimple.dist s v ≤ g.toSimple.dist s x)).card : ℚ) := by
  have := flow_layer_le hg hs hF (d := g.toSimple.dist s v) (L := {v}) (by simp [hr])
  rwa [Finset.sum_singleton] at this

open Classical in
/-- From a source `s` at most as many vertices are as far as `v` or farther as there are sources of `v`; if there are as many, all other
vertices are at least as far from `s` as `v`. -/
theorem far_card_le {g : GenericGraph T A} {s v : Nat} (hs : s ∈ sources g v) {d : ℕ} (hd : 0 < d) :
    ((Finset.range g.vertexCount).filter (fun x => g.toSimple.Reachable s x ∧ d ≤ g.toSimple.dist s x)).card ≤ (sources g v).card ∧
    ((sources g v).card ≤ ((Finset.range g.vertexCount).filter
      (fun x => g.toSimple.Reachable s x ∧ d ≤ g.toSimple.dist s x)).card → ∀ x ∈ sources g v, x ≠ s → d ≤ g.toSimple.dist s x) := by
  obtain ⟨k1, k2, k3⟩ := Finset.mem_filter.mp hs
  have hsub : (Finset.range g.vertexCount).filter
      (fun x => g.toSimple.Reachable s x ∧ d ≤ g.toSimple.dist s x) ⊆ insert v ((sources g v).erase s) := by
    intro x hx
    obtain ⟨m1, m2, m3⟩ := Finset.mem_filter.mp hx
    rw [Finset.mem_insert, Finset.mem_erase]
    by_cases hxv : x = v
    · exact .inl hxv
    · refine .inr ⟨?_, Finset.mem_filter.mpr ⟨m1, hxv, m2.symm.trans k3⟩⟩
      rintro rfl
      rw [SimpleGraph.dist_self] at m3
      omega
  have hins := Finset.card_insert_le v ((sources g v).erase s)
  rw [Finset.card_erase_of_mem hs] at hins
  have hpos : 0 < (sources g v).card := Finset.card_pos.mpr ⟨s, hs⟩
  refine ⟨by have := Finset.card_le_card hsub; omega, fun hge x hx hxs => ?_⟩
  have heq := Finset.eq_of_subset_of_card_le hsub (by omega)
  have : x ∈ insert v ((sources g v).erase s) := Finset.mem_insert_of_mem (Finset.mem_erase.mpr ⟨hxs, hx⟩)
  rw [← heq] at this
  exact (Finset.mem_filter.mp this).2.2

/-- All the flow that reaches `v` is its own exactly if no neighbour of `v` is farther away. -/
theorem flow_eq_one_iff {g : GenericGraph T A} (hg : g.WF) {s : Nat} (hs : s < g.vertexCount) {F : ℕ → ℚ} (hF : IsFlow g s F) {v : ℕ}
    (hr : g.toSimple.Reachable s v) : F v = 1 ↔ farther g s v = ∅ := by
  constructor
  · intro h1
    by_contra hne
    obtain ⟨w, hw⟩ := Finset.nonempty_iff_ne_empty.mpr hne
    have hpos : ∀ w ∈ farther g s v, 0 < F w / ((closer g s w).card : ℚ) := by
      intro w hw
      have hw' := (mem_farther_iff hg).mp hw
      have h3 := (flow_bounds hg hs hF w (hr.trans hw'.1.reachable)).1
      have h4 : 0 < (closer g s w).card := Finset.card_pos.mpr ⟨v, (closer_iff_farther hg).mpr hw⟩
      have h5 : (0 : ℚ) < ((closer g s w).card : ℚ) := by exact_mod_cast h4
      exact div_pos (by linarith) h5
    have := Finset.sum_pos hpos ⟨w, hw⟩
    have h2 := hF v hr
    linarith
  · intro h1
    rw [hF v hr, h1]
    simp

/-! ## Theorems -/

/-- **Bounds.** Let `c` be the number of other vertices `v` can reach.  The load of `v` with end points is its load without end points
plus `c`, and the latter lies between 0 and `c (c - 1)`, the number of ordered pairs of these vertices. -/
theorem C118_load_bounds {g : GenericGraph T A} (hg : g.WF) :
    ∃ b b' : List ℚ, g.vertexLoad true = .ok b ∧ g.vertexLoad false = .ok b' ∧ b.length = g.vertexCount ∧ b'.length = g.vertexCount ∧
      ∀ v < g.vertexCount, ∃ x x' : ℚ, b[v]? = some x ∧ b'[v]? = some x' ∧ x = x' + (sources g v).card ∧ 0 ≤ x' ∧
        x' ≤ ((sources g v).card : ℚ) * (((sources g v).card : ℚ) - 1) := by
  classical
  choose F hF using fun s => (C22_flow_exists_unique hg s).1
  refine ⟨_, _, C22_vertex_load hg hF true, C22_vertex_load hg hF false, by simp, by simp, fun v hv => ?_⟩
  refine ⟨∑ s ∈ sources g v, (F s v - if true then 0 else 1), ∑ s ∈ sources g v, (F s v - if false then 0 else 1), ?_, ?_, ?_, ?_, ?_⟩
  · rw [List.getElem?_map, List.getElem?_range hv, Option.map_some]
  · rw [List.getElem?_map, List.getElem?_range hv, Option.map_some]
  · simp [Finset.sum_sub_distrib]
  · apply Finset.sum_nonneg
    intro s hs
    obtain ⟨k1, k2, k3⟩ := Finset.mem_filter.mp hs
    have := (flow_bounds hg (Finset.mem_range.mp k1) (hF s) v k3).1
    simp only [Bool.false_eq_true, if_false]
    linarith
  · rw [← nsmul_eq_mul]
    apply Finset.sum_le_card_nsmul
    intro s hs
    obtain ⟨k1, k2, k3⟩ := Finset.mem_filter.mp hs
    have h1 := flow_le_far hg (Finset.mem_range.mp k1) (hF s) k3
    have hpos : 0 < g.toSimple.dist s v := k3.pos_dist_of_ne k2
    have h2 := (far_card_le hs hpos).1
    have h3 : (((Finset.range g.vertexCount).filter
        (fun x => g.toSimple.Reachable s x ∧ g.toSimple.dist s v ≤ g.toSimple.dist s x)).card : ℚ) ≤ ((sources g v).card : ℚ) := by
      exact_mod_cast h2
    simp only [Bool.false_eq_true, if_false]
    linarith

/-- **No load.** The load of a vertex without end points is 0 exactly if any two of its neighbours are joined by an edge. -/
theorem C118_load_zero_iff {g : GenericGraph T A} (hg : g.WF) {b : List ℚ} (hb : g.vertexLoad false = .ok b) {v : ℕ} {x : ℚ}
    (hx : b[v]? = some x) : x = 0 ↔ ∀ u w, g.toSimple.Adj v u → g.toSimple.Adj v w → u ≠ w → g.toSimple.Adj u w := by
  classical
  choose F hF using fun s => (C22_flow_exists_unique hg s).1
  rw [C22_vertex_load hg hF false, Res.ok.injEq] at hb
  subst hb
  rw [List.getElem?_map, Option.map_eq_some_iff] at hx
  obtain ⟨v', hv', rfl⟩ := hx
  obtain ⟨hv, rfl⟩ : v < g.vertexCount ∧ v' = v := by
    obtain ⟨h1, h2⟩ := List.getElem?_eq_some_iff.mp hv'
    rw [List.length_range] at h1
    rw [List.getElem_range] at h2
    exact ⟨h1, h2.symm⟩
  have hsum : (∑ s ∈ sources g v', (F s v' - if false then 0 else 1) = 0) ↔ ∀ s ∈ sources g v', farther g s v' = ∅ := by
    rw [Finset.sum_eq_zero_iff_of_nonneg]
    · apply forall₂_congr
      intro s hs
      obtain ⟨k1, k2, k3⟩ := Finset.mem_filter.mp hs
      rw [← flow_eq_one_iff hg (Finset.mem_range.mp k1) (hF s) k3]
      simp only [Bool.false_eq_true, if_false]
      exact sub_eq_zero
    · intro s hs
      obtain ⟨k1, k2, k3⟩ := Finset.mem_filter.mp hs
      have := (flow_bounds hg (Finset.mem_range.mp k1) (hF s) v' k3).1
      simp only [Bool.false_eq_true, if_false]
      linarith
  rw [hsum]
  constructor
  · intro hall u w hu hw huw
    by_contra hna
    have hus : u ∈ sources g v' :=
      Finset.mem_filter.mpr ⟨Finset.mem_range.mpr (hg.lt _ _ (hg.adj_iff.mp hu)), hu.ne', hu.symm.reachable⟩
    have h1 : g.toSimple.dist u v' = 1 := SimpleGraph.dist_eq_one_iff_adj.mpr hu.symm
    have h2 : g.toSimple.dist u w ≤ 2 :=
      SimpleGraph.dist_le (SimpleGraph.Walk.cons hu.symm (SimpleGraph.Walk.cons hw SimpleGraph.Walk.nil))
    have h3 : 0 < g.toSimple.dist u w := (hu.symm.reachable.trans hw.reachable).pos_dist_of_ne huw
    have h4 : g.toSimple.dist u w ≠ 1 := fun h => hna (SimpleGraph.dist_eq_one_iff_adj.mp h)
    have : w ∈ farther g u v' := (mem_farther_iff hg).mpr ⟨hw, by omega⟩
    rw [hall u hus] at this
    simp at this
  · intro hcl s hs
    obtain ⟨k1, k2, k3⟩ := Finset.mem_filter.mp hs
    apply Finset.eq_empty_of_forall_notMem
    intro w hw
    obtain ⟨h1, h2⟩ := (mem_farther_iff hg).mp hw
    obtain ⟨u, hu⟩ := closer_nonempty hg k3 (Ne.symm k2)
    obtain ⟨h3, h4⟩ := (mem_closer_iff hg).mp hu
    have huw : u ≠ w := by rintro rfl; omega
    have hadj := hcl u w h3.symm h1 huw
    have hsu : g.toSimple.Reachable s u := k3.trans h3.symm.reachable
    obtain ⟨p, hp⟩ := hsu.exists_walk_length_eq_dist
    have h5 := SimpleGraph.dist_le (p.concat hadj)
    rw [SimpleGraph.Walk.length_concat] at h5
    omega

/-- Leaves and isolated vertices carry no load. -/
theorem C118_leaf {g : GenericGraph T A} (hg : g.WF) {b : List ℚ} (hb : g.vertexLoad false = .ok b) {v d : ℕ} {x : ℚ}
    (hx : b[v]? = some x) (hd : g.degree v = some d) (hd1 : d ≤ 1) : x = 0 := by
  rw [C118_load_zero_iff hg hb hx]
  intro u w hu hw huw
  exfalso
  have hv : v < g.nextId := hg.lt_left (hg.adj_iff.mp hu)
  rw [BiInv.degree_nbrs hg hv, Option.some.injEq] at hd
  have : ({u, w} : Finset ℕ) ⊆ (g.nbrs v).toFinset := by
    intro z hz
    rw [Finset.mem_insert, Finset.mem_singleton] at hz
    rw [List.mem_toFinset]
    rcases hz with rfl | rfl
    · exact hg.adj_iff.mp hu
    · exact hg.adj_iff.mp hw
  have := Finset.card_le_card this
  rw [Finset.card_pair huw, List.toFinset_card_of_nodup (hg.nodup v)] at this
  omega

/-- **No load anywhere.** All loads without end points are 0 exactly if any two vertices that can reach each other are joined by an edge,
that is, if the network consists of separate complete graphs. -/
theorem C118_all_zero_iff {g : GenericGraph T A} (hg : g.WF) {b : List ℚ} (hb : g.vertexLoad false = .ok b) :
    (∀ x ∈ b, x = 0) ↔ ∀ u w, u ≠ w → g.toSimple.Reachable u w → g.toSimple.Adj u w := by
  constructor
  · intro hall
    have hcl : ∀ v u w, g.toSimple.Adj v u → g.toSimple.Adj v w → u ≠ w → g.toSimple.Adj u w := by
      intro v u w hu
      obtain ⟨_, b', _, h2, _, h4, h5⟩ := C118_load_bounds hg
      rw [hb, Res.ok.injEq] at h2
      subst h2
      obtain ⟨_, x', _, hx', _⟩ := h5 v (hg.lt_left (hg.adj_iff.mp hu))
      exact (C118_load_zero_iff hg hb hx').mp (hall x' (List.mem_of_getElem? hx')) u w hu
    rintro u w huw ⟨p⟩
    induction p with
    | nil => exact absurd rfl huw
    | @cons u y w h q ih =>
      by_cases hyw : y = w
      · exact hyw ▸ h
      · exact hcl y u w h.symm (ih hyw) huw
  · intro hcl x hx
    obtain ⟨v, hv⟩ := List.mem_iff_getElem?.mp hx
    exact (C118_load_zero_iff hg hb hv).mpr fun u w hu hw huw => hcl u w huw (hu.symm.reachable.trans hw.reachable)

/-- **Largest load.** The load without end points reaches the bound `c (c - 1)` exactly if the part of the network around `v` is a star
with `v` in the middle: every vertex that reaches `v` is a neighbour of it, and no two of its neighbours are joined. -/
theorem C118_load_star_iff {g : GenericGraph T A} (hg : g.WF) {b : List ℚ} (hb : g.vertexLoad false = .ok b) {v : ℕ} {x : ℚ}
    (hx : b[v]? = some x) : x = ((sources g v).card : ℚ) * (((sources g v).card : ℚ) - 1) ↔
      (∀ u, u ≠ v → g.toSimple.Reachable v u → g.toSimple.Adj v u) ∧
        ∀ u w, g.toSimple.Adj v u → g.toSimple.Adj v w → ¬ g.toSimple.Adj u w := by
  classical
  choose F hF using fun s => (C22_flow_exists_unique hg s).1
  rw [C22_vertex_load hg hF false, Res.ok.injEq] at hb
  subst hb
  rw [List.getElem?_map, Option.map_eq_some_iff] at hx
  obtain ⟨v', hv', rfl⟩ := hx
  obtain ⟨hv, rfl⟩ : v < g.vertexCount ∧ v' = v := by
    obtain ⟨h1, h2⟩ := List.getElem?_eq_some_iff.mp hv'
    rw [List.length_range] at h1
    rw [List.getElem_range] at h2
    exact ⟨h1, h2.symm⟩
  have hmem : ∀ u, g.toSimple.Adj v' u → u ∈ sources g v' := fun u hu =>
    Finset.mem_filter.mpr ⟨Finset.mem_range.mpr (hg.lt _ _ (hg.adj_iff.mp hu)), hu.ne', hu.symm.reachable⟩
  have hlow : ∀ s ∈ sources g v', ∀ w, g.toSimple.Reachable s w → 1 ≤ F s w := by
    intro s hs w hr
    obtain ⟨k1, k2, k3⟩ := Finset.mem_filter.mp hs
    exact (flow_bounds hg (Finset.mem_range.mp k1) (hF s) w hr).1
  have hup : ∀ s ∈ sources g v', F s v' - 1 ≤ ((sources g v').card : ℚ) - 1 := by
    intro s hs
    obtain ⟨k1, k2, k3⟩ := Finset.mem_filter.mp hs
    have h1 := flow_le_far hg (Finset.mem_range.mp k1) (hF s) k3
    have h3 : (((Finset.range g.vertexCount).filter
        (fun x => g.toSimple.Reachable s x ∧ g.toSimple.dist s v' ≤ g.toSimple.dist s x)).card : ℚ) ≤ ((sources g v').card : ℚ) := by
      exact_mod_cast (far_card_le hs (k3.pos_dist_of_ne k2)).1
    linarith
  have hsum : (∑ s ∈ sources g v', (F s v' - if false then 0 else 1) = ((sources g v').card : ℚ) * (((sources g v').card : ℚ) - 1)) ↔
      ∀ s ∈ sources g v', F s v' = ((sources g v').card : ℚ) := by
    simp only [Bool.false_eq_true, if_false]
    rw [← nsmul_eq_mul, ← Finset.sum_const, Finset.sum_eq_sum_iff_of_le hup]
    exact forall₂_congr fun s _ => by rw [sub_left_inj]
  rw [hsum]
  constructor
  · intro hall
    -- every source is a neighbour
    have hadj : ∀ s ∈ sources g v', g.toSimple.Adj s v' := by
      intro s hs
      obtain ⟨k1, k2, k3⟩ := Finset.mem_filter.mp hs
      have hpos := k3.pos_dist_of_ne k2
      have h1 := flow_le_far hg (Finset.mem_range.mp k1) (hF s) k3
      rw [hall s hs] at h1
      have hfar := (far_card_le hs hpos).2 (by exact_mod_cast h1)
      by_contra hna
      obtain ⟨p⟩ := k3
      cases p with
      | nil => exact k2 rfl
      | cons h q =>
        rename_i y
        have hyv : y ≠ v' := by rintro rfl; exact hna h
        have hy : y ∈ sources g v' := Finset.mem_filter.mpr
          ⟨Finset.mem_range.mpr (hg.lt _ _ (hg.adj_iff.mp h)), hyv, ⟨q⟩⟩
        have h5 := hfar y hy h.ne'
        rw [SimpleGraph.dist_eq_one_iff_adj.mpr h] at h5
        exact hna (SimpleGraph.dist_eq_one_iff_adj.mp (by omega))
    refine ⟨fun u hu hr => ?_, fun u w hu hw huw => ?_⟩
    · by_cases hul : u < g.vertexCount
      · exact (hadj u (Finset.mem_filter.mpr ⟨Finset.mem_range.mpr hul, hu, hr.symm⟩)).symm
      · obtain ⟨p⟩ := hr.symm
        cases p with
        | nil => exact absurd rfl hu
        | cons h q => exact absurd (hg.lt_left (hg.adj_iff.mp h)) hul
    · have hus := hmem u hu
      obtain ⟨k1, k2, k3⟩ := Finset.mem_filter.mp hus
      have h1 := flow_layer_le hg (Finset.mem_range.mp k1) (hF u) (d := 1) (L := {v', w}) (by
        intro z hz
        rw [Finset.mem_insert, Finset.mem_singleton] at hz
        rcases hz with rfl | rfl
        · exact ⟨k3, SimpleGraph.dist_eq_one_iff_adj.mpr hu.symm⟩
        · exact ⟨huw.reachable, SimpleGraph.dist_eq_one_iff_adj.mpr huw⟩)
      rw [Finset.sum_pair hw.ne, hall u hus] at h1
      have h3 := hlow u hus w huw.reachable
      have h4 : (((Finset.range g.vertexCount).filter
          (fun x => g.toSimple.Reachable u x ∧ 1 ≤ g.toSimple.dist u x)).card : ℚ) ≤ ((sources g v').card : ℚ) := by
        exact_mod_cast (far_card_le hus (d := 1) (by omega)).1
      linarith
  · rintro ⟨hstar, hind⟩ s hs
    obtain ⟨k1, k2, k3⟩ := Finset.mem_filter.mp hs
    have hsv : g.toSimple.Adj s v' := (hstar s k2 k3.symm).symm
    have hd1 : g.toSimple.dist s v' = 1 := SimpleGraph.dist_eq_one_iff_adj.mpr hsv
    have hd2 : ∀ w ∈ (sources g v').erase s, g.toSimple.Adj v' w ∧ g.toSimple.dist s w = 2 := by
      intro w hw
      obtain ⟨hws, hw⟩ := Finset.mem_erase.mp hw
      obtain ⟨m1, m2, m3⟩ := Finset.mem_filter.mp hw
      have hvw := hstar w m2 m3.symm
      refine ⟨hvw, ?_⟩
      have h2 : g.toSimple.dist s w ≤ 2 :=
        SimpleGraph.dist_le (SimpleGraph.Walk.cons hsv (SimpleGraph.Walk.cons hvw SimpleGraph.Walk.nil))
      have h3 : 0 < g.toSimple.dist s w := (k3.trans m3.symm).pos_dist_of_ne (Ne.symm hws)
      have h4 : g.toSimple.dist s w ≠ 1 := fun h => hind s w hsv.symm hvw (SimpleGraph.dist_eq_one_iff_adj.mp h)
      omega
    have hfar : farther g s v' = (sources g v').erase s := by
      ext w
      rw [mem_farther_iff hg]
      constructor
      · rintro ⟨h1, h2⟩
        refine Finset.mem_erase.mpr ⟨?_, hmem w h1⟩
        rintro rfl
        rw [SimpleGraph.dist_self] at h2
        omega
      · intro hw
        obtain ⟨h1, h2⟩ := hd2 w hw
        exact ⟨h1, by omega⟩
    have hnbr : ∀ w ∈ (sources g v').erase s, ∀ z, g.toSimple.Adj w z → z = v' := by
      intro w hw z hz
      by_contra hzv
      have h1 := (hd2 w hw).1
      exact hind w z h1 (hstar z hzv (h1.reachable.trans hz.reachable)) hz
    have hone : ∀ w ∈ (sources g v').erase s, F s w / ((closer g s w).card : ℚ) = 1 := by
      intro w hw
      obtain ⟨h1, h2⟩ := hd2 w hw
      have hf : F s w = 1 := by
        rw [flow_eq_one_iff hg (Finset.mem_range.mp k1) (hF s) (k3.trans h1.reachable)]
        apply Finset.eq_empty_of_forall_notMem
        intro z hz
        obtain ⟨h3, h4⟩ := (mem_farther_iff hg).mp hz
        have := hnbr w hw z h3
        subst this
        omega
      have hc : closer g s w = {v'} := by
        ext z
        rw [mem_closer_iff hg, Finset.mem_singleton]
        constructor
        · rintro ⟨h3, -⟩
          exact hnbr w hw z h3.symm
        · rintro rfl
          exact ⟨h1, by omega⟩
      rw [hf, hc]
      simp
    rw [hF s v' k3, hfar, Finset.sum_congr rfl hone, Finset.sum_const, Finset.card_erase_of_mem hs, nsmul_eq_mul, mul_one,
      Nat.cast_sub (Finset.card_pos.mpr ⟨s, hs⟩)]
    push_cast
    ring

/-- The triangle with a tail and an isolated vertex: only vertex 2 lies between others.  The star attains the upper bound. -/
example : exTail.WF ∧ exTail.vertexLoad false = .ok [0, 0, 4, 0, 0] ∧
    (exGraph 3 [[1, 2, 3], [0], [0], [0]]).vertexLoad false = .ok [3 * (3 - 1), 0, 0, 0] :=
  ⟨exTail_wf, by decide +kernel, by decide +kernel⟩

end Verif
