import Verif.Props.Load
import Verif.Props.Bicon
import Mathlib.Combinatorics.SimpleGraph.Acyclic

/-!
# C22, continued: where shortest paths are unique the load counts them
-/

set_option linter.unusedSectionVars false
set_option linter.unusedSimpArgs false

namespace Verif
open AdjContainer GenericGraph

variable {T A : Type} [AdjContainer T A] [LawfulAdj T A]

/-- `v` lies on a shortest path from `s` to `t` (the end points included). -/
def OnShortest (G : SimpleGraph ℕ) (s t v : ℕ) : Prop := ∃ p : G.Walk s t, p.length = G.dist s t ∧ v ∈ p.support

theorem dist_tri {G : SimpleGraph ℕ} {a b c : ℕ} (h1 : G.Reachable a b) (h2 : G.Reachable b c) :
    G.dist a c ≤ G.dist a b + G.dist b c := by
  obtain ⟨p, hp⟩ := h1.exists_walk_length_eq_dist
  obtain ⟨q, hq⟩ := h2.exists_walk_length_eq_dist
  rw [← hp, ← hq, ← SimpleGraph.Walk.length_append]
  exact SimpleGraph.dist_le _

theorem onShortest_iff {G : SimpleGraph ℕ} {s t v : ℕ} : OnShortest G s t v ↔
    G.Reachable s v ∧ G.Reachable v t ∧ G.dist s v + G.dist v t = G.dist s t := by
  constructor
  · rintro ⟨p, hp, hv⟩
    have r1 : G.Reachable s v := ⟨p.takeUntil v hv⟩
    have r2 : G.Reachable v t := ⟨p.dropUntil v hv⟩
    refine ⟨r1, r2, ?_⟩
    have hl : (p.takeUntil v hv).length + (p.dropUntil v hv).length = p.length := by
      rw [← SimpleGraph.Walk.length_append, SimpleGraph.Walk.take_spec]
    have h1 := SimpleGraph.dist_le (p.takeUntil v hv)
    have h2 := SimpleGraph.dist_le (p.dropUntil v hv)
    have h3 := dist_tri r1 r2
    omega
  · rintro ⟨h1, h2, h3⟩
    obtain ⟨p, hp⟩ := h1.exists_walk_length_eq_dist
    obtain ⟨q, hq⟩ := h2.exists_walk_length_eq_dist
    refine ⟨p.append q, by rw [SimpleGraph.Walk.length_append]; omega, ?_⟩
    rw [SimpleGraph.Walk.mem_support_append_iff]
    exact .inl p.end_mem_support

/-- Shortest paths are unique: the vertex before `v` on a shortest path from `s` is determined. -/
def UniqueShortest (G : SimpleGraph ℕ) : Prop :=
  ∀ s v (p q : G.Walk s v), p.length = G.dist s v → q.length = G.dist s v → p = q

theorem UniqueShortest.prev {G : SimpleGraph ℕ} (h : UniqueShortest G) {s v u u' : ℕ} (hr : G.Reachable s v) (h1 : G.Adj u v)
    (h2 : G.dist s u + 1 = G.dist s v) (h3 : G.Adj u' v) (h4 : G.dist s u' + 1 = G.dist s v) : u = u' := by
  obtain ⟨p, hp⟩ := (hr.trans h1.symm.reachable).exists_walk_length_eq_dist
  obtain ⟨q, hq⟩ := (hr.trans h3.symm.reachable).exists_walk_length_eq_dist
  have := h s v (p.concat h1) (q.concat h3) (by rw [SimpleGraph.Walk.length_concat]; omega)
    (by rw [SimpleGraph.Walk.length_concat]; omega)
  obtain ⟨e, _⟩ := SimpleGraph.Walk.concat_inj this
  exact e

/-- Forests have unique shortest paths. -/
theorem uniqueShortest_of_acyclic {G : SimpleGraph ℕ} (h : G.IsAcyclic) : UniqueShortest G := by
  intro s v p q hp hq
  have h1 := p.isPath_of_length_eq_dist hp
  have h2 := q.isPath_of_length_eq_dist hq
  have := (h.subsingleton_path s v).elim ⟨p, h1⟩ ⟨q, h2⟩
  exact congrArg Subtype.val this

/-- On a shortest path the vertex at a given distance is determined. -/
theorem UniqueShortest.level {G : SimpleGraph ℕ} (h : UniqueShortest G) {s w w' : ℕ} : ∀ (k : ℕ) {t : ℕ}, G.dist w t = k →
    G.Reachable s w → G.Reachable s w' → G.Reachable w t → G.Reachable w' t → G.dist s w = G.dist s w' →
    G.dist s w + G.dist w t = G.dist s t → G.dist s w' + G.dist w' t = G.dist s t → w = w' := by
  intro k
  induction k with
  | zero =>
    intro t hk r1 r2 r3 r4 he h1 h2
    rw [r3.dist_eq_zero_iff] at hk
    subst hk
    have : G.dist w' w = 0 := by omega
    rw [r4.dist_eq_zero_iff] at this
    exact this.symm
  | succ k ih =>
    intro t hk r1 r2 r3 r4 he h1 h2
    have prev : ∀ {w}, G.Reachable s w → G.Reachable w t → G.dist w t = k + 1 → G.dist s w + G.dist w t = G.dist s t →
        ∃ u, G.Adj u t ∧ G.dist s u + 1 = G.dist s t ∧ G.dist w u = k ∧ G.Reachable w u ∧ G.dist s w + G.dist w u = G.dist s u := by
      intro w r1 r3 hk h1
      obtain ⟨p, hp⟩ := r3.symm.exists_walk_length_eq_dist
      rw [SimpleGraph.dist_comm, hk] at hp
      cases p with
      | nil => simp at hp
      | cons hadj q =>
        rename_i u
        rw [SimpleGraph.Walk.length_cons] at hp
        have a1 := SimpleGraph.dist_le q.reverse
        rw [SimpleGraph.Walk.length_reverse] at a1
        have ru : G.Reachable w u := ⟨q.reverse⟩
        have a2 := dist_tri ru hadj.symm.reachable
        have a3 := dist_tri r1 ru
        have a4 := dist_tri (r1.trans ru) hadj.symm.reachable
        rw [SimpleGraph.dist_eq_one_iff_adj.mpr hadj.symm] at a2 a4
        exact ⟨u, hadj.symm, by omega, by omega, ru, by omega⟩
    obtain ⟨u, b1, b2, b3, b4, b5⟩ := prev r1 r3 hk h1
    obtain ⟨u', c1, c2, c3, c4, c5⟩ := prev r2 r4 (by omega) h2
    have huu := h.prev (r1.trans r3) b1 b2 c1 c2
    subst huu
    exact ih b3 r1 r2 b4 c4 he b5 c5

open Classical in
/-- The targets whose shortest path from `s` passes through `v`. -/
noncomputable def beyond (g : GenericGraph T A) (s v : ℕ) : Finset ℕ :=
  (Finset.range g.vertexCount).filter (fun t => OnShortest g.toSimple s t v)

theorem mem_beyond {g : GenericGraph T A} (hg : g.WF) {s v t : ℕ} (hv : v < g.vertexCount) :
    t ∈ beyond g s v ↔ OnShortest g.toSimple s t v := by
  classical
  rw [beyond, Finset.mem_filter, Finset.mem_range, and_iff_right_iff_imp]
  intro h
  obtain ⟨_, r, _⟩ := onShortest_iff.mp h
  by_cases hvt : t = v
  · exact hvt ▸ hv
  · obtain ⟨u, hu⟩ := closer_nonempty hg r hvt
    exact hg.lt _ _ (hg.adj_iff.mp ((mem_closer_iff hg).mp hu).1)

/-- Where shortest paths are unique the flow through `v` counts the targets behind `v`. -/
theorem isFlow_beyond {g : GenericGraph T A} (hg : g.WF) (hu : UniqueShortest g.toSimple) {s : ℕ} (hs : s < g.vertexCount) :
    IsFlow g s (fun v => ((beyond g s v).card : ℚ)) := by
  classical
  intro v hr
  have hv : v < g.vertexCount := by
    by_cases hvs : v = s
    · exact hvs ▸ hs
    · obtain ⟨u, hu⟩ := closer_nonempty hg hr hvs
      exact hg.lt _ _ (hg.adj_iff.mp ((mem_closer_iff hg).mp hu).1)
  have hlt : ∀ {w}, w ∈ farther g s v → w < g.vertexCount := fun hw => hg.lt _ _ (hg.adj_iff.mp ((mem_farther_iff hg).mp hw).1)
  have hsplit : beyond g s v = insert v ((farther g s v).biUnion (beyond g s)) := by
    ext t
    rw [mem_beyond hg hv, Finset.mem_insert, Finset.mem_biUnion, onShortest_iff]
    constructor
    · rintro ⟨h1, h2, h3⟩
      by_cases htv : t = v
      · exact .inl htv
      · right
        obtain ⟨p, hp⟩ := h2.exists_walk_length_eq_dist
        cases p with
        | nil => exact absurd rfl htv
        | cons hadj q =>
          rename_i w
          rw [SimpleGraph.Walk.length_cons] at hp
          have rw' : g.toSimple.Reachable w t := ⟨q⟩
          have a1 := SimpleGraph.dist_le q
          have a2 := dist_tri (h1.trans hadj.reachable) rw'
          have a3 := dist_tri h1 hadj.reachable
          rw [SimpleGraph.dist_eq_one_iff_adj.mpr hadj] at a3
          have hw : w ∈ farther g s v := (mem_farther_iff hg).mpr ⟨hadj, by omega⟩
          exact ⟨w, hw, (mem_beyond hg (hlt hw)).mpr (onShortest_iff.mpr ⟨h1.trans hadj.reachable, rw', by omega⟩)⟩
    · rintro (rfl | ⟨w, hw, ht⟩)
      · exact ⟨hr, .rfl, by simp⟩
      · rw [mem_beyond hg (hlt hw), onShortest_iff] at ht
        obtain ⟨h1, h2, h3⟩ := ht
        obtain ⟨hadj, hd⟩ := (mem_farther_iff hg).mp hw
        have a1 := dist_tri hadj.reachable h2
        rw [SimpleGraph.dist_eq_one_iff_adj.mpr hadj] at a1
        have a2 := dist_tri hr (hadj.reachable.trans h2)
        exact ⟨hr, hadj.reachable.trans h2, by omega⟩
  have hnot : v ∉ (farther g s v).biUnion (beyond g s) := by
    rw [Finset.mem_biUnion]
    rintro ⟨w, hw, ht⟩
    rw [mem_beyond hg (hlt hw), onShortest_iff] at ht
    have := ((mem_farther_iff hg).mp hw).2
    omega
  have hdisj : ((farther g s v) : Set ℕ).PairwiseDisjoint (beyond g s) := by
    intro w hw w' hw' hne
    rw [Function.onFun, Finset.disjoint_left]
    intro t h1 h2
    rw [Finset.mem_coe] at hw hw'
    rw [mem_beyond hg (hlt hw), onShortest_iff] at h1
    rw [mem_beyond hg (hlt hw'), onShortest_iff] at h2
    have e1 := ((mem_farther_iff hg).mp hw).2
    have e2 := ((mem_farther_iff hg).mp hw').2
    exact hne (hu.level _ rfl h1.1 h2.1 h1.2.1 h2.2.1 (by omega) h1.2.2 h2.2.2)
  have hone : ∀ w ∈ farther g s v, (closer g s w).card = 1 := by
    intro w hw
    obtain ⟨hadj, hd⟩ := (mem_farther_iff hg).mp hw
    rw [Finset.card_eq_one]
    refine ⟨v, Finset.eq_singleton_iff_unique_mem.mpr ⟨(mem_closer_iff hg).mpr ⟨hadj, hd⟩, fun u hu' => ?_⟩⟩
    obtain ⟨b1, b2⟩ := (mem_closer_iff hg).mp hu'
    exact hu.prev (hr.trans hadj.reachable) b1 b2 hadj hd
  show ((beyond g s v).card : ℚ) = _
  rw [hsplit, Finset.card_insert_of_notMem hnot, Finset.card_biUnion hdisj]
  push_cast
  rw [add_comm]
  congr 1
  refine Finset.sum_congr rfl (fun w hw => ?_)
  rw [hone w hw]
  simp

open Classical in
/-- If shortest paths are unique (in particular in every forest), `vertex_load` is what its documentation says, the number of
shortest paths through the vertex: for every vertex `v` the number of pairs `(s, t)` with `s ≠ v` such that `v` lies on the shortest
path from `s` to `t`; without end points also `t ≠ v`. -/
theorem C22_load_counts_shortest_paths {g : GenericGraph T A} (hg : g.WF) (hu : UniqueShortest g.toSimple) (incl : Bool) :
    g.vertexLoad incl = .ok ((List.range g.vertexCount).map (fun v =>
      ((((Finset.range g.vertexCount ×ˢ Finset.range g.vertexCount).filter (fun p : ℕ × ℕ =>
        p.1 ≠ v ∧ (incl = false → p.2 ≠ v) ∧ OnShortest g.toSimple p.1 p.2 v)).card : ℕ) : ℚ))) := by
  choose F hF using fun s => (C22_flow_exists_unique hg s).1
  have hval : ∀ s v, s < g.vertexCount → g.toSimple.Reachable s v → F s v = (beyond g s v).card := fun s v hs hr =>
    (C22_flow_exists_unique hg s).2 _ _ (hF s) (isFlow_beyond hg hu hs) v hr
  rw [C22_vertex_load hg hF incl]
  congr 1
  refine List.map_congr_left (fun v hv => ?_)
  rw [List.mem_range] at hv
  rw [Finset.card_filter, Finset.sum_product]
  push_cast
  unfold sources
  rw [Finset.sum_filter]
  refine Finset.sum_congr rfl (fun s hs => ?_)
  rw [Finset.mem_range] at hs
  by_cases hsv : s = v
  · simp [hsv]
  by_cases hr : g.toSimple.Reachable s v
  · rw [if_pos ⟨hsv, hr⟩, hval s v hs hr]
    have hmem : v ∈ beyond g s v := (mem_beyond hg hv).mpr (onShortest_iff.mpr ⟨hr, .rfl, by simp⟩)
    cases incl with
    | true =>
      simp only [if_true, sub_zero, ne_eq, hsv, not_false_eq_true, true_and, Bool.true_eq_false, false_imp_iff]
      unfold beyond
      rw [Finset.card_filter]
      push_cast
      rfl
    | false =>
      simp only [Bool.false_eq_true, if_false, ne_eq, hsv, not_false_eq_true, true_and, true_imp_iff]
      have h1 : ((beyond g s v).card : ℚ) - 1 = (((beyond g s v).erase v).card : ℚ) := by
        rw [Finset.card_erase_of_mem hmem, Nat.cast_sub (Finset.card_pos.mpr ⟨v, hmem⟩), Nat.cast_one]
      have h2 : (beyond g s v).erase v = (Finset.range g.vertexCount).filter (fun t => ¬ t = v ∧ OnShortest g.toSimple s t v) := by
        ext t
        rw [Finset.mem_erase, beyond, Finset.mem_filter, Finset.mem_filter]
        tauto
      rw [h1, h2, Finset.card_filter]
      push_cast
      rfl
  · rw [if_neg (fun h => hr h.2)]
    symm
    refine Finset.sum_eq_zero (fun t _ => ?_)
    rw [if_neg]
    rintro ⟨_, _, h⟩
    exact hr (onShortest_iff.mp h).1

/-- The hypotheses are met by the path `0-1-2-3`. -/
example : exPath.WF ∧ UniqueShortest exPath.toSimple := ⟨exPath_wf, uniqueShortest_of_acyclic exPath_acyclic⟩

end Verif
