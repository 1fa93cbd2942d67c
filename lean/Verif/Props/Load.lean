import Verif.Lemmas.Load
import Verif.Props.Traverse

/-!
# vertex_load (C22)
-/

set_option linter.unusedSectionVars false
set_option linter.unusedSimpArgs false

namespace Verif
open AdjContainer GenericGraph

variable {T A : Type} [AdjContainer T A] [LawfulAdj T A]

/-- The flow, computed with `k` layers. -/
private noncomputable def flowIter (g : GenericGraph T A) (s : Nat) : Nat → ℕ → ℚ
  | 0, _ => 1
  | k + 1, v => 1 + ∑ w ∈ farther g s v, flowIter g s k w / ((closer g s w).card : ℚ)

/-- More than the largest distance from `s`. -/
private noncomputable def horizon (g : GenericGraph T A) (s : Nat) : Nat := (Finset.range g.vertexCount).sup (g.toSimple.dist s) + 1

private theorem dist_lt_horizon {g : GenericGraph T A} (hg : g.WF) (s v : Nat) : g.toSimple.dist s v < horizon g s := by
  rcases Nat.lt_or_ge v g.vertexCount with hv | hv
  · exact Nat.lt_succ_of_le (Finset.le_sup (f := g.toSimple.dist s) (Finset.mem_range.mpr hv))
  · by_cases hr : g.toSimple.Reachable s v
    · have : s = v := by
        by_contra hne
        obtain ⟨u, hu⟩ := closer_nonempty hg hr (Ne.symm hne)
        have := hg.lt _ _ (hg.adj_iff.mp ((mem_closer_iff hg).mp hu).1)
        exact absurd this (Nat.not_lt.mpr hv)
      subst this
      rw [SimpleGraph.dist_self]; exact Nat.succ_pos _
    · rw [SimpleGraph.dist_eq_zero_of_not_reachable hr]; exact Nat.succ_pos _

/-- The flow towards `s` exists and is unique on the vertices that reach `s`. -/
theorem C22_flow_exists_unique {g : GenericGraph T A} (hg : g.WF) (s : Nat) :
    (∃ F, IsFlow g s F) ∧ ∀ F F', IsFlow g s F → IsFlow g s F' → ∀ v, g.toSimple.Reachable s v → F v = F' v := by
  constructor
  · refine ⟨fun v => flowIter g s (horizon g s - g.toSimple.dist s v) v, ?_⟩
    intro v _
    have h1 := dist_lt_horizon hg s v
    obtain ⟨k, hk⟩ : ∃ k, horizon g s - g.toSimple.dist s v = k + 1 := ⟨horizon g s - g.toSimple.dist s v - 1, by omega⟩
    simp only [hk, flowIter]
    congr 1
    apply Finset.sum_congr rfl
    intro w hw
    have := ((mem_farther_iff hg).mp hw).2
    rw [show horizon g s - g.toSimple.dist s w = k by omega]
  · intro F F' hF hF'
    have key : ∀ k v, g.toSimple.Reachable s v → horizon g s - g.toSimple.dist s v = k → F v = F' v := by
      intro k
      induction k with
      | zero => intro v _ hk; have := dist_lt_horizon hg s v; omega
      | succ k ih =>
        intro v hr hk
        rw [hF v hr, hF' v hr]
        congr 1
        apply Finset.sum_congr rfl
        intro w hw
        obtain ⟨ha, hd⟩ := (mem_farther_iff hg).mp hw
        rw [ih w (hr.trans ha.reachable) (by omega)]
    exact fun v hr => key _ v hr rfl

private theorem loadBody_spec {g : GenericGraph T A} (hg : g.WF) (incl : Bool) {i : Nat} (hi : i < g.nextId) {F : ℕ → ℚ}
    (hF : IsFlow g i F) {b : List ℚ} (hb : b.length = g.nextId) {s : LoadBuf} (hq0 : s.queue0 = []) (hq1 : s.queue1 = [])
    (ho : s.ordering = [])
    (h0 : i = 0 → s.bk = List.replicate g.nextId 1 ∧ s.distance = List.replicate g.nextId none ∧
      s.predecessor = List.replicate g.nextId []) :
    ∃ b' s', g.loadBody incl (b, s) i = .ok (b', s') ∧ b'.length = g.nextId ∧ s'.queue0 = [] ∧ s'.queue1 = [] ∧ s'.ordering = [] ∧
      ∀ u, b'[u]? = (b[u]?).map (fun x => if i ∈ sources g u then x + (F u - if incl then 0 else 1) else x) := by
  classical
  have hs0 : ∃ s0 : LoadBuf, (if i > 0 then (⟨s.queue0, s.queue1, s.ordering, List.replicate g.vertexCount 1,
      List.replicate g.vertexCount none, List.replicate g.vertexCount []⟩ : LoadBuf) else s) = s0 ∧
      s0 = ⟨[], [], [], List.replicate g.nextId 1, List.replicate g.nextId none, List.replicate g.nextId []⟩ := by
    refine ⟨_, rfl, ?_⟩
    cases s
    simp only at hq0 hq1 ho h0
    by_cases h : i > 0
    · simp [h, hq0, hq1, ho, GenericGraph.vertexCount]
    · have := h0 (by omega)
      simp [h, hq0, hq1, ho, this]
  obtain ⟨s0, e0, hs0⟩ := hs0
  have hput : Vec.put s0.distance i (some 0) = .ok ((List.replicate g.nextId none).set i (some 0)) := by
    rw [hs0, Vec.put_of_lt (by simpa using hi)]
  have hI : LoadI g i 0 { s0 with queue0 := s0.queue0 ++ [i], distance := (List.replicate g.nextId none).set i (some 0) } := by
    have hget : ∀ k d, ((List.replicate g.nextId (none : Option Nat)).set i (some 0))[k]? = some (some d) ↔ k = i ∧ d = 0 := by
      intro k d
      by_cases hk : k = i
      · subst hk; simp [hi, eq_comm]
      · simp [List.getElem?_set_ne (Ne.symm hk), hk, List.getElem?_replicate]
    refine ⟨?_, by simp, by simp [hs0], ?_, ?_, by simp [hs0], by simp⟩
    · simp only [hs0, List.nil_append, List.reverse_nil]
      apply BfsInv.init
      intro v
      simp only [hget]
      exact ⟨fun ⟨_, h, _⟩ => h, fun h => ⟨0, h, rfl⟩⟩
    · intro k d hk
      obtain ⟨rfl, rfl⟩ := (hget k d).mp hk
      simp
    · intro k p hk
      simp only [hs0, List.getElem?_replicate] at hk
      split at hk
      · simp at hk; subst hk; simp [hs0]
      · simp at hk
  obtain ⟨s1, d1, e1, h1, h2, h3⟩ := loadBfs_spec hg (g.vertexCount + 1) 0 _ hI (by simp [hs0, GenericGraph.vertexCount])
  have hd := h1.done hg h2
  have hne : s1.ordering ≠ [] := by
    intro h
    have := hd.last
    simp [h] at this
  obtain ⟨b', bk', e2, l2, g2⟩ := loadDown_spec hg hd hF incl s1.ordering [] b s1.bk rfl hne hb (by rw [h3, hs0]; simp)
    (by
      intro u hu
      rw [h3, hs0]
      simp [hu])
  refine ⟨b', { s1 with ordering := [], bk := bk' }, ?_, l2, h2, h1.empty h2, rfl, ?_⟩
  · unfold GenericGraph.loadBody
    simp only
    rw [e0]
    simp only [hput, Res.ok_bind, e1, e2, Res.pure_eq]
  · intro u
    rw [g2]
    congr 1
    funext x
    have : (u ∈ s1.ordering ∧ u ≠ i) ↔ i ∈ sources g u := by
      rw [hd.mem, sources, Finset.mem_filter, Finset.mem_range]
      exact ⟨fun ⟨h, h'⟩ => ⟨hi, Ne.symm h', h⟩, fun ⟨_, h', h⟩ => ⟨h, Ne.symm h'⟩⟩
    simp only [this]

/-- In exact arithmetic `vertex_load` sums over all sources the flow through a vertex (without its own unit for
`include_endpoints = false`); it never panics and never divides by zero. -/
theorem C22_vertex_load {g : GenericGraph T A} (hg : g.WF) {F : ℕ → ℕ → ℚ} (hF : ∀ s, IsFlow g s (F s)) (incl : Bool) :
    g.vertexLoad incl = .ok ((List.range g.vertexCount).map (fun v =>
      ∑ s ∈ sources g v, (F s v - if incl then 0 else 1))) := by
  classical
  obtain ⟨⟨b, s⟩, e, h1, h2, h3, h4, -, h5⟩ := foldlM_range (f := g.loadBody incl) g.nextId
    (fun i (st : List ℚ × LoadBuf) => st.1.length = g.nextId ∧ st.2.queue0 = [] ∧ st.2.queue1 = [] ∧ st.2.ordering = [] ∧
      (i = 0 → st.2.bk = List.replicate g.nextId 1 ∧ st.2.distance = List.replicate g.nextId none ∧
        st.2.predecessor = List.replicate g.nextId []) ∧
      ∀ v, v < g.nextId → st.1[v]? = some (∑ s ∈ (sources g v).filter (· < i), (F s v - if incl then 0 else 1)))
    (by
      rintro i ⟨b, s⟩ hi ⟨h1, h2, h3, h4, h5, h6⟩
      obtain ⟨b', s', e, a1, a2, a3, a4, a5⟩ := loadBody_spec hg incl hi (hF i) h1 h2 h3 h4 h5
      refine ⟨(b', s'), e, a1, a2, a3, a4, fun h => absurd h (Nat.succ_ne_zero i), ?_⟩
      intro v hv
      show b'[v]? = _
      rw [a5, h6 v hv, Option.map_some]
      congr 1
      by_cases hc : i ∈ sources g v
      · rw [if_pos hc]
        have : (sources g v).filter (· < i + 1) = insert i ((sources g v).filter (· < i)) := by
          ext x
          simp only [Finset.mem_filter, Finset.mem_insert]
          constructor
          · rintro ⟨x1, x2⟩
            by_cases hx : x = i
            · exact Or.inl hx
            · exact Or.inr ⟨x1, by omega⟩
          · rintro (rfl | ⟨x1, x2⟩)
            · exact ⟨hc, by omega⟩
            · exact ⟨x1, by omega⟩
        rw [this, Finset.sum_insert (by simp), add_comm]
      · rw [if_neg hc]
        have : (sources g v).filter (· < i + 1) = (sources g v).filter (· < i) := by
          apply Finset.filter_congr
          intro x hx
          have : x ≠ i := fun e => hc (e ▸ hx)
          omega
        rw [this])
    (s := (List.replicate g.nextId 0, ⟨[], [], [], List.replicate g.nextId 1, List.replicate g.nextId none, List.replicate g.nextId []⟩))
    (by
      refine ⟨by simp, rfl, rfl, rfl, fun _ => ⟨rfl, rfl, rfl⟩, ?_⟩
      intro v hv
      simp [hv])
  unfold GenericGraph.vertexLoad
  simp only [GenericGraph.vertexCount, e, Res.ok_bind, Res.pure_eq]
  congr 1
  have h1 : b.length = g.nextId := h1
  apply List.ext_getElem
  · simp [h1]
  · intro v hv hv'
    have hv : v < g.nextId := by omega
    have := h5 v hv
    have hlt : (sources g v).filter (· < g.nextId) = sources g v := by
      apply Finset.filter_true_of_mem
      intro x hx
      rw [sources, Finset.mem_filter, Finset.mem_range] at hx
      exact hx.1
    rw [hlt] at this
    obtain ⟨_, this⟩ := List.getElem?_eq_some_iff.mp this
    simp only [List.getElem_map, List.getElem_range]
    exact this

/-- Conservation: the flow towards `s` through the other vertices adds up to the sum of the distances. -/
private theorem flow_total {g : GenericGraph T A} (hg : g.WF) {s : Nat} {F : ℕ → ℚ} (hF : IsFlow g s F) :
    ∑ v ∈ (Finset.range g.vertexCount).filter (fun v => 1 ≤ g.toSimple.dist s v), F v =
      ∑ v ∈ Finset.range g.vertexCount, (g.toSimple.dist s v : ℚ) := by
  classical
  have hreach : ∀ v, 1 ≤ g.toSimple.dist s v → g.toSimple.Reachable s v := by
    intro v hv
    by_contra hc
    rw [SimpleGraph.dist_eq_zero_of_not_reachable hc] at hv
    omega
  let R : Nat → Finset ℕ := fun k => (Finset.range g.vertexCount).filter (fun v => k ≤ g.toSimple.dist s v)
  have hR : ∀ k v, v ∈ R k ↔ v < g.vertexCount ∧ k ≤ g.toSimple.dist s v := by
    intro k v; simp [R]
  have hstep : ∀ k, 1 ≤ k → ∑ v ∈ R k, F v = ((R k).card : ℚ) + ∑ w ∈ R (k + 1), F w := by
    intro k hk
    have h1 : ∑ v ∈ R k, F v = ∑ v ∈ R k, (1 + ∑ w ∈ farther g s v, F w / ((closer g s w).card : ℚ)) := by
      apply Finset.sum_congr rfl
      intro v hv
      rw [hR] at hv
      exact hF v (hreach v (by omega))
    rw [h1, Finset.sum_add_distrib, Finset.sum_const, nsmul_eq_mul, mul_one]
    congr 1
    have hswap : ∑ v ∈ R k, ∑ w ∈ farther g s v, F w / ((closer g s w).card : ℚ) =
        ∑ w ∈ R (k + 1), ∑ _v ∈ closer g s w, F w / ((closer g s w).card : ℚ) := by
      apply Finset.sum_comm'
      intro v w
      rw [hR, hR, mem_farther_iff hg, mem_closer_iff hg]
      constructor
      · rintro ⟨⟨h1, h2⟩, h3, h4⟩
        exact ⟨⟨h3, h4⟩, hg.lt _ _ (hg.adj_iff.mp h3), by omega⟩
      · rintro ⟨⟨h3, h4⟩, h1, h2⟩
        exact ⟨⟨hg.lt_left (hg.adj_iff.mp h3), by omega⟩, h3, h4⟩
    rw [hswap]
    apply Finset.sum_congr rfl
    intro w hw
    rw [hR] at hw
    have hne : w ≠ s := by rintro rfl; rw [SimpleGraph.dist_self] at hw; omega
    have hc : ((closer g s w).card : ℚ) ≠ 0 := by
      exact_mod_cast Finset.card_ne_zero.mpr (closer_nonempty hg (hreach w (by omega)) hne)
    rw [Finset.sum_const, nsmul_eq_mul]
    field_simp
  have key : ∀ j k, 1 ≤ k → horizon g s - k = j → ∑ v ∈ R k, F v = ∑ v ∈ R k, ((g.toSimple.dist s v : ℚ) - k + 1) := by
    intro j
    induction j with
    | zero =>
      intro k hk hj
      have : R k = ∅ := by
        apply Finset.eq_empty_of_forall_notMem
        intro v hv
        rw [hR] at hv
        have := dist_lt_horizon hg s v
        omega
      rw [this]; simp
    | succ j ih =>
      intro k hk hj
      rw [hstep k hk, ih (k + 1) (by omega) (by omega)]
      rw [show ∑ v ∈ R k, ((g.toSimple.dist s v : ℚ) - k + 1) = (R k).card + ∑ v ∈ R k, ((g.toSimple.dist s v : ℚ) - k) by
        rw [Finset.sum_add_distrib, add_comm]; simp]
      congr 1
      have hsub : R (k + 1) ⊆ R k := by
        intro v hv; rw [hR] at hv ⊢; omega
      rw [← Finset.sum_subset hsub]
      · apply Finset.sum_congr rfl
        intro v _
        push_cast; ring
      · intro v h1 h2
        rw [hR] at h1 h2
        have : g.toSimple.dist s v = k := by omega
        rw [this, sub_self]
  have h1 := key _ 1 (le_refl 1) rfl
  refine h1.trans ?_
  have hsub : R 1 ⊆ Finset.range g.vertexCount := Finset.filter_subset _ _
  rw [← Finset.sum_subset hsub]
  · apply Finset.sum_congr rfl
    intro v _
    push_cast; ring
  · intro v h1 h2
    rw [hR] at h2
    rw [Finset.mem_range] at h1
    have : g.toSimple.dist s v = 0 := by omega
    rw [this]; simp

private theorem sum_range_map (n : Nat) (f : ℕ → ℚ) : ((List.range n).map f).sum = ∑ v ∈ Finset.range n, f v := by
  induction n with
  | zero => simp
  | succ n ih => rw [List.range_succ, List.map_append, List.sum_append, ih, Finset.sum_range_succ]; simp

/-- The loads add up to the sum of the distances over all ordered pairs of connected vertices; without endpoints every pair of
different vertices counts one less. -/
theorem C22_total_load {g : GenericGraph T A} (hg : g.WF) :
    ∃ b b', g.vertexLoad true = .ok b ∧ g.vertexLoad false = .ok b' ∧
      b.sum = ∑ s ∈ Finset.range g.vertexCount, ∑ v ∈ Finset.range g.vertexCount, (g.toSimple.dist s v : ℚ) ∧
      b'.sum = b.sum - ∑ v ∈ Finset.range g.vertexCount, ((sources g v).card : ℚ) := by
  classical
  choose F hF using fun s => (C22_flow_exists_unique hg s).1
  refine ⟨_, _, C22_vertex_load hg hF true, C22_vertex_load hg hF false, ?_, ?_⟩
  · rw [sum_range_map]
    simp only [if_true, sub_zero]
    have : ∑ v ∈ Finset.range g.vertexCount, ∑ s ∈ sources g v, F s v =
        ∑ s ∈ Finset.range g.vertexCount, ∑ v ∈ (Finset.range g.vertexCount).filter (fun v => 1 ≤ g.toSimple.dist s v), F s v := by
      apply Finset.sum_comm'
      intro v s
      simp only [sources, Finset.mem_filter, Finset.mem_range]
      have : (s ≠ v ∧ g.toSimple.Reachable s v) ↔ 1 ≤ g.toSimple.dist s v := by
        constructor
        · rintro ⟨h1, h2⟩
          exact h2.pos_dist_of_ne h1
        · intro h
          refine ⟨?_, ?_⟩
          · rintro rfl; rw [SimpleGraph.dist_self] at h; omega
          · by_contra hc
            rw [SimpleGraph.dist_eq_zero_of_not_reachable hc] at h
            omega
      rw [this]
      tauto
    rw [this]
    apply Finset.sum_congr rfl
    intro s _
    exact flow_total hg (hF s)
  · rw [sum_range_map, sum_range_map, ← Finset.sum_sub_distrib]
    apply Finset.sum_congr rfl
    intro v _
    simp [Finset.sum_sub_distrib]

/-- The documented values for the complete graph: `N - 1` with and `0` without endpoints. -/
theorem C22_complete_graph {g : GenericGraph T A} (hg : g.WF)
    (hc : ∀ u v, u < g.vertexCount → v < g.vertexCount → u ≠ v → g.toSimple.Adj u v) :
    g.vertexLoad true = .ok (List.replicate g.vertexCount ((g.vertexCount : ℚ) - 1)) ∧
    g.vertexLoad false = .ok (List.replicate g.vertexCount 0) := by
  classical
  choose F hF using fun s => (C22_flow_exists_unique hg s).1
  have hfar : ∀ s v, s < g.vertexCount → v < g.vertexCount → s ≠ v → F s v = 1 := by
    intro s v hs hv hne
    have hadj := hc s v hs hv hne
    rw [hF s v hadj.reachable]
    have : farther g s v = ∅ := by
      apply Finset.eq_empty_of_forall_notMem
      intro w hw
      obtain ⟨h1, h2⟩ := (mem_farther_iff hg).mp hw
      have hw : w < g.vertexCount := hg.lt _ _ (hg.adj_iff.mp h1)
      have h3 : g.toSimple.dist s v = 1 := SimpleGraph.dist_eq_one_iff_adj.mpr hadj
      by_cases hsw : s = w
      · subst hsw; rw [SimpleGraph.dist_self] at h2; omega
      · have := SimpleGraph.dist_eq_one_iff_adj.mpr (hc s w hs hw hsw)
        omega
    rw [this]; simp
  have hsrc : ∀ v, v < g.vertexCount → sources g v = (Finset.range g.vertexCount).erase v := by
    intro v hv
    ext s
    simp only [sources, Finset.mem_filter, Finset.mem_range, Finset.mem_erase]
    constructor
    · rintro ⟨h1, h2, _⟩; exact ⟨h2, h1⟩
    · rintro ⟨h2, h1⟩; exact ⟨h1, h2, (hc s v h1 hv h2).reachable⟩
  constructor
  · rw [C22_vertex_load hg hF true]
    congr 1
    rw [List.eq_replicate_iff]
    refine ⟨by simp, ?_⟩
    intro x hx
    obtain ⟨v, hv, rfl⟩ := List.mem_map.mp hx
    rw [List.mem_range] at hv
    rw [hsrc v hv, Finset.sum_congr rfl (g := fun _ => (1 : ℚ))]
    · rw [Finset.sum_const, nsmul_eq_mul, mul_one, Finset.card_erase_of_mem (Finset.mem_range.mpr hv), Finset.card_range,
        Nat.cast_sub (by omega), Nat.cast_one]
    · intro s hs
      rw [Finset.mem_erase, Finset.mem_range] at hs
      simp [hfar s v hs.2 hv hs.1]
  · rw [C22_vertex_load hg hF false]
    congr 1
    rw [List.eq_replicate_iff]
    refine ⟨by simp, ?_⟩
    intro x hx
    obtain ⟨v, hv, rfl⟩ := List.mem_map.mp hx
    rw [List.mem_range] at hv
    rw [hsrc v hv]
    apply Finset.sum_eq_zero
    intro s hs
    rw [Finset.mem_erase, Finset.mem_range] at hs
    simp [hfar s v hs.2 hv hs.1]

example : exTail.WF ∧ (∃ F : ℕ → ℕ → ℚ, ∀ s, IsFlow exTail s (F s)) := by
  refine ⟨exTail_wf, ?_⟩
  choose F hF using fun s => (C22_flow_exists_unique exTail_wf s).1
  exact ⟨F, hF⟩

end Verif
