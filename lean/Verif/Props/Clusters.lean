import Verif.Props.Gilbert

/-!
# C109: how many components of which size
-/

set_option linter.unusedSectionVars false
set_option linter.unusedSimpArgs false

namespace Verif
open MeasureTheory ProbabilityTheory Filter AdjContainer GenericGraph Classical

variable {T : Type}

theorem isCluster_iff {U K : Finset ℕ} {v : ℕ} {E : Finset (Sym2 ℕ)} (hK : K ⊆ U) (hv : v ∈ K) : IsCluster U E K ↔ compOf U v E = K := by
  constructor
  · rintro ⟨_, _, h⟩
    ext y
    rw [compOf, Finset.mem_filter]
    exact ⟨fun ⟨h1, h2⟩ => (h v hv y h1).mpr h2, fun hy => ⟨hK hy, (h v hv y (hK hy)).mp hy⟩⟩
  · intro h
    have hm : ∀ y, y ∈ K ↔ y ∈ U ∧ (ofEdges E).Reachable v y := fun y => by rw [← h, compOf, Finset.mem_filter]
    refine ⟨hK, ⟨v, hv⟩, fun x hx y hy => ?_⟩
    have hx' := ((hm x).mp hx).2
    rw [hm]
    exact ⟨fun h1 => hx'.symm.trans h1.2, fun h1 => ⟨hy, hx'.trans h1⟩⟩

/-- The entries of `connected_components` are the sizes of the clusters. -/
theorem C109_cluster_count {g : Graph T} (h : g.WF) :
    ∃ R, g.connectedComponents = .ok R ∧ ∀ s, 0 < s → R.count s = clusterCount (Finset.range g.vertexCount) s g.edges := by
  obtain ⟨R, h1, _, h3⟩ := connectedComponents_spec h
  refine ⟨R, h1, fun s hs => ?_⟩
  rw [← Multiset.coe_count, h3, Multiset.count_map]
  show ((componentSet g).val.filter fun c => s = componentSize g c).card = _
  rw [← Finset.filter_val, ← Finset.card_def, clusterCount]
  have hmem : ∀ c x, x ∈ (Finset.range g.vertexCount).filter (fun v => g.toSimple.connectedComponentMk v = c) ↔
      x < g.vertexCount ∧ g.toSimple.connectedComponentMk x = c := fun c x => by rw [Finset.mem_filter, Finset.mem_range]
  refine Finset.card_bij (fun c _ => (Finset.range g.vertexCount).filter (fun v => g.toSimple.connectedComponentMk v = c)) ?_ ?_ ?_
  · intro c hc
    obtain ⟨hc1, hc2⟩ := Finset.mem_filter.mp hc
    rw [componentSet, Finset.mem_image] at hc1
    obtain ⟨v, hv, rfl⟩ := hc1
    rw [Finset.mem_filter, Finset.mem_powersetCard]
    refine ⟨⟨Finset.filter_subset _ _, ?_⟩, Finset.filter_subset _ _, ⟨v, Finset.mem_filter.mpr ⟨hv, rfl⟩⟩, ?_⟩
    · rw [componentSize] at hc2
      exact hc2.symm
    · intro x hx y hy
      have hx2 := ((hmem _ x).mp hx).2
      rw [hmem, ← hx2, ofEdges, ← toSimple_eq_fromEdgeSet h]
      constructor
      · rintro ⟨_, e⟩
        exact (SimpleGraph.ConnectedComponent.exact e).symm
      · intro hr
        exact ⟨Finset.mem_range.mp hy, SimpleGraph.ConnectedComponent.sound hr.symm⟩
  · intro c hc c' hc' e
    obtain ⟨hc1, _⟩ := Finset.mem_filter.mp hc
    rw [componentSet, Finset.mem_image] at hc1
    obtain ⟨v, hv, rfl⟩ := hc1
    have hv' := (hmem (g.toSimple.connectedComponentMk v) v).mpr ⟨Finset.mem_range.mp hv, rfl⟩
    have e' : (Finset.range g.vertexCount).filter (fun w => g.toSimple.connectedComponentMk w = g.toSimple.connectedComponentMk v) =
        (Finset.range g.vertexCount).filter (fun w => g.toSimple.connectedComponentMk w = c') := e
    rw [e'] at hv'
    exact ((hmem _ _).mp hv').2
  · intro K hK
    rw [Finset.mem_filter, Finset.mem_powersetCard] at hK
    obtain ⟨⟨hK1, hK2⟩, _, ⟨v, hv⟩, hK3⟩ := hK
    have e : (Finset.range g.vertexCount).filter (fun w => g.toSimple.connectedComponentMk w = g.toSimple.connectedComponentMk v) = K := by
      ext y
      rw [hmem]
      constructor
      · rintro ⟨h4, h5⟩
        refine (hK3 v hv y (Finset.mem_range.mpr h4)).mpr ?_
        rw [ofEdges, ← toSimple_eq_fromEdgeSet h]
        exact (SimpleGraph.ConnectedComponent.exact h5).symm
      · intro hy
        have := (hK3 v hv y (hK1 hy)).mp hy
        rw [ofEdges, ← toSimple_eq_fromEdgeSet h] at this
        exact ⟨Finset.mem_range.mp (hK1 hy), SimpleGraph.ConnectedComponent.sound this.symm⟩
    refine ⟨g.toSimple.connectedComponentMk v, ?_, e⟩
    rw [Finset.mem_filter, componentSet, Finset.mem_image]
    refine ⟨⟨v, hK1 hv, rfl⟩, ?_⟩
    rw [componentSize, ← hK2, ← e]

/-- The mean of the number of clusters, from the weight of the edge sets in which a given set is one. -/
theorem lawMean_clusters {n s : ℕ} {Ω : Finset (Finset (Sym2 ℕ))} {w : Finset (Sym2 ℕ) → ENNReal} {c : ℝ}
    (hc : ∀ K ⊆ Finset.range n, K.card = s + 1 → ∀ v ∈ K, ∑ S ∈ Ω with compOf (Finset.range n) v S = K, (w S).toReal = c) :
    lawMean Ω w (fun E => (clusterCount (Finset.range n) (s + 1) E : ℝ)) = n.choose (s + 1) * c := by
  have h1 : ∀ S ∈ Ω, (w S).toReal * (clusterCount (Finset.range n) (s + 1) S : ℝ) =
      ∑ K ∈ (Finset.range n).powersetCard (s + 1), if IsCluster (Finset.range n) S K then (w S).toReal else 0 := by
    intro S _
    rw [← Finset.sum_filter, Finset.sum_const, nsmul_eq_mul, mul_comm]
    rfl
  unfold lawMean
  rw [Finset.sum_congr rfl h1, Finset.sum_comm]
  have h2 : ∀ K ∈ (Finset.range n).powersetCard (s + 1), ∑ S ∈ Ω, (if IsCluster (Finset.range n) S K then (w S).toReal else 0) = c := by
    intro K hK
    obtain ⟨hK1, hK2⟩ := Finset.mem_powersetCard.mp hK
    obtain ⟨v, hv⟩ : K.Nonempty := Finset.card_pos.mp (by omega)
    rw [← Finset.sum_filter, ← hc K hK1 hK2 v hv]
    exact Finset.sum_congr (Finset.filter_congr fun S _ => isCluster_iff hK1 hv) fun _ _ => rfl
  rw [Finset.sum_congr rfl h2, Finset.sum_const, Finset.card_powersetCard, Finset.card_range, nsmul_eq_mul]

/-- **C109, `ErEnsembleC`, cluster sizes.**  The mean number of components with `s + 1` vertices after `randomize` (entries of
`connected_components` equal to `s + 1`, by `C109_cluster_count`), which is also the limit of the average over repeated calls. -/
theorem C109_er_c_clusters {e : ErC T Stream} (h : e.graph.WF) {n : ℕ} (hn : e.graph.vertexCount = n + 1) (s : ℕ) :
    ∃ X, Sampled (fun _ => ErC.randomize) (fun e => e.graph.edges) (fun r => { e with rng := r })
      (pairSet (n + 1)).powerset (edgesLaw (n + 1) (fun _ => headProb e.prob)) X ∧
    (∀ i, ∫ ω, (clusterCount (Finset.range (n + 1)) (s + 1) (X i ω) : ℝ) ∂uniformTape =
      ((n + 1).choose (s + 1) : ℝ) *
        ((gilbert (headProb e.prob) s * (1 - headProb e.prob) ^ ((s + 1) * (n - s)) : ℚ) : ℝ)) ∧
    ∀ᵐ ω ∂uniformTape, Tendsto (fun N : ℕ => (∑ i ∈ Finset.range N, (clusterCount (Finset.range (n + 1)) (s + 1) (X i ω) : ℝ)) / N) atTop
      (nhds (((n + 1).choose (s + 1) : ℝ) *
        ((gilbert (headProb e.prob) s * (1 - headProb e.prob) ^ ((s + 1) * (n - s)) : ℚ) : ℝ))) := by
  obtain ⟨X, hX⟩ := C94_er_c_independent h
  rw [hn] at hX
  have hm : lawMean (pairSet (n + 1)).powerset (edgesLaw (n + 1) (fun _ => headProb e.prob))
      (fun E => (clusterCount (Finset.range (n + 1)) (s + 1) E : ℝ)) = ((n + 1).choose (s + 1) : ℝ) *
        ((gilbert (headProb e.prob) s * (1 - headProb e.prob) ^ ((s + 1) * (n - s)) : ℚ) : ℝ) := by
    refine lawMean_clusters fun K hK1 hK2 v hv => ?_
    have h1 := sum_compOf (headProb e.prob) (1 - headProb e.prob) hK1 hv
    have hsd : (Finset.range (n + 1) \ K).card = n - s := by
      rw [Finset.card_sdiff_of_subset hK1, Finset.card_range, hK2]; omega
    rw [connectWeight_eq _ _ s K hK2, connectRec_gilbert, add_sub_cancel, one_pow, mul_one, hK2, hsd, pairsIn_range] at h1
    rw [← h1, Rat.cast_sum]
    refine Finset.sum_congr rfl fun S hS => ?_
    rw [edgesLaw, ENNReal.toReal_ofReal (by exact_mod_cast indepProb_nonneg (fun _ => headProb_nonneg _) (fun _ => headProb_le_one _) S),
      indepProb_const (Finset.mem_powerset.mp (Finset.mem_filter.mp hS).1), edgeWeight, pairsIn_range]
  refine ⟨X, hX, fun i => ?_, ?_⟩
  · rw [← hm]; exact hX.integral (fun E => (clusterCount (Finset.range (n + 1)) (s + 1) E : ℝ)) i
  · rw [← hm]; exact hX.average (fun E => (clusterCount (Finset.range (n + 1)) (s + 1) E : ℝ))

open Polynomial in
/-- The number of graphs with `m` edges in which the component of `v` is `K`. -/
theorem compGraphs_eq {n s v m : ℕ} {K : Finset ℕ} (hK1 : K ⊆ Finset.range (n + 1)) (hK2 : K.card = s + 1) (hv : v ∈ K) :
    (((pairSet (n + 1)).powersetCard m).filter (fun E => compOf (Finset.range (n + 1)) v E = K)).card =
      ∑ j : Fin (m + 1), connectedGraphs s j * (pairCount (n - s)).choose (m - j) := by
  have hsd : (Finset.range (n + 1) \ K).card = n - s := by
    rw [Finset.card_sdiff_of_subset hK1, Finset.card_range, hK2]; omega
  have h1 := sum_compOf (X : ℤ[X]) 1 hK1 hv
  rw [connectWeight_eq _ _ s K hK2, card_pairsIn, hsd] at h1
  have h2 := congrArg (fun P : ℤ[X] => P.coeff m) h1
  simp only [one_pow, mul_one] at h2
  have h4 := coeff_term (connectRec (X : ℤ[X]) 1 s) 1 ((n - s).choose 2) m (coeff_connectRec s)
  rw [Nat.cast_one, one_mul, one_mul] at h4
  rw [h4, finsetSum_coeff] at h2
  have h3 : ∀ E ∈ (pairsIn (Finset.range (n + 1))).powerset.filter (fun E => compOf (Finset.range (n + 1)) v E = K),
      (edgeWeight (X : ℤ[X]) 1 (Finset.range (n + 1)) E).coeff m = if E.card = m then 1 else 0 := by
    intro E _
    rw [edgeWeight, one_pow, mul_one, coeff_X_pow]
    exact if_congr eq_comm rfl rfl
  rw [Finset.sum_congr rfl h3, Finset.sum_boole, Finset.filter_filter, pairsIn_range] at h2
  rw [pairCount_eq, ← Nat.cast_inj (R := ℤ), ← h2]
  congr 2
  ext E
  rw [Finset.mem_filter, Finset.mem_filter, Finset.mem_powerset, Finset.mem_powersetCard]
  exact ⟨fun ⟨⟨h1, h3⟩, h2⟩ => ⟨h1, h2, h3⟩, fun ⟨h1, h2, h3⟩ => ⟨⟨h1, h3⟩, h2⟩⟩

/-- **C109, `ErEnsembleM`, cluster sizes.** -/
theorem C109_er_m_clusters {e : ErM T Stream} (h : e.Inv) {n : ℕ} (hn : e.graph.vertexCount = n + 1) (s : ℕ) :
    ∃ X, Sampled (fun _ => ErM.randomize) (fun e => e.graph.edges) (fun r => { e with rng := r })
      ((pairSet (n + 1)).powersetCard e.m) (fun _ => (((pairCount (n + 1)).choose e.m : ℕ) : ENNReal)⁻¹) X ∧
    (∀ i, ∫ ω, (clusterCount (Finset.range (n + 1)) (s + 1) (X i ω) : ℝ) ∂uniformTape =
      ((n + 1).choose (s + 1) : ℝ) *
        (((∑ j : Fin (e.m + 1), connectedGraphs s j * (pairCount (n - s)).choose (e.m - j) : ℕ) : ℝ) / ((pairCount (n + 1)).choose e.m : ℝ))) ∧
    ∀ᵐ ω ∂uniformTape, Tendsto (fun N : ℕ => (∑ i ∈ Finset.range N, (clusterCount (Finset.range (n + 1)) (s + 1) (X i ω) : ℝ)) / N) atTop
      (nhds (((n + 1).choose (s + 1) : ℝ) *
        (((∑ j : Fin (e.m + 1), connectedGraphs s j * (pairCount (n - s)).choose (e.m - j) : ℕ) : ℝ) / ((pairCount (n + 1)).choose e.m : ℝ)))) := by
  obtain ⟨X, hX⟩ := C94_er_m_independent h
  rw [hn] at hX
  have hm : lawMean ((pairSet (n + 1)).powersetCard e.m) (fun _ => (((pairCount (n + 1)).choose e.m : ℕ) : ENNReal)⁻¹)
      (fun E => (clusterCount (Finset.range (n + 1)) (s + 1) E : ℝ)) = ((n + 1).choose (s + 1) : ℝ) *
        (((∑ j : Fin (e.m + 1), connectedGraphs s j * (pairCount (n - s)).choose (e.m - j) : ℕ) : ℝ) / ((pairCount (n + 1)).choose e.m : ℝ)) := by
    refine lawMean_clusters fun K hK1 hK2 v hv => ?_
    rw [Finset.sum_const, compGraphs_eq hK1 hK2 hv, nsmul_eq_mul, ENNReal.toReal_inv, ENNReal.toReal_natCast, div_eq_mul_inv]
  refine ⟨X, hX, fun i => ?_, ?_⟩
  · rw [← hm]; exact hX.integral (fun E => (clusterCount (Finset.range (n + 1)) (s + 1) E : ℝ)) i
  · rw [← hm]; exact hX.average (fun E => (clusterCount (Finset.range (n + 1)) (s + 1) E : ℝ))

/-- A case: the triangle with a tail and an isolated vertex has one cluster with four vertices and one with one. -/
example : exTail.WF ∧ clusterCount (Finset.range 5) 4 exTail.edges = 1 ∧ clusterCount (Finset.range 5) 1 exTail.edges = 1 ∧
    clusterCount (Finset.range 5) 2 exTail.edges = 0 := by
  obtain ⟨R, h1, h2⟩ := C109_cluster_count exTail_wf
  have h3 : exTail.connectedComponents = .ok [4, 1] := by decide
  rw [h3] at h1
  cases h1
  exact ⟨exTail_wf, (h2 4 (by decide)).symm, (h2 1 (by decide)).symm, (h2 2 (by decide)).symm⟩

example : ∃ e : ErM Nat Stream, e.Inv ∧ e.graph.vertexCount = 4 + 1 := by
  obtain ⟨e, _, h2, h3, _⟩ := ErM.new_spec (T := Nat) (n := 5) (m := 4) (by decide) (by decide) (⟨fun _ => 0, 0⟩ : Stream)
  exact ⟨e, h2, h3⟩

end Verif
