import Verif.Lemmas.ClosedForm
import Verif.Props.Connect
import Verif.Props.WsLaw
import Mathlib.Tactic.FieldSimp
import Mathlib.Tactic.Linarith
import Mathlib.Tactic.Positivity

/-!
# C78: the measures on the graphs with known values
-/

set_option linter.unusedSectionVars false
set_option linter.unusedSimpArgs false

namespace Verif
open AdjContainer GenericGraph Classical

variable {T A : Type} [AdjContainer T A] [LawfulAdj T A]

theorem ring_diameter {g : GenericGraph T A} (h : g.WF) {n d : ℕ} (hn : g.vertexCount = n) (h0 : 0 < n) (hd : 1 ≤ d)
    (hr : IsRing g.toSimple n d) : g.diameter = .ok (some ((n / 2 + (d - 1)) / d)) := by
  subst hn
  obtain ⟨D, h1, h2, v, w, hv, hw, h3⟩ := C18_diameter h h0 (fun v w hv hw => hr.reachable hd hv hw)
  rw [h1]
  congr 2
  apply Nat.le_antisymm
  · rw [← h3, hr.dist_eq hd hv hw]
    exact Nat.div_le_div_right (Nat.add_le_add_right (circDist_le_half hv hw) _)
  · have := h2 0 (g.vertexCount / 2) h0 (by omega)
    rw [hr.dist_eq hd h0 (by omega), circDist_eq h0 (by omega)] at this
    refine le_trans (le_of_eq ?_) this
    congr 2
    omega

theorem ring_components {g : GenericGraph T A} (h : g.WF) {n d : ℕ} (hn : g.vertexCount = n) (h0 : 0 < n) (hd : 1 ≤ d)
    (hr : IsRing g.toSimple n d) : g.isConnected = .ok (some true) ∧ g.connectedComponents = .ok [n] := by
  subst hn
  obtain ⟨b, R, D, h1, h2, h3, _, h5, h6⟩ := C76_connected h h0
  rw [ring_diameter h rfl h0 hd hr] at h3
  cases h3
  have hb : b = true := h6.mpr rfl
  rw [h1, h2, hb, h5.mp hb]
  exact ⟨rfl, rfl⟩

/-- The sum of the distances from any vertex of the ring. -/
theorem ring_dist_sum {G : SimpleGraph ℕ} {n d : ℕ} (hr : IsRing G n d) (hd : 1 ≤ d) {v : ℕ} (hv : v < n) :
    ∑ w ∈ Finset.range n, G.dist v w = ∑ a ∈ Finset.range n, (min a (n - a) + (d - 1)) / d := by
  symm
  refine Finset.sum_bij (fun a _ => (v + a) % n) ?_ ?_ ?_ ?_
  · intro a _
    exact Finset.mem_range.mpr (Nat.mod_lt _ (by omega))
  · intro a ha b hb e
    exact mod_add_inj hv (Finset.mem_range.mp ha) (Finset.mem_range.mp hb) e
  · intro w hw
    rw [Finset.mem_range] at hw
    by_cases hvw : v ≤ w
    · exact ⟨w - v, Finset.mem_range.mpr (by omega), by rw [show v + (w - v) = w by omega, Nat.mod_eq_of_lt hw]⟩
    · exact ⟨w + n - v, Finset.mem_range.mpr (by omega), by
        rw [show v + (w + n - v) = w + n by omega, Nat.add_mod_right, Nat.mod_eq_of_lt hw]⟩
  · intro a ha
    rw [Finset.mem_range] at ha
    have hlt := Nat.mod_lt (v + a) (show n > 0 by omega)
    rw [hr.dist_eq hd hv hlt, circDist_eq hv hlt]
    congr 2
    rcases add_mod_cases hv ha with e | e <;> omega

/-- Every vertex of the ring has `2d` neighbours. -/
theorem IsRing.card_adj {G : SimpleGraph ℕ} {n d : ℕ} (h : IsRing G n d) (hn : 2 * d + 1 ≤ n) {v : ℕ} (hv : v < n) :
    ((Finset.range n).filter (fun w => G.Adj v w)).card = 2 * d := by
  have h2d : 2 * d < n := by omega
  have hmid := window_mid (n := n) (d := d) hv
  have : (Finset.range n).filter (fun w => G.Adj v w) = ((Finset.range (2 * d + 1)).erase d).image (window n d v) := by
    ext w
    rw [Finset.mem_filter, Finset.mem_range, Finset.mem_image, h]
    constructor
    · rintro ⟨hw, _, _, hne, hc⟩
      obtain ⟨x, hx, rfl⟩ := window_surj h2d hv hw hc
      refine ⟨x, ?_, rfl⟩
      rw [Finset.mem_erase, Finset.mem_range]
      refine ⟨?_, by omega⟩
      rintro rfl
      exact hne hmid.symm
    · rintro ⟨x, hx, rfl⟩
      rw [Finset.mem_erase, Finset.mem_range] at hx
      have hlt := window_lt h2d hv (show x ≤ 2 * d by omega)
      have hdist := window_dist h2d hv (show d ≤ 2 * d by omega) (show x ≤ 2 * d by omega)
      rw [hmid] at hdist
      refine ⟨hlt, hv, hlt, ?_, by omega⟩
      intro e
      have := window_inj h2d hv (show d ≤ 2 * d by omega) (show x ≤ 2 * d by omega) (hmid.trans e)
      omega
  rw [this, Finset.card_image_of_injOn, Finset.card_erase_of_mem (Finset.mem_range.mpr (by omega)), Finset.card_range,
    Nat.add_sub_cancel]
  intro x hx y hy e
  have hx' := Finset.mem_range.mp (Finset.mem_of_mem_erase (Finset.mem_coe.mp hx))
  have hy' := Finset.mem_range.mp (Finset.mem_of_mem_erase (Finset.mem_coe.mp hy))
  exact window_inj h2d hv (by omega) (by omega) e

/-- The values of the measures on the ring of `n` vertices joined up to distance `d`. -/
structure RingValues (g : GenericGraph T A) (n d : ℕ) : Prop where
  connected : g.isConnected = .ok (some true)
  components : g.connectedComponents = .ok [n]
  diameter : g.diameter = .ok (some ((n / 2 + (d - 1)) / d))
  core : ∀ q, 2 ≤ q → g.qCore q = .ok (some (if q ≤ 2 * d then n else 0))
  blocks : ∀ b, g.vertexBiconnectedComponents b = .ok [n]
  leaves : g.leafCount = 0
  average : g.averageDegree = some (2 * d : ℚ)
  closeness : g.closenessCentrality = .ok (List.replicate n (n - 1, ∑ a ∈ Finset.range n, (min a (n - a) + (d - 1)) / d))
  transitivity : 3 * d + 1 ≤ n → ∃ c p, g.transitivity = .ok (c, p) ∧ 0 < p ∧ (c : ℚ) / p = 3 * (d - 1) / (2 * (2 * d - 1))

theorem ring_values {g : GenericGraph T A} (h : g.WF) {d : ℕ} (hd : 1 ≤ d) (hn : 2 * d + 1 ≤ g.vertexCount)
    (hr : IsRing g.toSimple g.vertexCount d) : RingValues g g.vertexCount d := by
  have h0 : 0 < g.vertexCount := by omega
  obtain ⟨c1, c2⟩ := ring_components h rfl h0 hd hr
  have hreach : ∀ v w, v < g.vertexCount → w < g.vertexCount → g.toSimple.Reachable v w := fun v w hv hw => hr.reachable hd hv hw
  have hcard : ∀ v < g.vertexCount, ((Finset.range g.vertexCount).filter (fun w => g.toSimple.Adj v w)).card = 2 * d :=
    fun v hv => hr.card_adj hn hv
  have hnc : ∀ v < g.vertexCount, {w | g.toSimple.Adj v w}.ncard = 2 * d := by
    intro v hv
    rw [← hcard v hv, ← Set.ncard_coe_finset]
    congr 1
    ext w
    rw [Set.mem_ofPred_eq, Finset.mem_coe, Finset.mem_filter, Finset.mem_range]
    exact ⟨fun e => ⟨h.lt_left (h.adj_iff.mp e.symm), e⟩, fun e => e.2⟩
  refine ⟨c1, c2, ring_diameter h rfl h0 hd hr, ?_, ?_, ?_, ?_, ?_, ?_⟩
  · intro q hq
    exact qCore_regular h hq h0 hreach hcard
  · have hs := single_of_biSet h (hr.biSet hd (by omega))
    intro b
    cases b
    · exact hs
    · rw [C21_alternative g hs, List.filter_cons, if_pos (by simp; omega), List.filter_nil]
  · rw [C26_leaf_count h]
    have : {v | v < g.vertexCount ∧ {w | g.toSimple.Adj v w}.ncard = 1} = ∅ := by
      ext v
      simp only [Set.mem_ofPred_eq, Set.mem_empty_iff_false, iff_false]
      rintro ⟨hv, e⟩
      rw [hnc v hv] at e
      omega
    rw [this, Set.ncard_empty]
  · have hsum := (C26_degrees h).2.2.1
    rw [(C26_degrees h).2.1, List.map_congr_left (g := fun _ => 2 * d) (fun v hv => hnc v (List.mem_range.mp hv)),
      List.map_const', List.length_range, List.sum_replicate, smul_eq_mul] at hsum
    rw [C26_average_degree h, if_neg (by omega), ← (C26_degrees h).2.2.2, Option.some.injEq]
    have e1 : (g.vertexCount : ℚ) ≠ 0 := by exact_mod_cast h0.ne'
    have e2 : (g.vertexCount : ℚ) * (2 * d) = 2 * (g.edgeCount : ℚ) := by exact_mod_cast hsum
    rw [← e2]
    field_simp
  · obtain ⟨L, l1, l2, l3⟩ := C23_closeness h h0
    rw [l1]
    congr 1
    rw [List.eq_replicate_iff]
    refine ⟨l2, ?_⟩
    intro x hx
    obtain ⟨v, hv, e⟩ := List.getElem_of_mem hx
    rw [l2] at hv
    have h8 := l3 v hv
    rw [List.getElem?_eq_getElem (by rw [l2]; exact hv), Option.some.injEq, e] at h8
    rw [h8, Finset.filter_true_of_mem (fun w hw => hreach v w hv (Finset.mem_range.mp hw)), ring_dist_sum hr hd hv]
  · intro h3d
    have ht := C24_transitivity h
    rw [hr.triangles h3d, paths_regular hcard] at ht
    refine ⟨_, _, ht, Nat.mul_pos h0 (Nat.mul_pos (by omega) (by omega)), ?_⟩
    have e1 : ((g.vertexCount : ℕ) : ℚ) ≠ 0 := by exact_mod_cast h0.ne'
    have e2 : (d : ℚ) ≠ 0 := by exact_mod_cast (show d ≠ 0 by omega)
    have e3 : (2 * d - 1 : ℚ) ≠ 0 := by
      have : (1 : ℚ) ≤ d := by exact_mod_cast hd
      intro e
      linarith
    push_cast [Nat.cast_sub hd, Nat.cast_sub (show 1 ≤ 2 * d by omega)]
    field_simp

/-- **C78.** The values after `init_ring(d)`, `1 ≤ d`, `2d + 1 ≤ n`, whatever the edges were before. -/
theorem C78_ring {g : GenericGraph T A} (h : g.WF) (d : ℕ) (hd : 1 ≤ d) (hn : 2 * d + 1 ≤ g.vertexCount) :
    ∃ g', g.initRing d = .ok (.ok (), g') ∧ RingValues g' g.vertexCount d := by
  obtain ⟨g', h1, h2, h3, _, _, h6, _⟩ := C07_init_ring h d hn
  refine ⟨g', h1, ?_⟩
  rw [← h3]
  rw [← h3] at hn h6
  exact ring_values h2 hd hn h6

theorem thrown_no_heads {R α : Type} [Rng R] {p : ℚ} (hp : ∀ r : R, (coin r p).1 = false) {r r' : R} {L D : List α}
    (h : Thrown p r L D r') : D = [] := by
  induction h with
  | nil => rfl
  | @heads r _ _ _ _ _ h1 _ _ =>
    have := hp r
    rw [h1] at this
    cases this
  | tails _ _ ih => exact ih

/-- Without heads nothing is rewired. -/
theorem rewires_no_heads {R : Type} [Rng R] {p : ℚ} {n : ℕ} (hp : ∀ r : R, (coin r p).1 = false) {E E' : Finset (Sym2 ℕ)}
    {org org' : Sym2 ℕ → Sym2 ℕ} {r r' : R} {vs : List ℕ} (h : Rewires p n E org r vs E' org' r') : E' = E := by
  induction h with
  | nil => rfl
  | @cons E E1 E2 org org1 org2 r r1 r2 r3 i vs L D _ _ hT hP _ ih =>
    have hD := thrown_no_heads hp hT
    subst hD
    cases hP
    rw [ih]
    simp

/-- **C78.** The values for a `SmallWorldWS` whose coins never show heads, as for a negative probability. -/
theorem C78_ws {T R : Type} [Rng R] [Node T] {fuel n d : ℕ} (hn : n < 2 ^ 32) (hd : 1 ≤ d) {p : ℚ} (hp : ∀ r : R, (coin r p).1 = false)
    {rng : R} {e : Ws T R} (he : Ws.new fuel n d p rng = .ok (.ok e)) : RingValues e.graph n d := by
  obtain ⟨h1, h2, E, org, h3, h4, _⟩ := C65_ws_new_law hn he
  have hv := ((C45_ws_new (T := T) fuel n d hn p rng).2 e he).1
  have hE := rewires_no_heads hp h3
  subst hE
  have hw := hv.wf
  subst h2
  refine ring_values hw hd h1 ?_
  intro i j
  rw [hw.adj_iff, ← hw.mem_edges, h4]
  exact Ws.mem_ringSet.trans (ring_adj_iff h1)

example : (∀ r : Script, (coin r (-1)).1 = false) ∧ ∃ (fuel : ℕ) (rng : Script) (e : Ws Nat Script), Ws.new fuel 7 2 (-1) rng = .ok (.ok e) := by
  refine ⟨?_, (C46_ws_returns_iff 7 2 (by decide) (by decide) (-1)).mpr (Or.inl (by decide))⟩
  intro r
  simp only [coin, decide_eq_false_iff_not, not_le]
  have : (0 : ℚ) ≤ ((Rng.genUnit r).1 : ℚ) / 2 ^ 53 := by positivity
  linarith

/-- **C78.** `complete_graph(n)`, `n ≥ 2`. -/
theorem C78_complete [Node T] (n : ℕ) (hn : 2 ≤ n) :
    ∃ g : Graph T, completeGraph n = .ok g ∧ g.isConnected = .ok (some true) ∧ g.connectedComponents = .ok [n] ∧
      g.diameter = .ok (some 1) ∧ (∀ q, 2 ≤ q → g.qCore q = .ok (some (if q < n then n else 0))) ∧
      g.vertexBiconnectedComponents false = .ok [n] ∧ g.leafCount = (if n = 2 then 2 else 0) ∧
      g.averageDegree = some ((n : ℚ) - 1) ∧ g.closenessCentrality = .ok (List.replicate n (n - 1, n - 1)) ∧
      g.transitivity = .ok (n * ((n - 1) * (n - 2)), n * ((n - 1) * (n - 2))) := by
  obtain ⟨g, h1, h2, h3, h4, h5, _⟩ := (C08_complete_graph (T := T) n).1 (by omega)
  have hd : 1 ≤ n / 2 := by omega
  have hr : IsRing g.toSimple n (n / 2) := by
    intro i j
    rw [h5]
    constructor
    · rintro ⟨hi, hj, hij⟩
      exact ⟨hi, hj, hij, circDist_le_half hi hj⟩
    · rintro ⟨hi, hj, hij, _⟩
      exact ⟨hi, hj, hij⟩
  obtain ⟨c1, c2⟩ := ring_components h2 h3 (by omega) hd hr
  have hcard : ∀ v < g.vertexCount, ((Finset.range g.vertexCount).filter (fun w => g.toSimple.Adj v w)).card = n - 1 := by
    intro v hv
    rw [h3] at hv ⊢
    have : (Finset.range n).filter (fun w => g.toSimple.Adj v w) = (Finset.range n).erase v := by
      ext w
      rw [Finset.mem_filter, Finset.mem_erase, Finset.mem_range, h5]
      constructor
      · rintro ⟨hw, _, _, e⟩
        exact ⟨fun e' => e e'.symm, hw⟩
      · rintro ⟨e, hw⟩
        exact ⟨hw, hv, hw, fun e' => e e'.symm⟩
    rw [this, Finset.card_erase_of_mem (Finset.mem_range.mpr hv), Finset.card_range]
  have hnc : ∀ v < g.vertexCount, {w | g.toSimple.Adj v w}.ncard = n - 1 := by
    intro v hv
    rw [← hcard v hv, ← Set.ncard_coe_finset]
    congr 1
    ext w
    rw [Set.mem_ofPred_eq, Finset.mem_coe, Finset.mem_filter, Finset.mem_range, h3, h5]
    tauto
  have hreach : ∀ v w, v < g.vertexCount → w < g.vertexCount → g.toSimple.Reachable v w := by
    intro v w hv hw
    rw [h3] at hv hw
    exact hr.reachable hd hv hw
  refine ⟨g, h1, c1, c2, ?_, ?_, ?_, ?_, ?_, ?_, ?_⟩
  · rw [ring_diameter h2 h3 (by omega) hd hr]
    congr 2
    rw [Nat.div_eq_iff (by omega)]
    omega
  · intro q hq
    rw [qCore_regular h2 hq (by rw [h3]; omega) hreach hcard, h3]
    congr 2
    by_cases hqn : q < n
    · rw [if_pos hqn, if_pos (by omega)]
    · rw [if_neg hqn, if_neg (by omega)]
  · have := single_of_biSet h2 (by rw [h3]; exact hr.biSet hd hn)
    rwa [h3] at this
  · rw [C26_leaf_count h2]
    split
    · rename_i e
      subst e
      have : {v | v < g.vertexCount ∧ {w | g.toSimple.Adj v w}.ncard = 1} = (Finset.range 2 : Set ℕ) := by
        ext v
        rw [Set.mem_ofPred_eq, Finset.mem_coe, Finset.mem_range]
        constructor
        · rintro ⟨hv, _⟩
          rwa [h3] at hv
        · intro hv
          have hv' : v < g.vertexCount := by rw [h3]; exact hv
          exact ⟨hv', hnc v hv'⟩
      rw [this, Set.ncard_coe_finset, Finset.card_range]
    · have : {v | v < g.vertexCount ∧ {w | g.toSimple.Adj v w}.ncard = 1} = ∅ := by
        ext v
        simp only [Set.mem_ofPred_eq, Set.mem_empty_iff_false, iff_false]
        rintro ⟨hv, e⟩
        rw [hnc v hv] at e
        omega
      rw [this, Set.ncard_empty]
  · have hsum := (C26_degrees h2).2.2.1
    rw [(C26_degrees h2).2.1, List.map_congr_left (g := fun _ => n - 1) (fun v hv => hnc v (List.mem_range.mp hv)),
      List.map_const', List.length_range, List.sum_replicate, smul_eq_mul, h3] at hsum
    rw [C26_average_degree h2, if_neg (by rw [h3]; omega), ← (C26_degrees h2).2.2.2, h3, Option.some.injEq]
    have e1 : (n : ℚ) ≠ 0 := by exact_mod_cast (show n ≠ 0 by omega)
    have e2 : (n : ℚ) * (n - 1) = 2 * (g.edgeCount : ℚ) := by
      have := congrArg (Nat.cast : ℕ → ℚ) hsum
      push_cast [Nat.cast_sub (show 1 ≤ n by omega)] at this
      exact this
    rw [← e2]
    field_simp
  · obtain ⟨L, l1, l2, l3⟩ := C23_closeness h2 (by rw [h3]; omega)
    rw [l1]
    congr 1
    rw [List.eq_replicate_iff]
    refine ⟨by rw [l2, h3], ?_⟩
    intro x hx
    obtain ⟨v, hv, e⟩ := List.getElem_of_mem hx
    rw [l2] at hv
    have h8 := l3 v hv
    rw [List.getElem?_eq_getElem (by rw [l2]; exact hv), Option.some.injEq, e] at h8
    rw [h8, Finset.filter_true_of_mem (fun w hw => hreach v w hv (Finset.mem_range.mp hw)), h3]
    rw [h3] at hv
    congr 1
    rw [← Finset.add_sum_erase _ _ (Finset.mem_range.mpr hv), SimpleGraph.dist_self, Nat.zero_add,
      Finset.sum_congr rfl (g := fun _ => 1), Finset.sum_const, Finset.card_erase_of_mem (Finset.mem_range.mpr hv), Finset.card_range,
      smul_eq_mul, Nat.mul_one]
    intro w hw
    rw [Finset.mem_erase, Finset.mem_range] at hw
    exact SimpleGraph.dist_eq_one_iff_adj.mpr ((h5 v w).mpr ⟨hv, hw.2, fun e => hw.1 e.symm⟩)
  · have ht := C24_transitivity h2
    have hp := paths_regular (G := g.toSimple) hcard
    rw [show n - 1 - 1 = n - 2 by omega] at hp
    rw [ht, hp, Finset.filter_congr (q := fun t => g.toSimple.Adj t.1 t.2.1 ∧ g.toSimple.Adj t.2.1 t.2.2 ∧ t.1 ≠ t.2.2), hp, h3]
    rintro ⟨x, y, z⟩ ht
    simp only [Finset.mem_product, Finset.mem_range, h3] at ht
    constructor
    · rintro ⟨a, b, c, _⟩
      exact ⟨a, b, c⟩
    · rintro ⟨a, b, c⟩
      exact ⟨a, b, c, (h5 x z).mpr ⟨ht.1, ht.2.2, c⟩⟩

/-- Cases: the ring of 7 places with distance 2, and the complete graph with 4 vertices, computed. -/
example : ∃ g', (GenericGraph.new 7 : Graph Nat).initRing 2 = .ok (.ok (), g') ∧ g'.diameter = .ok (some 2) ∧ g'.qCore 4 = .ok (some 7) ∧
    g'.qCore 5 = .ok (some 0) ∧ g'.vertexBiconnectedComponents true = .ok [7] ∧ g'.transitivity = .ok (42, 84) := by
  refine ⟨_, rfl, ?_, ?_, ?_, ?_, ?_⟩ <;> decide +kernel

example : ∃ g : Graph Nat, completeGraph 4 = .ok g ∧ g.diameter = .ok (some 1) ∧ g.qCore 3 = .ok (some 4) ∧
    g.vertexBiconnectedComponents false = .ok [4] ∧ g.transitivity = .ok (24, 24) := by
  refine ⟨_, rfl, ?_, ?_, ?_, ?_⟩ <;> decide +kernel

end Verif
