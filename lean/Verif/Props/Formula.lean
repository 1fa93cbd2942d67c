import Verif.Model.Formula
import Verif.Lemmas.TapeLaw
import Verif.Props.RandomLaw
import Verif.Props.Dog
import Mathlib.Analysis.InnerProductSpace.PiL2
import Mathlib.Analysis.SpecialFunctions.Pow.Asymptotics
import Mathlib.Analysis.SpecialFunctions.Complex.LogBounds

/-!
# Edge probabilities of the spatial ensembles (C71)

The formulas, the probability with which the throw of a pair succeeds, and the independence of the throws.
-/

set_option linter.unusedSectionVars false
set_option linter.unusedSimpArgs false

namespace Verif
open MeasureTheory ProbabilityTheory AdjContainer GenericGraph Filter Topology

variable {T : Type}

/-! ## The formulas -/

/-- The distance is the Euclidean distance. -/
theorem C71_distance_euclidean (p q : ℝ × ℝ) :
    hypotDist p q = dist (!₂[p.1, p.2] : EuclideanSpace ℝ (Fin 2)) !₂[q.1, q.2] := by
  rw [EuclideanSpace.dist_eq]
  simp only [hypotDist, Fin.sum_univ_two, Matrix.cons_val_zero, Matrix.cons_val_one, Real.dist_eq, sq_abs]
  congr 1
  ring

/-- So it is symmetric, zero exactly for equal positions, and satisfies the triangle inequality; in the unit square it is at most
`√2`. -/
theorem C71_distance_metric (p q s : ℝ × ℝ) :
    0 ≤ hypotDist p q ∧ hypotDist p q = hypotDist q p ∧ (hypotDist p q = 0 ↔ p = q) ∧
    hypotDist p s ≤ hypotDist p q + hypotDist q s ∧
    (p ∈ Set.Icc (0, 0) (1, 1) → q ∈ Set.Icc (0, 0) (1, 1) → hypotDist p q ≤ √2) := by
  refine ⟨Real.sqrt_nonneg _, ?_, ?_, ?_, ?_⟩
  · rw [C71_distance_euclidean, C71_distance_euclidean, dist_comm]
  · unfold hypotDist
    rw [Real.sqrt_eq_zero (by positivity)]
    constructor
    · intro h
      have h1 : (p.2 - q.2) ^ 2 = 0 := by nlinarith [sq_nonneg (p.2 - q.2), sq_nonneg (p.1 - q.1)]
      have h2 : (p.1 - q.1) ^ 2 = 0 := by nlinarith [sq_nonneg (p.2 - q.2), sq_nonneg (p.1 - q.1)]
      rw [pow_eq_zero_iff two_ne_zero, sub_eq_zero] at h1 h2
      exact Prod.ext h2 h1
    · rintro rfl; simp
  · simp only [C71_distance_euclidean]
    exact dist_triangle _ _ _
  · rintro ⟨⟨a1, a2⟩, a3, a4⟩ ⟨⟨b1, b2⟩, b3, b4⟩
    simp only at a1 a2 a3 a4 b1 b2 b3 b4
    apply Real.sqrt_le_sqrt
    nlinarith

theorem sqrt_npi_pos {n : ℕ} (hn : 0 < n) : 0 < √((n : ℝ) * Real.pi) := by
  apply Real.sqrt_pos.mpr
  have : (0 : ℝ) < n := by exact_mod_cast hn
  have := Real.pi_pos
  positivity

/-- **Formula of `SpacialEnsemble`.** For positive `alpha` and `f` the value is `f` at distance zero, positive, at most `f`,
strictly decreasing with the distance, and tends to zero. -/
theorem C71_spacial_formula {f α : ℝ} (hf : 0 < f) (hα : 0 < α) {n : ℕ} (hn : 0 < n) :
    spacialFormula f α n 0 = f ∧ (∀ d, 0 ≤ d → 0 < spacialFormula f α n d ∧ spacialFormula f α n d ≤ f) ∧
    StrictAntiOn (spacialFormula f α n) (Set.Ici 0) ∧ Tendsto (spacialFormula f α n) atTop (𝓝 0) := by
  have hs := sqrt_npi_pos hn
  have h0 : spacialFormula f α n 0 = f := by simp [spacialFormula]
  have hanti : StrictAntiOn (spacialFormula f α n) (Set.Ici 0) := by
    intro a ha b hb hab
    have ha' : 0 ≤ a := ha
    unfold spacialFormula
    apply mul_lt_mul_of_pos_left _ hf
    apply Real.rpow_lt_rpow_of_neg
    · positivity
    · have : √((n : ℝ) * Real.pi) * a / α < √((n : ℝ) * Real.pi) * b / α := by
        apply div_lt_div_of_pos_right _ hα
        exact mul_lt_mul_of_pos_left hab hs
      linarith
    · linarith
  refine ⟨h0, fun d hd => ⟨?_, ?_⟩, hanti, ?_⟩
  · unfold spacialFormula
    positivity
  · rcases hd.eq_or_lt with rfl | hlt
    · rw [h0]
    · have := hanti (Set.mem_Ici.mpr (le_refl 0)) (Set.mem_Ici.mpr hd) hlt
      rw [h0] at this
      exact this.le
  · have h1 : Tendsto (fun d : ℝ => 1 + √((n : ℝ) * Real.pi) * d / α) atTop atTop := by
      apply tendsto_atTop_add_const_left
      exact (tendsto_id.const_mul_atTop hs).atTop_div_const hα
    have h2 := (tendsto_rpow_neg_atTop hα).comp h1
    have h3 := h2.const_mul f
    rw [mul_zero] at h3
    exact h3

/-- For large `alpha` the formula becomes an exponential. -/
theorem C71_spacial_formula_limit (f : ℝ) (n : ℕ) (d : ℝ) :
    Tendsto (fun α => spacialFormula f α n d) atTop (𝓝 (f * Real.exp (-(√((n : ℝ) * Real.pi) * d)))) := by
  have h1 := (Real.tendsto_one_add_div_rpow_exp (√((n : ℝ) * Real.pi) * d)).inv₀ (Real.exp_pos _).ne'
  have h2 := h1.const_mul f
  rw [← Real.exp_neg] at h2
  refine h2.congr' ?_
  have hpos : ∀ᶠ α : ℝ in atTop, 0 ≤ 1 + √((n : ℝ) * Real.pi) * d / α := by
    have h3 : Tendsto (fun α : ℝ => 1 + √((n : ℝ) * Real.pi) * d / α) atTop (𝓝 (1 + 0)) :=
      tendsto_const_nhds.add (tendsto_const_nhds.div_atTop tendsto_id)
    rw [add_zero] at h3
    filter_upwards [h3.eventually (lt_mem_nhds (show (0 : ℝ) < 1 by norm_num))] with α hα
    exact hα.le
  filter_upwards [hpos] with α hα
  unfold spacialFormula
  rw [Real.rpow_neg hα]

/-- **Formula of `DogEnsemble`.** It is `1 - (1 - exp (-κ d))²`, the probability that at least one of two independent events of
probability `exp (-κ d)` happens; for positive `κ` it is one at distance zero, positive, at most one, strictly decreasing with the
distance, and tends to zero. -/
theorem C71_dog_formula {κ : ℝ} (hκ : 0 < κ) :
    (∀ d, dogFormula κ d = 1 - (1 - Real.exp (-(κ * d))) ^ 2) ∧ dogFormula κ 0 = 1 ∧
    (∀ d, 0 ≤ d → 0 < dogFormula κ d ∧ dogFormula κ d ≤ 1) ∧ StrictAntiOn (dogFormula κ) (Set.Ici 0) ∧
    Tendsto (dogFormula κ) atTop (𝓝 0) := by
  have hform : ∀ d, dogFormula κ d = 1 - (1 - Real.exp (-(κ * d))) ^ 2 := by
    intro d
    unfold dogFormula
    rw [show -d * κ = -(κ * d) by ring]
    ring
  have h0 : dogFormula κ 0 = 1 := by rw [hform]; simp
  have hE : ∀ d, 0 ≤ d → Real.exp (-(κ * d)) ≤ 1 := by
    intro d hd
    rw [Real.exp_le_one_iff]
    nlinarith
  refine ⟨hform, h0, fun d hd => ?_, ?_, ?_⟩
  · rw [hform]
    have h1 := Real.exp_pos (-(κ * d))
    have h2 := hE d hd
    constructor
    · nlinarith
    · nlinarith [sq_nonneg (1 - Real.exp (-(κ * d)))]
  · intro a ha b hb hab
    have ha' : 0 ≤ a := ha
    rw [hform, hform]
    have h1 : Real.exp (-(κ * b)) < Real.exp (-(κ * a)) := Real.exp_lt_exp.mpr (by nlinarith)
    have h2 := hE a ha'
    nlinarith
  · have h1 : Tendsto (fun d : ℝ => Real.exp (-(κ * d))) atTop (𝓝 0) := by
      apply Real.tendsto_exp_atBot.comp
      apply tendsto_neg_atTop_atBot.comp
      exact tendsto_id.const_mul_atTop hκ
    have h2 : Tendsto (fun d : ℝ => 1 - (1 - Real.exp (-(κ * d))) ^ 2) atTop (𝓝 (1 - (1 - 0) ^ 2)) :=
      tendsto_const_nhds.sub ((tendsto_const_nhds.sub h1).pow 2)
    simp only [sub_zero, one_pow, sub_self] at h2
    exact h2.congr (fun d => (hform d).symm)

example : (0 : ℝ) < 95 / 100 ∧ (0 : ℝ) < 3 ∧ (0 : ℕ) < 50 := ⟨by norm_num, by norm_num, by norm_num⟩

/-! ## The throws -/

theorem law_of_reads {ι : Type} {E : (ℕ → ℝ) → Finset (Sym2 ℕ)} {pair : ι → Sym2 ℕ} {k : ι → ℕ} (hk : Function.Injective k)
    (Q : ι → ℕ → Prop) [∀ i, DecidablePred (Q i)] (hE : ∀ ω i, pair i ∈ E ω ↔ Q i (partOf (ω (k i)) (2 ^ 53))) :
    iIndepSet (fun i => {ω | pair i ∈ E ω}) uniformTape ∧
    ∀ i, uniformTape {ω | pair i ∈ E ω} = (((Finset.range (2 ^ 53)).filter (Q i)).card : ENNReal) / 2 ^ 53 := by
  have h1 : ∀ i, {ω | pair i ∈ E ω} = {ω : ℕ → ℝ | ω (k i) ∈ {x : ℝ | Q i (partOf x (2 ^ 53))}} := by
    intro i
    ext ω
    exact hE ω i
  simp only [h1]
  refine ⟨tape_indep hk (fun i => measurableSet_partOf_pred _ (Q i)), fun i => ?_⟩
  rw [tape_one _ (measurableSet_partOf_pred _ (Q i)), volume_partOf_pred (Nat.two_pow_pos 53), ENNReal.div_eq_inv_mul, mul_comm]
  congr 2
  exact Nat.cast_pow 2 53

/-- The pairs of vertices `i < j < n`. -/
abbrev PairOf (n : ℕ) := {q : ℕ × ℕ // q.1 < q.2 ∧ q.2 < n}

theorem idx_allPairs {n : ℕ} : ∃ k : PairOf n → ℕ, Function.Injective k ∧ ∀ q, (allPairs n)[k q]? = some q.1 := by
  refine ⟨fun q => (allPairs n).idxOf q.1, ?_, ?_⟩
  · intro a b hab
    have ha : a.1 ∈ allPairs n := mem_allPairs.mpr a.2
    exact Subtype.ext ((List.idxOf_inj ha).mp hab)
  · intro q
    have hq : q.1 ∈ allPairs n := mem_allPairs.mpr q.2
    rw [List.getElem?_eq_getElem (List.idxOf_lt_length_iff.mpr hq), List.getElem_idxOf]

theorem allPairs_edges_nodup (n : ℕ) : ((allPairs n).map toEdge).Nodup := by
  apply List.Nodup.map_on _ (nodup_allPairs _)
  intro p hpp q hqq hpq
  exact toEdge_injOn hpp hqq hpq

/-- **Law of `SpacialEnsemble::randomize`.** With independent uniform draws the edges are independent events, and the edge between
`i` and `j` is present with the probability that a throw of a coin with the computed value succeeds. -/
theorem C71_spacial_edge_law {g : SpacialGraph T} (h : g.WF) (law : Pos → Pos → ℚ) :
    iIndepSet (fun q : PairOf g.vertexCount => {ω | ∃ e' : Spacial T Stream,
      Spacial.randomize ⟨g, ⟨ω, 0⟩, law⟩ = .ok e' ∧ s(q.1.1, q.1.2) ∈ e'.graph.edges}) uniformTape ∧
    ∀ q : PairOf g.vertexCount, uniformTape {ω | ∃ e' : Spacial T Stream,
      Spacial.randomize ⟨g, ⟨ω, 0⟩, law⟩ = .ok e' ∧ s(q.1.1, q.1.2) ∈ e'.graph.edges} =
        (heads (law (posAt (coords g) q.1.1) (posAt (coords g) q.1.2)) : ENNReal) / 2 ^ 53 := by
  obtain ⟨k, hk, hidx⟩ := idx_allPairs (n := g.vertexCount)
  have hrun : ∀ ω : ℕ → ℝ, ∃ e' : Spacial T Stream, Spacial.randomize ⟨g, ⟨ω, 0⟩, law⟩ = .ok e' ∧ e'.graph.edges =
      chosen (allPairs g.vertexCount) (throws (fun p => law (posAt (coords g) p.1) (posAt (coords g) p.2)) (allPairs g.vertexCount)
        (⟨ω, 0⟩ : Stream)).1 := by
    intro ω
    obtain ⟨e', h1, _, _, _, _, _, _, h8⟩ := Spacial.randomize_spec (e := (⟨g, ⟨ω, 0⟩, law⟩ : Spacial T Stream)) h
    exact ⟨e', h1, h8⟩
  choose run hrun1 hrun2 using hrun
  have hset : ∀ q : PairOf g.vertexCount, {ω | ∃ e' : Spacial T Stream,
      Spacial.randomize ⟨g, ⟨ω, 0⟩, law⟩ = .ok e' ∧ s(q.1.1, q.1.2) ∈ e'.graph.edges} =
        {ω | s(q.1.1, q.1.2) ∈ (run ω).graph.edges} := by
    intro q
    ext ω
    simp only [Set.mem_ofPred_eq]
    constructor
    · rintro ⟨e', h1, h2⟩
      rw [hrun1 ω] at h1
      cases h1
      exact h2
    · exact fun h2 => ⟨_, hrun1 ω, h2⟩
  simp only [hset]
  refine law_of_reads (E := fun ω => (run ω).graph.edges) (pair := fun q : PairOf g.vertexCount => s(q.1.1, q.1.2)) hk
    (fun q u => (u : ℚ) / 2 ^ 53 ≤ law (posAt (coords g) q.1.1) (posAt (coords g) q.1.2)) ?_
  intro ω q
  rw [hrun2 ω, mem_chosen_iff (allPairs_edges_nodup _) (hidx q) (throws_stream _ _ _ _ _ (hidx q)), decide_eq_true_iff]
  simp only [Nat.zero_add]

/-- **Law of `ErEnsembleC::randomize`**: independent edges, all with the same probability. -/
theorem C71_er_c_edge_law {g : Graph T} (h : g.WF) (p c : ℚ) :
    iIndepSet (fun q : PairOf g.vertexCount => {ω | ∃ e' : ErC T Stream,
      ErC.randomize ⟨g, p, c, ⟨ω, 0⟩⟩ = .ok e' ∧ s(q.1.1, q.1.2) ∈ e'.graph.edges}) uniformTape ∧
    ∀ q : PairOf g.vertexCount, uniformTape {ω | ∃ e' : ErC T Stream,
      ErC.randomize ⟨g, p, c, ⟨ω, 0⟩⟩ = .ok e' ∧ s(q.1.1, q.1.2) ∈ e'.graph.edges} = (heads p : ENNReal) / 2 ^ 53 := by
  obtain ⟨k, hk, hidx⟩ := idx_allPairs (n := g.vertexCount)
  have hrun : ∀ ω : ℕ → ℝ, ∃ e' : ErC T Stream, ErC.randomize ⟨g, p, c, ⟨ω, 0⟩⟩ = .ok e' ∧ e'.graph.edges =
      chosen (allPairs g.vertexCount) (throws (fun _ => p) (allPairs g.vertexCount) (⟨ω, 0⟩ : Stream)).1 := by
    intro ω
    obtain ⟨e', h1, _, _, _, _, _, _, h8⟩ := ErC.randomize_spec (e := (⟨g, p, c, ⟨ω, 0⟩⟩ : ErC T Stream)) h
    refine ⟨e', h1, ?_⟩
    rw [h8, coins_eq_throws]
    rfl
  choose run hrun1 hrun2 using hrun
  have hset : ∀ q : PairOf g.vertexCount, {ω | ∃ e' : ErC T Stream,
      ErC.randomize ⟨g, p, c, ⟨ω, 0⟩⟩ = .ok e' ∧ s(q.1.1, q.1.2) ∈ e'.graph.edges} =
        {ω | s(q.1.1, q.1.2) ∈ (run ω).graph.edges} := by
    intro q
    ext ω
    simp only [Set.mem_ofPred_eq]
    constructor
    · rintro ⟨e', h1, h2⟩
      rw [hrun1 ω] at h1
      cases h1
      exact h2
    · exact fun h2 => ⟨_, hrun1 ω, h2⟩
  simp only [hset]
  refine law_of_reads (E := fun ω => (run ω).graph.edges) (pair := fun q : PairOf g.vertexCount => s(q.1.1, q.1.2)) hk
    (fun _ u => (u : ℚ) / 2 ^ 53 ≤ p) ?_
  intro ω q
  rw [hrun2 ω, mem_chosen_iff (allPairs_edges_nodup _) (hidx q) (throws_stream _ _ _ _ _ (hidx q)), decide_eq_true_iff]
  simp only [Nat.zero_add]

/-! ## Rounding of the throws -/

/-- A value as a probability. -/
def clamp01 {K : Type} [Field K] [LinearOrder K] (x : K) : K := max 0 (min 1 x)

/-- The number of values of `Uniform::new(0.0, 1.0).sample` below `p`. -/
def headsLt (p : ℚ) : ℕ := ((Finset.range (2 ^ 52)).filter (fun u : ℕ => (u : ℚ) / 2 ^ 52 < p)).card

/-- Dropping the last bit. -/
theorem card_half (N : ℕ) (P : ℕ → Prop) [DecidablePred P] :
    ((Finset.range (N * 2)).filter (fun u => P (u / 2))).card = ((Finset.range N).filter P).card * 2 := by
  induction N with
  | zero => simp
  | succ N ih =>
    rw [show (N + 1) * 2 = N * 2 + 1 + 1 by ring, Finset.range_add_one, Finset.range_add_one (n := N * 2), Finset.filter_insert,
      Finset.filter_insert, Finset.range_add_one (n := N), Finset.filter_insert, show (N * 2 + 1) / 2 = N by omega,
      show N * 2 / 2 = N by omega]
    by_cases h : P N
    · rw [if_pos h, if_pos h, if_pos h, Finset.card_insert_of_notMem (by simp), Finset.card_insert_of_notMem (by simp),
        Finset.card_insert_of_notMem (by simp), ih]
      ring
    · rw [if_neg h, if_neg h, if_neg h, ih]

theorem headsLt_eq (p : ℚ) :
    ((((Finset.range (2 ^ 53)).filter (fun u : ℕ => ((u / 2 : ℕ) : ℚ) / 2 ^ 52 < p)).card : ℕ) : ENNReal) / 2 ^ 53 =
      (headsLt p : ENNReal) / 2 ^ 52 := by
  rw [show (2 : ℕ) ^ 53 = 2 ^ 52 * 2 by norm_num, card_half (2 ^ 52) (fun u : ℕ => (u : ℚ) / 2 ^ 52 < p), Nat.cast_mul,
    show (2 : ENNReal) ^ 53 = 2 ^ 52 * 2 from pow_succ 2 52, Nat.cast_ofNat, ENNReal.mul_div_mul_right _ _ two_ne_zero ENNReal.ofNat_ne_top]
  rfl

theorem range_filter_card {N : ℕ} {Q : ℕ → Prop} [DecidablePred Q] {t : ℕ} (hQ : ∀ u < N, Q u ↔ u < t) :
    ((Finset.range N).filter Q).card = min N t := by
  have : (Finset.range N).filter Q = Finset.range (min N t) := by
    ext u
    simp only [Finset.mem_filter, Finset.mem_range, lt_min_iff]
    constructor
    · rintro ⟨h1, h2⟩
      exact ⟨h1, (hQ u h1).mp h2⟩
    · rintro ⟨h1, h2⟩
      exact ⟨h1, (hQ u h1).mpr h2⟩
  rw [this, Finset.card_range]

theorem heads_close_aux {N : ℕ} (hN : 0 < N) (p : ℚ) :
    |((((Finset.range N).filter (fun u : ℕ => (u : ℚ) / N ≤ p)).card : ℕ) : ℚ) / N - clamp01 p| ≤ 1 / N ∧
    |((((Finset.range N).filter (fun u : ℕ => (u : ℚ) / N < p)).card : ℕ) : ℚ) / N - clamp01 p| ≤ 1 / N := by
  have hNq : (0 : ℚ) < N := by exact_mod_cast hN
  have h1N : (0 : ℚ) < 1 / N := by positivity
  rcases lt_or_ge p 0 with hp | hp
  · have e1 : ∀ u < N, ((u : ℚ) / N ≤ p ↔ u < 0) := by
      intro u _
      simp only [Nat.not_lt_zero, iff_false, not_le]
      exact lt_of_lt_of_le hp (by positivity)
    have e2 : ∀ u < N, ((u : ℚ) / N < p ↔ u < 0) := by
      intro u _
      simp only [Nat.not_lt_zero, iff_false, not_lt]
      exact le_of_lt (lt_of_lt_of_le hp (by positivity))
    have hc : clamp01 p = 0 := by
      unfold clamp01
      rw [max_eq_left]
      exact (min_le_right _ _).trans hp.le
    rw [range_filter_card e1, range_filter_card e2, hc]
    simp
  · have e1 : ∀ u < N, ((u : ℚ) / N ≤ p ↔ u < ⌊p * N⌋₊ + 1) := by
      intro u _
      rw [div_le_iff₀ hNq, Nat.lt_succ_iff, Nat.le_floor_iff (by positivity)]
    have e2 : ∀ u < N, ((u : ℚ) / N < p ↔ u < ⌈p * N⌉₊) := by
      intro u _
      rw [div_lt_iff₀ hNq, Nat.lt_ceil]
    rw [range_filter_card e1, range_filter_card e2]
    have hfl := Nat.floor_le (show 0 ≤ p * N by positivity)
    have hfl2 := Nat.lt_floor_add_one (p * N)
    have hce := Nat.le_ceil (p * N)
    have hce2 := Nat.ceil_lt_add_one (show 0 ≤ p * N by positivity)
    have hcl : clamp01 p = min 1 p := max_eq_right (le_min zero_le_one hp)
    have hmul : clamp01 p * N = min (N : ℚ) (p * N) := by
      rw [hcl, min_mul_of_nonneg _ _ hNq.le, one_mul]
    have key : ∀ t : ℕ, p * N ≤ t → (t : ℚ) ≤ p * N + 1 → |((min N t : ℕ) : ℚ) / N - clamp01 p| ≤ 1 / N := by
      intro t h1 h2
      rw [show ((min N t : ℕ) : ℚ) / N - clamp01 p = (((min N t : ℕ) : ℚ) - clamp01 p * N) / N by field_simp, abs_div,
        abs_of_pos hNq, div_le_div_iff_of_pos_right hNq, hmul, Nat.cast_min, abs_le]
      constructor
      · have : min (N : ℚ) (p * N) ≤ min (N : ℚ) t := min_le_min_left _ h1
        linarith
      · have : min (N : ℚ) t ≤ min (N : ℚ) (p * N) + 1 := by
          rw [← min_add_add_right]
          exact min_le_min (by linarith) h2
        linarith
    exact ⟨key _ (by push_cast; exact hfl2.le) (by push_cast; linarith), key _ hce hce2.le⟩

/-- The probability of success of a throw differs from the value by at most `2^-53`, the spacing of the values of `gen::<f64>()`, or
`2^-52`, the spacing of the values of `Uniform::new(0.0, 1.0)`. -/
theorem C71_throw_close (p : ℚ) :
    |(heads p : ℚ) / 2 ^ 53 - clamp01 p| ≤ 1 / 2 ^ 53 ∧ |(headsLt p : ℚ) / 2 ^ 52 - clamp01 p| ≤ 1 / 2 ^ 52 := by
  have h := heads_close_aux (Nat.two_pow_pos 53) p
  have hc : ((2 ^ 53 : ℕ) : ℚ) = 2 ^ 53 := Nat.cast_pow 2 53
  rw [hc] at h
  have h' := heads_close_aux (Nat.two_pow_pos 52) p
  have hc' : ((2 ^ 52 : ℕ) : ℚ) = 2 ^ 52 := Nat.cast_pow 2 52
  rw [hc'] at h'
  exact ⟨h.1, h'.2⟩

theorem clamp01_close {x y ε : ℝ} (h : |x - y| ≤ ε) : |clamp01 x - clamp01 y| ≤ ε := by
  refine le_trans ?_ h
  unfold clamp01
  rw [max_comm 0, max_comm 0, min_comm 1 x, min_comm 1 y]
  refine (abs_max_sub_max_le_abs _ _ _).trans ?_
  refine (abs_min_sub_min_le_max x 1 y 1).trans ?_
  simp

theorem cast_clamp01 (p : ℚ) : ((clamp01 p : ℚ) : ℝ) = clamp01 (p : ℝ) := by
  unfold clamp01
  push_cast
  rfl

theorem real_close {k b : ℕ} {p : ℚ} (h : |(k : ℚ) / 2 ^ b - clamp01 p| ≤ 1 / 2 ^ b) {y ε : ℝ} (hy : |(p : ℝ) - y| ≤ ε) :
    |((k : ENNReal) / 2 ^ b).toReal - clamp01 y| ≤ ε + 1 / 2 ^ b := by
  have h1 : |(k : ℝ) / 2 ^ b - clamp01 (p : ℝ)| ≤ 1 / 2 ^ b := by
    rw [← cast_clamp01]
    have := (Rat.cast_le (K := ℝ)).mpr h
    push_cast at this
    exact this
  have h2 := clamp01_close hy
  have h3 : ((k : ENNReal) / 2 ^ b).toReal = (k : ℝ) / 2 ^ b := by
    rw [ENNReal.toReal_div, ENNReal.toReal_natCast, ENNReal.toReal_pow]
    rfl
  rw [h3]
  calc _ = |((k : ℝ) / 2 ^ b - clamp01 (p : ℝ)) + (clamp01 (p : ℝ) - clamp01 y)| := by ring_nf
    _ ≤ _ := abs_add_le _ _
    _ ≤ _ := by linarith

/-- **Probability of an edge in `SpacialEnsemble`.** If the computed value of the formula differs from the exact one by at most `ε`,
then after `randomize` the edge between `i` and `j` is present with a probability that differs from
`f (1 + √(nπ) d / α)^(-α)` (as a probability: at most one) by at most `ε + 2^-53`. -/
theorem C71_spacial_edge_probability {g : SpacialGraph T} (h : g.WF) (law : Pos → Pos → ℚ) {f α ε : ℝ} {i j : ℕ} (hij : i < j)
    (hj : j < g.vertexCount) {xi yi xj yj : ℚ} (hpi : posAt (coords g) i = (some xi, some yi))
    (hpj : posAt (coords g) j = (some xj, some yj))
    (hlaw : |(law (some xi, some yi) (some xj, some yj) : ℝ) - spacialFormula f α g.vertexCount (hypotDist (xi, yi) (xj, yj))| ≤ ε) :
    |(uniformTape {ω | ∃ e' : Spacial T Stream, Spacial.randomize ⟨g, ⟨ω, 0⟩, law⟩ = .ok e' ∧ s(i, j) ∈ e'.graph.edges}).toReal -
      clamp01 (spacialFormula f α g.vertexCount (hypotDist (xi, yi) (xj, yj)))| ≤ ε + 1 / 2 ^ 53 := by
  have := (C71_spacial_edge_law h law).2 ⟨(i, j), hij, hj⟩
  simp only at this
  rw [this, hpi, hpj]
  exact real_close (C71_throw_close _).1 hlaw

theorem idx_lowPairs {n : ℕ} : ∃ k : PairOf n → ℕ, Function.Injective k ∧ ∀ q, (lowPairs n)[k q]? = some (q.1.2, q.1.1) := by
  refine ⟨fun q => (lowPairs n).idxOf (q.1.2, q.1.1), ?_, ?_⟩
  · intro a b hab
    have ha : (a.1.2, a.1.1) ∈ lowPairs n := mem_lowPairs.mpr a.2
    have := (List.idxOf_inj ha).mp hab
    simp only [Prod.mk.injEq] at this
    exact Subtype.ext (Prod.ext this.2 this.1)
  · intro q
    have hq : (q.1.2, q.1.1) ∈ lowPairs n := mem_lowPairs.mpr q.2
    rw [List.getElem?_eq_getElem (List.idxOf_lt_length_iff.mpr hq), List.getElem_idxOf]

/-- **Law of `DogEnsemble::randomize` without long-range edges** (`tau` so close to one that no vertex gets any): independent edges,
the edge between `i` and `j` is present with the probability that a throw with the computed value succeeds. -/
theorem C71_dog_edge_law {g : SpacialGraph T} (h : g.WF) (hn : 0 < g.vertexCount) (law : Pos → Pos → ℚ) {tau : ℚ}
    (htau : |1 - tau| * g.vertexCount < 1 / 2) {lambda : ℕ} (hl : 0 < lambda) (poisson : Stream → ℕ × Stream) (fuel : ℕ) :
    iIndepSet (fun q : PairOf g.vertexCount => {ω | ∃ e' : Dog T Stream,
      Dog.randomize fuel ⟨g, ⟨ω, 0⟩, law, tau, lambda, poisson⟩ = .ok e' ∧ s(q.1.1, q.1.2) ∈ e'.graph.edges}) uniformTape ∧
    ∀ q : PairOf g.vertexCount, uniformTape {ω | ∃ e' : Dog T Stream,
      Dog.randomize fuel ⟨g, ⟨ω, 0⟩, law, tau, lambda, poisson⟩ = .ok e' ∧ s(q.1.1, q.1.2) ∈ e'.graph.edges} =
        (headsLt (law (posAt (coords g) q.1.2) (posAt (coords g) q.1.1)) : ENNReal) / 2 ^ 52 := by
  obtain ⟨k, hk, hidx⟩ := idx_lowPairs (n := g.vertexCount)
  have hrun : ∀ ω : ℕ → ℝ, ∃ e' : Dog T Stream, Dog.randomize fuel ⟨g, ⟨ω, 0⟩, law, tau, lambda, poisson⟩ = .ok e' ∧
      e'.graph.edges = chosen (lowPairs g.vertexCount) (throwsLt (fun p => law (posAt (coords g) p.1) (posAt (coords g) p.2))
        (lowPairs g.vertexCount) (⟨ω, 0⟩ : Stream)).1 := by
    intro ω
    have hnum : (⟨g, ⟨ω, 0⟩, law, tau, lambda, poisson⟩ : Dog T Stream).numSpecial = 0 := by
      by_contra hc
      have h1 := lt_roundUsize.mp (Nat.pos_of_ne_zero hc)
      have h2 := le_abs_self (1 - tau)
      have h3 : (0 : ℚ) ≤ g.vertexCount := by positivity
      simp only [Nat.cast_zero, zero_add] at h1
      nlinarith
    obtain ⟨g', _, _, _, _, a5, a6⟩ := Dog.randomize_eq (e := (⟨g, ⟨ω, 0⟩, law, tau, lambda, poisson⟩ : Dog T Stream)) h fuel
      (by rw [hnum]; exact Nat.zero_le _) hl hn
    rw [show (⟨g, ⟨ω, 0⟩, law, tau, lambda, poisson⟩ : Dog T Stream).special = [] by unfold Dog.special; rw [hnum]; rfl] at a6
    exact ⟨_, a6, a5⟩
  choose run hrun1 hrun2 using hrun
  have hset : ∀ q : PairOf g.vertexCount, {ω | ∃ e' : Dog T Stream,
      Dog.randomize fuel ⟨g, ⟨ω, 0⟩, law, tau, lambda, poisson⟩ = .ok e' ∧ s(q.1.1, q.1.2) ∈ e'.graph.edges} =
        {ω | s(q.1.1, q.1.2) ∈ (run ω).graph.edges} := by
    intro q
    ext ω
    simp only [Set.mem_ofPred_eq]
    constructor
    · rintro ⟨e', h1, h2⟩
      rw [hrun1 ω] at h1
      cases h1
      exact h2
    · exact fun h2 => ⟨_, hrun1 ω, h2⟩
  simp only [hset]
  simp only [← headsLt_eq]
  refine law_of_reads (E := fun ω => (run ω).graph.edges) (pair := fun q : PairOf g.vertexCount => s(q.1.1, q.1.2)) hk
    (fun q u => ((u / 2 : ℕ) : ℚ) / 2 ^ 52 < law (posAt (coords g) q.1.2) (posAt (coords g) q.1.1)) ?_
  intro ω q
  have hm := mem_chosen_iff (lowPairs_nodup g.vertexCount) (hidx q) (throwsLt_stream
    (fun p => law (posAt (coords g) p.1) (posAt (coords g) p.2)) _ (⟨ω, 0⟩ : Stream) _ _ (hidx q))
  rw [Sym2.eq_swap, decide_eq_true_iff] at hm
  rw [hrun2 ω, hm]
  simp only [Nat.zero_add]

/-- **Probability of a short edge in `DogEnsemble`.** If the computed value differs from the exact one by at most `ε`, the edge
between `i` and `j` is present with a probability that differs from `1 - (1 - exp (-κ d))²` by at most `ε + 2^-52`. -/
theorem C71_dog_edge_probability {g : SpacialGraph T} (h : g.WF) (law : Pos → Pos → ℚ) {tau : ℚ}
    (htau : |1 - tau| * g.vertexCount < 1 / 2) {lambda : ℕ} (hl : 0 < lambda) (poisson : Stream → ℕ × Stream) (fuel : ℕ)
    {κ ε : ℝ} (hκ : 0 < κ) {i j : ℕ} (hij : i < j) (hj : j < g.vertexCount) {xi yi xj yj : ℚ}
    (hpi : posAt (coords g) i = (some xi, some yi)) (hpj : posAt (coords g) j = (some xj, some yj))
    (hlaw : |(law (some xj, some yj) (some xi, some yi) : ℝ) - dogFormula κ (hypotDist (xj, yj) (xi, yi))| ≤ ε) :
    |(uniformTape {ω | ∃ e' : Dog T Stream, Dog.randomize fuel ⟨g, ⟨ω, 0⟩, law, tau, lambda, poisson⟩ = .ok e' ∧
      s(i, j) ∈ e'.graph.edges}).toReal - (1 - (1 - Real.exp (-(κ * hypotDist (xi, yi) (xj, yj)))) ^ 2)| ≤ ε + 1 / 2 ^ 52 := by
  have := (C71_dog_edge_law h (by omega) law htau hl poisson fuel).2 ⟨(i, j), hij, hj⟩
  simp only at this
  obtain ⟨h1, h2, h3, h4⟩ := C71_distance_metric ((xi : ℝ), (yi : ℝ)) ((xj : ℝ), (yj : ℝ)) (0, 0)
  obtain ⟨f1, _, f3, _⟩ := C71_dog_formula hκ
  rw [this, hpi, hpj, ← f1, h2]
  have hc : clamp01 (dogFormula κ (hypotDist (xj, yj) (xi, yi))) = dogFormula κ (hypotDist (xj, yj) (xi, yi)) := by
    have := f3 _ (h2 ▸ h1)
    unfold clamp01
    rw [min_eq_right this.2, max_eq_right this.1.le]
  have := real_close (C71_throw_close _).2 hlaw
  rw [hc] at this
  exact this

example : exSpacial.graph.WF ∧ 0 < exSpacial.graph.vertexCount ∧ |1 - (1 : ℚ)| * exSpacial.graph.vertexCount < 1 / 2 ∧
    posAt (coords exSpacial.graph) 0 = (some 0, some 0) ∧ posAt (coords exSpacial.graph) 1 = (some (1 / 2), some (1 / 2)) := by
  refine ⟨exSpacial_wf, by decide, by norm_num, rfl, rfl⟩

end Verif
