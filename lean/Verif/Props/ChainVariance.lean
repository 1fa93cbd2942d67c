import Verif.Lemmas.ChainVariance
import Verif.Props.TwoLooks
import Mathlib.Algebra.Order.Chebyshev

/-!
# C108: the error of an average along one run

A program draws a network with `randomize`, makes `N` Markov steps and averages a sum over the edges, such as `edge_count` or a degree, over
the networks after the steps. The networks are correlated, so the variance of the average is larger than that of `N` independent networks.

* `_average`: the average has exactly the mean of the ensemble, and its variance is exactly
  `σ² (N (2τ - 1) - 2τ (τ - 1) (1 - (1 - 1/τ)^N)) / N²`, where `σ²` is the variance within one network, `τ` is the number of pairs for
  `ErEnsembleC` and `SpacialEnsemble`, and `m (M - m) / M` for `ErEnsembleM` with `M` pairs.
* `_bias`: without `randomize`, from any network on, the mean of the average differs from the mean of the ensemble by exactly
  `(τ - 1) (1 - (1 - 1/τ)^N) / N` times the deviation of the first network.
* `_error`: the average is closer than `δ` to the mean with probability at least `1 - σ² (2τ - 1) / (N δ²)`.
-/

set_option linter.unusedSectionVars false
set_option linter.unusedSimpArgs false

namespace Verif
open AdjContainer GenericGraph MeasureTheory ProbabilityTheory Markov

variable {T : Type}

theorem abs_rate_le {τ : ℚ} (hτ : 1 / 2 ≤ τ) : |1 - 1 / τ| ≤ 1 := by
  have h0 : 0 < τ := by linarith
  have h1 : 1 / τ ≤ 2 := by rw [div_le_iff₀ h0]; linarith
  have h2 : 0 < 1 / τ := by positivity
  rw [abs_le]
  constructor <;> linarith

/-- The exact variance is at most the one of long runs, or the one of independent networks. -/
theorem variance_le {σ τ : ℚ} (hσ : 0 ≤ σ) (hτ : 1 / 2 ≤ τ) {N : ℕ} (hN : 0 < N) :
    σ * (N * (2 * τ - 1) - 2 * τ * (τ - 1) * (1 - (1 - 1 / τ) ^ N)) / N ^ 2 ≤ σ * max 1 (2 * τ - 1) / N := by
  have hNq : (0 : ℚ) < N := by exact_mod_cast hN
  have h0 : 0 < τ := by linarith
  have hp : ∀ k : ℕ, |(1 - 1 / τ) ^ k| ≤ 1 := fun k => by rw [abs_pow]; exact pow_le_one₀ (abs_nonneg _) (abs_rate_le hτ)
  have hk : N * (2 * τ - 1) - 2 * τ * (τ - 1) * (1 - (1 - 1 / τ) ^ N) ≤ N * max 1 (2 * τ - 1) := by
    have h1 := (abs_le.mp (hp N)).2
    rcases le_total 1 τ with h2 | h2
    · rw [max_eq_right (by linarith)]
      have : 0 ≤ 2 * τ * (τ - 1) * (1 - (1 - 1 / τ) ^ N) :=
        mul_nonneg (mul_nonneg (by linarith) (by linarith)) (by linarith)
      linarith
    · rw [max_eq_left (by linarith), mul_one]
      have h3 : ∀ k : ℕ, τ * (1 - (1 - 1 / τ) ^ k) ≤ k := by
        intro k
        induction k with
        | zero => simp
        | succ k ih =>
          have h4 : τ * (1 - (1 - 1 / τ) ^ (k + 1)) = τ * (1 - (1 - 1 / τ) ^ k) + (1 - 1 / τ) ^ k := by
            rw [pow_succ]; field_simp; ring
          have h5 := (abs_le.mp (hp k)).2
          rw [h4]
          push_cast
          linarith
      have h6 := mul_le_mul_of_nonneg_left (h3 N) (by linarith : 0 ≤ 2 * (1 - τ))
      linarith
  rw [div_le_div_iff₀ (by positivity) hNq]
  have := mul_le_mul_of_nonneg_left hk (mul_nonneg hσ hNq.le)
  nlinarith

/-- Chebyshev's inequality with the simpler bound. -/
theorem HasMeanVar.error {prog : (ℕ → ℝ) → Res ℚ} {m σ τ : ℚ} {N : ℕ} (hσ : 0 ≤ σ) (hτ : 1 / 2 ≤ τ) (hN : 0 < N)
    (h : HasMeanVar prog m (σ * (N * (2 * τ - 1) - 2 * τ * (τ - 1) * (1 - (1 - 1 / τ) ^ N)) / N ^ 2)) {δ : ℚ} (hδ : 0 < δ) :
    1 - ((σ * max 1 (2 * τ - 1) / (N * δ ^ 2) : ℚ) : ℝ) ≤ (uniformTape {ω | ∃ v, prog ω = .ok v ∧ |v - m| < δ}).toReal := by
  refine le_trans ?_ (h.near δ hδ)
  have h1 := div_le_div_of_nonneg_right (variance_le hσ hτ hN) (by positivity : 0 ≤ δ ^ 2)
  rw [div_div (σ * max 1 (2 * τ - 1))] at h1
  have h2 := (Rat.cast_le (K := ℝ)).mpr h1
  linarith

theorem one_le_pairs {n : ℕ} (hn : 2 ≤ n) : (1 : ℚ) ≤ ((n * (n - 1) / 2 : ℕ) : ℚ) := by
  exact_mod_cast pairs_pos hn

/-! ## `ErEnsembleC` -/

/-- The mean and the variance of the average over `N` steps. `M` is the number of pairs. -/
theorem C108_er_c_average {e : ErC T Stream} (h : e.graph.WF) {n M : ℕ} (hn : 2 ≤ n) (hen : e.graph.vertexCount = n) (hM : M = n * (n - 1) / 2)
    (a : Sym2 ℕ → ℚ) {N : ℕ} (hN : 0 < N) (k : ℕ) {q : ℚ} (hq : q = headProb e.prob) :
    HasMeanVar (fun ω => randomAverage ErC.randomize ErC.mStep (fun e => ∑ x ∈ e.graph.edges, a x) N { e with rng := (⟨ω, k⟩ : Stream) })
      (q * ∑ x ∈ pairSet n, a x)
      (q * (1 - q) * (∑ x ∈ pairSet n, a x ^ 2) * (N * (2 * M - 1) - 2 * M * (M - 1) * (1 - (1 - 1 / (M : ℚ)) ^ N)) / N ^ 2) := by
  subst hen hM hq
  have h1 := (ErC.looks hn e.prob (e₀ := ⟨e.graph, e.prob, e.cTarget, ⟨[]⟩⟩) h rfl rfl).average_program
    (fF := fun e => ∑ x ∈ e.graph.edges, a x) (f := fun S => ∑ x ∈ S, a x) (fun _ _ => rfl)
    (μ := ∑ x ∈ pairSet e.graph.vertexCount, a x * headProb e.prob)
    (τ := ((e.graph.vertexCount * (e.graph.vertexCount - 1) / 2 : ℕ) : ℚ)) (by linarith [one_le_pairs hn])
    (fun t e' he => by rw [ErC.sum_rate hn _ a t e' he, card_pairSet])
    (indep_variance (n := e.graph.vertexCount) (fun _ => headProb e.prob) a) hN (c := e.core') ⟨h, rfl, rfl⟩ k
  rw [← Finset.sum_mul, ← Finset.sum_mul] at h1
  rw [mul_comm (headProb e.prob) (∑ x ∈ _, a x), mul_comm (_ * (1 - _)) (∑ x ∈ _, a x ^ 2)]
  exact h1

/-- The probability that the average is closer than `δ` to the mean. -/
theorem C108_er_c_error {e : ErC T Stream} (h : e.graph.WF) {n M : ℕ} (hn : 2 ≤ n) (hen : e.graph.vertexCount = n) (hM : M = n * (n - 1) / 2)
    (a : Sym2 ℕ → ℚ) {N : ℕ} (hN : 0 < N) (k : ℕ) {q : ℚ} (hq : q = headProb e.prob) {δ : ℚ} (hδ : 0 < δ) :
    1 - ((q * (1 - q) * (∑ x ∈ pairSet n, a x ^ 2) * (2 * M - 1) / (N * δ ^ 2) : ℚ) : ℝ) ≤
      (uniformTape {ω | ∃ v, randomAverage ErC.randomize ErC.mStep (fun e => ∑ x ∈ e.graph.edges, a x) N { e with rng := (⟨ω, k⟩ : Stream) } =
        .ok v ∧ |v - q * ∑ x ∈ pairSet n, a x| < δ}).toReal := by
  have hM1 : (1 : ℚ) ≤ M := by rw [hM]; exact one_le_pairs hn
  have h0 : 0 ≤ q * (1 - q) * (∑ x ∈ pairSet n, a x ^ 2) :=
    mul_nonneg (mul_nonneg (by rw [hq]; exact headProb_nonneg _) (by rw [hq, sub_nonneg]; exact headProb_le_one _))
      (Finset.sum_nonneg fun x _ => sq_nonneg _)
  have h1 := (C108_er_c_average h hn hen hM a hN k hq).error h0 (by linarith) hN hδ
  rwa [max_eq_right (by linarith)] at h1

/-- The mean of the average over the `N` networks that follow a given one. -/
theorem C108_er_c_bias {e : ErC T Stream} (h : e.graph.WF) {n M : ℕ} (hn : 2 ≤ n) (hen : e.graph.vertexCount = n) (hM : M = n * (n - 1) / 2)
    (a : Sym2 ℕ → ℚ) {N : ℕ} (hN : 0 < N) (k : ℕ) {q μ : ℚ} (hq : q = headProb e.prob) (hμ : μ = q * ∑ x ∈ pairSet n, a x) :
    HasMean (fun ω => plainAverage ErC.mStep (fun e => ∑ x ∈ e.graph.edges, a x) N { e with rng := (⟨ω, k⟩ : Stream) })
      (μ + (∑ x ∈ e.graph.edges, a x - μ) * ((M - 1) * (1 - (1 - 1 / (M : ℚ)) ^ N)) / N) := by
  subst hen hM hq hμ
  have h1 := (ErC.looks hn e.prob (e₀ := ⟨e.graph, e.prob, e.cTarget, ⟨[]⟩⟩) h rfl rfl).plain_program
    (fF := fun e => ∑ x ∈ e.graph.edges, a x) (f := fun S => ∑ x ∈ S, a x) (fun _ _ => rfl)
    (μ := ∑ x ∈ pairSet e.graph.vertexCount, a x * headProb e.prob)
    (τ := ((e.graph.vertexCount * (e.graph.vertexCount - 1) / 2 : ℕ) : ℚ)) (by linarith [one_le_pairs hn])
    (fun t e' he => by rw [ErC.sum_rate hn _ a t e' he, card_pairSet]) hN (e := ⟨e.graph, e.prob, e.cTarget, ⟨[]⟩⟩) ⟨h, rfl, rfl⟩ k
  rw [← Finset.sum_mul] at h1
  rw [mul_comm (headProb e.prob) (∑ x ∈ _, a x)]
  exact h1

/-! ## `SpacialEnsemble` -/

/-- The mean and the variance of the average over `N` steps. `M` is the number of pairs, `q x` the probability of the pair `x`. -/
theorem C108_spacial_average {e : Spacial T Stream} (h : e.graph.WF) {n M : ℕ} (hn : 2 ≤ n) (hen : e.graph.vertexCount = n)
    (hM : M = n * (n - 1) / 2) (hsym : ∀ p q, e.law p q = e.law q p)
    (a : Sym2 ℕ → ℚ) {N : ℕ} (hN : 0 < N) (k : ℕ) {q : Sym2 ℕ → ℚ} (hq : ∀ x, q x = headProb (Spacial.edgeLaw e.law (coords e.graph) x)) :
    HasMeanVar (fun ω => randomAverage Spacial.randomize Spacial.mStep (fun e => ∑ x ∈ e.graph.edges, a x) N { e with rng := (⟨ω, k⟩ : Stream) })
      (∑ x ∈ pairSet n, a x * q x)
      ((∑ x ∈ pairSet n, a x ^ 2 * (q x * (1 - q x))) * (N * (2 * M - 1) - 2 * M * (M - 1) * (1 - (1 - 1 / (M : ℚ)) ^ N)) / N ^ 2) := by
  obtain rfl : q = fun x => headProb (Spacial.edgeLaw e.law (coords e.graph) x) := funext hq
  subst hen hM
  have hτ : ((pairSet e.graph.vertexCount).card : ℚ) ≠ 0 := by rw [card_pairSet]; linarith [one_le_pairs hn]
  have hm := Spacial.mixing (e₀ := (⟨e.graph, ⟨[]⟩, e.law⟩ : Spacial T Script)) h hn hsym
  have h1 := (Spacial.looks (e₀ := ⟨e.graph, ⟨[]⟩, e.law⟩) h hn hsym).average_program
    (fF := fun e => ∑ x ∈ e.graph.edges, a x) (f := fun S => ∑ x ∈ S, a x) (fun _ _ => rfl)
    hτ
    (fun t e he => toggle_sum_mean hm.steady Spacial.steps_draws (fun e he => Finset.mem_powerset.mp (hm.mem e he))
      (Spacial.steps_toggle hsym) a t he)
    (indep_variance (n := e.graph.vertexCount) (fun x => headProb (Spacial.edgeLaw e.law (coords e.graph) x)) a) hN (c := e.core')
    ⟨h, rfl, rfl, rfl⟩ k
  rw [Spacial.pairProb_eq hsym, card_pairSet] at h1
  exact h1

/-- The probability that the average is closer than `δ` to the mean. -/
theorem C108_spacial_error {e : Spacial T Stream} (h : e.graph.WF) {n M : ℕ} (hn : 2 ≤ n) (hen : e.graph.vertexCount = n)
    (hM : M = n * (n - 1) / 2) (hsym : ∀ p q, e.law p q = e.law q p)
    (a : Sym2 ℕ → ℚ) {N : ℕ} (hN : 0 < N) (k : ℕ) {q : Sym2 ℕ → ℚ} (hq : ∀ x, q x = headProb (Spacial.edgeLaw e.law (coords e.graph) x))
    {δ : ℚ} (hδ : 0 < δ) :
    1 - (((∑ x ∈ pairSet n, a x ^ 2 * (q x * (1 - q x))) * (2 * M - 1) / (N * δ ^ 2) : ℚ) : ℝ) ≤
      (uniformTape {ω | ∃ v, randomAverage Spacial.randomize Spacial.mStep (fun e => ∑ x ∈ e.graph.edges, a x) N
        { e with rng := (⟨ω, k⟩ : Stream) } = .ok v ∧ |v - ∑ x ∈ pairSet n, a x * q x| < δ}).toReal := by
  have hM1 : (1 : ℚ) ≤ M := by rw [hM]; exact one_le_pairs hn
  have h0 : 0 ≤ ∑ x ∈ pairSet n, a x ^ 2 * (q x * (1 - q x)) := Finset.sum_nonneg fun x _ => mul_nonneg (sq_nonneg _)
    (mul_nonneg (by rw [hq]; exact headProb_nonneg _) (by rw [hq, sub_nonneg]; exact headProb_le_one _))
  have h1 := (C108_spacial_average h hn hen hM hsym a hN k hq).error h0 (by linarith) hN hδ
  rwa [max_eq_right (by linarith)] at h1

/-- The mean of the average over the `N` networks that follow a given one. -/
theorem C108_spacial_bias {e : Spacial T Stream} (h : e.graph.WF) {n M : ℕ} (hn : 2 ≤ n) (hen : e.graph.vertexCount = n)
    (hM : M = n * (n - 1) / 2) (hsym : ∀ p q, e.law p q = e.law q p)
    (a : Sym2 ℕ → ℚ) {N : ℕ} (hN : 0 < N) (k : ℕ) {q : Sym2 ℕ → ℚ} (hq : ∀ x, q x = headProb (Spacial.edgeLaw e.law (coords e.graph) x))
    {μ : ℚ} (hμ : μ = ∑ x ∈ pairSet n, a x * q x) :
    HasMean (fun ω => plainAverage Spacial.mStep (fun e => ∑ x ∈ e.graph.edges, a x) N { e with rng := (⟨ω, k⟩ : Stream) })
      (μ + (∑ x ∈ e.graph.edges, a x - μ) * ((M - 1) * (1 - (1 - 1 / (M : ℚ)) ^ N)) / N) := by
  obtain rfl : q = fun x => headProb (Spacial.edgeLaw e.law (coords e.graph) x) := funext hq
  subst hen hM hμ
  have hτ : ((pairSet e.graph.vertexCount).card : ℚ) ≠ 0 := by rw [card_pairSet]; linarith [one_le_pairs hn]
  have hm := Spacial.mixing (e₀ := (⟨e.graph, ⟨[]⟩, e.law⟩ : Spacial T Script)) h hn hsym
  have h1 := (Spacial.looks (e₀ := ⟨e.graph, ⟨[]⟩, e.law⟩) h hn hsym).plain_program
    (fF := fun e => ∑ x ∈ e.graph.edges, a x) (f := fun S => ∑ x ∈ S, a x) (fun _ _ => rfl)
    hτ
    (fun t e he => toggle_sum_mean hm.steady Spacial.steps_draws (fun e he => Finset.mem_powerset.mp (hm.mem e he))
      (Spacial.steps_toggle hsym) a t he) hN (e := ⟨e.graph, ⟨[]⟩, e.law⟩) ⟨h, rfl, rfl, rfl⟩ k
  rw [Spacial.pairProb_eq hsym, card_pairSet] at h1
  exact h1

/-! ## `ErEnsembleM` -/

/-- The mean and the variance of the average over `N` steps. `M` is the number of pairs. -/
theorem C108_er_m_average {e : ErM T Stream} (h : e.Inv) {n m M : ℕ} (hen : e.graph.vertexCount = n) (hem : e.m = m) (hM : M = n * (n - 1) / 2)
    (hm0 : 0 < m) (hm : m < M) (a : Sym2 ℕ → ℚ) {N : ℕ} (hN : 0 < N) (k : ℕ) {τ : ℚ} (hτ : τ = m * (M - m) / M) :
    HasMeanVar (fun ω => randomAverage ErM.randomize ErM.mStep (fun e => ∑ x ∈ e.graph.edges, a x) N { e with rng := (⟨ω, k⟩ : Stream) })
      (m / M * ∑ x ∈ pairSet n, a x)
      (m * (M - m) / (M * (M - 1)) * (∑ x ∈ pairSet n, a x ^ 2 - (∑ x ∈ pairSet n, a x) ^ 2 / M) *
        (N * (2 * τ - 1) - 2 * τ * (τ - 1) * (1 - (1 - 1 / τ) ^ N)) / N ^ 2) := by
  subst hen hem
  have hm' : e.m < e.graph.vertexCount * (e.graph.vertexCount - 1) / 2 := by rw [← hM]; exact hm
  have hI : (ErM.put e.core (⟨[]⟩ : Script)).Inv := ⟨h.wf, h.len, h.cur, h.split, h.all⟩
  have k1 : (0 : ℚ) < e.m := by exact_mod_cast hm0
  have k2 : (0 : ℚ) < M - e.m := by rw [sub_pos]; exact_mod_cast hm
  have k3 : (0 : ℚ) < M := by linarith
  have hcard : (pairSet e.graph.vertexCount).card = M := by rw [card_pairSet, hM]
  have hv := subset_variance hm0 (U := pairSet e.graph.vertexCount) (by rw [hcard]; exact hm) a
  rw [hcard] at hv
  refine (ErM.looks hm0 hm' hI rfl rfl).average_program
    (fF := fun e => ∑ x ∈ e.graph.edges, a x) (f := fun S => ∑ x ∈ S, a x) (fun _ _ => rfl)
    (μ := (e.m : ℚ) / M * ∑ x ∈ pairSet e.graph.vertexCount, a x) (τ := τ) (by rw [hτ]; positivity)
    (fun t e' he => ?_) ?_ hN (c := e.core') ⟨⟨h.wf, h.len, h.cur, h.split, h.all⟩, rfl, rfl⟩ k
  · rw [ErM.sum_rate hm0 hm' a t e' he, hτ, one_div_div]
    show _ / ((pairSet e.graph.vertexCount).card : ℚ) * _ + (_ - _ / ((pairSet e.graph.vertexCount).card : ℚ) * _) *
      (1 - ((pairSet e.graph.vertexCount).card : ℚ) / (_ * ((pairSet e.graph.vertexCount).card - _))) ^ _ = _
    rw [hcard]
  · rw [hM] at hv ⊢
    exact hv

/-- The probability that the average is closer than `δ` to the mean. -/
theorem C108_er_m_error {e : ErM T Stream} (h : e.Inv) {n m M : ℕ} (hen : e.graph.vertexCount = n) (hem : e.m = m) (hM : M = n * (n - 1) / 2)
    (hm0 : 0 < m) (hm : m < M) (a : Sym2 ℕ → ℚ) {N : ℕ} (hN : 0 < N) (k : ℕ) {δ : ℚ} (hδ : 0 < δ) :
    1 - ((m * (M - m) / (M * (M - 1)) * (∑ x ∈ pairSet n, a x ^ 2 - (∑ x ∈ pairSet n, a x) ^ 2 / M) * max 1 (2 * ((m : ℚ) * (M - m) / M) - 1) /
        (N * δ ^ 2) : ℚ) : ℝ) ≤
      (uniformTape {ω | ∃ v, randomAverage ErM.randomize ErM.mStep (fun e => ∑ x ∈ e.graph.edges, a x) N { e with rng := (⟨ω, k⟩ : Stream) } =
        .ok v ∧ |v - m / M * ∑ x ∈ pairSet n, a x| < δ}).toReal := by
  have k1 : (1 : ℚ) ≤ m := by exact_mod_cast hm0
  have k2 : (1 : ℚ) ≤ M - m := by
    have : (m : ℚ) + 1 ≤ M := by exact_mod_cast hm
    linarith
  have k3 : (0 : ℚ) < M := by linarith
  have hcs : (∑ x ∈ pairSet n, a x) ^ 2 ≤ M * ∑ x ∈ pairSet n, a x ^ 2 := by
    have := sq_sum_le_card_mul_sum_sq (s := pairSet n) (f := a)
    rwa [card_pairSet, ← hM] at this
  have h0 : 0 ≤ (m : ℚ) * (M - m) / (M * (M - 1)) * (∑ x ∈ pairSet n, a x ^ 2 - (∑ x ∈ pairSet n, a x) ^ 2 / M) := by
    refine mul_nonneg (div_nonneg (mul_nonneg (by linarith) (by linarith)) (mul_nonneg k3.le (by linarith))) ?_
    rw [sub_nonneg, div_le_iff₀ k3]
    linarith
  refine (C108_er_m_average h hen hem hM hm0 hm a hN k rfl).error h0 ?_ hN hδ
  rw [le_div_iff₀ k3]
  nlinarith [mul_nonneg (sub_nonneg.mpr k1) (sub_nonneg.mpr k2)]

/-- The mean of the average over the `N` networks that follow a given one. -/
theorem C108_er_m_bias {e : ErM T Stream} (h : e.Inv) {n m M : ℕ} (hen : e.graph.vertexCount = n) (hem : e.m = m) (hM : M = n * (n - 1) / 2)
    (hm0 : 0 < m) (hm : m < M) (a : Sym2 ℕ → ℚ) {N : ℕ} (hN : 0 < N) (k : ℕ) {τ μ : ℚ} (hτ : τ = m * (M - m) / M)
    (hμ : μ = m / M * ∑ x ∈ pairSet n, a x) :
    HasMean (fun ω => plainAverage ErM.mStep (fun e => ∑ x ∈ e.graph.edges, a x) N { e with rng := (⟨ω, k⟩ : Stream) })
      (μ + (∑ x ∈ e.graph.edges, a x - μ) * ((τ - 1) * (1 - (1 - 1 / τ) ^ N)) / N) := by
  subst hen hem hμ
  have hm' : e.m < e.graph.vertexCount * (e.graph.vertexCount - 1) / 2 := by rw [← hM]; exact hm
  have hI : (ErM.put e.core (⟨[]⟩ : Script)).Inv := ⟨h.wf, h.len, h.cur, h.split, h.all⟩
  have k1 : (0 : ℚ) < e.m := by exact_mod_cast hm0
  have k2 : (0 : ℚ) < M - e.m := by rw [sub_pos]; exact_mod_cast hm
  have k3 : (0 : ℚ) < M := by linarith
  have hcard : (pairSet e.graph.vertexCount).card = M := by rw [card_pairSet, hM]
  refine (ErM.looks hm0 hm' hI rfl rfl).plain_program
    (fF := fun e => ∑ x ∈ e.graph.edges, a x) (f := fun S => ∑ x ∈ S, a x) (fun _ _ => rfl)
    (μ := (e.m : ℚ) / M * ∑ x ∈ pairSet e.graph.vertexCount, a x) (τ := τ) (by rw [hτ]; positivity)
    (fun t e' he => ?_) hN (e := ErM.put e.core (⟨[]⟩ : Script)) ⟨hI, rfl, rfl⟩ k
  rw [ErM.sum_rate hm0 hm' a t e' he, hτ, one_div_div]
  show _ / ((pairSet e.graph.vertexCount).card : ℚ) * _ + (_ - _ / ((pairSet e.graph.vertexCount).card : ℚ) * _) *
    (1 - ((pairSet e.graph.vertexCount).card : ℚ) / (_ * ((pairSet e.graph.vertexCount).card - _))) ^ _ = _
  rw [hcard]

/-! ## The hypotheses are met -/

/-- `ErEnsembleC` from the complete or any other network with 5 vertices: two steps remove `1 - 0.9 * 1.9 / 2 = 14.5 %` of the deviation of
the number of edges from the average. -/
example : ∃ e : ErC Nat Stream, e.graph.WF ∧ e.graph.vertexCount = 5 ∧
    HasMean (fun ω => plainAverage ErC.mStep (fun e => ∑ _x ∈ e.graph.edges, 1) 2 { e with rng := (⟨ω, 0⟩ : Stream) })
      (headProb (1 / 2) * 10 + (∑ _x ∈ e.graph.edges, 1 - headProb (1 / 2) * 10) * (171 / 200)) := by
  refine ⟨⟨exTail, 1 / 2, 2, ⟨fun _ => 0, 0⟩⟩, exTail_wf, by decide, ?_⟩
  have h1 := C108_er_c_bias (e := ⟨exTail, 1 / 2, 2, ⟨fun _ => 0, 0⟩⟩) exTail_wf (n := 5) (M := 10) (by decide) (by decide) (by decide)
    (fun _ => 1) (N := 2) (by decide) 0 rfl rfl
  simp only at h1
  generalize headProb (1 / 2) = q at h1 ⊢
  rw [Finset.sum_const (s := pairSet 5), card_pairSet] at h1
  convert h1 using 1
  norm_num
  ring


/-- `ErEnsembleC` with 5 vertices (10 pairs) and probability 1/2: the number of edges averaged over 2 steps has the variance
`10 q (1 - q) * 19 / 20`, where independent networks would give `10 q (1 - q) / 2`. -/
example : ∃ e : ErC Nat Stream, e.graph.WF ∧ e.graph.vertexCount = 5 ∧
    HasMeanVar (fun ω => randomAverage ErC.randomize ErC.mStep (fun e => ∑ _x ∈ e.graph.edges, 1) 2 { e with rng := (⟨ω, 0⟩ : Stream) })
      (headProb (1 / 2) * 10) (headProb (1 / 2) * (1 - headProb (1 / 2)) * 10 * (19 / 20)) := by
  refine ⟨⟨exTail, 1 / 2, 2, ⟨fun _ => 0, 0⟩⟩, exTail_wf, by decide, ?_⟩
  have h1 := C108_er_c_average (e := ⟨exTail, 1 / 2, 2, ⟨fun _ => 0, 0⟩⟩) exTail_wf (n := 5) (M := 10) (by decide) (by decide) (by decide)
    (fun _ => 1) (N := 2) (by decide) 0 rfl
  simp only at h1
  generalize headProb (1 / 2) = q at h1 ⊢
  rw [Finset.sum_const, Finset.sum_const, card_pairSet] at h1
  convert h1 using 1
  · norm_num
  · norm_num
    ring

example : exSpacial.graph.WF ∧ 2 ≤ exSpacial.graph.vertexCount ∧ (∀ p q, exSpacial.law p q = exSpacial.law q p) :=
  ⟨exSpacial_wf, by decide, fun p q => by simp only [exSpacial, eq_comm]⟩

/-- `ErEnsembleM` with 5 vertices and 4 edges: the state of one pair averaged over 2 steps, `σ² = 4/10 * 6/10`, correlation `1 - 10/24`. -/
example : ∃ e : ErM Nat Stream, e.Inv ∧ e.graph.vertexCount = 5 ∧ e.m = 4 ∧
    HasMeanVar (fun ω => randomAverage ErM.randomize ErM.mStep (fun e => ∑ x ∈ e.graph.edges, if s(0, 1) = x then 1 else 0) 2
      { e with rng := (⟨ω, 0⟩ : Stream) }) (2 / 5) (6 / 25 * ((1 + (1 - 10 / 24)) / 2)) := by
  obtain ⟨e, _, h2, h3, h4, _⟩ := ErM.new_spec (T := Nat) (n := 5) (m := 4) (by decide) (by decide) (⟨fun _ => 0, 0⟩ : Stream)
  have h3' : e.graph.vertexCount = 5 := h3
  refine ⟨e, h2, h3, h4, ?_⟩
  have h1 := C108_er_m_average h2 h3' h4 (M := 10) (by decide) (by decide) (by decide) (fun x => if s(0, 1) = x then 1 else 0) (N := 2)
    (by decide) 0 rfl
  have hx : s(0, 1) ∈ pairSet 5 := by decide
  simp only [ite_pow, one_pow, ne_eq, OfNat.ofNat_ne_zero, not_false_eq_true, zero_pow, Finset.sum_ite_eq, if_pos hx] at h1
  convert h1 using 1
  · funext ω
    simp only [Finset.sum_ite_eq]
  · norm_num
  · norm_num

end Verif
