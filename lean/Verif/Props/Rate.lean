import Verif.Lemmas.Rate
import Verif.Props.Average
import Mathlib.Analysis.SpecialFunctions.Log.Basic
import Mathlib.Analysis.Complex.ExponentialBounds

/-!
# C93: how many Markov steps are enough

Explicit bounds, for every number of vertices, every number of steps and every first state:

* how much the distribution after `t` steps still differs from that of the ensemble (`_events` for the probability of any set of networks,
  `_mean` for the mean of any quantity of which one knows how much one edge can change it, `_steps` solved for the number of steps);
* how likely an average over the first `N` steps is off by `δ` (`_average_error`), without discarding any steps;
* the exact probability that a given pair is connected after `t` steps (`_pair`), which shows that the rate cannot be improved.
-/

set_option linter.unusedSectionVars false
set_option linter.unusedSimpArgs false

namespace Verif
open AdjContainer GenericGraph MeasureTheory ProbabilityTheory

variable {T : Type}

theorem indicator_lip (A : Finset (Sym2 ℕ) → Prop) [DecidablePred A] (S S' : Finset (Sym2 ℕ)) :
    |(if A S then (1 : ℚ) else 0) - (if A S' then 1 else 0)| ≤ 1 := by
  split <;> split <;> simp

theorem cast_near {x a b : ℚ} (h : |x - a| ≤ b) : |(x : ℝ) - (a : ℝ)| ≤ (b : ℝ) := by
  rw [← Rat.cast_sub, ← Rat.cast_abs]
  exact Rat.cast_le.mpr h

/-- `M * ρ ^ t` is at most `ε` after `log (M / ε) / (1 - ρ)` steps. -/
theorem rate_steps {M ε c : ℝ} (hM : 0 < M) (hε : 0 < ε) (hc0 : 0 < c) (hc1 : c ≤ 1) {t : ℕ} (ht : Real.log (M / ε) / c ≤ t) :
    M * (1 - c) ^ t ≤ ε := by
  have h1 : (1 - c) ^ t ≤ Real.exp (-(c * t)) := by
    have h2 : 1 - c ≤ Real.exp (-c) := by have := Real.add_one_le_exp (-c); linarith
    calc (1 - c) ^ t ≤ Real.exp (-c) ^ t := pow_le_pow_left₀ (by linarith) h2 t
      _ = _ := by rw [← Real.exp_nat_mul]; congr 1; ring
  rw [div_le_iff₀ hc0] at ht
  have h3 : Real.exp (-(c * t)) ≤ ε / M := by
    rw [← Real.le_log_iff_exp_le (by positivity), Real.log_div hε.ne' hM.ne']
    rw [Real.log_div hM.ne' hε.ne'] at ht
    linarith
  calc M * (1 - c) ^ t ≤ M * (ε / M) := mul_le_mul_of_nonneg_left (h1.trans h3) hM.le
    _ = ε := by field_simp

theorem pairs_pos {n : ℕ} (hn : 2 ≤ n) : 1 ≤ n * (n - 1) / 2 := by
  have : 2 * 1 ≤ n * (n - 1) := Nat.mul_le_mul hn (by omega)
  omega

theorem pair_rate {n : ℕ} (hn : 2 ≤ n) : (0 : ℚ) ≤ 1 - 1 / ((n * (n - 1) / 2 : ℕ) : ℚ) ∧ 1 - 1 / ((n * (n - 1) / 2 : ℕ) : ℚ) < 1 := by
  have h1 : (1 : ℚ) ≤ ((n * (n - 1) / 2 : ℕ) : ℚ) := by exact_mod_cast pairs_pos hn
  have h2 : 0 < 1 / ((n * (n - 1) / 2 : ℕ) : ℚ) := by positivity
  have h3 : 1 / ((n * (n - 1) / 2 : ℕ) : ℚ) ≤ 1 := by rw [div_le_one (by linarith)]; exact h1
  constructor <;> linarith

/-! ## `ErEnsembleC` -/

theorem ErC.steps_toggle {n : ℕ} (p : ℚ) : ∀ e : ErC T Script, (e.graph.WF ∧ e.graph.nextId = n ∧ e.prob = p) → ∀ d ∈ pairDraws n,
    ∃ e', e.stepWith d = .ok e' ∧ (e'.graph.WF ∧ e'.graph.nextId = n ∧ e'.prob = p) ∧
      e'.graph.edges = toggled (fun _ => p) e.graph.edges d := by
  rintro e ⟨h1, h2, h3⟩ d hd
  obtain ⟨e', k1, k2, k3⟩ := ErC.stepWith_spec h1 h2 hd
  rw [h3] at k2 k3
  exact ⟨e', k1, k2, k3⟩

theorem ErC.steps_draws {n : ℕ} (p : ℚ) : ∀ e : ErC T Script, (e.graph.WF ∧ e.graph.nextId = n ∧ e.prob = p) →
    ErC.stepDraws e = pairDraws n := by
  rintro e ⟨_, h2, _⟩
  show Finset.range e.graph.nextId ×ˢ Finset.range (e.graph.nextId - 1) ×ˢ Finset.range (2 ^ 53) = _
  rw [h2]; rfl

theorem ErC.near {n : ℕ} (hn : 2 ≤ n) (p : ℚ) {f : Finset (Sym2 ℕ) → ℚ} {L : Sym2 ℕ → ℚ}
    (hL : ∀ x ∈ pairSet n, ∀ S ⊆ pairSet n, |f (insert x S) - f (S.erase x)| ≤ L x) (k : ℕ) (e : ErC T Script)
    (he : e.graph.WF ∧ e.graph.nextId = n ∧ e.prob = p) :
    |Steady.meanAfter ErC.stepDraws (fun e _ => 1 / ((ErC.stepDraws e).card : ℚ)) ErC.stepWith (fun e => f e.graph.edges) k e -
      ∑ S ∈ (pairSet n).powerset, headProb p ^ S.card * (1 - headProb p) ^ (n * (n - 1) / 2 - S.card) * f S| ≤
      (∑ x ∈ pairSet n, L x) * (1 - 1 / ((n * (n - 1) / 2 : ℕ) : ℚ)) ^ k := by
  have hm := ErC.mixing (T := T) hn p
  refine hm.steady.mean_near hm.mem hm.conv f (fun e e' he he' => ?_) he
  rw [← card_pairSet]
  exact toggle_forgets (ErC.steps_draws p) (fun e he => Finset.mem_powerset.mp (hm.mem e he)) (ErC.steps_toggle p) hL k he he'

/-- The mean after `t` steps of a quantity `f`, of which the pair `x` can change the value by at most `L x`. -/
theorem C93_er_c_mean {n : ℕ} (hn : 2 ≤ n) {f : Finset (Sym2 ℕ) → ℚ} {L : Sym2 ℕ → ℚ}
    (hL : ∀ x ∈ pairSet n, ∀ S ⊆ pairSet n, |f (insert x S) - f (S.erase x)| ≤ L x) (t : ℕ) {e : ErC T Stream} (he : e.graph.WF)
    (hen : e.graph.vertexCount = n) :
    |∑ S ∈ (pairSet n).powerset, (f S : ℝ) *
        (uniformTape {ω | ∃ ss e', mSteps ErC.mStep t ({ e with rng := ⟨ω, 0⟩ } : ErC T Stream) = .ok (ss, e') ∧
          e'.graph.edges = S}).toReal -
      ((∑ S ∈ (pairSet n).powerset, headProb e.prob ^ S.card * (1 - headProb e.prob) ^ (n * (n - 1) / 2 - S.card) * f S : ℚ) : ℝ)| ≤
      ((∑ x ∈ pairSet n, L x : ℚ) : ℝ) * (1 - 1 / ((n * (n - 1) / 2 : ℕ) : ℝ)) ^ t := by
  have h1 := (ErC.mixing (T := T) hn e.prob).mean f (P := fun S f => f.graph.edges = S) (fun _ _ _ => Iff.rfl)
    (e := (⟨e.graph, e.prob, e.cTarget, ⟨[]⟩⟩ : ErC T Script)) ⟨he, hen, rfl⟩ t
  have h2 := ErC.near hn e.prob hL t (⟨e.graph, e.prob, e.cTarget, ⟨[]⟩⟩ : ErC T Script) ⟨he, hen, rfl⟩
  have h3 : ∀ S, {ω | ∃ ss e', mSteps ErC.mStep t ({ e with rng := ⟨ω, 0⟩ } : ErC T Stream) = .ok (ss, e') ∧ e'.graph.edges = S} =
      {ω | ∃ (_ : ℕ) (l : _) (f : ErC T Stream), mSteps ErC.mStep t
        (ErC.put (ErC.core (⟨e.graph, e.prob, e.cTarget, ⟨[]⟩⟩ : ErC T Script)) (⟨ω, 0⟩ : Stream)) = .ok (l, f) ∧ f.graph.edges = S} := by
    intro S
    ext ω
    exact ⟨fun h => ⟨0, h⟩, fun ⟨_, h⟩ => h⟩
  simp only [h3]
  rw [h1]
  exact (cast_near h2).trans_eq (by push_cast; ring)

/-- The probability after `t` steps of any set `A` of networks differs from that in G(n, p) by at most `n (n - 1) / 2` times
`(1 - 2 / (n (n - 1))) ^ t`. -/
theorem C93_er_c_events {n : ℕ} (hn : 2 ≤ n) (A : Finset (Sym2 ℕ) → Prop) [DecidablePred A] (t : ℕ) {e : ErC T Stream} (he : e.graph.WF)
    (hen : e.graph.vertexCount = n) :
    |(uniformTape {ω | ∃ ss e', mSteps ErC.mStep t ({ e with rng := ⟨ω, 0⟩ } : ErC T Stream) = .ok (ss, e') ∧ A e'.graph.edges}).toReal -
      ((∑ S ∈ (pairSet n).powerset with A S, headProb e.prob ^ S.card * (1 - headProb e.prob) ^ (n * (n - 1) / 2 - S.card) : ℚ) : ℝ)| ≤
      ((n * (n - 1) / 2 : ℕ) : ℝ) * (1 - 1 / ((n * (n - 1) / 2 : ℕ) : ℝ)) ^ t := by
  have h1 := (ErC.mixing (T := T) hn e.prob).event A (P := fun f => A f.graph.edges) (fun _ _ => Iff.rfl)
    (e := (⟨e.graph, e.prob, e.cTarget, ⟨[]⟩⟩ : ErC T Script)) ⟨he, hen, rfl⟩ t
  have h2 := ErC.near hn e.prob (f := fun S => if A S then 1 else 0) (L := fun _ => 1) (fun _ _ S _ => indicator_lip A _ _) t
    (⟨e.graph, e.prob, e.cTarget, ⟨[]⟩⟩ : ErC T Script) ⟨he, hen, rfl⟩
  simp only [mul_ite, mul_one, mul_zero] at h2
  rw [← Finset.sum_filter, Finset.sum_const, nsmul_eq_mul, mul_one, card_pairSet] at h2
  have h3 : {ω | ∃ ss e', mSteps ErC.mStep t ({ e with rng := ⟨ω, 0⟩ } : ErC T Stream) = .ok (ss, e') ∧ A e'.graph.edges} =
      {ω | ∃ (_ : ℕ) (l : _) (f : ErC T Stream), mSteps ErC.mStep t
        (ErC.put (ErC.core (⟨e.graph, e.prob, e.cTarget, ⟨[]⟩⟩ : ErC T Script)) (⟨ω, 0⟩ : Stream)) = .ok (l, f) ∧ A f.graph.edges} := by
    ext ω
    exact ⟨fun h => ⟨0, h⟩, fun ⟨_, h⟩ => h⟩
  rw [h3, h1]
  exact (cast_near h2).trans_eq (by push_cast; ring)

/-- `N log (N / ε)` steps are enough for an error of at most `ε`, where `N` is the number of pairs. -/
theorem C93_er_c_steps {n : ℕ} (hn : 2 ≤ n) (A : Finset (Sym2 ℕ) → Prop) [DecidablePred A] {ε : ℝ} (hε : 0 < ε) {t : ℕ}
    (ht : ((n * (n - 1) / 2 : ℕ) : ℝ) * Real.log (((n * (n - 1) / 2 : ℕ) : ℝ) / ε) ≤ t) {e : ErC T Stream} (he : e.graph.WF)
    (hen : e.graph.vertexCount = n) :
    |(uniformTape {ω | ∃ ss e', mSteps ErC.mStep t ({ e with rng := ⟨ω, 0⟩ } : ErC T Stream) = .ok (ss, e') ∧ A e'.graph.edges}).toReal -
      ((∑ S ∈ (pairSet n).powerset with A S, headProb e.prob ^ S.card * (1 - headProb e.prob) ^ (n * (n - 1) / 2 - S.card) : ℚ) : ℝ)| ≤
      ε := by
  have hN : (1 : ℝ) ≤ ((n * (n - 1) / 2 : ℕ) : ℝ) := by exact_mod_cast pairs_pos hn
  refine (C93_er_c_events hn A t he hen).trans (rate_steps (by linarith) hε (by positivity) ?_ ?_)
  · rw [div_le_one (by linarith)]; exact hN
  · rw [div_div_eq_mul_div, div_one, mul_comm]; exact ht

/-- The probability that the pair `x` is connected after `t` steps, exactly: the deviation from the limit is multiplied by
`1 - 2 / (n (n - 1))` in every step. -/
theorem C93_er_c_pair {n : ℕ} (hn : 2 ≤ n) {x : Sym2 ℕ} (hx : x ∈ pairSet n) (t : ℕ) {e : ErC T Stream} (he : e.graph.WF)
    (hen : e.graph.vertexCount = n) :
    (uniformTape {ω | ∃ ss e', mSteps ErC.mStep t ({ e with rng := ⟨ω, 0⟩ } : ErC T Stream) = .ok (ss, e') ∧ x ∈ e'.graph.edges}).toReal =
      (headProb e.prob : ℝ) + ((if x ∈ e.graph.edges then 1 else 0) - (headProb e.prob : ℝ)) *
        (1 - 1 / ((n * (n - 1) / 2 : ℕ) : ℝ)) ^ t := by
  have hm := ErC.mixing (T := T) hn e.prob
  have h1 := hm.event (fun S => x ∈ S) (P := fun f => x ∈ f.graph.edges) (fun _ _ => Iff.rfl)
    (e := (⟨e.graph, e.prob, e.cTarget, ⟨[]⟩⟩ : ErC T Script)) ⟨he, hen, rfl⟩ t
  have h2 := toggle_pair_mean hm.steady (ErC.steps_draws e.prob) (ErC.steps_toggle e.prob) hx t
    (e := (⟨e.graph, e.prob, e.cTarget, ⟨[]⟩⟩ : ErC T Script)) ⟨he, hen, rfl⟩
  have h3 : {ω | ∃ ss e', mSteps ErC.mStep t ({ e with rng := ⟨ω, 0⟩ } : ErC T Stream) = .ok (ss, e') ∧ x ∈ e'.graph.edges} =
      {ω | ∃ (_ : ℕ) (l : _) (f : ErC T Stream), mSteps ErC.mStep t
        (ErC.put (ErC.core (⟨e.graph, e.prob, e.cTarget, ⟨[]⟩⟩ : ErC T Script)) (⟨ω, 0⟩ : Stream)) = .ok (l, f) ∧ x ∈ f.graph.edges} := by
    ext ω
    exact ⟨fun h => ⟨0, h⟩, fun ⟨_, h⟩ => h⟩
  rw [h3, h1, h2, card_pairSet]
  by_cases hxe : x ∈ e.graph.edges
  · simp only [hxe, if_true]; push_cast; ring
  · simp only [hxe, if_false]; push_cast; ring

/-- The average of `f` over the first `N` steps is off by `δ` or more with a probability of at most `B² (1 + n (n - 1)) / (N δ²)`, where `B`
is the sum over the pairs of what the pair can change in `f`. -/
theorem C93_er_c_average_error {n : ℕ} (hn : 2 ≤ n) {f : Finset (Sym2 ℕ) → ℚ} {L : Sym2 ℕ → ℚ}
    (hL : ∀ x ∈ pairSet n, ∀ S ⊆ pairSet n, |f (insert x S) - f (S.erase x)| ≤ L x) {δ : ℚ} (hδ : 0 < δ) {N : ℕ} (hN : 0 < N)
    {e : ErC T Stream} (he : e.graph.WF) (hen : e.graph.vertexCount = n) :
    1 - (((∑ x ∈ pairSet n, L x) ^ 2 * (1 + 2 * (n * (n - 1) / 2 : ℕ)) / (N * δ ^ 2) : ℚ) : ℝ) ≤
      (uniformTape {ω | ∃ a e', sumSteps ErC.mStep (fun e => f e.graph.edges) N ({ e with rng := ⟨ω, 0⟩ } : ErC T Stream) 0 =
          .ok (a, e') ∧
        |(a : ℝ) / N - ((∑ S ∈ (pairSet n).powerset,
          headProb e.prob ^ S.card * (1 - headProb e.prob) ^ (n * (n - 1) / 2 - S.card) * f S : ℚ) : ℝ)| < δ}).toReal := by
  have h1 := (ErC.mixing (T := T) hn e.prob).average_error f (fF := fun e => f e.graph.edges) (fun _ _ => rfl) (pair_rate hn).1
    (pair_rate hn).2 (ErC.near hn e.prob hL) hδ hN (e := (⟨e.graph, e.prob, e.cTarget, ⟨[]⟩⟩ : ErC T Script)) ⟨he, hen, rfl⟩
  have h2 : (∑ x ∈ pairSet n, L x) ^ 2 * (1 + 2 * (n * (n - 1) / 2 : ℕ)) / (N * δ ^ 2) =
      (∑ x ∈ pairSet n, L x) * (∑ x ∈ pairSet n, L x) * (1 + 2 / (1 - (1 - 1 / ((n * (n - 1) / 2 : ℕ) : ℚ)))) / (N * (δ * δ)) := by
    rw [sub_sub_cancel, div_div_eq_mul_div, div_one, pow_two, pow_two]
  rw [h2]
  refine h1.trans_eq ?_
  congr 2
  ext ω
  exact ⟨fun ⟨_, h⟩ => h, fun h => ⟨0, h⟩⟩

/-- The mean number of edges after `t` steps, exactly. -/
theorem C93_er_c_edge_count {n : ℕ} (hn : 2 ≤ n) (t : ℕ) {e : ErC T Stream} (he : e.graph.WF) (hen : e.graph.vertexCount = n) :
    ∑ S ∈ (pairSet n).powerset, (S.card : ℝ) *
        (uniformTape {ω | ∃ ss e', mSteps ErC.mStep t ({ e with rng := ⟨ω, 0⟩ } : ErC T Stream) = .ok (ss, e') ∧
          e'.graph.edges = S}).toReal =
      ((n * (n - 1) / 2 : ℕ) : ℝ) * headProb e.prob + (e.graph.edgeCount - ((n * (n - 1) / 2 : ℕ) : ℝ) * headProb e.prob) *
        (1 - 1 / ((n * (n - 1) / 2 : ℕ) : ℝ)) ^ t := by
  have hm := ErC.mixing (T := T) hn e.prob
  set e' : ErC T Script := ⟨e.graph, e.prob, e.cTarget, ⟨[]⟩⟩ with he'
  have hW : e'.graph.WF ∧ e'.graph.nextId = n ∧ e'.prob = e.prob := ⟨he, hen, rfl⟩
  have h1 := hm.mean (fun S => (S.card : ℚ)) (P := fun S f => f.graph.edges = S) (fun _ _ _ => Iff.rfl) hW t
  have h3 : ∀ S, {ω | ∃ ss e', mSteps ErC.mStep t ({ e with rng := ⟨ω, 0⟩ } : ErC T Stream) = .ok (ss, e') ∧ e'.graph.edges = S} =
      {ω | ∃ (_ : ℕ) (l : _) (f : ErC T Stream), mSteps ErC.mStep t (ErC.put (ErC.core e') (⟨ω, 0⟩ : Stream)) = .ok (l, f) ∧
        f.graph.edges = S} := by
    intro S
    ext ω
    exact ⟨fun h => ⟨0, h⟩, fun ⟨_, h⟩ => h⟩
  have hcard : ∀ S ⊆ pairSet n, (S.card : ℚ) = ∑ x ∈ pairSet n, if x ∈ S then 1 else 0 := by
    intro S hS
    rw [← Finset.sum_filter, Finset.sum_const, nsmul_eq_mul, mul_one, Finset.filter_mem_eq_inter, Finset.inter_eq_right.mpr hS]
  have h4 : Steady.meanAfter ErC.stepDraws (fun e _ => 1 / ((ErC.stepDraws e).card : ℚ)) ErC.stepWith
      (fun e => (e.graph.edges.card : ℚ)) t e' = ((n * (n - 1) / 2 : ℕ) : ℚ) * headProb e.prob +
        (e.graph.edges.card - ((n * (n - 1) / 2 : ℕ) : ℚ) * headProb e.prob) * (1 - 1 / ((n * (n - 1) / 2 : ℕ) : ℚ)) ^ t := by
    rw [hm.steady.mean_congr (G := fun e => ∑ x ∈ pairSet n, if x ∈ e.graph.edges then 1 else 0)
      (fun e he => hcard _ (Finset.mem_powerset.mp (hm.mem e he))) t hW, Steady.mean_sum,
      Finset.sum_congr rfl (fun x hx => toggle_pair_mean hm.steady (ErC.steps_draws e.prob) (ErC.steps_toggle e.prob) hx t hW),
      Finset.sum_add_distrib, ← Finset.sum_mul, Finset.sum_sub_distrib, Finset.sum_const, nsmul_eq_mul, card_pairSet,
      ← hcard _ (Finset.mem_powerset.mp (hm.mem e' hW))]
  simp only [h3]
  simp only [Rat.cast_natCast] at h1
  rw [h1, h4, he.edgeCount_eq_card]
  push_cast
  ring

/-! ## `SpacialEnsemble` -/

theorem Spacial.steps_toggle {e₀ : Spacial T Script} (hsym : ∀ p q, e₀.law p q = e₀.law q p) :
    ∀ e : Spacial T Script, (e.graph.WF ∧ e.graph.nextId = e₀.graph.nextId ∧ e.law = e₀.law ∧ coords e.graph = coords e₀.graph) →
      ∀ d ∈ pairDraws e₀.graph.nextId, ∃ e', e.stepWith d = .ok e' ∧
        (e'.graph.WF ∧ e'.graph.nextId = e₀.graph.nextId ∧ e'.law = e₀.law ∧ coords e'.graph = coords e₀.graph) ∧
        e'.graph.edges = toggled (e₀.pairProb hsym) e.graph.edges d := by
  rintro e ⟨h1, h2, h3, h4⟩ ⟨a, b, u⟩ hd
  simp only [pairDraws, Finset.mem_product, Finset.mem_range] at hd
  rw [← h2] at hd
  have hdr := drawTwo_script (l := [u]) hd.1 hd.2.1
  have hy : (if b < a then b else b + 1) < e.graph.nextId := by split <;> omega
  obtain ⟨s, e', m1, m2, m3, _, m5, m6, _, _, m9⟩ := Spacial.mStep_cases
    (e := { e with rng := (⟨[a, b, u]⟩ : Script) }) h1 hdr hd.1 hy (by split <;> omega)
  rw [coin_script u [] _ hd.2.2] at m9
  refine ⟨e', by unfold Spacial.stepWith; rw [m1]; rfl, ⟨m2, m3.trans h2, m6.trans h3, m5.trans h4⟩, ?_⟩
  have hp : ∀ x y, ({ e with rng := (⟨[a, b, u]⟩ : Script) } : Spacial T Script).prob x y = e₀.prob x y := by
    intro x y; unfold Spacial.prob; simp only [h3, h4]
  simp only [hp, decide_eq_true_eq] at m9
  exact m9

theorem Spacial.steps_draws {e₀ : Spacial T Script} : ∀ e : Spacial T Script,
    (e.graph.WF ∧ e.graph.nextId = e₀.graph.nextId ∧ e.law = e₀.law ∧ coords e.graph = coords e₀.graph) →
    Spacial.stepDraws e = pairDraws e₀.graph.nextId := by
  rintro e ⟨_, h2, _⟩
  show Finset.range e.graph.nextId ×ˢ Finset.range (e.graph.nextId - 1) ×ˢ Finset.range (2 ^ 53) = _
  rw [h2]; rfl

section
variable {e₀ : Spacial T Script} (h₀ : e₀.graph.WF) (hn : 2 ≤ e₀.graph.vertexCount) (hsym : ∀ p q, e₀.law p q = e₀.law q p)
include h₀ hn hsym

theorem Spacial.near {f : Finset (Sym2 ℕ) → ℚ} {L : Sym2 ℕ → ℚ}
    (hL : ∀ x ∈ pairSet e₀.graph.nextId, ∀ S ⊆ pairSet e₀.graph.nextId, |f (insert x S) - f (S.erase x)| ≤ L x) (k : ℕ)
    (e : Spacial T Script)
    (he : e.graph.WF ∧ e.graph.nextId = e₀.graph.nextId ∧ e.law = e₀.law ∧ coords e.graph = coords e₀.graph) :
    |Steady.meanAfter Spacial.stepDraws (fun e _ => 1 / ((Spacial.stepDraws e).card : ℚ)) Spacial.stepWith (fun e => f e.graph.edges) k e -
      ∑ S ∈ (pairSet e₀.graph.nextId).powerset,
        (e₀.weight S : ℚ) / (2 ^ 53) ^ (e₀.graph.nextId * (e₀.graph.nextId - 1) / 2) * f S| ≤
      (∑ x ∈ pairSet e₀.graph.nextId, L x) * (1 - 1 / ((e₀.graph.nextId * (e₀.graph.nextId - 1) / 2 : ℕ) : ℚ)) ^ k := by
  have hm := Spacial.mixing h₀ hn hsym
  refine hm.steady.mean_near hm.mem hm.conv f (fun e e' he he' => ?_) he
  rw [← card_pairSet]
  exact toggle_forgets Spacial.steps_draws (fun e he => Finset.mem_powerset.mp (hm.mem e he)) (Spacial.steps_toggle hsym) hL k he he'

/-- `SpacialEnsemble`: the probability of any set of networks after `t` steps, with the rate of `ErEnsembleC`. -/
theorem C93_spacial_events (A : Finset (Sym2 ℕ) → Prop) [DecidablePred A] (t : ℕ) {e : Spacial T Stream} (he : e.graph.WF)
    (hen : e.graph.vertexCount = e₀.graph.vertexCount) (hlaw : e.law = e₀.law) (hco : coords e.graph = coords e₀.graph) :
    |(uniformTape {ω | ∃ ss e', mSteps Spacial.mStep t ({ e with rng := ⟨ω, 0⟩ } : Spacial T Stream) = .ok (ss, e') ∧
        A e'.graph.edges}).toReal -
      ((∑ S ∈ (pairSet e₀.graph.vertexCount).powerset with A S,
        (e₀.weight S : ℚ) / (2 ^ 53) ^ (e₀.graph.vertexCount * (e₀.graph.vertexCount - 1) / 2) : ℚ) : ℝ)| ≤
      ((e₀.graph.vertexCount * (e₀.graph.vertexCount - 1) / 2 : ℕ) : ℝ) *
        (1 - 1 / ((e₀.graph.vertexCount * (e₀.graph.vertexCount - 1) / 2 : ℕ) : ℝ)) ^ t := by
  have h1 := (Spacial.mixing h₀ hn hsym).event A (P := fun f => A f.graph.edges) (fun _ _ => Iff.rfl)
    (e := (⟨e.graph, ⟨[]⟩, e.law⟩ : Spacial T Script)) ⟨he, hen, hlaw, hco⟩ t
  have h2 := Spacial.near h₀ hn hsym (f := fun S => if A S then 1 else 0) (L := fun _ => 1) (fun _ _ S _ => indicator_lip A _ _) t
    (⟨e.graph, ⟨[]⟩, e.law⟩ : Spacial T Script) ⟨he, hen, hlaw, hco⟩
  simp only [mul_ite, mul_one, mul_zero] at h2
  rw [← Finset.sum_filter, Finset.sum_const, nsmul_eq_mul, mul_one, card_pairSet] at h2
  have h3 : {ω | ∃ ss e', mSteps Spacial.mStep t ({ e with rng := ⟨ω, 0⟩ } : Spacial T Stream) = .ok (ss, e') ∧ A e'.graph.edges} =
      {ω | ∃ (_ : ℕ) (l : _) (f : Spacial T Stream), mSteps Spacial.mStep t
        (Spacial.put (Spacial.core (⟨e.graph, ⟨[]⟩, e.law⟩ : Spacial T Script)) (⟨ω, 0⟩ : Stream)) = .ok (l, f) ∧ A f.graph.edges} := by
    ext ω
    exact ⟨fun h => ⟨0, h⟩, fun ⟨_, h⟩ => h⟩
  rw [h3, h1]
  exact (cast_near h2).trans_eq (by push_cast; rfl)

/-- The mean after `t` steps of a quantity `f`, of which the pair `x` can change the value by at most `L x`. -/
theorem C93_spacial_mean {f : Finset (Sym2 ℕ) → ℚ} {L : Sym2 ℕ → ℚ}
    (hL : ∀ x ∈ pairSet e₀.graph.vertexCount, ∀ S ⊆ pairSet e₀.graph.vertexCount, |f (insert x S) - f (S.erase x)| ≤ L x) (t : ℕ)
    {e : Spacial T Stream} (he : e.graph.WF)
    (hen : e.graph.vertexCount = e₀.graph.vertexCount) (hlaw : e.law = e₀.law) (hco : coords e.graph = coords e₀.graph) :
    |∑ S ∈ (pairSet e₀.graph.vertexCount).powerset, (f S : ℝ) *
        (uniformTape {ω | ∃ ss e', mSteps Spacial.mStep t ({ e with rng := ⟨ω, 0⟩ } : Spacial T Stream) = .ok (ss, e') ∧
          e'.graph.edges = S}).toReal -
      ((∑ S ∈ (pairSet e₀.graph.vertexCount).powerset,
        (e₀.weight S : ℚ) / (2 ^ 53) ^ (e₀.graph.vertexCount * (e₀.graph.vertexCount - 1) / 2) * f S : ℚ) : ℝ)| ≤
      ((∑ x ∈ pairSet e₀.graph.vertexCount, L x : ℚ) : ℝ) *
        (1 - 1 / ((e₀.graph.vertexCount * (e₀.graph.vertexCount - 1) / 2 : ℕ) : ℝ)) ^ t := by
  have h1 := (Spacial.mixing h₀ hn hsym).mean f (P := fun S f => f.graph.edges = S) (fun _ _ _ => Iff.rfl)
    (e := (⟨e.graph, ⟨[]⟩, e.law⟩ : Spacial T Script)) ⟨he, hen, hlaw, hco⟩ t
  have h2 := Spacial.near h₀ hn hsym hL t (⟨e.graph, ⟨[]⟩, e.law⟩ : Spacial T Script) ⟨he, hen, hlaw, hco⟩
  have h3 : ∀ S, {ω | ∃ ss e', mSteps Spacial.mStep t ({ e with rng := ⟨ω, 0⟩ } : Spacial T Stream) = .ok (ss, e') ∧
        e'.graph.edges = S} =
      {ω | ∃ (_ : ℕ) (l : _) (f : Spacial T Stream), mSteps Spacial.mStep t
        (Spacial.put (Spacial.core (⟨e.graph, ⟨[]⟩, e.law⟩ : Spacial T Script)) (⟨ω, 0⟩ : Stream)) = .ok (l, f) ∧ f.graph.edges = S} := by
    intro S
    ext ω
    exact ⟨fun h => ⟨0, h⟩, fun ⟨_, h⟩ => h⟩
  simp only [h3]
  rw [show pairSet e₀.graph.vertexCount = pairSet e₀.graph.nextId from rfl, h1]
  exact (cast_near h2).trans_eq (by push_cast; rfl)

/-- `N log (N / ε)` steps are enough. -/
theorem C93_spacial_steps (A : Finset (Sym2 ℕ) → Prop) [DecidablePred A] {ε : ℝ} (hε : 0 < ε) {t : ℕ}
    (ht : ((e₀.graph.vertexCount * (e₀.graph.vertexCount - 1) / 2 : ℕ) : ℝ) *
      Real.log (((e₀.graph.vertexCount * (e₀.graph.vertexCount - 1) / 2 : ℕ) : ℝ) / ε) ≤ t) {e : Spacial T Stream} (he : e.graph.WF)
    (hen : e.graph.vertexCount = e₀.graph.vertexCount) (hlaw : e.law = e₀.law) (hco : coords e.graph = coords e₀.graph) :
    |(uniformTape {ω | ∃ ss e', mSteps Spacial.mStep t ({ e with rng := ⟨ω, 0⟩ } : Spacial T Stream) = .ok (ss, e') ∧
        A e'.graph.edges}).toReal -
      ((∑ S ∈ (pairSet e₀.graph.vertexCount).powerset with A S,
        (e₀.weight S : ℚ) / (2 ^ 53) ^ (e₀.graph.vertexCount * (e₀.graph.vertexCount - 1) / 2) : ℚ) : ℝ)| ≤ ε := by
  have hN : (1 : ℝ) ≤ ((e₀.graph.vertexCount * (e₀.graph.vertexCount - 1) / 2 : ℕ) : ℝ) := by exact_mod_cast pairs_pos hn
  refine (C93_spacial_events h₀ hn hsym A t he hen hlaw hco).trans (rate_steps (by linarith) hε (by positivity) ?_ ?_)
  · rw [div_le_one (by linarith)]; exact hN
  · rw [div_div_eq_mul_div, div_one, mul_comm]; exact ht

/-- The probability that the vertices `i` and `j` are connected after `t` steps, exactly. -/
theorem C93_spacial_pair {i j : ℕ} (hij : i ≠ j) (hi : i < e₀.graph.vertexCount) (hj : j < e₀.graph.vertexCount) (t : ℕ)
    {e : Spacial T Stream} (he : e.graph.WF)
    (hen : e.graph.vertexCount = e₀.graph.vertexCount) (hlaw : e.law = e₀.law) (hco : coords e.graph = coords e₀.graph) :
    (uniformTape {ω | ∃ ss e', mSteps Spacial.mStep t ({ e with rng := ⟨ω, 0⟩ } : Spacial T Stream) = .ok (ss, e') ∧
        s(i, j) ∈ e'.graph.edges}).toReal =
      (headProb (e₀.prob i j) : ℝ) + ((if s(i, j) ∈ e.graph.edges then 1 else 0) - (headProb (e₀.prob i j) : ℝ)) *
        (1 - 1 / ((e₀.graph.vertexCount * (e₀.graph.vertexCount - 1) / 2 : ℕ) : ℝ)) ^ t := by
  have hm := Spacial.mixing h₀ hn hsym
  have h1 := hm.event (fun S => s(i, j) ∈ S) (P := fun f => s(i, j) ∈ f.graph.edges) (fun _ _ => Iff.rfl)
    (e := (⟨e.graph, ⟨[]⟩, e.law⟩ : Spacial T Script)) ⟨he, hen, hlaw, hco⟩ t
  have h2 := toggle_pair_mean hm.steady Spacial.steps_draws (Spacial.steps_toggle hsym) (pairSet_mk hij hi hj) t
    (e := (⟨e.graph, ⟨[]⟩, e.law⟩ : Spacial T Script)) ⟨he, hen, hlaw, hco⟩
  have h3 : {ω | ∃ ss e', mSteps Spacial.mStep t ({ e with rng := ⟨ω, 0⟩ } : Spacial T Stream) = .ok (ss, e') ∧
        s(i, j) ∈ e'.graph.edges} =
      {ω | ∃ (_ : ℕ) (l : _) (f : Spacial T Stream), mSteps Spacial.mStep t
        (Spacial.put (Spacial.core (⟨e.graph, ⟨[]⟩, e.law⟩ : Spacial T Script)) (⟨ω, 0⟩ : Stream)) = .ok (l, f) ∧
        s(i, j) ∈ f.graph.edges} := by
    ext ω
    exact ⟨fun h => ⟨0, h⟩, fun ⟨_, h⟩ => h⟩
  rw [h3, h1, h2, card_pairSet, show e₀.pairProb hsym s(i, j) = e₀.prob i j from rfl,
    show e₀.graph.vertexCount = e₀.graph.nextId from rfl]
  by_cases hxe : s(i, j) ∈ e.graph.edges
  · simp only [hxe, if_true]; push_cast; ring
  · simp only [hxe, if_false]; push_cast; ring

/-- How likely the average over `N` steps is off. -/
theorem C93_spacial_average_error {f : Finset (Sym2 ℕ) → ℚ} {L : Sym2 ℕ → ℚ}
    (hL : ∀ x ∈ pairSet e₀.graph.vertexCount, ∀ S ⊆ pairSet e₀.graph.vertexCount, |f (insert x S) - f (S.erase x)| ≤ L x)
    {δ : ℚ} (hδ : 0 < δ) {N : ℕ} (hN : 0 < N) {e : Spacial T Stream} (he : e.graph.WF)
    (hen : e.graph.vertexCount = e₀.graph.vertexCount) (hlaw : e.law = e₀.law) (hco : coords e.graph = coords e₀.graph) :
    1 - (((∑ x ∈ pairSet e₀.graph.vertexCount, L x) ^ 2 *
        (1 + 2 * (e₀.graph.vertexCount * (e₀.graph.vertexCount - 1) / 2 : ℕ)) / (N * δ ^ 2) : ℚ) : ℝ) ≤
      (uniformTape {ω | ∃ a e', sumSteps Spacial.mStep (fun e => f e.graph.edges) N
          ({ e with rng := ⟨ω, 0⟩ } : Spacial T Stream) 0 = .ok (a, e') ∧
        |(a : ℝ) / N - ((∑ S ∈ (pairSet e₀.graph.vertexCount).powerset,
          (e₀.weight S : ℚ) / (2 ^ 53) ^ (e₀.graph.vertexCount * (e₀.graph.vertexCount - 1) / 2) * f S : ℚ) : ℝ)| < δ}).toReal := by
  have h1 := (Spacial.mixing h₀ hn hsym).average_error f (fF := fun e => f e.graph.edges) (fun _ _ => rfl) (pair_rate hn).1
    (pair_rate hn).2 (Spacial.near h₀ hn hsym hL) hδ hN (e := (⟨e.graph, ⟨[]⟩, e.law⟩ : Spacial T Script)) ⟨he, hen, hlaw, hco⟩
  set M := e₀.graph.vertexCount * (e₀.graph.vertexCount - 1) / 2
  have h2 : (∑ x ∈ pairSet e₀.graph.vertexCount, L x) ^ 2 * (1 + 2 * (M : ℚ)) / (N * δ ^ 2) =
      (∑ x ∈ pairSet e₀.graph.vertexCount, L x) * (∑ x ∈ pairSet e₀.graph.vertexCount, L x) *
        (1 + 2 / (1 - (1 - 1 / (M : ℚ)))) / (N * (δ * δ)) := by
    rw [sub_sub_cancel, div_div_eq_mul_div, div_one, pow_two, pow_two]
  rw [h2]
  refine h1.trans_eq ?_
  congr 2
  ext ω
  exact ⟨fun ⟨_, h⟩ => h, fun h => ⟨0, h⟩⟩

end

/-! ## `ErEnsembleM` -/

theorem sum_toFinset_getElem {α β : Type} [DecidableEq α] (g : β → α) (G : α → ℚ) : ∀ {l : List β}, (l.map g).Nodup →
    ∑ x ∈ (l.map g).toFinset, G x = ∑ i ∈ Finset.range l.length, if h : i < l.length then G (g l[i]) else 0
  | [], _ => rfl
  | a :: l, hl => by
    rw [List.map_cons, List.nodup_cons] at hl
    rw [List.map_cons, List.toFinset_cons, Finset.sum_insert (fun hc => hl.1 (List.mem_toFinset.mp hc)),
      sum_toFinset_getElem g G hl.2]
    show _ = ∑ i ∈ Finset.range (l.length + 1), _
    rw [Finset.sum_range_succ', add_comm]
    congr 1
    · exact Finset.sum_congr rfl fun i _ => by simp

/-- The mean after one step. -/
theorem ErM.avg_swap {e : ErM T Script} (h : e.Inv) {F : ErM T Script → ℚ} {G : Finset (Sym2 ℕ) → ℚ}
    (hG : ∀ e' : ErM T Script, e'.Inv → e'.graph.nextId = e.graph.nextId → e'.m = e.m → F e' = G e'.graph.edges) :
    avg ErM.stepDraws (fun e _ => 1 / ((ErM.stepDraws e).card : ℚ)) ErM.stepWith F e =
      swapMean (pairSet e.graph.nextId) G e.graph.edges := by
  have hnd : ((e.currentEdges ++ e.possibleEdges).map toEdge).Nodup := (h.split.map toEdge).nodup_iff.mpr (nodup_pairs _)
  rw [List.map_append] at hnd
  have hposs : pairSet e.graph.nextId \ e.graph.edges = (e.possibleEdges.map toEdge).toFinset := by
    rw [h.cur]
    have hp : pairSet e.graph.nextId = (e.currentEdges.map toEdge ++ e.possibleEdges.map toEdge).toFinset := by
      rw [pairSet, ← List.map_append]
      exact (List.toFinset_eq_of_perm _ _ (h.split.map toEdge)).symm
    rw [hp, List.toFinset_append, Finset.union_sdiff_left]
    rw [Finset.sdiff_eq_self_iff_disjoint, Finset.disjoint_left]
    intro x hx hx'
    exact (List.nodup_append.mp hnd).2.2 x (List.mem_toFinset.mp hx') x (List.mem_toFinset.mp hx) rfl
  have hc : ∀ K : Sym2 ℕ → ℚ, ∑ x ∈ e.graph.edges, K x =
      ∑ i ∈ Finset.range e.currentEdges.length, if h : i < e.currentEdges.length then K (toEdge e.currentEdges[i]) else 0 := by
    intro K
    rw [h.cur, sum_toFinset_getElem toEdge K (List.nodup_append.mp hnd).1]
  have hd : ∀ K : Sym2 ℕ → ℚ, ∑ x ∈ pairSet e.graph.nextId \ e.graph.edges, K x =
      ∑ i ∈ Finset.range e.possibleEdges.length, if h : i < e.possibleEdges.length then K (toEdge e.possibleEdges[i]) else 0 := by
    intro K
    rw [hposs, sum_toFinset_getElem toEdge K (List.nodup_append.mp hnd).2.1]
  have hcc : (e.graph.edges.card : ℚ) = e.currentEdges.length := by
    rw [h.cur, List.toFinset_card_of_nodup (List.nodup_append.mp hnd).1, List.length_map]
  have hcd : ((pairSet e.graph.nextId \ e.graph.edges).card : ℚ) = e.possibleEdges.length := by
    rw [hposs, List.toFinset_card_of_nodup (List.nodup_append.mp hnd).2.1, List.length_map]
  unfold avg swapMean
  rw [hc, hcc, hcd, Finset.sum_div]
  show ∑ d ∈ Finset.range e.currentEdges.length ×ˢ Finset.range e.possibleEdges.length, _ = _
  rw [Finset.sum_product]
  refine Finset.sum_congr rfl fun i hi => ?_
  have hi' := Finset.mem_range.mp hi
  rw [dif_pos hi', hd, Finset.sum_div]
  refine Finset.sum_congr rfl fun j hj => ?_
  have hj' := Finset.mem_range.mp hj
  obtain ⟨e', k1, k2, k3, k4, k5⟩ := ErM.stepWith_spec h hi' hj'
  rw [dif_pos hj', k1, ← k5]
  show 1 / ((Finset.range e.currentEdges.length ×ˢ Finset.range e.possibleEdges.length).card : ℚ) * F e' = _
  rw [Finset.card_product, Finset.card_range, Finset.card_range, hG e' k2 k3 k4, Nat.cast_mul]
  ring

section
variable {n m : ℕ}

/-- The first state makes less and less of a difference. -/
theorem ErM.forgets {f : Finset (Sym2 ℕ) → ℚ} {L : ℚ}
    (hL : ∀ S ⊆ pairSet n, S.card = m → ∀ a ∈ S, ∀ b ∈ pairSet n \ S, |f S - f (insert b (S.erase a))| ≤ L) (k : ℕ) :
    ∃ G : Finset (Sym2 ℕ) → ℚ, (∀ e : ErM T Script, (e.Inv ∧ e.graph.nextId = n ∧ e.m = m) →
        Steady.meanAfter ErM.stepDraws (fun e _ => 1 / ((ErM.stepDraws e).card : ℚ)) ErM.stepWith (fun e => f e.graph.edges) k e =
          G e.graph.edges) ∧
      ∀ S ⊆ pairSet n, S.card = m → ∀ a ∈ S, ∀ b ∈ pairSet n \ S, |G S - G (insert b (S.erase a))| ≤
        (1 - (((pairSet n).card : ℚ) - 2) / ((m : ℚ) * (((pairSet n).card : ℚ) - m))) ^ k * L := by
  induction k with
  | zero => exact ⟨f, fun _ _ => rfl, fun S hS hm a ha b hb => by rw [pow_zero, one_mul]; exact hL S hS hm a ha b hb⟩
  | succ k ih =>
    obtain ⟨G, g1, g2⟩ := ih
    refine ⟨swapMean (pairSet n) G, ?_, ?_⟩
    · rintro e ⟨h1, rfl, rfl⟩
      exact ErM.avg_swap h1 (fun e' k1 k2 k3 => g1 e' ⟨k1, k2, k3⟩)
    · rw [pow_succ']
      intro S hS hm a ha b hb
      rw [mul_assoc]
      exact swap_contract g2 S hS hm a ha b hb

theorem ErM.near (hm0 : 0 < m) (hm : m < n * (n - 1) / 2) {f : Finset (Sym2 ℕ) → ℚ} {L : ℚ}
    (hL : ∀ S ⊆ pairSet n, S.card = m → ∀ a ∈ S, ∀ b ∈ pairSet n \ S, |f S - f (insert b (S.erase a))| ≤ L) (k : ℕ) (e : ErM T Script)
    (he : e.Inv ∧ e.graph.nextId = n ∧ e.m = m) :
    |Steady.meanAfter ErM.stepDraws (fun e _ => 1 / ((ErM.stepDraws e).card : ℚ)) ErM.stepWith (fun e => f e.graph.edges) k e -
      ∑ S ∈ (pairSet n).powersetCard m, 1 / ((n * (n - 1) / 2).choose m : ℚ) * f S| ≤
      (min m (n * (n - 1) / 2 - m) : ℕ) * L *
        (1 - (((n * (n - 1) / 2 : ℕ) : ℚ) - 2) / ((m : ℚ) * (((n * (n - 1) / 2 : ℕ) : ℚ) - m))) ^ k := by
  have hx := ErM.mixing (T := T) hm0 hm
  refine hx.steady.mean_near hx.mem hx.conv f (fun e e' he he' => ?_) he
  obtain ⟨G, g1, g2⟩ := ErM.forgets (T := T) hL k
  rw [g1 e he, g1 e' he']
  have m1 := Finset.mem_powersetCard.mp (hx.mem e he)
  have m2 := Finset.mem_powersetCard.mp (hx.mem e' he')
  have h1 := swap_osc g2 _ e.graph.edges e'.graph.edges m1.1 m1.2 m2.1 m2.2 rfl
  refine h1.trans ?_
  have hL0 : 0 ≤ (1 - (((pairSet n).card : ℚ) - 2) / ((m : ℚ) * (((pairSet n).card : ℚ) - m))) ^ k * L := by
    obtain ⟨a, ha⟩ := Finset.card_pos.mp (show 0 < e.graph.edges.card by rw [m1.2]; exact hm0)
    have hc : (pairSet n \ e.graph.edges).card = n * (n - 1) / 2 - m := by
      rw [Finset.card_sdiff_of_subset m1.1, card_pairSet, m1.2]
    obtain ⟨b, hb⟩ := Finset.card_pos.mp (show 0 < (pairSet n \ e.graph.edges).card by omega)
    exact (abs_nonneg _).trans (g2 _ m1.1 m1.2 a ha b hb)
  have hle : (e.graph.edges \ e'.graph.edges).card ≤ min m (n * (n - 1) / 2 - m) := by
    refine le_min ((Finset.card_le_card Finset.sdiff_subset).trans m1.2.le) ?_
    refine (Finset.card_le_card (Finset.sdiff_subset_sdiff m1.1 (Finset.Subset.refl _))).trans (le_of_eq ?_)
    rw [Finset.card_sdiff_of_subset m2.1, card_pairSet, m2.2]
  have hle' : ((e.graph.edges \ e'.graph.edges).card : ℚ) ≤ ((min m (n * (n - 1) / 2 - m) : ℕ) : ℚ) := by exact_mod_cast hle
  refine (mul_le_mul_of_nonneg_right hle' hL0).trans (le_of_eq ?_)
  rw [card_pairSet]
  ring

theorem swap_rate (hm0 : 0 < m) (hm : m < n * (n - 1) / 2) :
    0 < (((n * (n - 1) / 2 : ℕ) : ℚ) - 2) / ((m : ℚ) * (((n * (n - 1) / 2 : ℕ) : ℚ) - m)) ∧
      (((n * (n - 1) / 2 : ℕ) : ℚ) - 2) / ((m : ℚ) * (((n * (n - 1) / 2 : ℕ) : ℚ) - m)) ≤ 1 := by
  have h3 : 3 ≤ n * (n - 1) / 2 := by
    rcases Nat.lt_or_ge n 3 with h3 | h3
    · exfalso
      rcases (by omega : n = 0 ∨ n = 1 ∨ n = 2) with rfl | rfl | rfl <;> omega
    · have : 3 * 2 ≤ n * (n - 1) := Nat.mul_le_mul h3 (by omega)
      omega
  generalize n * (n - 1) / 2 = M at hm h3
  have a1 : (1 : ℚ) ≤ m := by exact_mod_cast hm0
  have a2 : (m : ℚ) + 1 ≤ M := by exact_mod_cast hm
  have a3 : (3 : ℚ) ≤ M := by exact_mod_cast h3
  have a4 : 0 < (m : ℚ) * (M - m) := mul_pos (by linarith) (by linarith)
  refine ⟨div_pos (by linarith) a4, ?_⟩
  rw [div_le_one a4]
  nlinarith [mul_nonneg (sub_nonneg.mpr a1) (sub_nonneg.mpr a2)]

variable (hm0 : 0 < m) (hm : m < n * (n - 1) / 2)
include hm0 hm

/-- `ErEnsembleM`: the mean after `t` steps of a quantity `f` that changes by at most `L` if one edge is exchanged. -/
theorem C93_er_m_mean {f : Finset (Sym2 ℕ) → ℚ} {L : ℚ}
    (hL : ∀ S ⊆ pairSet n, S.card = m → ∀ a ∈ S, ∀ b ∈ pairSet n \ S, |f S - f (insert b (S.erase a))| ≤ L) (t : ℕ) {e : ErM T Stream}
    (he : e.Inv) (hen : e.graph.vertexCount = n) (hem : e.m = m) :
    |∑ S ∈ (pairSet n).powersetCard m, (f S : ℝ) *
        (uniformTape {ω | ∃ ss e', mSteps ErM.mStep t ({ e with rng := ⟨ω, 0⟩ } : ErM T Stream) = .ok (ss, e') ∧
          e'.graph.edges = S}).toReal -
      (((∑ S ∈ (pairSet n).powersetCard m, f S) / ((n * (n - 1) / 2).choose m : ℚ) : ℚ) : ℝ)| ≤
      ((min m (n * (n - 1) / 2 - m) : ℕ) : ℝ) * L *
        (1 - (((n * (n - 1) / 2 : ℕ) : ℝ) - 2) / ((m : ℝ) * (((n * (n - 1) / 2 : ℕ) : ℝ) - m))) ^ t := by
  have hW : (ErM.put e.core (⟨[]⟩ : Script)).Inv ∧ (ErM.put e.core (⟨[]⟩ : Script)).graph.nextId = n ∧
      (ErM.put e.core (⟨[]⟩ : Script)).m = m := ⟨⟨he.wf, he.len, he.cur, he.split, he.all⟩, hen, hem⟩
  have h1 := (ErM.mixing (T := T) hm0 hm).mean f (P := fun S f => f.graph.edges = S) (fun _ _ _ => Iff.rfl) hW t
  have h2 := ErM.near hm0 hm hL t _ hW
  rw [← Finset.mul_sum, one_div_mul_eq_div] at h2
  have h3 : ∀ S, {ω | ∃ ss e', mSteps ErM.mStep t ({ e with rng := ⟨ω, 0⟩ } : ErM T Stream) = .ok (ss, e') ∧ e'.graph.edges = S} =
      {ω | ∃ (_ : ℕ) (l : _) (f : ErM T Stream), mSteps ErM.mStep t
        (ErM.put (ErM.core (ErM.put e.core (⟨[]⟩ : Script))) (⟨ω, 0⟩ : Stream)) = .ok (l, f) ∧ f.graph.edges = S} := by
    intro S
    ext ω
    exact ⟨fun h => ⟨0, h⟩, fun ⟨_, h⟩ => h⟩
  simp only [h3]
  rw [h1]
  exact (cast_near h2).trans_eq (by push_cast; ring)

/-- `ErEnsembleM`: the probability after `t` steps of any set of networks with `m` edges, compared with its share among all of them. -/
theorem C93_er_m_events (A : Finset (Sym2 ℕ) → Prop) [DecidablePred A] (t : ℕ) {e : ErM T Stream}
    (he : e.Inv) (hen : e.graph.vertexCount = n) (hem : e.m = m) :
    |(uniformTape {ω | ∃ ss e', mSteps ErM.mStep t ({ e with rng := ⟨ω, 0⟩ } : ErM T Stream) = .ok (ss, e') ∧ A e'.graph.edges}).toReal -
      (((pairSet n).powersetCard m).filter A).card / ((n * (n - 1) / 2).choose m : ℝ)| ≤
      ((min m (n * (n - 1) / 2 - m) : ℕ) : ℝ) *
        (1 - (((n * (n - 1) / 2 : ℕ) : ℝ) - 2) / ((m : ℝ) * (((n * (n - 1) / 2 : ℕ) : ℝ) - m))) ^ t := by
  have hW : (ErM.put e.core (⟨[]⟩ : Script)).Inv ∧ (ErM.put e.core (⟨[]⟩ : Script)).graph.nextId = n ∧
      (ErM.put e.core (⟨[]⟩ : Script)).m = m := ⟨⟨he.wf, he.len, he.cur, he.split, he.all⟩, hen, hem⟩
  have h1 := (ErM.mixing (T := T) hm0 hm).event A (P := fun f => A f.graph.edges) (fun _ _ => Iff.rfl) hW t
  have h2 := ErM.near hm0 hm (f := fun S => if A S then 1 else 0) (L := 1) (fun S _ _ a _ b _ => indicator_lip A _ _) t _ hW
  rw [← Finset.mul_sum, one_div_mul_eq_div, ← Finset.sum_filter, Finset.sum_const, nsmul_eq_mul, mul_one, mul_one] at h2
  have h3 : {ω | ∃ ss e', mSteps ErM.mStep t ({ e with rng := ⟨ω, 0⟩ } : ErM T Stream) = .ok (ss, e') ∧ A e'.graph.edges} =
      {ω | ∃ (_ : ℕ) (l : _) (f : ErM T Stream), mSteps ErM.mStep t
        (ErM.put (ErM.core (ErM.put e.core (⟨[]⟩ : Script))) (⟨ω, 0⟩ : Stream)) = .ok (l, f) ∧ A f.graph.edges} := by
    ext ω
    exact ⟨fun h => ⟨0, h⟩, fun ⟨_, h⟩ => h⟩
  rw [h3, h1]
  have h4 := cast_near h2
  rw [Rat.cast_div, Rat.cast_natCast, Rat.cast_natCast] at h4
  exact h4.trans_eq (by push_cast; ring)

/-- `m (N - m) / (N - 2) * log (min m (N - m) / ε)` steps are enough, where `N` is the number of pairs. -/
theorem C93_er_m_steps (A : Finset (Sym2 ℕ) → Prop) [DecidablePred A] {ε : ℝ} (hε : 0 < ε) {t : ℕ}
    (ht : (m : ℝ) * (((n * (n - 1) / 2 : ℕ) : ℝ) - m) / (((n * (n - 1) / 2 : ℕ) : ℝ) - 2) *
      Real.log (((min m (n * (n - 1) / 2 - m) : ℕ) : ℝ) / ε) ≤ t) {e : ErM T Stream}
    (he : e.Inv) (hen : e.graph.vertexCount = n) (hem : e.m = m) :
    |(uniformTape {ω | ∃ ss e', mSteps ErM.mStep t ({ e with rng := ⟨ω, 0⟩ } : ErM T Stream) = .ok (ss, e') ∧ A e'.graph.edges}).toReal -
      (((pairSet n).powersetCard m).filter A).card / ((n * (n - 1) / 2).choose m : ℝ)| ≤ ε := by
  obtain ⟨c0, c1⟩ := swap_rate hm0 hm
  have c0' : (0 : ℝ) < (((n * (n - 1) / 2 : ℕ) : ℝ) - 2) / ((m : ℝ) * (((n * (n - 1) / 2 : ℕ) : ℝ) - m)) := by
    have := (Rat.cast_lt (K := ℝ)).mpr c0
    push_cast at this ⊢
    exact this
  have c1' : (((n * (n - 1) / 2 : ℕ) : ℝ) - 2) / ((m : ℝ) * (((n * (n - 1) / 2 : ℕ) : ℝ) - m)) ≤ 1 := by
    have := (Rat.cast_le (K := ℝ)).mpr c1
    push_cast at this ⊢
    exact this
  have hM : 0 < min m (n * (n - 1) / 2 - m) := lt_min hm0 (by omega)
  refine (C93_er_m_events hm0 hm A t he hen hem).trans (rate_steps (by exact_mod_cast hM) hε c0' c1' ?_)
  rw [div_div_eq_mul_div]
  refine le_trans (le_of_eq ?_) ht
  ring

/-- `ErEnsembleM`: how likely the average over `N` steps is off. -/
theorem C93_er_m_average_error {f : Finset (Sym2 ℕ) → ℚ} {L : ℚ}
    (hL : ∀ S ⊆ pairSet n, S.card = m → ∀ a ∈ S, ∀ b ∈ pairSet n \ S, |f S - f (insert b (S.erase a))| ≤ L) {δ : ℚ} (hδ : 0 < δ) {N : ℕ}
    (hN : 0 < N) {e : ErM T Stream} (he : e.Inv) (hen : e.graph.vertexCount = n) (hem : e.m = m) :
    1 - (((((min m (n * (n - 1) / 2 - m) : ℕ) : ℚ) * L) ^ 2 *
        (1 + 2 * (m * (((n * (n - 1) / 2 : ℕ) : ℚ) - m)) / (((n * (n - 1) / 2 : ℕ) : ℚ) - 2)) / (N * δ ^ 2) : ℚ) : ℝ) ≤
      (uniformTape {ω | ∃ a e', sumSteps ErM.mStep (fun e => f e.graph.edges) N ({ e with rng := ⟨ω, 0⟩ } : ErM T Stream) 0 =
          .ok (a, e') ∧
        |(a : ℝ) / N - (((∑ S ∈ (pairSet n).powersetCard m, f S) / ((n * (n - 1) / 2).choose m : ℚ) : ℚ) : ℝ)| < δ}).toReal := by
  obtain ⟨c0, c1⟩ := swap_rate hm0 hm
  have h1 := (ErM.mixing (T := T) hm0 hm).average_error f (fF := fun e => f e.graph.edges) (fun _ _ => rfl) (sub_nonneg.mpr c1)
    (by linarith) (ErM.near hm0 hm hL) hδ hN (e := ErM.put e.core (⟨[]⟩ : Script))
    ⟨⟨he.wf, he.len, he.cur, he.split, he.all⟩, hen, hem⟩
  rw [sub_sub_cancel, div_div_eq_mul_div, ← pow_two, ← pow_two] at h1
  refine h1.trans_eq ?_
  rw [← Finset.mul_sum, one_div_mul_eq_div]
  congr 2
  ext ω
  exact ⟨fun ⟨_, h⟩ => h, fun h => ⟨0, h⟩⟩

end

/-- The hypotheses are met: one pair changes the number of edges by at most one, an exchange of one edge changes the number of edges at
vertex 0 by at most one, and with 5 vertices (10 pairs) 70 steps of `ErEnsembleC` are enough for an error of 1/100, since
`log 1000 < 7`. -/
example : (∀ x ∈ pairSet 5, ∀ S ⊆ pairSet 5, |((insert x S).card : ℚ) - ((S.erase x).card : ℚ)| ≤ 1) ∧
    (∀ S ⊆ pairSet 5, S.card = 4 → ∀ a ∈ S, ∀ b ∈ pairSet 5 \ S,
      |((S.filter (fun x => 0 ∈ x)).card : ℚ) - (((insert b (S.erase a)).filter (fun x => 0 ∈ x)).card : ℚ)| ≤ 1) ∧
    ((5 * (5 - 1) / 2 : ℕ) : ℝ) * Real.log (((5 * (5 - 1) / 2 : ℕ) : ℝ) / (1 / 100)) ≤ (70 : ℕ) ∧
    (exTail.WF ∧ exTail.vertexCount = 5) ∧
    ((0 < 4 ∧ 4 < 5 * (5 - 1) / 2) ∧ ∃ e : ErM Nat Stream, e.Inv ∧ e.graph.vertexCount = 5 ∧ e.m = 4) ∧
    (exSpacial.graph.WF ∧ 2 ≤ exSpacial.graph.vertexCount ∧ ∀ p q, exSpacial.law p q = exSpacial.law q p) := by
  refine ⟨?_, ?_, ?_, ⟨exTail_wf, by decide⟩, ⟨by decide, ?_⟩,
    ⟨exSpacial_wf, by decide, fun p q => by simp only [exSpacial, eq_comm]⟩⟩
  · intro x _ S _
    rw [← Finset.erase_insert_eq_erase]
    have := Finset.card_erase_add_one (Finset.mem_insert_self x S)
    rw [← this, Nat.cast_add, Nat.cast_one, add_sub_cancel_left, abs_one]
  · intro S _ _ a ha b hb
    have h1 : ∀ (U : Finset (Sym2 ℕ)) (x : Sym2 ℕ), ((insert x U).filter (fun x => 0 ∈ x)).card ≤ (U.filter (fun x => 0 ∈ x)).card + 1 := by
      intro U x
      rw [Finset.filter_insert]
      split
      · exact Finset.card_insert_le _ _
      · omega
    have h2 : ∀ (U : Finset (Sym2 ℕ)) (x : Sym2 ℕ), (U.filter (fun x => 0 ∈ x)).card ≤ ((insert x U).filter (fun x => 0 ∈ x)).card :=
      fun U x => Finset.card_le_card (Finset.filter_subset_filter _ (Finset.subset_insert _ _))
    have k1 := h1 (S.erase a) b
    have k2 := h2 (S.erase a) b
    have k3 := h1 (S.erase a) a
    have k4 := h2 (S.erase a) a
    rw [Finset.insert_erase ha] at k3 k4
    rw [abs_le]
    constructor
    · have : ((((insert b (S.erase a)).filter (fun x => 0 ∈ x)).card : ℕ) : ℚ) ≤ (((S.filter (fun x => 0 ∈ x)).card + 1 : ℕ) : ℚ) := by
        exact_mod_cast (by omega)
      push_cast at this
      linarith
    · have : (((S.filter (fun x => 0 ∈ x)).card : ℕ) : ℚ) ≤ ((((insert b (S.erase a)).filter (fun x => 0 ∈ x)).card + 1 : ℕ) : ℚ) := by
        exact_mod_cast (by omega)
      push_cast at this
      linarith
  · have h1 : Real.log 1000 ≤ 7 := by
      rw [Real.log_le_iff_le_exp (by norm_num)]
      have h2 : (2.7 : ℝ) ≤ Real.exp 1 := by have := Real.exp_one_gt_d9; linarith
      calc (1000 : ℝ) ≤ 2.7 ^ 7 := by norm_num
        _ ≤ Real.exp 1 ^ 7 := pow_le_pow_left₀ (by norm_num) h2 7
        _ = Real.exp 7 := by rw [← Real.exp_nat_mul]; norm_num
    norm_num
    linarith
  · obtain ⟨e, _, h2, h3, h4, _⟩ := ErM.new_spec (T := Nat) (n := 5) (m := 4) (by decide) (by decide) (⟨fun _ => 0, 0⟩ : Stream)
    exact ⟨e, h2, h3, h4⟩

end Verif
