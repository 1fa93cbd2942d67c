import Verif.Lemmas.UntilState
import Mathlib.MeasureTheory.Integral.Lebesgue.Countable

/-!
# The number of rounds of a loop that draws until it fits
-/

set_option linter.unusedSectionVars false
set_option linter.unusedSimpArgs false

namespace Verif
open MeasureTheory ProbabilityTheory

/-- The number of rounds that are needed: the least `n` for which the loop is done after `n` rounds, infinity if there is none. -/
noncomputable def roundsNeeded (done : ℕ → Prop) : ENNReal := ⨅ n, ⨅ _ : done n, (n : ENNReal)

open Classical in
theorem roundsNeeded_eq_tsum {done : ℕ → Prop} (hm : ∀ n, done n → done (n + 1)) :
    roundsNeeded done = ∑' n, if done n then (0 : ENNReal) else 1 := by
  by_cases h : ∃ n, done n
  · have hge : ∀ n, done n ↔ Nat.find h ≤ n := fun n => ⟨fun hn => Nat.find_min' h hn, fun hn => by
      induction n, hn using Nat.le_induction with
      | base => exact Nat.find_spec h
      | succ n _ ih => exact hm n ih⟩
    have h1 : roundsNeeded done = (Nat.find h : ENNReal) := by
      refine le_antisymm (iInf₂_le _ (Nat.find_spec h)) (le_iInf₂ fun n hn => ?_)
      exact_mod_cast (hge n).mp hn
    rw [h1, tsum_eq_sum (s := Finset.range (Nat.find h)) (fun n hn => by
      rw [if_pos ((hge n).mpr (by simpa using hn))])]
    rw [Finset.sum_congr rfl (g := fun _ => (1 : ENNReal)) (fun n hn => by
      rw [if_neg fun hc => ?_]
      have := (hge n).mp hc
      have := Finset.mem_range.mp hn
      omega)]
    simp
  · push Not at h
    have h1 : roundsNeeded done = ⊤ := by
      unfold roundsNeeded
      simp [h]
    rw [h1]
    simp only [h, if_false]
    exact (ENNReal.tsum_const_eq_top_of_ne_zero one_ne_zero).symm

theorem geom_within {q : ENNReal} (hq : q ≤ 1) (n : ℕ) : q * ∑ i ∈ Finset.range n, (1 - q) ^ i = 1 - (1 - q) ^ n := by
  induction n with
  | zero => simp
  | succ n ih =>
    have hp : (1 - q) ^ n ≤ 1 := pow_le_one₀ zero_le tsub_le_self
    have hq' : q ≠ ⊤ := ne_top_of_le_ne_top ENNReal.one_ne_top hq
    have h1 : (1 - q) ^ n = q * (1 - q) ^ n + (1 - q) ^ (n + 1) := by
      rw [pow_succ, mul_comm ((1 - q) ^ n) (1 - q), ← add_mul, add_tsub_cancel_of_le hq, one_mul]
    have h2 : (1 - q) ^ (n + 1) ≠ ⊤ := ENNReal.pow_ne_top (by simp)
    rw [Finset.sum_range_succ, mul_add, ih]
    refine (ENNReal.sub_eq_of_eq_add h2 ?_).symm
    rw [add_assoc, ← h1, tsub_add_cancel_of_le hp]

variable {σ α : Type} {Att : σ → (ℕ → ℝ) → ℕ → σ ⊕ α → ℕ → Prop}

/-- Done within `n` rounds if a round succeeds with probability `q`. -/
theorem chance_rounds (hS : ∀ s, Sampler (Att s)) {I : σ → Prop} (hI : ∀ {s ω k s' j}, I s → Att s ω k (.inl s') j → I s')
    {q : ENNReal} (hq : q ≤ 1) (hr : ∀ s, I s → Chance (fun ω k => ∃ s' j, Att s ω k (.inl s') j) (1 - q))
    (hw : ∀ s, I s → Chance (fun ω k => ∃ a j, Att s ω k (.inr a) j) q) (n : ℕ) (s : σ) (hs : I s) :
    Chance (fun ω k => ∃ a j, UntilN Att ω n s k a j) (1 - (1 - q) ^ n) := by
  have h1 := chance_untilN hS hI (P := fun _ => True) hr (fun s hs => (hw s hs).congr fun ω k =>
    ⟨fun ⟨a, j, h⟩ => ⟨a, j, h, trivial⟩, fun ⟨a, j, h, _⟩ => ⟨a, j, h⟩⟩) n s hs
  rw [geom_within hq] at h1
  exact h1.congr fun ω k => ⟨fun ⟨a, j, h, _⟩ => ⟨a, j, h⟩, fun ⟨a, j, h⟩ => ⟨a, j, h, trivial⟩⟩

/-- The expected number of rounds is `1 / q`. -/
theorem rounds_mean {done : ℕ → (ℕ → ℝ) → Prop} (hm : ∀ n ω, done n ω → done (n + 1) ω) (hmeas : ∀ n, MeasurableSet {ω | done n ω})
    {q : ENNReal} (hq : q ≤ 1) (hp : ∀ n, uniformTape {ω | done n ω} = 1 - (1 - q) ^ n) :
    ∫⁻ ω, roundsNeeded (fun n => done n ω) ∂uniformTape = q⁻¹ := by
  classical
  have h1 : ∀ ω, roundsNeeded (fun n => done n ω) = ∑' n, {ω | done n ω}ᶜ.indicator (fun _ => (1 : ENNReal)) ω := by
    intro ω
    rw [roundsNeeded_eq_tsum fun n => hm n ω]
    refine tsum_congr fun n => ?_
    by_cases h : done n ω
    · rw [if_pos h, Set.indicator_of_notMem]
      exact fun hc => hc h
    · rw [if_neg h, Set.indicator_of_mem]
      exact h
  simp only [h1]
  rw [lintegral_tsum fun n => (measurable_const.indicator (hmeas n).compl).aemeasurable]
  have h2 : ∀ n, ∫⁻ ω, {ω | done n ω}ᶜ.indicator (fun _ => (1 : ENNReal)) ω ∂uniformTape = (1 - q) ^ n := by
    intro n
    rw [lintegral_indicator_const (hmeas n).compl, one_mul, prob_compl_eq_one_sub (hmeas n), hp n]
    exact ENNReal.sub_sub_cancel ENNReal.one_ne_top (pow_le_one₀ zero_le tsub_le_self)
  simp only [h2]
  rw [ENNReal.tsum_geometric, ENNReal.sub_sub_cancel ENNReal.one_ne_top hq]

end Verif
