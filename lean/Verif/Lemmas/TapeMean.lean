import Verif.Lemmas.TapeLaw
import Mathlib.Probability.Moments.Variance

/-!
# Mean and variance of the number of events that happen
-/

set_option linter.unusedSectionVars false

namespace Verif
open MeasureTheory ProbabilityTheory

variable {Ω ι : Type} [MeasurableSpace Ω] {μ : Measure Ω} [IsProbabilityMeasure μ] [DecidableEq ι]

/-- The number of the events `A i`, `i ∈ s`, that happen. -/
noncomputable def howMany (s : Finset ι) (A : ι → Set Ω) (ω : Ω) : ℝ := ∑ i ∈ s, (A i).indicator (fun _ => (1 : ℝ)) ω

theorem indicator_memLp {B : Set Ω} (hB : MeasurableSet B) : MemLp (B.indicator (fun _ => (1 : ℝ))) 2 μ :=
  (memLp_const (1 : ℝ)).indicator hB

theorem indicator_mean {B : Set Ω} (hB : MeasurableSet B) : ∫ ω, B.indicator (fun _ => (1 : ℝ)) ω ∂μ = μ.real B := by
  rw [integral_indicator_const _ hB]
  simp

theorem indicator_variance {B : Set Ω} (hB : MeasurableSet B) :
    variance (B.indicator (fun _ => (1 : ℝ))) μ = μ.real B * (1 - μ.real B) := by
  rw [variance_eq_sub (indicator_memLp hB), indicator_mean hB]
  have : (B.indicator (fun _ => (1 : ℝ))) ^ 2 = B.indicator (fun _ => (1 : ℝ)) := by
    funext ω
    by_cases h : ω ∈ B <;> simp [h]
  rw [this, indicator_mean hB]
  ring

theorem howMany_memLp (s : Finset ι) {A : ι → Set Ω} (hA : ∀ i, MeasurableSet (A i)) : MemLp (howMany s A) 2 μ := by
  have : howMany s A = ∑ i ∈ s, (A i).indicator (fun _ => (1 : ℝ)) := by
    funext ω
    simp [howMany, Finset.sum_apply]
  rw [this]
  exact memLp_finsetSum' s (fun i _ => indicator_memLp (hA i))

theorem howMany_mean (s : Finset ι) {A : ι → Set Ω} (hA : ∀ i, MeasurableSet (A i)) :
    ∫ ω, howMany s A ω ∂μ = ∑ i ∈ s, μ.real (A i) := by
  unfold howMany
  rw [integral_finsetSum _ (fun i _ => (indicator_memLp (hA i)).integrable (by norm_num))]
  exact Finset.sum_congr rfl (fun i _ => indicator_mean (hA i))

theorem howMany_variance (s : Finset ι) {A : ι → Set Ω} (hA : ∀ i, MeasurableSet (A i)) (hI : iIndepSet A μ) :
    variance (howMany s A) μ = ∑ i ∈ s, μ.real (A i) * (1 - μ.real (A i)) := by
  have : howMany s A = ∑ i ∈ s, (A i).indicator (fun _ => (1 : ℝ)) := by
    funext ω
    simp [howMany, Finset.sum_apply]
  have hf : iIndepFun (fun i => (A i).indicator (fun _ => (1 : ℝ))) μ := hI.iIndepFun_indicator
  rw [this, IndepFun.variance_sum (fun i _ => indicator_memLp (hA i)) (fun i _ j _ hij => hf.indepFun hij)]
  exact Finset.sum_congr rfl (fun i _ => indicator_variance (hA i))

theorem howMany_eq_card (s : Finset ι) (A : ι → Set Ω) (ω : Ω) [DecidablePred (fun i => ω ∈ A i)] :
    howMany s A ω = (s.filter (fun i => ω ∈ A i)).card := by
  unfold howMany
  rw [Finset.card_filter]
  push_cast
  refine Finset.sum_congr rfl (fun i _ => ?_)
  by_cases h : ω ∈ A i <;> simp [h]

end Verif
