import Verif.Lemmas.ChainMean

/-!
# Averages along one run, their mean and their variance
-/

namespace Verif
open MeasureTheory ProbabilityTheory

/-- A program of the user: draw a network with `randomize`, make `N` Markov steps, and average `f` over the networks after the steps. -/
def randomAverage {F S : Type} (rnd : F → Res F) (mStep : F → Res (S × F)) (f : F → ℚ) (N : ℕ) (e : F) : Res ℚ := do
  let e ← rnd e
  let (a, _) ← sumSteps mStep f N e 0
  return a / N

/-- The same without `randomize`: the average over the `N` networks that follow the present one. -/
def plainAverage {F S : Type} (mStep : F → Res (S × F)) (f : F → ℚ) (N : ℕ) (e : F) : Res ℚ := do
  let (a, _) ← sumSteps mStep f N e 0
  return a / N

/-- A program that reads a tape of uniform independent random numbers returns one of finitely many numbers with probability one, and their
mean is `m`. -/
def HasMean (prog : (ℕ → ℝ) → Res ℚ) (m : ℚ) : Prop :=
  (∀ v, MeasurableSet {ω | prog ω = .ok v}) ∧ ∃ vals : Finset ℚ, (∀ ω v, prog ω = .ok v → v ∈ vals) ∧
    ∑ v ∈ vals, (uniformTape {ω | prog ω = .ok v}).toReal = 1 ∧
    ∑ v ∈ vals, (v : ℝ) * (uniformTape {ω | prog ω = .ok v}).toReal = m

/-- A program that reads a tape of uniform independent random numbers returns one of finitely many numbers with probability one, their mean is
`m` and their variance is `s`. -/
def HasMeanVar (prog : (ℕ → ℝ) → Res ℚ) (m s : ℚ) : Prop :=
  (∀ v, MeasurableSet {ω | prog ω = .ok v}) ∧ ∃ vals : Finset ℚ, (∀ ω v, prog ω = .ok v → v ∈ vals) ∧
    ∑ v ∈ vals, (uniformTape {ω | prog ω = .ok v}).toReal = 1 ∧
    ∑ v ∈ vals, (v : ℝ) * (uniformTape {ω | prog ω = .ok v}).toReal = m ∧
    ∑ v ∈ vals, (((v - m) ^ 2 : ℚ) : ℝ) * (uniformTape {ω | prog ω = .ok v}).toReal = s

end Verif
