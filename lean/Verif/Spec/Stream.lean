import Verif.Model.Prelude
import Mathlib.Probability.ProductMeasure
import Mathlib.Probability.BorelCantelli
import Mathlib.MeasureTheory.Measure.Lebesgue.Basic

/-!
# The ideal generator

A tape of independent uniformly distributed numbers of `[0, 1)`; every call of the generator uses the next number.  "With
probability one" means: for almost all tapes.
-/

set_option linter.unusedSectionVars false

namespace Verif
open MeasureTheory

/-- A generator that reads a tape of real numbers. -/
structure Stream where
  tape : ℕ → ℝ
  pos : ℕ

namespace Stream

/-- The next number. -/
def head (s : Stream) : ℝ := s.tape s.pos

/-- The generator after `k` calls. -/
def skip (s : Stream) (k : ℕ) : Stream := ⟨s.tape, s.pos + k⟩

@[simp] theorem skip_tape (s : Stream) (k : ℕ) : (s.skip k).tape = s.tape := rfl
@[simp] theorem skip_pos (s : Stream) (k : ℕ) : (s.skip k).pos = s.pos + k := rfl
@[simp] theorem skip_zero (s : Stream) : s.skip 0 = s := rfl
theorem skip_skip (s : Stream) (k l : ℕ) : (s.skip k).skip l = s.skip (k + l) := by
  simp [skip, Nat.add_assoc]
theorem head_skip (s : Stream) (k : ℕ) : (s.skip k).head = s.tape (s.pos + k) := rfl

end Stream

/-- The number of the part of `[0, 1)`, cut into `h` equal parts, in which `x` lies. -/
noncomputable def partOf (x : ℝ) (h : ℕ) : ℕ := min ⌊x * h⌋₊ (h - 1)

theorem partOf_lt (x : ℝ) {h : ℕ} (hh : 0 < h) : partOf x h < h := by
  unfold partOf
  omega

/-- Every call uses one number of the tape: `gen_range(0..h)` and `gen::<f64>()` cut `[0, 1)` into equal parts, `shuffle` chooses
among all rearrangements of the list in the same way. -/
noncomputable instance : Rng Stream where
  genRange s h := (partOf s.head h, s.skip 1)
  genRange_lt s h hh := partOf_lt s.head hh
  genUnit s := (partOf s.head (2 ^ 53), s.skip 1)
  genUnit_lt s := partOf_lt s.head (Nat.two_pow_pos 53)
  shuffle s l := (l.permutations.getD (partOf s.head l.permutations.length) l, s.skip 1)
  shuffle_perm s l := by
    dsimp only
    rw [List.getD_eq_getElem?_getD]
    cases h : l.permutations[partOf s.head l.permutations.length]? with
    | none => exact List.Perm.refl _
    | some x => exact List.mem_permutations.mp (List.mem_of_getElem? h)

/-- The distribution of the tapes: independent numbers, each uniformly distributed in `[0, 1)`. -/
noncomputable def uniformTape : Measure (ℕ → ℝ) := Measure.infinitePi (fun _ => volume.restrict (Set.Ico (0 : ℝ) 1))

instance : IsProbabilityMeasure (volume.restrict (Set.Ico (0 : ℝ) 1)) := ⟨by simp⟩

instance : IsProbabilityMeasure uniformTape := by unfold uniformTape; infer_instance

/-- A pattern: a list of intervals in `[0, 1]`. -/
def Pattern (w : List (ℚ × ℚ)) : Prop := w ≠ [] ∧ ∀ p ∈ w, 0 ≤ p.1 ∧ p.1 < p.2 ∧ p.2 ≤ 1

/-- The tape follows the pattern from position `k` on. -/
def Follows (ω : ℕ → ℝ) (w : List (ℚ × ℚ)) (k : ℕ) : Prop :=
  ∀ i (h : i < w.length), ((w[i].1 : ℚ) : ℝ) ≤ ω (k + i) ∧ ω (k + i) < ((w[i].2 : ℚ) : ℝ)

/-- Every pattern occurs, also if one looks from an arbitrary start only at every block of its length. -/
def Fair (ω : ℕ → ℝ) : Prop := ∀ w, Pattern w → ∀ s, ∃ j, Follows ω w (s + j * w.length)

end Verif
