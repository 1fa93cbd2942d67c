import Mathlib.Algebra.Order.Archimedean.Basic
import Mathlib.Algebra.BigOperators.Ring.Finset
import Mathlib.Algebra.Order.BigOperators.Ring.Finset
import Mathlib.Algebra.Order.Field.Basic
import Mathlib.Algebra.BigOperators.Field
import Mathlib.Data.Rat.Defs
import Mathlib.Algebra.Order.Ring.Rat
import Mathlib.Tactic.Ring
import Mathlib.Tactic.Linarith
import Mathlib.Tactic.FieldSimp
import Mathlib.Data.Finset.Max

/-!
# Convergence of finite reversible Markov chains

Elementary facts on stochastic matrices over the rationals, used for C66.
-/

set_option linter.unusedSectionVars false
set_option linter.unusedSimpArgs false

namespace Verif.Markov
open Finset

variable {O : Type} [DecidableEq O]

/-- `P` is a stochastic matrix on the finite set `Ω`. -/
structure Kernel (Ω : Finset O) (P : O → O → ℚ) : Prop where
  nonneg : ∀ x ∈ Ω, ∀ y ∈ Ω, 0 ≤ P x y
  row : ∀ x ∈ Ω, ∑ y ∈ Ω, P x y = 1

/-- The expectation of `f` after one step. -/
def act (Ω : Finset O) (P : O → O → ℚ) (f : O → ℚ) (x : O) : ℚ := ∑ y ∈ Ω, P x y * f y

/-- The probability to be at `y` after `k` steps from `x`. -/
def pow (Ω : Finset O) (P : O → O → ℚ) : ℕ → O → O → ℚ
  | 0, x, y => if x = y then 1 else 0
  | k + 1, x, y => ∑ z ∈ Ω, P x z * pow Ω P k z y

variable {Ω : Finset O} {P : O → O → ℚ}

theorem pow_kernel (h : Kernel Ω P) : ∀ k, Kernel Ω (pow Ω P k) := by
  intro k
  induction k with
  | zero =>
    refine ⟨fun x _ y _ => ?_, fun x hx => ?_⟩
    · simp only [pow]; split <;> norm_num
    · simp [pow, hx]
  | succ k ih =>
    refine ⟨fun x hx y hy => ?_, fun x hx => ?_⟩
    · exact sum_nonneg (fun z hz => mul_nonneg (h.nonneg x hx z hz) (ih.nonneg z hz y hy))
    · simp only [pow]
      rw [sum_comm]
      simp only [← mul_sum]
      rw [← h.row x hx]
      exact sum_congr rfl (fun z hz => by rw [ih.row z hz, mul_one])

theorem pow_add (k l : ℕ) (x y : O) (hx : x ∈ Ω) :
    pow Ω P (k + l) x y = ∑ z ∈ Ω, pow Ω P k x z * pow Ω P l z y := by
  induction k generalizing x with
  | zero =>
    rw [Nat.zero_add]
    simp [pow, hx]
  | succ k ih =>
    rw [show k + 1 + l = (k + l) + 1 by omega]
    simp only [pow]
    rw [sum_congr rfl (fun z hz => by rw [ih z hz])]
    simp only [mul_sum, sum_mul]
    rw [sum_comm]
    exact sum_congr rfl (fun z _ => sum_congr rfl (fun w _ => by ring))

/-- `f` has all its values on `Ω` in an interval of length `c`. -/
def Osc (Ω : Finset O) (f : O → ℚ) (c : ℚ) : Prop := ∃ m, ∀ x ∈ Ω, m ≤ f x ∧ f x ≤ m + c

theorem Osc.act (h : Kernel Ω P) {f : O → ℚ} {c : ℚ} (hf : Osc Ω f c) : Osc Ω (act Ω P f) c := by
  obtain ⟨m, hm⟩ := hf
  refine ⟨m, fun x hx => ?_⟩
  have h1 : ∑ y ∈ Ω, P x y * m ≤ Markov.act Ω P f x :=
    sum_le_sum (fun y hy => mul_le_mul_of_nonneg_left (hm y hy).1 (h.nonneg x hx y hy))
  have h2 : Markov.act Ω P f x ≤ ∑ y ∈ Ω, P x y * (m + c) :=
    sum_le_sum (fun y hy => mul_le_mul_of_nonneg_left (hm y hy).2 (h.nonneg x hx y hy))
  rw [← sum_mul, h.row x hx, one_mul] at h1 h2
  exact ⟨h1, h2⟩

theorem Osc.contract (h : Kernel Ω P) {o : O} (ho : o ∈ Ω) {δ : ℚ} (hδ : ∀ x ∈ Ω, δ ≤ P x o) {f : O → ℚ} {c : ℚ}
    (hf : Osc Ω f c) : Osc Ω (Markov.act Ω P f) ((1 - δ) * c) := by
  obtain ⟨m, hm⟩ := hf
  refine ⟨δ * f o + (1 - δ) * m, fun x hx => ?_⟩
  have hnn : ∀ y ∈ Ω, 0 ≤ P x y - (if y = o then δ else 0) := by
    intro y hy
    split
    · rename_i e; subst e; exact sub_nonneg.mpr (hδ x hx)
    · rw [sub_zero]; exact h.nonneg x hx y hy
  have hrow : ∑ y ∈ Ω, (P x y - (if y = o then δ else 0)) = 1 - δ := by
    rw [sum_sub_distrib, h.row x hx]
    simp [ho]
  have hact : Markov.act Ω P f x = δ * f o + ∑ y ∈ Ω, (P x y - (if y = o then δ else 0)) * f y := by
    simp only [Markov.act, sub_mul, sum_sub_distrib, ite_mul, zero_mul]
    rw [sum_ite_eq' Ω o (fun y => δ * f y), if_pos ho]
    ring
  have h1 : ∑ y ∈ Ω, (P x y - (if y = o then δ else 0)) * m ≤ ∑ y ∈ Ω, (P x y - (if y = o then δ else 0)) * f y :=
    sum_le_sum (fun y hy => mul_le_mul_of_nonneg_left (hm y hy).1 (hnn y hy))
  have h2 : ∑ y ∈ Ω, (P x y - (if y = o then δ else 0)) * f y ≤ ∑ y ∈ Ω, (P x y - (if y = o then δ else 0)) * (m + c) :=
    sum_le_sum (fun y hy => mul_le_mul_of_nonneg_left (hm y hy).2 (hnn y hy))
  rw [← sum_mul, hrow] at h1 h2
  rw [hact]
  constructor
  · linarith
  · have : (1 - δ) * (m + c) = (1 - δ) * m + (1 - δ) * c := by ring
    linarith

/-- Probability to be at `y` after `k + t` steps, as a function of the start. -/
theorem pow_act (k t : ℕ) (y : O) {x : O} (hx : x ∈ Ω) :
    pow Ω P (k + t) x y = act Ω (pow Ω P k) (fun z => pow Ω P t z y) x := pow_add k t x y hx

theorem Osc.congr {f f' : O → ℚ} {c : ℚ} (h : Osc Ω f c) (he : ∀ x ∈ Ω, f' x = f x) : Osc Ω f' c := by
  obtain ⟨m, hm⟩ := h
  exact ⟨m, fun x hx => by rw [he x hx]; exact hm x hx⟩

theorem osc_pow (h : Kernel Ω P) {o : O} (ho : o ∈ Ω) {δ : ℚ} {k : ℕ} (hδ : ∀ x ∈ Ω, δ ≤ pow Ω P k x o) (y : O) :
    ∀ j t : ℕ, Osc Ω (fun x => pow Ω P (j * k + t) x y) ((1 - δ) ^ j) := by
  intro j
  induction j with
  | zero =>
    intro t
    induction t with
    | zero =>
      refine ⟨0, fun x _ => ?_⟩
      simp only [pow, Nat.zero_mul, Nat.add_zero, _root_.pow_zero]
      split <;> norm_num
    | succ t ih =>
      refine (ih.act h).congr (fun x hx => ?_)
      simp only [Nat.zero_mul, Nat.zero_add]
      rfl
  | succ j ih =>
    intro t
    have := (ih t).contract (pow_kernel h k) ho hδ
    rw [pow_succ, mul_comm ((1 - δ) ^ j)]
    refine this.congr (fun x hx => ?_)
    show pow Ω P ((j + 1) * k + t) x y = _
    rw [show (j + 1) * k + t = k + (j * k + t) by ring]
    exact pow_act k _ y hx

/-- Detailed balance carries over to many steps. -/
theorem pow_balance {w : O → ℚ} (hb : ∀ x ∈ Ω, ∀ y ∈ Ω, w x * P x y = w y * P y x) :
    ∀ k, ∀ x ∈ Ω, ∀ y ∈ Ω, w x * pow Ω P k x y = w y * pow Ω P k y x := by
  intro k
  induction k with
  | zero =>
    intro x _ y _
    simp only [pow]
    by_cases e : x = y
    · subst e; rfl
    · rw [if_neg e, if_neg (Ne.symm e), mul_zero, mul_zero]
  | succ k ih =>
    intro x hx y hy
    have h2 : pow Ω P (k + 1) y x = ∑ z ∈ Ω, pow Ω P k y z * P z x := by
      rw [pow_add k 1 y x hy]
      refine sum_congr rfl (fun z hz => ?_)
      simp [pow, hx]
    rw [h2]
    simp only [pow, mul_sum]
    refine sum_congr rfl (fun z hz => ?_)
    rw [← mul_assoc, hb x hx z hz, ← mul_assoc, ← ih z hz y hy]
    ring

/-- **Convergence.**  If `P` is in detailed balance with the weights `w` and some state `o` is reached from everywhere in exactly
`k` steps, the probabilities after many steps are the normalised weights up to an arbitrarily small error. -/
theorem converges (h : Kernel Ω P) {w : O → ℚ} (hw : ∀ x ∈ Ω, 0 ≤ w x) (hpos : 0 < ∑ x ∈ Ω, w x)
    (hb : ∀ x ∈ Ω, ∀ y ∈ Ω, w x * P x y = w y * P y x) {o : O} (ho : o ∈ Ω) {k : ℕ}
    (hk : ∀ x ∈ Ω, 0 < pow Ω P k x o) {ε : ℚ} (hε : 0 < ε) :
    ∃ t₀, ∀ t, t₀ ≤ t → ∀ x ∈ Ω, ∀ y ∈ Ω, |pow Ω P t x y - w y / ∑ z ∈ Ω, w z| < ε := by
  obtain ⟨x₀, hx₀, hmin⟩ := exists_min_image Ω (fun x => pow Ω P k x o) ⟨o, ho⟩
  have hδ1 : pow Ω P k x₀ o ≤ 1 := by
    rw [← (pow_kernel h k).row x₀ hx₀]
    exact single_le_sum (f := fun y => pow Ω P k x₀ y) (fun y hy => (pow_kernel h k).nonneg x₀ hx₀ y hy) ho
  obtain ⟨j, hj⟩ := exists_pow_lt_of_lt_one hε (show 1 - pow Ω P k x₀ o < 1 by linarith [hk x₀ hx₀])
  refine ⟨j * k, fun t ht x hx y hy => ?_⟩
  obtain ⟨s, rfl⟩ := Nat.exists_eq_add_of_le ht
  obtain ⟨m, hm⟩ := osc_pow h ho hmin y j s
  have hsum : ∑ z ∈ Ω, w z * pow Ω P (j * k + s) z y = w y := by
    rw [sum_congr rfl (fun z hz => pow_balance hb (j * k + s) z hz y hy), ← mul_sum, (pow_kernel h _).row y hy, mul_one]
  have hlo : (∑ z ∈ Ω, w z) * m ≤ w y := by
    rw [← hsum, sum_mul]
    exact sum_le_sum (fun z hz => mul_le_mul_of_nonneg_left (hm z hz).1 (hw z hz))
  have hhi : w y ≤ (∑ z ∈ Ω, w z) * (m + (1 - pow Ω P k x₀ o) ^ j) := by
    rw [← hsum, sum_mul]
    exact sum_le_sum (fun z hz => mul_le_mul_of_nonneg_left (hm z hz).2 (hw z hz))
  have h1 : m ≤ w y / ∑ z ∈ Ω, w z := by rw [le_div_iff₀ hpos]; linarith
  have h2 : w y / ∑ z ∈ Ω, w z ≤ m + (1 - pow Ω P k x₀ o) ^ j := by rw [div_le_iff₀ hpos]; linarith
  have h3 := (hm x hx)
  rw [abs_lt]
  constructor <;> linarith [h3.1, h3.2]

theorem pow_pos_trans (h : Kernel Ω P) {k l : ℕ} {x y z : O} (hx : x ∈ Ω) (hy : y ∈ Ω) (hz : z ∈ Ω)
    (h1 : 0 < pow Ω P k x y) (h2 : 0 < pow Ω P l y z) : 0 < pow Ω P (k + l) x z := by
  rw [pow_add k l x z hx]
  refine lt_of_lt_of_le (mul_pos h1 h2) ?_
  exact single_le_sum (f := fun v => pow Ω P k x v * pow Ω P l v z)
    (fun v hv => mul_nonneg ((pow_kernel h k).nonneg x hx v hv) ((pow_kernel h l).nonneg v hv z hz)) hy

/-- If `o` can be reached from everywhere, and from itself in any sufficiently large number of steps, there is one number of
steps that reaches it from everywhere. -/
theorem common_steps (h : Kernel Ω P) {o : O} (ho : o ∈ Ω) {N : ℕ} (hN : ∀ k, N ≤ k → 0 < pow Ω P k o o)
    (hr : ∀ x ∈ Ω, ∃ k, 0 < pow Ω P k x o) : ∃ k, ∀ x ∈ Ω, 0 < pow Ω P k x o := by
  classical
  choose! f hf using hr
  refine ⟨Ω.sup f + N, fun x hx => ?_⟩
  have hle : f x ≤ Ω.sup f := le_sup hx
  have := pow_pos_trans h hx ho ho (hf x hx) (hN (Ω.sup f - f x + N) (by omega))
  rwa [show f x + (Ω.sup f - f x + N) = Ω.sup f + N by omega] at this

theorem pow_one {x y : O} (hy : y ∈ Ω) : pow Ω P 1 x y = P x y := by simp [pow, hy]

/-- A state that may stay where it is can be met again after any number of steps. -/
theorem pow_self (h : Kernel Ω P) {o : O} (ho : o ∈ Ω) (hs : 0 < P o o) : ∀ k, 0 < pow Ω P k o o := by
  intro k
  induction k with
  | zero => simp [pow]
  | succ k ih => exact pow_pos_trans h ho ho ho ih (by rwa [pow_one ho])

/-- A path of possible steps. -/
theorem pow_of_path (h : Kernel Ω P) {x y : O} (hy : y ∈ Ω)
    (hp : Relation.ReflTransGen (fun a b => a ∈ Ω ∧ b ∈ Ω ∧ 0 < P a b) x y) : ∃ k, 0 < pow Ω P k x y := by
  induction hp using Relation.ReflTransGen.head_induction_on with
  | refl => exact ⟨0, by simp [pow]⟩
  | head h1 h2 ih =>
    obtain ⟨k, hk⟩ := ih
    exact ⟨1 + k, pow_pos_trans h h1.1 h1.2.1 hy (by rw [pow_one h1.2.1]; exact h1.2.2) hk⟩

end Verif.Markov
