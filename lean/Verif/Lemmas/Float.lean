import Verif.Spec.Float
import Verif.Model.Float
import Mathlib.Tactic.Linarith
import Mathlib.Tactic.Ring
import Mathlib.Tactic.FieldSimp
import Mathlib.Tactic.Positivity
import Mathlib.Tactic.NormNum

/-!
# Rounding to a nearest number
-/

namespace Verif

theorem round_near (x : ℚ) (z : ℤ) : |(round x : ℚ) - x| ≤ |(z : ℚ) - x| := by
  have := round_le x z
  rwa [abs_sub_comm x, abs_sub_comm x] at this

theorem round_le_round {x y : ℚ} (h : x ≤ y) : round x ≤ round y := by
  rw [round_eq, round_eq]
  exact Int.floor_le_floor (by linarith)

theorem log_bounds {x : ℚ} (hx : x ≠ 0) : (2 : ℚ) ^ Int.log 2 |x| ≤ |x| ∧ |x| < 2 ^ (Int.log 2 |x| + 1) := by
  have hpos : 0 < |x| := abs_pos.mpr hx
  have h1 := Int.zpow_log_le_self (b := 2) (by norm_num) hpos
  have h2 := Int.lt_zpow_succ_log_self (b := 2) (by norm_num) |x|
  exact ⟨by simpa using h1, by simpa using h2⟩

theorem nearestBits_rep (t : ℕ) (x : ℚ) : Rep t (nearestBits t x) := by
  by_cases hx : x = 0
  · subst hx
    exact ⟨0, 0, by positivity, by simp [nearestBits]⟩
  refine ⟨round (x / 2 ^ (Int.log 2 |x| + 1 - t)), Int.log 2 |x| + 1 - t, ?_, rfl⟩
  obtain ⟨_, h2⟩ := log_bounds hx
  set e := Int.log 2 |x| with he
  have hs : (0 : ℚ) < 2 ^ (e + 1 - t) := zpow_pos (by norm_num) _
  have hlt : |x / 2 ^ (e + 1 - t)| < 2 ^ t := by
    rw [abs_div, abs_of_pos hs, div_lt_iff₀ hs, ← zpow_natCast, ← zpow_add₀ (by norm_num)]
    have : (t : ℤ) + (e + 1 - t) = e + 1 := by ring
    rwa [this]
  have hlt' := abs_lt.mp hlt
  rw [abs_le]
  constructor
  · have h3 : round (((-(2 ^ t) : ℤ) : ℚ)) ≤ round (x / 2 ^ (e + 1 - t)) := by
      apply round_le_round
      push_cast
      exact hlt'.1.le
    rwa [round_intCast] at h3
  · have h3 : round (x / 2 ^ (e + 1 - t)) ≤ round (((2 ^ t : ℤ) : ℚ)) := by
      apply round_le_round
      push_cast
      exact hlt'.2.le
    rwa [round_intCast] at h3

theorem nearestBits_nearest {t : ℕ} (ht : 1 ≤ t) : Nearest t (nearestBits t) := by
  intro x
  refine ⟨nearestBits_rep t x, ?_⟩
  rintro y ⟨m, k, hm, rfl⟩
  by_cases hx : x = 0
  · subst hx
    have : nearestBits t 0 - 0 = 0 := by simp [nearestBits]
    rw [this, abs_zero]
    exact abs_nonneg _
  obtain ⟨h1, h2⟩ := log_bounds hx
  unfold nearestBits
  set e := Int.log 2 |x| with he
  have hs : (0 : ℚ) < 2 ^ (e + 1 - t) := zpow_pos (by norm_num) _
  have hxs : x = x / 2 ^ (e + 1 - t) * 2 ^ (e + 1 - t) := (div_mul_cancel₀ _ hs.ne').symm
  have near : ∀ z : ℤ, |(round (x / 2 ^ (e + 1 - t)) : ℚ) * 2 ^ (e + 1 - t) - x| ≤ |(z : ℚ) * 2 ^ (e + 1 - t) - x| := by
    intro z
    have := mul_le_mul_of_nonneg_right (round_near (x / 2 ^ (e + 1 - t)) z) hs.le
    rw [← abs_of_pos hs, ← abs_mul, ← abs_mul, abs_of_pos hs, sub_mul, sub_mul, ← hxs] at this
    exact this
  by_cases hk : e + 1 - t ≤ k
  · have : (m : ℚ) * 2 ^ k = ((m * 2 ^ (k - (e + 1 - t)).toNat : ℤ) : ℚ) * 2 ^ (e + 1 - t) := by
      push_cast
      rw [mul_assoc, ← zpow_natCast, ← zpow_add₀ (by norm_num), Int.toNat_of_nonneg (by omega)]
      congr 2
      ring
    rw [this]
    exact near _
  · -- the number is smaller than the power of two below `x`
    have hy : |(m : ℚ) * 2 ^ k| ≤ 2 ^ e := by
      rw [abs_mul, abs_of_pos (zpow_pos (by norm_num : (0 : ℚ) < 2) k)]
      have hm' : |(m : ℚ)| ≤ 2 ^ (t : ℤ) := by
        rw [zpow_natCast]
        exact_mod_cast hm
      calc |(m : ℚ)| * 2 ^ k ≤ 2 ^ (t : ℤ) * 2 ^ k := mul_le_mul_of_nonneg_right hm' (zpow_pos (by norm_num) _).le
        _ = 2 ^ ((t : ℤ) + k) := (zpow_add₀ (by norm_num) _ _).symm
        _ ≤ 2 ^ e := zpow_le_zpow_right₀ (by norm_num) (by omega)
    have hpow : (2 : ℚ) ^ e = ((2 ^ (t - 1) : ℤ) : ℚ) * 2 ^ (e + 1 - t) := by
      push_cast
      rw [← zpow_natCast, ← zpow_add₀ (by norm_num)]
      congr 1
      omega
    have hd : |x| - 2 ^ e ≤ |(m : ℚ) * 2 ^ k - x| := by
      have := abs_sub_abs_le_abs_sub x ((m : ℚ) * 2 ^ k)
      rw [abs_sub_comm] at this
      linarith
    refine le_trans ?_ hd
    rcases lt_or_gt_of_ne hx with hneg | hpos
    · have := near (-(2 ^ (t - 1)))
      have e2 : ((-(2 ^ (t - 1)) : ℤ) : ℚ) * 2 ^ (e + 1 - t) = -(2 ^ e) := by rw [hpow]; push_cast; ring
      rw [e2] at this
      rw [abs_of_neg hneg] at h1 ⊢
      refine this.trans (le_of_eq ?_)
      rw [abs_of_nonneg (by linarith)]
      ring
    · have := near (2 ^ (t - 1))
      rw [← hpow] at this
      rw [abs_of_pos hpos] at h1 ⊢
      refine this.trans (le_of_eq ?_)
      rw [abs_of_nonpos (by linarith)]
      ring

theorem nearestBits_error (t : ℕ) (x : ℚ) : |nearestBits t x - x| ≤ |x| / 2 ^ t := by
  by_cases hx : x = 0
  · subst hx; simp [nearestBits]
  obtain ⟨h1, _⟩ := log_bounds hx
  unfold nearestBits
  set e := Int.log 2 |x| with he
  have hs : (0 : ℚ) < 2 ^ (e + 1 - t) := zpow_pos (by norm_num) _
  have hxs : x = x / 2 ^ (e + 1 - t) * 2 ^ (e + 1 - t) := (div_mul_cancel₀ _ hs.ne').symm
  have h3 := mul_le_mul_of_nonneg_right (abs_sub_round (x / 2 ^ (e + 1 - t))) hs.le
  rw [abs_sub_comm, ← abs_of_pos hs, ← abs_mul, abs_of_pos hs, sub_mul, ← hxs] at h3
  refine h3.trans ?_
  have : (2 : ℚ) ^ (e + 1 - t) = 2 ^ e * 2 / 2 ^ t := by
    rw [zpow_sub₀ (by norm_num), zpow_add₀ (by norm_num), zpow_one, zpow_natCast]
  rw [this]
  have hp : (0 : ℚ) < 2 ^ t := by positivity
  rw [le_div_iff₀ hp]
  calc 1 / 2 * (2 ^ e * 2 / 2 ^ t) * 2 ^ t = 2 ^ e := by field_simp
    _ ≤ |x| := h1

namespace Nearest
variable {t : ℕ} {fl : ℚ → ℚ}

theorem exact (h : Nearest t fl) {x : ℚ} (hx : Rep t x) : fl x = x := by
  have := (h x).2 x hx
  rw [sub_self, abs_zero] at this
  exact sub_eq_zero.mp (abs_eq_zero.mp (le_antisymm this (abs_nonneg _)))

theorem mono (h : Nearest t fl) {x y : ℚ} (hxy : x ≤ y) : fl x ≤ fl y := by
  rcases eq_or_lt_of_le hxy with rfl | hlt
  · exact le_refl _
  by_contra hc
  have h1 := (h x).2 _ (h y).1
  have h2 := (h y).2 _ (h x).1
  have h3 : fl y < fl x := not_le.mp hc
  generalize fl x = a at *
  generalize fl y = b at *
  rcases abs_cases (a - x) with ⟨e1, _⟩ | ⟨e1, _⟩ <;> rcases abs_cases (b - x) with ⟨e2, _⟩ | ⟨e2, _⟩ <;>
    rcases abs_cases (a - y) with ⟨e3, _⟩ | ⟨e3, _⟩ <;> rcases abs_cases (b - y) with ⟨e4, _⟩ | ⟨e4, _⟩ <;>
    rw [e1, e2] at h1 <;> rw [e3, e4] at h2 <;> linarith

theorem err (h : Nearest t fl) (x : ℚ) : |fl x - x| ≤ |x| / 2 ^ t :=
  ((h x).2 _ (nearestBits_rep t x)).trans (nearestBits_error t x)

end Nearest

theorem rep_zero (t : ℕ) : Rep t 0 := ⟨0, 0, by positivity, by simp⟩

theorem rep_nat {t m : ℕ} (h : m ≤ 2 ^ t) : Rep t m :=
  ⟨m, 0, by rw [Nat.abs_cast]; exact_mod_cast h, by simp⟩

theorem rep_one (t : ℕ) : Rep t 1 := by
  simpa using rep_nat (t := t) (m := 1) Nat.one_le_two_pow

/-- The largest number below 1. -/
theorem rep_below_one (t : ℕ) : Rep t (1 - 1 / 2 ^ t) := by
  refine ⟨2 ^ t - 1, -(t : ℤ), ?_, ?_⟩
  · have : (1 : ℤ) ≤ 2 ^ t := one_le_pow₀ (by norm_num)
    rw [abs_of_nonneg (by omega)]
    omega
  · push_cast
    rw [zpow_neg, zpow_natCast, sub_mul, mul_inv_cancel₀ (by positivity)]
    simp

namespace Nearest
variable {t : ℕ} {fl : ℚ → ℚ}

theorem zero (h : Nearest t fl) : fl 0 = 0 := h.exact (rep_zero t)
theorem one (h : Nearest t fl) : fl 1 = 1 := h.exact (rep_one t)
theorem nat (h : Nearest t fl) {m : ℕ} (hm : m ≤ 2 ^ t) : fl m = m := h.exact (rep_nat hm)

theorem nonneg (h : Nearest t fl) {x : ℚ} (hx : 0 ≤ x) : 0 ≤ fl x := by
  have := h.mono hx
  rwa [h.zero] at this

theorem le_one (h : Nearest t fl) {x : ℚ} (hx : x ≤ 1) : fl x ≤ 1 := by
  have := h.mono hx
  rwa [h.one] at this

theorem one_le (h : Nearest t fl) {x : ℚ} (hx : 1 ≤ x) : 1 ≤ fl x := by
  have := h.mono hx
  rwa [h.one] at this

theorem bounds (h : Nearest t fl) {x : ℚ} (hx : 0 ≤ x) : x * (1 - 1 / 2 ^ t) ≤ fl x ∧ fl x ≤ x * (1 + 1 / 2 ^ t) := by
  have := abs_le.mp (h.err x)
  rw [abs_of_nonneg hx] at this
  rw [mul_sub, mul_add, mul_one, mul_one_div]
  constructor <;> linarith [this.1, this.2]

theorem pos (h : Nearest t fl) (ht : 1 ≤ t) {x : ℚ} (hx : 0 < x) : 0 < fl x := by
  have h1 := (h.bounds hx.le).1
  have h2 : (2 : ℚ) ≤ 2 ^ t := by
    calc (2 : ℚ) = 2 ^ 1 := by norm_num
      _ ≤ 2 ^ t := pow_le_pow_right₀ (by norm_num) ht
  have h3 : (1 : ℚ) / 2 ^ t ≤ 1 / 2 := one_div_le_one_div_of_le (by norm_num) h2
  refine lt_of_lt_of_le (mul_pos hx (by linarith)) h1

theorem eq_zero_iff (h : Nearest t fl) (ht : 1 ≤ t) {x : ℚ} (hx : 0 ≤ x) : fl x = 0 ↔ x = 0 := by
  constructor
  · intro e
    by_contra hne
    have := h.pos ht (lt_of_le_of_ne hx (Ne.symm hne))
    rw [e] at this
    exact lt_irrefl _ this
  · rintro rfl
    exact h.zero

/-! ### Quotients of counts -/

theorem countDiv_nan (h : Nearest t fl) (ht : 1 ≤ t) {a b : ℕ} : countDiv fl a b = .nan ↔ a = 0 ∧ b = 0 := by
  have ha := h.eq_zero_iff ht (x := (a : ℚ)) (Nat.cast_nonneg _)
  have hb := h.eq_zero_iff ht (x := (b : ℚ)) (Nat.cast_nonneg _)
  rw [Nat.cast_eq_zero] at ha hb
  unfold countDiv floatDiv
  split
  · split <;> simp_all
  · simp_all

theorem countDiv_inf (h : Nearest t fl) (ht : 1 ≤ t) {a b : ℕ} : countDiv fl a b = .inf ↔ 0 < a ∧ b = 0 := by
  have ha := h.eq_zero_iff ht (x := (a : ℚ)) (Nat.cast_nonneg _)
  have hb := h.eq_zero_iff ht (x := (b : ℚ)) (Nat.cast_nonneg _)
  rw [Nat.cast_eq_zero] at ha hb
  unfold countDiv floatDiv
  rw [Nat.pos_iff_ne_zero]
  split
  · split <;> simp_all
  · simp_all

theorem countDiv_num (h : Nearest t fl) (ht : 1 ≤ t) {a b : ℕ} (hb : 0 < b) : countDiv fl a b = .num (fl (fl a / fl b)) := by
  have := h.pos ht (x := (b : ℚ)) (by exact_mod_cast hb)
  unfold countDiv floatDiv
  rw [if_neg this.ne']

/-- Counts up to `2^t`: the correctly rounded quotient. -/
theorem countDiv_exact (h : Nearest t fl) (ht : 1 ≤ t) {a b : ℕ} (hb : 0 < b) (ha' : a ≤ 2 ^ t) (hb' : b ≤ 2 ^ t) :
    countDiv fl a b = .num (fl ((a : ℚ) / b)) := by
  rw [h.countDiv_num ht hb, h.nat ha', h.nat hb']

/-- In general three roundings. -/
theorem div_err (h : Nearest t fl) (ht : 3 ≤ t) {a b : ℕ} (hb : 0 < b) :
    |fl (fl a / fl b) - (a : ℚ) / b| ≤ 4 / 2 ^ t * ((a : ℚ) / b) := by
  have hbq : (0 : ℚ) < b := by exact_mod_cast hb
  have haq : (0 : ℚ) ≤ a := Nat.cast_nonneg a
  obtain ⟨a1, a2⟩ := h.bounds haq
  obtain ⟨b1, b2⟩ := h.bounds hbq.le
  have hfb := h.pos (by omega) hbq
  have hfa := h.nonneg haq
  obtain ⟨c1, c2⟩ := h.bounds (div_nonneg hfa hfb.le)
  have h8 : (8 : ℚ) ≤ 2 ^ t := by
    calc (8 : ℚ) = 2 ^ 3 := by norm_num
      _ ≤ 2 ^ t := pow_le_pow_right₀ (by norm_num) ht
  have hu8 : (1 : ℚ) / 2 ^ t ≤ 1 / 8 := one_div_le_one_div_of_le (by norm_num) h8
  have hu0 : (0 : ℚ) < 1 / 2 ^ t := by positivity
  have h4 : (4 : ℚ) / 2 ^ t = 4 * (1 / 2 ^ t) := by ring
  rw [h4]
  generalize (1 : ℚ) / 2 ^ t = u at *
  generalize fl (fl a / fl b) = q at *
  generalize fl (a : ℚ) = x at *
  generalize fl (b : ℚ) = y at *
  -- the quotient of the rounded counts
  have d2 : x / y ≤ (a : ℚ) / b * ((1 + u) / (1 - u)) := by
    rw [div_mul_div_comm, div_le_div_iff₀ hfb (mul_pos hbq (by linarith))]
    calc x * (b * (1 - u)) ≤ a * (1 + u) * (b * (1 - u)) := mul_le_mul_of_nonneg_right a2 (mul_nonneg hbq.le (by linarith))
      _ ≤ a * (1 + u) * y := mul_le_mul_of_nonneg_left b1 (mul_nonneg haq (by linarith))
  have d1 : (a : ℚ) / b * ((1 - u) / (1 + u)) ≤ x / y := by
    rw [div_mul_div_comm, div_le_div_iff₀ (mul_pos hbq (by linarith)) hfb]
    calc a * (1 - u) * y ≤ a * (1 - u) * (b * (1 + u)) := mul_le_mul_of_nonneg_left b2 (mul_nonneg haq (by linarith))
      _ ≤ x * (b * (1 + u)) := mul_le_mul_of_nonneg_right a1 (mul_nonneg hbq.le (by linarith))
  have hr : 0 ≤ (a : ℚ) / b := div_nonneg haq hbq.le
  generalize (a : ℚ) / b = r at *
  generalize x / y = z at *
  have e2 : (1 + u) / (1 - u) * (1 + u) ≤ 1 + 4 * u := by
    rw [div_mul_eq_mul_div, div_le_iff₀ (by linarith)]
    nlinarith
  have e1 : 1 - 4 * u ≤ (1 - u) / (1 + u) * (1 - u) := by
    rw [div_mul_eq_mul_div, le_div_iff₀ (by linarith)]
    nlinarith
  have f2 : q ≤ r * (1 + 4 * u) := by
    calc q ≤ z * (1 + u) := c2
      _ ≤ r * ((1 + u) / (1 - u)) * (1 + u) := mul_le_mul_of_nonneg_right d2 (by linarith)
      _ = r * ((1 + u) / (1 - u) * (1 + u)) := by ring
      _ ≤ r * (1 + 4 * u) := mul_le_mul_of_nonneg_left e2 hr
  have f1 : r * (1 - 4 * u) ≤ q := by
    calc r * (1 - 4 * u) ≤ r * ((1 - u) / (1 + u) * (1 - u)) := mul_le_mul_of_nonneg_left e1 hr
      _ = r * ((1 - u) / (1 + u)) * (1 - u) := by ring
      _ ≤ z * (1 - u) := mul_le_mul_of_nonneg_right d1 (by linarith)
      _ ≤ q := c1
  rw [abs_le]
  constructor <;> nlinarith

/-- A part of a whole is at most 1, whatever the size. -/
theorem div_le_one (h : Nearest t fl) (ht : 1 ≤ t) {a b : ℕ} (hab : a ≤ b) (hb : 0 < b) :
    0 ≤ fl (fl a / fl b) ∧ fl (fl a / fl b) ≤ 1 := by
  have hfb := h.pos ht (x := (b : ℚ)) (by exact_mod_cast hb)
  have hfa := h.nonneg (x := (a : ℚ)) (Nat.cast_nonneg _)
  refine ⟨h.nonneg (div_nonneg hfa hfb.le), h.le_one ?_⟩
  rw [_root_.div_le_one hfb]
  exact h.mono (by exact_mod_cast hab)

theorem div_eq_zero (h : Nearest t fl) (ht : 1 ≤ t) {a b : ℕ} (hb : 0 < b) : fl (fl a / fl b) = 0 ↔ a = 0 := by
  have hfb := h.pos ht (x := (b : ℚ)) (by exact_mod_cast hb)
  have hfa := h.nonneg (x := (a : ℚ)) (Nat.cast_nonneg _)
  rw [h.eq_zero_iff ht (div_nonneg hfa hfb.le), _root_.div_eq_zero_iff, h.eq_zero_iff ht (Nat.cast_nonneg _)]
  constructor
  · rintro (h1 | h1)
    · exact_mod_cast h1
    · exact absurd h1 hfb.ne'
  · rintro rfl
    left; simp

/-- Up to `2^t` only equal counts give 1. -/
theorem div_eq_one (h : Nearest t fl) {a b : ℕ} (hab : a ≤ b) (hb : 0 < b) (hbt : b ≤ 2 ^ t) :
    fl ((a : ℚ) / b) = 1 ↔ a = b := by
  have hbq : (0 : ℚ) < b := by exact_mod_cast hb
  constructor
  · intro e
    by_contra hne
    have hlt : a + 1 ≤ b := by omega
    have h1 : (a : ℚ) / b ≤ 1 - 1 / 2 ^ t := by
      have h2 : (a : ℚ) ≤ b - 1 := by
        have : ((a + 1 : ℕ) : ℚ) ≤ b := by exact_mod_cast hlt
        push_cast at this
        linarith
      have h3 : (1 : ℚ) / 2 ^ t ≤ 1 / b := one_div_le_one_div_of_le hbq (by exact_mod_cast hbt)
      calc (a : ℚ) / b ≤ (b - 1) / b := div_le_div_of_nonneg_right h2 hbq.le
        _ = 1 - 1 / b := by field_simp
        _ ≤ 1 - 1 / 2 ^ t := by linarith
    have h2 := h.mono h1
    rw [h.exact (rep_below_one t), e] at h2
    have : (0 : ℚ) < 1 / 2 ^ t := by positivity
    linarith
  · rintro rfl
    rw [div_self hbq.ne', h.one]

/-- Different fractions with small denominators stay different. -/
theorem div_strict (h : Nearest t fl) {a b c d : ℕ} (hb : 0 < b) (hd : 0 < d) (hcd : c ≤ d)
    (hbd : b * d * 2 ≤ 2 ^ t) (hlt : (a : ℚ) / b < (c : ℚ) / d) : fl ((a : ℚ) / b) < fl ((c : ℚ) / d) := by
  have hbq : (0 : ℚ) < b := by exact_mod_cast hb
  have hdq : (0 : ℚ) < d := by exact_mod_cast hd
  have h1 : (a : ℚ) / b + 1 / (b * d) ≤ (c : ℚ) / d := by
    rw [div_lt_div_iff₀ hbq hdq] at hlt
    have h2 : a * d + 1 ≤ c * b := by exact_mod_cast hlt
    have h3 : (a : ℚ) * d + 1 ≤ c * b := by exact_mod_cast h2
    have : (a : ℚ) / b + 1 / (b * d) = (a * d + 1) / (b * d) := by field_simp
    rw [this, div_le_div_iff₀ (mul_pos hbq hdq) hdq]
    nlinarith
  have hx0 : 0 ≤ (a : ℚ) / b := div_nonneg (Nat.cast_nonneg _) hbq.le
  have hy1 : (c : ℚ) / d ≤ 1 := by
    rw [_root_.div_le_one hdq]; exact_mod_cast hcd
  have hu : (2 : ℚ) * (1 / 2 ^ t) ≤ 1 / (b * d) := by
    have : ((b * d * 2 : ℕ) : ℚ) ≤ 2 ^ t := by exact_mod_cast hbd
    push_cast at this
    rw [mul_one_div, div_le_div_iff₀ (by positivity) (mul_pos hbq hdq)]
    linarith
  have hu0 : (0 : ℚ) < 1 / 2 ^ t := by positivity
  have e1 := (h.bounds hx0).2
  have e2 := (h.bounds (hx0.trans hlt.le)).1
  generalize (1 : ℚ) / 2 ^ t = u at *
  generalize (1 : ℚ) / (b * d) = w at *
  generalize (a : ℚ) / b = x at *
  generalize (c : ℚ) / d = y at *
  nlinarith

end Nearest
end Verif
