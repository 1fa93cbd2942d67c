import Verif.Lemmas.ChainLaw
import Mathlib.Algebra.Order.Ring.Abs
import Mathlib.Tactic.Linarith

/-!
# Averages along a Markov chain

If the law of an observable after many steps does not depend on the start, then averages of functions of the observable along one run
are close to the mean: Chebyshev's inequality, with a bound for the second moment of the sum that is linear in the number of steps.
-/

set_option linter.unusedSectionVars false
set_option linter.unusedSimpArgs false

namespace Verif
open Finset

variable {E D O : Type} [DecidableEq O]

/-- The mean of `F` after one step. -/
def avg (draws : E → Finset D) (wt : E → D → ℚ) (run : E → D → Res E) (F : E → ℚ) (e : E) : ℚ :=
  ∑ d ∈ draws e, wt e d * match run e d with
    | .ok e' => F e'
    | _ => 0

/-- Weights that add up to one, and steps that return and stay within `W`. -/
structure Steady (W : E → Prop) (draws : E → Finset D) (wt : E → D → ℚ) (run : E → D → Res E) : Prop where
  total : ∀ e, W e → ∑ d ∈ draws e, wt e d = 1
  nonneg : ∀ e, W e → ∀ d ∈ draws e, 0 ≤ wt e d
  step : ∀ e, W e → ∀ d ∈ draws e, ∃ e', run e d = .ok e' ∧ W e'

namespace Steady

variable {W : E → Prop} {draws : E → Finset D} {wt : E → D → ℚ} {run : E → D → Res E} {obs : E → O}

theorem avg_le (h : Steady W draws wt run) {F G : E → ℚ} (hFG : ∀ e, W e → F e ≤ G e) {e : E} (he : W e) :
    avg draws wt run F e ≤ avg draws wt run G e := by
  refine sum_le_sum fun d hd => mul_le_mul_of_nonneg_left ?_ (h.nonneg e he d hd)
  obtain ⟨e', h1, h2⟩ := h.step e he d hd
  rw [h1]
  exact hFG e' h2

theorem avg_congr (h : Steady W draws wt run) {F G : E → ℚ} (hFG : ∀ e, W e → F e = G e) {e : E} (he : W e) :
    avg draws wt run F e = avg draws wt run G e :=
  le_antisymm (h.avg_le (fun e he => (hFG e he).le) he) (h.avg_le (fun e he => (hFG e he).ge) he)

theorem avg_const (h : Steady W draws wt run) (c : ℚ) {e : E} (he : W e) : avg draws wt run (fun _ => c) e = c := by
  have : avg draws wt run (fun _ => c) e = ∑ d ∈ draws e, wt e d * c := by
    refine sum_congr rfl fun d hd => ?_
    obtain ⟨e', h1, _⟩ := h.step e he d hd
    rw [h1]
  rw [this, ← sum_mul, h.total e he, one_mul]

theorem avg_add (F G : E → ℚ) (e : E) :
    avg draws wt run (fun e => F e + G e) e = avg draws wt run F e + avg draws wt run G e := by
  unfold avg
  rw [← sum_add_distrib]
  refine sum_congr rfl fun d _ => ?_
  cases run e d <;> simp [mul_add]

theorem avg_mul (c : ℚ) (F : E → ℚ) (e : E) : avg draws wt run (fun e => c * F e) e = c * avg draws wt run F e := by
  unfold avg
  rw [mul_sum]
  refine sum_congr rfl fun d _ => ?_
  cases run e d
  · simp only; ring
  · simp
  · simp

theorem avg_sum {ι : Type} (s : Finset ι) (F : ι → E → ℚ) (e : E) :
    avg draws wt run (fun e => ∑ i ∈ s, F i e) e = ∑ i ∈ s, avg draws wt run (F i) e := by
  unfold avg
  rw [sum_comm]
  refine sum_congr rfl fun d _ => ?_
  cases run e d <;> simp [mul_sum]

theorem abs_avg_le (h : Steady W draws wt run) {F : E → ℚ} {b : ℚ} (hF : ∀ e, W e → |F e| ≤ b) {e : E} (he : W e) :
    |avg draws wt run F e| ≤ b := by
  rw [abs_le]
  constructor
  · have := h.avg_le (F := fun _ => -b) (G := F) (fun e he => (abs_le.mp (hF e he)).1) he
    rwa [h.avg_const _ he] at this
  · have := h.avg_le (F := F) (G := fun _ => b) (fun e he => (abs_le.mp (hF e he)).2) he
    rwa [h.avg_const _ he] at this

/-- The mean of `F` after `k` steps. -/
def meanAfter (draws : E → Finset D) (wt : E → D → ℚ) (run : E → D → Res E) (F : E → ℚ) : ℕ → E → ℚ
  | 0, e => F e
  | k + 1, e => avg draws wt run (meanAfter draws wt run F k) e

theorem abs_mean_le (h : Steady W draws wt run) {F : E → ℚ} {b : ℚ} (hF : ∀ e, W e → |F e| ≤ b) :
    ∀ (k : ℕ) {e : E}, W e → |meanAfter draws wt run F k e| ≤ b := by
  intro k
  induction k with
  | zero => intro e he; exact hF e he
  | succ k ih => intro e he; exact h.abs_avg_le (fun e he => ih he) he

/-- The mean of a function of the observable, from its law. -/
theorem mean_eq_law (h : Steady W draws wt run) {Ω : Finset O} (hΩ : ∀ e, W e → obs e ∈ Ω) (g : O → ℚ) :
    ∀ (k : ℕ) {e : E}, W e → meanAfter draws wt run (fun e => g (obs e)) k e = ∑ y ∈ Ω, g y * lawAfterW draws wt run obs k e y := by
  intro k
  induction k with
  | zero =>
    intro e he
    show g (obs e) = ∑ y ∈ Ω, g y * (if obs e = y then 1 else 0)
    simp [hΩ e he]
  | succ k ih =>
    intro e he
    show avg draws wt run _ e = ∑ y ∈ Ω, g y * avg draws wt run (fun e' => lawAfterW draws wt run obs k e' y) e
    rw [h.avg_congr (fun e he => ih he) he, avg_sum]
    exact sum_congr rfl fun y _ => avg_mul _ _ _

/-- The mean of the sum of `F` over the next `N` states. -/
def mom1 (draws : E → Finset D) (wt : E → D → ℚ) (run : E → D → Res E) (F : E → ℚ) : ℕ → E → ℚ
  | 0, _ => 0
  | N + 1, e => avg draws wt run (fun e' => F e' + mom1 draws wt run F N e') e

/-- The mean of its square. -/
def mom2 (draws : E → Finset D) (wt : E → D → ℚ) (run : E → D → Res E) (F : E → ℚ) : ℕ → E → ℚ
  | 0, _ => 0
  | N + 1, e => avg draws wt run (fun e' => F e' * F e' + 2 * (F e' * mom1 draws wt run F N e') + mom2 draws wt run F N e') e

theorem mom1_eq (h : Steady W draws wt run) (F : E → ℚ) : ∀ (N : ℕ) {e : E}, W e →
    mom1 draws wt run F N e = ∑ k ∈ range N, meanAfter draws wt run F (k + 1) e := by
  intro N
  induction N with
  | zero => intro e _; rfl
  | succ N ih =>
    intro e he
    show avg draws wt run (fun e' => F e' + mom1 draws wt run F N e') e = _
    rw [avg_add, h.avg_congr (fun e he => ih he) he, avg_sum, sum_range_succ', add_comm]
    rfl

/-- The mean of the sum is small if the means of the terms are, but for the first few. -/
theorem abs_mom1_le (h : Steady W draws wt run) {F : E → ℚ} {b ε : ℚ} (hb : ∀ e, W e → |F e| ≤ b) (hε : 0 ≤ ε) {t₀ : ℕ}
    (ht : ∀ t, t₀ ≤ t → ∀ e, W e → |meanAfter draws wt run F t e| ≤ ε) (hb0 : 0 ≤ b) (N : ℕ) {e : E} (he : W e) :
    |mom1 draws wt run F N e| ≤ t₀ * b + N * ε := by
  rw [h.mom1_eq F N he]
  refine (abs_sum_le_sum_abs _ _).trans ?_
  have h1 : ∀ k ∈ range N, |meanAfter draws wt run F (k + 1) e| ≤ (if k < t₀ then b else 0) + ε := by
    intro k _
    by_cases hk : k < t₀
    · rw [if_pos hk]
      have := h.abs_mean_le hb (k + 1) he
      linarith
    · rw [if_neg hk, zero_add]
      exact ht _ (by omega) e he
  refine (sum_le_sum h1).trans ?_
  rw [sum_add_distrib, sum_const, card_range, nsmul_eq_mul]
  have h2 : (∑ k ∈ range N, if k < t₀ then b else 0) ≤ t₀ * b := by
    rw [← sum_filter, sum_const, nsmul_eq_mul]
    refine mul_le_mul_of_nonneg_right ?_ hb0
    have : ((range N).filter (fun k => k < t₀)).card ≤ (range t₀).card :=
      card_le_card fun k hk => mem_range.mpr (mem_filter.mp hk).2
    rw [card_range] at this
    exact_mod_cast this
  linarith

theorem mom2_le (h : Steady W draws wt run) {F : E → ℚ} {b ε : ℚ} (hb : ∀ e, W e → |F e| ≤ b) (hε : 0 ≤ ε) {t₀ : ℕ}
    (ht : ∀ t, t₀ ≤ t → ∀ e, W e → |meanAfter draws wt run F t e| ≤ ε) (hb0 : 0 ≤ b) (M : ℕ) : ∀ (N : ℕ), N ≤ M → ∀ {e : E}, W e →
    mom2 draws wt run F N e ≤ N * (b * b + 2 * (b * (t₀ * b + M * ε))) := by
  intro N
  induction N with
  | zero => intro _ e _; simp [mom2]
  | succ N ih =>
    intro hN e he
    have h1 : ∀ e', W e' → F e' * F e' + 2 * (F e' * mom1 draws wt run F N e') + mom2 draws wt run F N e' ≤
        (b * b + 2 * (b * (t₀ * b + M * ε))) + N * (b * b + 2 * (b * (t₀ * b + M * ε))) := by
      intro e' he'
      have k1 : F e' * F e' ≤ b * b := by
        have := abs_mul_abs_self (F e')
        rw [← this]
        exact mul_le_mul (hb e' he') (hb e' he') (abs_nonneg _) hb0
      have k2 : F e' * mom1 draws wt run F N e' ≤ b * (t₀ * b + M * ε) := by
        refine (le_abs_self _).trans ?_
        rw [abs_mul]
        have m1 := h.abs_mom1_le hb hε ht hb0 N he'
        have m2 : (N : ℚ) * ε ≤ M * ε := mul_le_mul_of_nonneg_right (by exact_mod_cast (by omega : N ≤ M)) hε
        exact mul_le_mul (hb e' he') (by linarith) (abs_nonneg _) hb0
      have k3 := ih (by omega) he'
      linarith
    have h2 := h.avg_le h1 he
    rw [h.avg_const _ he] at h2
    refine h2.trans (le_of_eq ?_)
    push_cast
    ring

end Steady

/-! ## The chain with a running sum -/

/-- The run of one step that also adds up `f`. -/
def runSum (run : E → D → Res E) (f : E → ℚ) (e : E × ℚ) (d : D) : Res (E × ℚ) :=
  run e.1 d >>= fun e' => .ok (e', e.2 + f e')

namespace Steady

variable {W : E → Prop} {draws : E → Finset D} {wt : E → D → ℚ} {run : E → D → Res E} {obs : E → O}

theorem law_sum_succ (f : E → ℚ) (q : ℚ → Bool) (x : Bool) (N : ℕ) (e : E) (a : ℚ) :
    lawAfterW (fun e : E × ℚ => draws e.1) (fun e => wt e.1) (runSum run f) (fun e => q e.2) (N + 1) (e, a) x =
      avg draws wt run (fun e' =>
        lawAfterW (fun e : E × ℚ => draws e.1) (fun e => wt e.1) (runSum run f) (fun e => q e.2) N (e', a + f e') x) e := by
  show (∑ d ∈ draws e, wt e d * _) = ∑ d ∈ draws e, wt e d * _
  refine sum_congr rfl fun d _ => ?_
  unfold runSum
  cases run e d <;> rfl

/-- Chebyshev's inequality for the running sum. -/
theorem chebyshev (h : Steady W draws wt run) (f : E → ℚ) (μ K c : ℚ) (hc : 0 < c) : ∀ (N : ℕ) (e : E) (a : ℚ), W e →
    lawAfterW (fun e : E × ℚ => draws e.1) (fun e => wt e.1) (runSum run f) (fun e => decide (|e.2 - K| < c)) N (e, a) false ≤
      ((a + N * μ - K) * (a + N * μ - K) + 2 * (a + N * μ - K) * mom1 draws wt run (fun e => f e - μ) N e +
        mom2 draws wt run (fun e => f e - μ) N e) / (c * c) := by
  intro N
  induction N with
  | zero =>
    intro e a _
    show (if decide (|a - K| < c) = false then (1 : ℚ) else 0) ≤ (_ + 2 * _ * 0 + 0) / _
    by_cases hk : |a - K| < c
    · simp only [hk, decide_true, Bool.true_eq_false, if_false]
      refine div_nonneg ?_ (by positivity)
      simp only [mul_zero, add_zero]
      exact mul_self_nonneg _
    · simp only [hk, decide_false, if_true]
      rw [le_div_iff₀ (by positivity)]
      simp only [mul_zero, add_zero, Nat.cast_zero, zero_mul, one_mul]
      rw [← abs_mul_abs_self (a - K)]
      exact mul_le_mul (not_lt.mp hk) (not_lt.mp hk) hc.le (abs_nonneg _)
  | succ N ih =>
    intro e a he
    rw [law_sum_succ f (fun x => decide (|x - K| < c))]
    refine (h.avg_le (fun e' he' => ih e' (a + f e') he') he).trans (le_of_eq ?_)
    set m := a + ((N + 1 : ℕ) : ℚ) * μ - K with hm
    set F : E → ℚ := fun e => f e - μ with hF
    have h1 : ∀ e', W e' → ((a + f e' + N * μ - K) * (a + f e' + N * μ - K) + 2 * (a + f e' + N * μ - K) * mom1 draws wt run F N e' +
        mom2 draws wt run F N e') / (c * c) = (c * c)⁻¹ * (m * m + (2 * m * (F e' + mom1 draws wt run F N e') +
          (F e' * F e' + 2 * (F e' * mom1 draws wt run F N e') + mom2 draws wt run F N e'))) := by
      intro e' _
      rw [hm, hF, div_eq_inv_mul]
      push_cast
      ring
    rw [h.avg_congr h1 he, avg_mul, avg_add, avg_add,
      avg_mul (2 * m) (fun e' => F e' + mom1 draws wt run F N e'), h.avg_const _ he, div_eq_inv_mul]
    simp only [mom1, mom2]
    ring

theorem law_total (h : Steady W draws wt run) (f : E → ℚ) (q : ℚ → Bool) : ∀ (N : ℕ) (e : E) (a : ℚ), W e →
    lawAfterW (fun e : E × ℚ => draws e.1) (fun e => wt e.1) (runSum run f) (fun e => q e.2) N (e, a) true +
      lawAfterW (fun e : E × ℚ => draws e.1) (fun e => wt e.1) (runSum run f) (fun e => q e.2) N (e, a) false = 1 := by
  intro N
  induction N with
  | zero =>
    intro e a _
    show (if q a = true then (1 : ℚ) else 0) + (if q a = false then 1 else 0) = 1
    cases q a <;> simp
  | succ N ih =>
    intro e a he
    rw [law_sum_succ, law_sum_succ, ← avg_add, h.avg_congr (fun e' he' => ih e' _ he') he, h.avg_const _ he]

/-- The limits of the probabilities add up to one. -/
theorem limit_total (h : Steady W draws wt run) {Ω : Finset O} (hΩ : ∀ e, W e → obs e ∈ Ω) {π : O → ℚ}
    (hc : ∀ ε : ℚ, 0 < ε → ∃ t₀, ∀ t, t₀ ≤ t → ∀ e, W e → ∀ y ∈ Ω, |lawAfterW draws wt run obs t e y - π y| < ε) {e : E} (he : W e) :
    ∑ y ∈ Ω, π y = 1 := by
  by_contra hne
  have hpos : 0 < |1 - ∑ y ∈ Ω, π y| := abs_pos.mpr (sub_ne_zero.mpr (Ne.symm hne))
  obtain ⟨t₀, ht⟩ := hc (|1 - ∑ y ∈ Ω, π y| / (Ω.card + 1)) (by positivity)
  have h1 : ∑ y ∈ Ω, lawAfterW draws wt run obs t₀ e y = 1 := by
    have := h.mean_eq_law hΩ (fun _ => 1) t₀ he
    simp only [one_mul] at this
    rw [← this]
    have hm : ∀ (k : ℕ) {e : E}, W e → meanAfter draws wt run (fun _ => 1) k e = 1 := by
      intro k
      induction k with
      | zero => intro e _; rfl
      | succ k ih => intro e he; exact (h.avg_congr (fun e he => ih he) he).trans (h.avg_const _ he)
    exact hm t₀ he
  have h2 : |1 - ∑ y ∈ Ω, π y| ≤ Ω.card * (|1 - ∑ y ∈ Ω, π y| / (Ω.card + 1)) := by
    rw [← nsmul_eq_mul, ← sum_const]
    conv_lhs => rw [← h1, ← sum_sub_distrib]
    exact (abs_sum_le_sum_abs _ _).trans (sum_le_sum fun y hy => (ht t₀ (le_refl _) e he y hy).le)
  have h3 : (Ω.card : ℚ) * (|1 - ∑ y ∈ Ω, π y| / (Ω.card + 1)) < |1 - ∑ y ∈ Ω, π y| := by
    rw [mul_div_assoc', div_lt_iff₀ (by positivity)]
    linarith
  linarith

/-- Equally likely draws. -/
theorem uniform (hne : ∀ e, W e → (draws e).Nonempty) (hs : ∀ e, W e → ∀ d ∈ draws e, ∃ e', run e d = .ok e' ∧ W e') :
    Steady W draws (fun e _ => 1 / ((draws e).card : ℚ)) run := by
  refine ⟨fun e he => ?_, fun e _ d _ => by positivity, hs⟩
  have : ((draws e).card : ℚ) ≠ 0 := by exact_mod_cast (card_pos.mpr (hne e he)).ne'
  rw [sum_const, nsmul_eq_mul, mul_one_div, div_self this]

/-- A bound for the deviations from the mean, and their means after many steps are small. -/
theorem centred (h : Steady W draws wt run) {Ω : Finset O} (hΩ : ∀ e, W e → obs e ∈ Ω) {π : O → ℚ} (hπ : ∑ y ∈ Ω, π y = 1)
    (hc : ∀ ε : ℚ, 0 < ε → ∃ t₀, ∀ t, t₀ ≤ t → ∀ e, W e → ∀ y ∈ Ω, |lawAfterW draws wt run obs t e y - π y| < ε) (f : O → ℚ) :
    ∃ b : ℚ, 0 ≤ b ∧ (∀ e, W e → |f (obs e) - ∑ y ∈ Ω, π y * f y| ≤ b) ∧ ∀ ε : ℚ, 0 < ε → ∃ t₀, ∀ t, t₀ ≤ t → ∀ e, W e →
      |meanAfter draws wt run (fun e => f (obs e) - ∑ y ∈ Ω, π y * f y) t e| ≤ ε := by
  set μ := ∑ y ∈ Ω, π y * f y with hμ
  have hs0 : 0 ≤ ∑ y ∈ Ω, |f y - μ| := sum_nonneg fun y _ => abs_nonneg _
  refine ⟨1 + ∑ y ∈ Ω, |f y - μ|, by linarith, fun e he => ?_, fun ε hε0 => ?_⟩
  · have := single_le_sum (f := fun y => |f y - μ|) (fun y _ => abs_nonneg _) (hΩ e he)
    linarith
  set b : ℚ := 1 + ∑ y ∈ Ω, |f y - μ| with hbdef
  have hb0 : 0 < b := by linarith
  obtain ⟨t₀, ht⟩ := hc (ε / b) (by positivity)
  refine ⟨t₀, ?_⟩
  intro t hle e he
  rw [h.mean_eq_law (obs := obs) hΩ (fun y => f y - μ) t he]
  have h0 : ∑ y ∈ Ω, (f y - μ) * π y = 0 := by
    simp only [sub_mul, sum_sub_distrib]
    rw [← mul_sum, hπ, hμ]
    simp only [mul_one]
    rw [sub_eq_zero]
    exact sum_congr rfl fun y _ => mul_comm _ _
  rw [show (∑ y ∈ Ω, (f y - μ) * lawAfterW draws wt run obs t e y) =
    ∑ y ∈ Ω, (f y - μ) * (lawAfterW draws wt run obs t e y - π y) by
      simp only [mul_sub, sum_sub_distrib, sub_mul] at h0 ⊢
      linarith]
  refine (abs_sum_le_sum_abs _ _).trans ?_
  have : ∀ y ∈ Ω, |(f y - μ) * (lawAfterW draws wt run obs t e y - π y)| ≤ |f y - μ| * (ε / b) := by
    intro y hy
    rw [abs_mul]
    exact mul_le_mul_of_nonneg_left (ht t hle e he y hy).le (abs_nonneg _)
  refine (sum_le_sum this).trans ?_
  rw [← sum_mul]
  have h2 : (∑ y ∈ Ω, |f y - μ|) * (ε / b) ≤ b * (ε / b) := mul_le_mul_of_nonneg_right (by linarith) (by positivity)
  refine h2.trans (le_of_eq ?_)
  field_simp

/-- The weak law of large numbers, in terms of the draws. -/
theorem weak_law (h : Steady W draws wt run) {Ω : Finset O} (hΩ : ∀ e, W e → obs e ∈ Ω) {π : O → ℚ} (hπ : ∑ y ∈ Ω, π y = 1)
    (hc : ∀ ε : ℚ, 0 < ε → ∃ t₀, ∀ t, t₀ ≤ t → ∀ e, W e → ∀ y ∈ Ω, |lawAfterW draws wt run obs t e y - π y| < ε)
    (f : O → ℚ) {δ η : ℚ} (hδ : 0 < δ) (hη : 0 < η) :
    ∃ N₀ : ℕ, ∀ N : ℕ, N₀ ≤ N → ∀ e, W e →
      1 - η < lawAfterW (fun e : E × ℚ => draws e.1) (fun e => wt e.1) (runSum run fun e => f (obs e))
        (fun e => decide (|e.2 - N * ∑ y ∈ Ω, π y * f y| < N * δ)) N (e, 0) true := by
  set μ := ∑ y ∈ Ω, π y * f y with hμ
  obtain ⟨b', hb0', hb', hmean'⟩ := h.centred hΩ hπ hc f
  set b : ℚ := 1 + b' with hbdef
  have hb0 : 0 < b := by linarith
  have hb : ∀ e, W e → |f (obs e) - μ| ≤ b := fun e he => (hb' e he).trans (by linarith)
  set ε : ℚ := δ * δ * η / (8 * b) with hε
  have hε0 : 0 < ε := by positivity
  obtain ⟨t₀, hmean⟩ := hmean' ε hε0
  -- the bound for the second moment
  obtain ⟨N₀, hN₀⟩ := exists_nat_gt ((b * b + 2 * (b * (t₀ * b))) / (δ * δ * (η / 2)))
  refine ⟨N₀ + 1, fun N hN e he => ?_⟩
  have hNpos : (0 : ℚ) < N := by exact_mod_cast (by omega : 0 < N)
  have hNN : (N₀ : ℚ) ≤ N := by exact_mod_cast (by omega : N₀ ≤ N)
  have h1 := h.chebyshev (fun e => f (obs e)) μ (N * μ) (N * δ) (by positivity) N e 0 he
  have h2 := h.law_total (fun e => f (obs e)) (fun x => decide (|x - N * μ| < N * δ)) N e 0 he
  have h3 := h.mom2_le (F := fun e => f (obs e) - μ) hb hε0.le hmean hb0.le N N (le_refl N) he
  have h4 : (N : ℚ) * (b * b + 2 * (b * (t₀ * b + N * ε))) / (N * δ * (N * δ)) < η := by
    rw [div_lt_iff₀ (by positivity)]
    rw [div_lt_iff₀ (by positivity)] at hN₀
    have k1 : b * b + 2 * (b * (t₀ * b)) < N * (δ * δ * (η / 2)) :=
      hN₀.trans_le (mul_le_mul_of_nonneg_right hNN (by positivity))
    have k2 : 2 * (b * (N * ε)) = N * (δ * δ * (η / 4)) := by
      rw [hε]; field_simp; ring
    have k3 : (0 : ℚ) < N * (δ * δ * (η / 4)) := by positivity
    have k4 : b * b + 2 * (b * (t₀ * b + N * ε)) < N * (δ * δ * η) := by
      have e1 : b * b + 2 * (b * (t₀ * b + N * ε)) = (b * b + 2 * (b * (t₀ * b))) + 2 * (b * (N * ε)) := by ring
      have e2 : N * (δ * δ * η) = N * (δ * δ * (η / 2)) + N * (δ * δ * (η / 4)) + N * (δ * δ * (η / 4)) := by ring
      rw [e1, e2, k2]
      linarith
    have k5 := mul_lt_mul_of_pos_left k4 hNpos
    refine k5.trans_eq ?_
    ring
  have h5 : lawAfterW (fun e : E × ℚ => draws e.1) (fun e => wt e.1) (runSum run fun e => f (obs e))
        (fun e => decide (|e.2 - N * μ| < N * δ)) N (e, 0) false < η := by
    refine h1.trans_lt (lt_of_le_of_lt ?_ h4)
    rw [show (0 : ℚ) + N * μ - N * μ = 0 by ring]
    simp only [mul_zero, zero_mul, zero_add]
    exact div_le_div_of_nonneg_right h3 (by positivity)
  linarith

end Steady

/-! ## On a random tape -/

section Tape
open MeasureTheory ProbabilityTheory

variable {C F S : Type}

/-- A program that makes `N` steps and adds up the value of `f` after every step. -/
def sumSteps (mStep : F → Res (S × F)) (f : F → ℚ) : Nat → F → ℚ → Res (ℚ × F)
  | 0, e, a => .ok (a, e)
  | N + 1, e, a => do
    let (_, e) ← mStep e
    sumSteps mStep f N e (a + f e)

/-- One step with the running sum. -/
def stepSum (mStep : F → Res (S × F)) (f : F → ℚ) (x : F × ℚ) : Res (S × (F × ℚ)) :=
  mStep x.1 >>= fun p => .ok (p.1, (p.2, x.2 + f p.2))

theorem sumSteps_eq (mStep : F → Res (S × F)) (f : F → ℚ) : ∀ (N : ℕ) (e : F) (a : ℚ),
    sumSteps mStep f N e a = mSteps (stepSum mStep f) N (e, a) >>= fun p => .ok (p.2.2, p.2.1) := by
  intro N
  induction N with
  | zero => intro e a; rfl
  | succ N ih =>
    intro e a
    show (mStep e >>= fun p => sumSteps mStep f N p.2 (a + f p.2)) =
      (stepSum mStep f (e, a) >>= fun p => mSteps (stepSum mStep f) N p.2 >>= fun q => .ok (p.1 :: q.1, q.2)) >>=
        fun p => .ok (p.2.2, p.2.1)
    unfold stepSum
    cases mStep e with
    | panic => rfl
    | diverge => rfl
    | ok p =>
      show sumSteps mStep f N p.2 (a + f p.2) = (mSteps (stepSum mStep f) N (p.2, a + f p.2) >>= fun q => .ok (p.1 :: q.1, q.2)) >>=
        fun p => .ok (p.2.2, p.2.1)
      rw [ih]
      cases mSteps (stepSum mStep f) N (p.2, a + f p.2) <;> rfl

variable {put : C → Stream → F} {step : ℕ → F → Res (S × F)} {V : C → Prop} {o : C → O} {core : E → C}
  {draws : E → Finset D} {wt : E → D → ℚ} {run : E → D → Res E} {obs : E → O}

/-- The state with the running sum, put together with the generator. -/
def putSum (put : C → Stream → F) (c : C × ℚ) (r : Stream) : F × ℚ := (put c.1 r, c.2)

theorem joins_putSum (hp : Joins put) : Joins (putSum put) := by
  intro a a' r r' h
  have h' : (put a.1 r, a.2) = (put a'.1 r', a'.2) := h
  obtain ⟨h1, h2⟩ := Prod.mk.inj h'
  obtain ⟨h3, h4⟩ := hp h1
  exact ⟨Prod.ext h3 h2, h4⟩

theorem stepSum_ret {fF : F → ℚ} {f : O → ℚ} (hf : ∀ c r, fF (put c r) = f (o c)) {c c' : C} {a a' : ℚ} {s : S} {ω : ℕ → ℝ} {k j : ℕ} :
    RetOf (mkStep (putSum put)) (fun fuel r => stepSum (step fuel) fF (putSum put (c, a) r)) ω k (s, (c', a')) j ↔
      RetOf (mkStep put) (fun fuel r => step fuel (put c r)) ω k (s, c') j ∧ a' = a + f (o c') := by
  have key : ∀ fuel, stepSum (step fuel) fF (putSum put (c, a) (⟨ω, k⟩ : Stream)) =
      .ok (mkStep (putSum put) (s, (c', a')) (⟨ω, j⟩ : Stream)) ↔
      step fuel (put c (⟨ω, k⟩ : Stream)) = .ok (mkStep put (s, c') (⟨ω, j⟩ : Stream)) ∧ a' = a + f (o c') := by
    intro fuel
    show (step fuel (put c (⟨ω, k⟩ : Stream)) >>= fun p => Res.ok (p.1, (p.2, a + fF p.2))) = .ok (s, (put c' (⟨ω, j⟩ : Stream), a')) ↔
      step fuel (put c (⟨ω, k⟩ : Stream)) = .ok (s, put c' (⟨ω, j⟩ : Stream)) ∧ _
    rw [Res.bind_eq_ok]
    constructor
    · rintro ⟨⟨s', x⟩, h1, h2⟩
      injection h2 with h2
      obtain ⟨rfl, h3⟩ := Prod.mk.inj h2
      obtain ⟨rfl, h4⟩ := Prod.mk.inj h3
      exact ⟨h1, by rw [← h4, hf]⟩
    · rintro ⟨h1, rfl⟩
      exact ⟨_, h1, by simp only [hf]⟩
  constructor
  · rintro ⟨G, hG⟩
    exact ⟨⟨G, fun fuel hfu => ((key fuel).mp (hG fuel hfu)).1⟩, ((key G).mp (hG G (le_refl G))).2⟩
  · rintro ⟨⟨G, hG⟩, rfl⟩
    exact ⟨G, fun fuel hfu => (key fuel).mpr ⟨hG fuel hfu, rfl⟩⟩

theorem StepLaw.withSum (h : StepLaw put step V o core draws wt run obs) {fF : F → ℚ} {f : O → ℚ}
    (hf : ∀ c r, fF (put c r) = f (o c)) (q : ℚ → Bool) :
    StepLaw (putSum put) (fun fuel => stepSum (step fuel) fF) (fun c => V c.1) (fun c => q c.2) (fun e : E × ℚ => (core e.1, e.2))
      (fun e => draws e.1) (fun e => wt e.1) (runSum run fun e => f (obs e)) (fun e => q e.2) := by
  have hrun : ∀ (e : E × ℚ) (d : D) (c' : C × ℚ), (∃ e', runSum run (fun e => f (obs e)) e d = .ok e' ∧ (core e'.1, e'.2) = c') ↔
      (∃ e', run e.1 d = .ok e' ∧ core e' = c'.1) ∧ c'.2 = e.2 + f (o c'.1) := by
    intro e d c'
    unfold runSum
    constructor
    · rintro ⟨e', h1, rfl⟩
      obtain ⟨e1, h2, h3⟩ := Res.bind_eq_ok.mp h1
      injection h3 with h3
      subst h3
      exact ⟨⟨e1, h2, rfl⟩, by simp only [h.obs_eq]⟩
    · rintro ⟨⟨e1, h1, h2⟩, h3⟩
      refine ⟨(e1, e.2 + f (obs e1)), ?_, ?_⟩
      · rw [h1]; rfl
      · rw [h.obs_eq, h2, ← h3]
  refine ⟨joins_putSum h.joins, ?_, fun _ => rfl, fun e he => h.nonneg e.1 he, ?_, ?_, ?_⟩
  · rintro ⟨c, a⟩
    refine Adaptive.bind (mk := mkStep put) (f := fun fuel r => step fuel (put c r))
      (g := fun _ (p : S × F) => .ok (p.1, (p.2, a + fF p.2))) (h.adaptive c) ?_
    rintro ⟨s, c'⟩
    have : (fun (_ : ℕ) (r : Stream) => (Res.ok ((mkStep put (s, c') r).1, ((mkStep put (s, c') r).2, a + fF (mkStep put (s, c') r).2)) :
        Res (S × (F × ℚ)))) = fun _ r => .ok (mkStep (putSum put) (s, (c', a + f (o c'))) r) := by
      funext _ r
      show Res.ok (s, (put c' r, a + fF (put c' r))) = .ok (s, (put c' r, a + f (o c')))
      rw [hf]
    rw [this]
    exact Adaptive.ok (mk := mkStep (putSum put)) _
  · intro e he d hd
    obtain ⟨e', h1, h2⟩ := h.run_ok e.1 he d hd
    exact ⟨(e', e.2 + f (obs e')), by unfold runSum; rw [h1]; rfl, h2⟩
  · rintro ⟨e, a⟩ he ω k s ⟨c', a'⟩ j hr
    obtain ⟨h1, h2⟩ := (stepSum_ret hf).mp hr
    obtain ⟨d, hd, h3⟩ := h.ret e he h1
    obtain ⟨e', h4, h5⟩ := (hrun (e, a) d (c', a')).mpr ⟨h3, h2⟩
    exact ⟨d, hd, e', h4, h5⟩
  · rintro ⟨e, a⟩ he ⟨c', a'⟩ P _ hP
    by_cases ha : a' = a + f (o c')
    · refine (h.chance e he c' P (fun d => ?_)).congr fun ω k => ?_
      · rw [hP, hrun]
        exact ⟨fun h => h.1, fun h => ⟨h, ha⟩⟩
      · constructor
        · rintro ⟨s, j, h1⟩; exact ⟨s, j, (stepSum_ret hf).mpr ⟨h1, ha⟩⟩
        · rintro ⟨s, j, h1⟩; exact ⟨s, j, ((stepSum_ret hf).mp h1).1⟩
    · have hno : (draws e).filter P = ∅ := by
        refine filter_eq_empty_iff.mpr fun d _ hd => ?_
        rw [hP, hrun] at hd
        exact ha hd.2
      show Chance _ (∑ d ∈ (draws e).filter P, _)
      rw [hno, sum_empty]
      refine Chance.false.congr fun ω k => ⟨fun h => h.elim, ?_⟩
      rintro ⟨s, j, h1⟩
      exact ha ((stepSum_ret hf).mp h1).2

/-- The weak law of large numbers for a program that averages over the states of a chain. -/
theorem StepLaw.weak_law (h : StepLaw put step V o core draws wt run obs) {W : E → Prop} (hV : ∀ e, W e → V (core e))
    (hW : Steady W draws wt run) {Ω : Finset O} (hΩ : ∀ e, W e → obs e ∈ Ω) {π : O → ℚ}
    (hc : ∀ ε : ℚ, 0 < ε → ∃ t₀, ∀ t, t₀ ≤ t → ∀ e, W e → ∀ y ∈ Ω, |lawAfterW draws wt run obs t e y - π y| < ε)
    (f : O → ℚ) {fF : F → ℚ} (hf : ∀ c r, fF (put c r) = f (o c)) {δ η : ℝ} (hδ : 0 < δ) (hη : 0 < η) :
    ∃ N₀ : ℕ, ∀ N : ℕ, N₀ ≤ N → ∀ e, W e →
      1 - η < (uniformTape {ω | ∃ fuel a f', sumSteps (step fuel) fF N (put (core e) ⟨ω, 0⟩) 0 = .ok (a, f') ∧
        |(a : ℝ) / N - ((∑ y ∈ Ω, π y * f y : ℚ) : ℝ)| < δ}).toReal := by
  by_cases hex : ∃ e, W e
  swap
  · exact ⟨0, fun N _ e he => absurd ⟨e, he⟩ hex⟩
  have hπ : ∑ y ∈ Ω, π y = 1 := by
    obtain ⟨e, he⟩ := hex
    exact hW.limit_total hΩ hc he
  obtain ⟨δ', d1, d2⟩ := exists_rat_btwn hδ
  obtain ⟨η', e1, e2⟩ := exists_rat_btwn hη
  obtain ⟨N₀, hN₀⟩ := hW.weak_law hΩ hπ hc f (δ := δ') (η := η') (by exact_mod_cast d1) (by exact_mod_cast e1)
  refine ⟨N₀ + 1, fun N hN e he => ?_⟩
  set μ := ∑ y ∈ Ω, π y * f y with hμ
  have h1 := hN₀ N (by omega) e he
  have h2 := (h.withSum hf (fun x => decide (|x - N * μ| < N * δ'))).law_eq (e := (e, 0)) (hV e he) true N
    (fun x => |x.2 - N * μ| < N * δ') (fun c r => by simp [putSum])
  have h3 : (1 : ℝ) - η' < (uniformTape {ω | ∃ fuel l x, mSteps (stepSum (step fuel) fF) N (putSum put (core e, 0) ⟨ω, 0⟩) = .ok (l, x) ∧
      |x.2 - N * μ| < N * δ'}).toReal := by
    rw [h2]
    exact_mod_cast h1
  have hNpos : (0 : ℝ) < N := by exact_mod_cast (by omega : 0 < N)
  refine lt_of_lt_of_le (by linarith) (h3.le.trans (ENNReal.toReal_mono (measure_ne_top _ _) (measure_mono ?_)))
  rintro ω ⟨fuel, l, x, k1, k2⟩
  refine ⟨fuel, x.2, x.1, ?_, ?_⟩
  · rw [sumSteps_eq]
    show (mSteps (stepSum (step fuel) fF) N (putSum put (core e, 0) ⟨ω, 0⟩) >>= _) = _
    rw [k1]
    rfl
  · have k3 : |(x.2 : ℝ) - N * (μ : ℝ)| < N * (δ' : ℝ) := by exact_mod_cast k2
    have k4 : (x.2 : ℝ) / N - (μ : ℝ) = ((x.2 : ℝ) - N * (μ : ℝ)) / N := by field_simp
    rw [k4, abs_div, abs_of_pos hNpos, div_lt_iff₀ hNpos]
    calc _ < N * (δ' : ℝ) := k3
      _ < N * δ := mul_lt_mul_of_pos_left d2 hNpos
      _ = δ * N := mul_comm _ _

end Tape

end Verif
