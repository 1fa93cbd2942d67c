import Verif.Lemmas.ChainMean
import Mathlib.Analysis.SpecificLimits.FloorPow
import Mathlib.Analysis.PSeries
import Mathlib.MeasureTheory.OuterMeasure.BorelCantelli
import Mathlib.Tactic.Positivity

/-!
# The strong law of large numbers for the Markov chains

The probability that an average over `N` steps is off by more than `δ` is at most `C / N`.  Along the squares these bounds can be summed
(Borel-Cantelli), and between the squares the sums change little, so the averages converge with probability one.
-/

set_option linter.unusedSectionVars false
set_option linter.unusedSimpArgs false

namespace Verif
open Finset

variable {E D O : Type} [DecidableEq O]

/-- The square of the part of `|s|` above `k η`. -/
def excess (η : ℚ) (k : ℕ) (s : ℚ) : ℚ := max 0 (|s| - k * η) * max 0 (|s| - k * η)

theorem excess_nonneg (η : ℚ) (k : ℕ) (s : ℚ) : 0 ≤ excess η k s := mul_self_nonneg _

theorem excess_neg (η : ℚ) (k : ℕ) (s : ℚ) : excess η k (-s) = excess η k s := by
  unfold excess; rw [abs_neg]

theorem excess_le {η x : ℚ} {k : ℕ} {s : ℚ} (hx : 0 ≤ x) (h : |s| - k * η ≤ x) : excess η k s ≤ x * x := by
  unfold excess
  exact mul_self_le_mul_self (le_max_left _ _) (max_le hx h)

/-- One step, from a non-negative value. -/
theorem excess_step_pos {η c s B : ℚ} {k : ℕ} (hη : 0 ≤ η) (hηc : η ≤ c) (hs : 0 ≤ s) (hB : |B| ≤ c) :
    excess η (k + 1) (s + B) ≤ excess η k s + 2 * max 0 (s - k * η) * (B - η) + 4 * (c * c) := by
  have hc : 0 ≤ c := hη.trans hηc
  obtain ⟨hB1, hB2⟩ := abs_le.mp hB
  have hkη : (0 : ℚ) ≤ k * η := by positivity
  have hpush : ((k + 1 : ℕ) : ℚ) * η = k * η + η := by push_cast; ring
  have habs : |s| = s := abs_of_nonneg hs
  by_cases hx : s - k * η ≤ 0
  · rw [max_eq_left hx]
    have h1 : excess η (k + 1) (s + B) ≤ c * c := by
      refine excess_le hc ?_
      rw [hpush]
      have := abs_add_le s B
      rw [habs] at this
      linarith
    have h2 := excess_nonneg η k s
    nlinarith
  · push Not at hx
    rw [max_eq_right hx.le]
    have h0 : excess η k s = (s - k * η) * (s - k * η) := by
      unfold excess; rw [habs, max_eq_right hx.le]
    rw [h0]
    set x := s - k * η with hxdef
    rcases le_or_gt 0 (s + B) with hp | hp
    · have h1 : excess η (k + 1) (s + B) ≤ (x + (B - η)) * (x + (B - η)) := by
        unfold excess
        rw [abs_of_nonneg hp, hpush, show s + B - (k * η + η) = x + (B - η) by rw [hxdef]; ring]
        rcases le_total (x + (B - η)) 0 with h | h
        · rw [max_eq_left h, zero_mul]; exact mul_self_nonneg _
        · rw [max_eq_right h]
      have h2 : (B - η) * (B - η) ≤ 4 * (c * c) := by
        have : |B - η| ≤ 2 * c := by rw [abs_le]; constructor <;> linarith
        calc (B - η) * (B - η) = |B - η| * |B - η| := (abs_mul_abs_self _).symm
          _ ≤ 2 * c * (2 * c) := mul_self_le_mul_self (abs_nonneg _) this
          _ = _ := by ring
      refine h1.trans ?_
      linarith [show (x + (B - η)) * (x + (B - η)) = x * x + 2 * x * (B - η) + (B - η) * (B - η) by ring]
    · have hxc : x < c := by linarith
      have h1 : excess η (k + 1) (s + B) ≤ (c - x) * (c - x) := by
        refine excess_le (by linarith) ?_
        rw [abs_of_neg hp, hpush]
        linarith
      have h2 : x * η ≤ c * c := mul_le_mul hxc.le hηc hη hc
      have h3 : x * (-c) ≤ x * B := mul_le_mul_of_nonneg_left hB1 hx.le
      have h4 : 0 ≤ c * c := mul_self_nonneg c
      refine h1.trans ?_
      linarith [show (c - x) * (c - x) = c * c + 2 * (x * (-c)) + x * x by ring,
        show x * x + 2 * x * (B - η) + 4 * (c * c) = x * x + 2 * (x * B) - 2 * (x * η) + 4 * (c * c) by ring]

namespace Steady

variable {W : E → Prop} {draws : E → Finset D} {wt : E → D → ℚ} {run : E → D → Res E} {obs : E → O}

/-- The mean of the excess grows by at most `4 c²` in a step whose mean is at most `η`. -/
theorem avg_excess_le (h : Steady W draws wt run) {B : E → ℚ} {c η : ℚ} (hη : 0 ≤ η) (hηc : η ≤ c) {e : E} (he : W e)
    (hB : ∀ e', W e' → |B e'| ≤ c) (hm : |avg draws wt run B e| ≤ η) (s : ℚ) (k : ℕ) :
    avg draws wt run (fun e' => excess η (k + 1) (s + B e')) e ≤ excess η k s + 4 * (c * c) := by
  have key : ∀ (B : E → ℚ), (∀ e', W e' → |B e'| ≤ c) → |avg draws wt run B e| ≤ η → ∀ s, 0 ≤ s →
      avg draws wt run (fun e' => excess η (k + 1) (s + B e')) e ≤ excess η k s + 4 * (c * c) := by
    intro B hB hm s hs
    have h1 := h.avg_le (F := fun e' => excess η (k + 1) (s + B e'))
      (G := fun e' => (excess η k s - 2 * max 0 (s - k * η) * η + 4 * (c * c)) + 2 * max 0 (s - k * η) * B e')
      (fun e' he' => by
        have := excess_step_pos (k := k) hη hηc hs (hB e' he')
        refine this.trans (le_of_eq ?_)
        ring) he
    refine h1.trans ?_
    rw [avg_add (fun _ => excess η k s - 2 * max 0 (s - k * η) * η + 4 * (c * c)) (fun e' => 2 * max 0 (s - k * η) * B e'),
      h.avg_const _ he, avg_mul]
    have h2 : 0 ≤ max 0 (s - k * η) := le_max_left _ _
    have h3 := mul_le_mul_of_nonneg_left ((abs_le.mp hm).2) h2
    linarith
  rcases le_total 0 s with hs | hs
  · exact key B hB hm s hs
  · have h1 := key (fun e' => -1 * B e') (fun e' he' => by rw [neg_one_mul, abs_neg]; exact hB e' he')
      (by rw [avg_mul, neg_one_mul, abs_neg]; exact hm) (-s) (by linarith)
    rw [excess_neg] at h1
    refine le_trans (le_of_eq ?_) h1
    congr 1
    funext e'
    rw [← excess_neg]
    congr 1
    ring

/-- A function whose change compensates the mean of `F` up to `η`. -/
theorem corrector (h : Steady W draws wt run) {F : E → ℚ} {b : ℚ} (hb0 : 0 ≤ b) (hb : ∀ e, W e → |F e| ≤ b)
    (hc : ∀ ε : ℚ, 0 < ε → ∃ t₀, ∀ t, t₀ ≤ t → ∀ e, W e → |meanAfter draws wt run F t e| ≤ ε) {η : ℚ} (hη : 0 < η) :
    ∃ (G : E → ℚ) (K : ℚ), 0 ≤ K ∧ (∀ e, W e → |G e| ≤ K) ∧ ∀ e, W e → |avg draws wt run (fun e' => F e' + G e' - G e) e| ≤ η := by
  obtain ⟨t₀, ht⟩ := hc (η / 4) (by positivity)
  obtain ⟨L₀, hL₀⟩ := exists_nat_gt (8 * (t₀ * b) / η)
  set L := L₀ + 1 with hL
  have hLpos : (0 : ℚ) < L := by rw [hL]; positivity
  have hL1 : (1 : ℚ) ≤ L := by exact_mod_cast (by omega : 1 ≤ L)
  have hbig : 8 * (t₀ * b) < L * η := by
    rw [div_lt_iff₀ hη] at hL₀
    refine hL₀.trans_le (mul_le_mul_of_nonneg_right ?_ hη.le)
    exact_mod_cast (by omega : L₀ ≤ L)
  have hmom : ∀ (N : ℕ) {e : E}, W e → |mom1 draws wt run F N e| ≤ t₀ * b + N * (η / 4) := fun N e he =>
    h.abs_mom1_le hb (by positivity) ht hb0 N he
  refine ⟨fun e => 1 / L * ∑ j ∈ range L, mom1 draws wt run F (j + 1) e, t₀ * b + L * (η / 4), by positivity, ?_, ?_⟩
  · intro e he
    rw [abs_mul, abs_of_pos (by positivity : (0 : ℚ) < 1 / L)]
    have h1 : |∑ j ∈ range L, mom1 draws wt run F (j + 1) e| ≤ L * (t₀ * b + L * (η / 4)) := by
      refine (abs_sum_le_sum_abs _ _).trans ?_
      have : ∀ j ∈ range L, |mom1 draws wt run F (j + 1) e| ≤ t₀ * b + L * (η / 4) := by
        intro j hj
        refine (hmom (j + 1) he).trans ?_
        have : ((j + 1 : ℕ) : ℚ) ≤ L := by exact_mod_cast mem_range.mp hj
        have := mul_le_mul_of_nonneg_right this (by positivity : (0 : ℚ) ≤ η / 4)
        linarith
      refine (sum_le_card_nsmul _ _ _ this).trans (le_of_eq ?_)
      rw [card_range, nsmul_eq_mul]
    calc _ ≤ 1 / L * (L * (t₀ * b + L * (η / 4))) := mul_le_mul_of_nonneg_left h1 (by positivity)
      _ = _ := by field_simp
  · intro e he
    set S := ∑ j ∈ range L, mom1 draws wt run F (j + 1) e with hS
    have h1 : avg draws wt run (fun e' => F e' + 1 / L * ∑ j ∈ range L, mom1 draws wt run F (j + 1) e' - 1 / L * S) e =
        1 / L * (mom1 draws wt run F (L + 1) e - mom1 draws wt run F 1 e) := by
      have e1 : (fun e' => F e' + 1 / L * ∑ j ∈ range L, mom1 draws wt run F (j + 1) e' - 1 / L * S) =
          fun e' => (1 / L * ∑ j ∈ range L, (F e' + mom1 draws wt run F (j + 1) e')) + (-(1 / L * S)) := by
        funext e'
        rw [sum_add_distrib, sum_const, card_range, nsmul_eq_mul]
        field_simp
        ring
      rw [e1, avg_add (fun e' => 1 / L * ∑ j ∈ range L, (F e' + mom1 draws wt run F (j + 1) e')) (fun _ => -(1 / L * S)),
        h.avg_const _ he, avg_mul, avg_sum (range L) (fun j e' => F e' + mom1 draws wt run F (j + 1) e')]
      have e2 : ∑ j ∈ range L, avg draws wt run (fun e' => F e' + mom1 draws wt run F (j + 1) e') e =
          ∑ j ∈ range L, mom1 draws wt run F (j + 1 + 1) e := rfl
      rw [e2, hS, ← mul_neg, ← mul_add, ← sub_eq_add_neg, ← sum_sub_distrib,
        sum_range_sub (fun j => mom1 draws wt run F (j + 1) e) L]
    rw [h1, abs_mul, abs_of_pos (by positivity : (0 : ℚ) < 1 / L), one_div_mul_eq_div, div_le_iff₀ hLpos]
    have h2 := hmom (L + 1) he
    have h3 := hmom 1 he
    have h4 := abs_sub (mom1 draws wt run F (L + 1) e) (mom1 draws wt run F 1 e)
    push_cast at h2 h3
    have h5 : η ≤ L * η := le_mul_of_one_le_left hη.le hL1
    linarith

/-- Chebyshev's inequality for the excess. -/
theorem law_excess_le (h : Steady W draws wt run) (f : E → ℚ) (μ : ℚ) {G : E → ℚ} {c η w : ℚ} (hη : 0 ≤ η) (hηc : η ≤ c)
    (hB : ∀ e, W e → ∀ e', W e' → |(f e' - μ) + G e' - G e| ≤ c)
    (hm : ∀ e, W e → |avg draws wt run (fun e' => (f e' - μ) + G e' - G e) e| ≤ η) (q : ℚ → Bool) (M : ℕ)
    (hq : ∀ e, W e → ∀ a, q a = false → w ≤ excess η M (a - M * μ + G e)) :
    ∀ (N j : ℕ) (e : E) (a : ℚ), j + N = M → W e →
      lawAfterW (fun e : E × ℚ => draws e.1) (fun e => wt e.1) (runSum run f) (fun e => q e.2) N (e, a) false * w ≤
        excess η j (a - j * μ + G e) + N * (4 * (c * c)) := by
  intro N
  induction N with
  | zero =>
    intro j e a hj he
    show (if q a = false then (1 : ℚ) else 0) * w ≤ _
    have h0 := excess_nonneg η j (a - j * μ + G e)
    split
    · rename_i hqa
      have := hq e he a hqa
      rw [← hj] at this
      simpa using this
    · simpa using h0
  | succ N ih =>
    intro j e a hj he
    rw [law_sum_succ, mul_comm, ← avg_mul]
    have h1 := h.avg_le (F := fun e' => w * lawAfterW (fun e : E × ℚ => draws e.1) (fun e => wt e.1) (runSum run f) (fun e => q e.2) N
        (e', a + f e') false)
      (G := fun e' => excess η (j + 1) ((a - j * μ + G e) + ((f e' - μ) + G e' - G e)) + N * (4 * (c * c)))
      (fun e' he' => by
        have := ih (j + 1) e' (a + f e') (by omega) he'
        rw [mul_comm]
        refine this.trans (le_of_eq ?_)
        congr 2
        push_cast
        ring) he
    refine h1.trans ?_
    rw [avg_add (fun e' => excess η (j + 1) ((a - j * μ + G e) + ((f e' - μ) + G e' - G e))) (fun _ => N * (4 * (c * c))),
      h.avg_const _ he]
    have h2 := h.avg_excess_le hη hηc he (B := fun e' => (f e' - μ) + G e' - G e) (hB e he) (hm e he) (a - j * μ + G e) j
    push_cast
    linarith

/-- The probability that an average is off by `δ` or more is at most `C / N`. -/
theorem rate (h : Steady W draws wt run) {Ω : Finset O} (hΩ : ∀ e, W e → obs e ∈ Ω) {π : O → ℚ} (hπ : ∑ y ∈ Ω, π y = 1)
    (hc : ∀ ε : ℚ, 0 < ε → ∃ t₀, ∀ t, t₀ ≤ t → ∀ e, W e → ∀ y ∈ Ω, |lawAfterW draws wt run obs t e y - π y| < ε)
    (f : O → ℚ) {δ : ℚ} (hδ : 0 < δ) :
    ∃ (C : ℚ) (N₀ : ℕ), 0 ≤ C ∧ ∀ N : ℕ, N₀ ≤ N → ∀ e, W e →
      lawAfterW (fun e : E × ℚ => draws e.1) (fun e => wt e.1) (runSum run fun e => f (obs e))
        (fun e => decide (|e.2 - N * ∑ y ∈ Ω, π y * f y| < N * δ)) N (e, 0) false ≤ C / N := by
  set μ := ∑ y ∈ Ω, π y * f y with hμ
  obtain ⟨b, hb0, hb, hmean⟩ := h.centred hΩ hπ hc f
  obtain ⟨G, K, hK, hG, hdrift⟩ := h.corrector hb0 hb hmean (η := δ / 4) (by positivity)
  set c := b + 2 * K + δ with hcdef
  have hB : ∀ e, W e → ∀ e', W e' → |(f (obs e') - μ) + G e' - G e| ≤ c := by
    intro e he e' he'
    have h1 := abs_le.mp (hb e' he')
    have h2 := abs_le.mp (hG e he)
    have h3 := abs_le.mp (hG e' he')
    rw [abs_le]
    constructor <;> linarith
  obtain ⟨N₁, hN₁⟩ := exists_nat_gt (2 * K / δ)
  refine ⟨16 * (K * K + 4 * (c * c)) / (δ * δ), N₁ + 1, by positivity, fun N hN e he => ?_⟩
  have hNpos : (0 : ℚ) < N := by exact_mod_cast (by omega : 0 < N)
  have hN1 : (1 : ℚ) ≤ N := by exact_mod_cast (by omega : 1 ≤ N)
  have hKN : 2 * K ≤ N * δ := by
    rw [div_lt_iff₀ hδ] at hN₁
    exact hN₁.le.trans (mul_le_mul_of_nonneg_right (by exact_mod_cast (by omega : N₁ ≤ N)) hδ.le)
  have h1 := h.law_excess_le (fun e => f (obs e)) μ (G := G) (c := c) (η := δ / 4) (w := N * δ / 4 * (N * δ / 4)) (by positivity)
    (by rw [hcdef]; linarith) hB hdrift (fun x => decide (|x - N * μ| < N * δ)) N
    (fun e he a ha => by
      have ha' : N * δ ≤ |a - N * μ| := by simpa using ha
      have h2 := hG e he
      have h3 : |a - N * μ| ≤ |a - N * μ + G e| + |G e| := by
        have := abs_sub (a - N * μ + G e) (G e)
        rwa [add_sub_cancel_right] at this
      unfold excess
      refine mul_self_le_mul_self (by positivity) (le_max_of_le_right ?_)
      linarith) N 0 e 0 (by omega) he
  have h2 : excess (δ / 4) 0 (0 - (0 : ℕ) * μ + G e) ≤ K * K := by
    refine excess_le hK ?_
    simp only [Nat.cast_zero, zero_mul, sub_zero, zero_add]
    exact hG e he
  have h3 : lawAfterW (fun e : E × ℚ => draws e.1) (fun e => wt e.1) (runSum run fun e => f (obs e))
        (fun e => decide (|e.2 - N * μ| < N * δ)) N (e, 0) false * (N * δ / 4 * (N * δ / 4)) ≤ N * (K * K + 4 * (c * c)) := by
    refine h1.trans ?_
    have : K * K ≤ N * (K * K) := le_mul_of_one_le_left (mul_self_nonneg _) hN1
    linarith
  rw [le_div_iff₀ hNpos, le_div_iff₀ (by positivity)]
  refine le_of_mul_le_mul_left ?_ hNpos
  nlinarith [h3]

end Steady

/-! ## On a random tape -/

section Tape
open MeasureTheory ProbabilityTheory Filter Topology

variable {C F S : Type}

/-- The last of several steps. -/
theorem mSteps_ret_last {put : C → Stream → F} (hp : Joins put) {step : ℕ → F → Res (S × F)}
    (hA : ∀ c, Adaptive (mkStep put) (fun fuel r => step fuel (put c r))) : ∀ {t : ℕ} {c c' : C} {l : List S} {ω : ℕ → ℝ} {k j : ℕ},
    RetOf (mkStep put) (fun fuel r => mSteps (step fuel) (t + 1) (put c r)) ω k (l, c') j →
      ∃ l1 c1 i s, RetOf (mkStep put) (fun fuel r => mSteps (step fuel) t (put c r)) ω k (l1, c1) i ∧
        RetOf (mkStep put) (fun fuel r => step fuel (put c1 r)) ω i (s, c') j := by
  intro t
  induction t with
  | zero =>
    intro c c' l ω k j h
    obtain ⟨s, c1, i, l', h1, -, h2⟩ := (mSteps_ret_succ hp hA).mp h
    obtain ⟨-, rfl, rfl⟩ := (mSteps_ret_zero hp).mp h2
    exact ⟨[], c, k, s, (mSteps_ret_zero hp).mpr ⟨rfl, rfl, rfl⟩, h1⟩
  | succ t ih =>
    intro c c' l ω k j h
    obtain ⟨s, c1, i, l', h1, -, h2⟩ := (mSteps_ret_succ hp hA).mp h
    obtain ⟨l2, c2, i2, s2, h3, h4⟩ := ih h2
    exact ⟨s :: l2, c2, i2, s2, (mSteps_ret_succ hp hA).mpr ⟨s, c1, i, l2, h1, rfl, h3⟩, h4⟩

variable {put : C → Stream → F} {step : ℕ → F → Res (S × F)} {V : C → Prop} {o : C → O} {core : E → C}
  {draws : E → Finset D} {wt : E → D → ℚ} {run : E → D → Res E} {obs : E → O} {W : E → Prop}

/-- The states that a run reaches satisfy what every step preserves. -/
theorem StepLaw.reached (h : StepLaw put step V o core draws wt run obs) (hV : ∀ e, W e → V (core e))
    (hW : ∀ e, W e → ∀ d ∈ draws e, ∃ e', run e d = .ok e' ∧ W e') : ∀ {t : ℕ} {e : E} {l : List S} {c' : C} {ω : ℕ → ℝ} {k j : ℕ}, W e →
    RetOf (mkStep put) (fun fuel r => mSteps (step fuel) t (put (core e) r)) ω k (l, c') j → ∃ e', W e' ∧ core e' = c' := by
  intro t
  induction t with
  | zero =>
    intro e l c' ω k j he hr
    obtain ⟨-, rfl, -⟩ := (mSteps_ret_zero h.joins).mp hr
    exact ⟨e, he, rfl⟩
  | succ t ih =>
    intro e l c' ω k j he hr
    obtain ⟨s, c1, i, l', h1, -, h2⟩ := (mSteps_ret_succ h.joins h.adaptive).mp hr
    obtain ⟨d, hd, e', h3, rfl⟩ := h.ret e (hV e he) h1
    obtain ⟨e'', h4, h5⟩ := hW e he d hd
    rw [h3] at h4
    cases h4
    exact ih h5 h2

/-- A chain on a finite set whose law converges to `π` from every state in `W`. -/
structure Mixing (put : C → Stream → F) (step : ℕ → F → Res (S × F)) (V : C → Prop) (o : C → O) (core : E → C)
    (draws : E → Finset D) (wt : E → D → ℚ) (run : E → D → Res E) (obs : E → O) (W : E → Prop) (Ω : Finset O) (π : O → ℚ) : Prop where
  law : StepLaw put step V o core draws wt run obs
  valid : ∀ e, W e → V (core e)
  steady : Steady W draws wt run
  mem : ∀ e, W e → obs e ∈ Ω
  conv : ∀ ε : ℚ, 0 < ε → ∃ t₀, ∀ t, t₀ ≤ t → ∀ e, W e → ∀ y ∈ Ω, |lawAfterW draws wt run obs t e y - π y| < ε

namespace Mixing

variable {Ω : Finset O} {π : O → ℚ}

theorem weak_law (h : Mixing put step V o core draws wt run obs W Ω π) (f : O → ℚ) {fF : F → ℚ} (hf : ∀ c r, fF (put c r) = f (o c))
    {δ η : ℝ} (hδ : 0 < δ) (hη : 0 < η) :
    ∃ N₀ : ℕ, ∀ N : ℕ, N₀ ≤ N → ∀ e, W e →
      1 - η < (uniformTape {ω | ∃ fuel a f', sumSteps (step fuel) fF N (put (core e) ⟨ω, 0⟩) 0 = .ok (a, f') ∧
        |(a : ℝ) / N - ((∑ y ∈ Ω, π y * f y : ℚ) : ℝ)| < δ}).toReal :=
  h.law.weak_law h.valid h.steady h.mem h.conv f hf hδ hη

/-- The sum over the first `N` steps on the tape `ω` is `a`. -/
def SumIs (put : C → Stream → F) (step : ℕ → F → Res (S × F)) (fF : F → ℚ) (c : C) (N : ℕ) (ω : ℕ → ℝ) (a : ℚ) : Prop :=
  ∃ l c' j, RetOf (mkStep (putSum put)) (fun fuel r => mSteps (stepSum (step fuel) fF) N (putSum put (c, 0) r)) ω 0 (l, (c', a)) j

theorem sumIs_run {fF : F → ℚ} {c : C} {N : ℕ} {ω : ℕ → ℝ} {a : ℚ} (h : SumIs put step fF c N ω a) :
    ∃ fuel f', sumSteps (step fuel) fF N (put c ⟨ω, 0⟩) 0 = .ok (a, f') := by
  obtain ⟨l, c', j, G, hG⟩ := h
  refine ⟨G, put c' ⟨ω, j⟩, ?_⟩
  have h1 : mSteps (stepSum (step G) fF) N (putSum put (c, 0) ⟨ω, 0⟩) = .ok (l, (put c' (⟨ω, j⟩ : Stream), a)) := hG G (le_refl G)
  rw [sumSteps_eq]
  show (mSteps (stepSum (step G) fF) N (putSum put (c, 0) ⟨ω, 0⟩) >>= _) = _
  rw [h1]
  rfl

variable (h : Mixing put step V o core draws wt run obs W Ω π) (f : O → ℚ) {fF : F → ℚ} (hf : ∀ c r, fF (put c r) = f (o c))
include h hf

theorem sumIs_unique {c : C} {N : ℕ} {ω : ℕ → ℝ} {a a' : ℚ} (h1 : SumIs put step fF c N ω a) (h2 : SumIs put step fF c N ω a') : a = a' := by
  have hS := h.law.withSum hf (fun _ => true)
  obtain ⟨l, c1, j, h1⟩ := h1
  obtain ⟨l', c1', j', h2⟩ := h2
  have := (mSteps_adaptive hS.adaptive N (c, 0)).sampler (joins_mkStep hS.joins) |>.det h1 h2
  have h3 := this.1
  exact congrArg (fun x => x.2.2) h3

/-- A run of `N + 1` steps contains a run of `N` steps, and one step changes the sum by at most the greatest value of `|f|`. -/
theorem sumIs_succ {e : E} (he : W e) {N : ℕ} {ω : ℕ → ℝ} {a' : ℚ} (h1 : SumIs put step fF (core e) (N + 1) ω a') :
    ∃ a, SumIs put step fF (core e) N ω a ∧ |a' - a| ≤ ∑ y ∈ Ω, |f y| := by
  have hS := h.law.withSum hf (fun _ => true)
  obtain ⟨l, c', j, h1⟩ := h1
  obtain ⟨e', he', hc'⟩ := hS.reached (W := fun e => W e.1) (fun e he => h.valid e.1 he)
    (fun e he d hd => by
      obtain ⟨e', k1, k2⟩ := h.steady.step e.1 he d hd
      exact ⟨(e', e.2 + f (obs e')), by unfold runSum; rw [k1]; rfl, k2⟩) (e := (e, 0)) he h1
  obtain ⟨l1, ⟨c1, a⟩, i, s, h2, h3⟩ := mSteps_ret_last hS.joins hS.adaptive h1
  obtain ⟨-, h4⟩ := (stepSum_ret hf).mp h3
  refine ⟨a, ⟨l1, c1, i, h2⟩, ?_⟩
  have h5 : core e'.1 = c' := congrArg Prod.fst hc'
  rw [h4, add_sub_cancel_left, ← h5, ← h.law.obs_eq]
  exact single_le_sum (f := fun y => |f y|) (fun y _ => abs_nonneg _) (h.mem e'.1 he')

theorem sumIs_mono {e : E} (he : W e) {N : ℕ} {ω : ℕ → ℝ} : ∀ {M : ℕ}, N ≤ M → ∀ {a : ℚ}, SumIs put step fF (core e) M ω a →
    ∃ a', SumIs put step fF (core e) N ω a' := by
  intro M hM
  induction M, hM using Nat.le_induction with
  | base => exact fun {a} h1 => ⟨a, h1⟩
  | succ M _ ih =>
    intro a h1
    obtain ⟨a1, h2, -⟩ := h.sumIs_succ f hf he h1
    exact ih h2

/-- The strong law of large numbers: with probability one the averages of the values along the run converge to the mean. -/
theorem strong_law {e : E} (he : W e) :
    ∀ᵐ ω ∂uniformTape, ∃ A : ℕ → ℚ, (∀ N, ∃ fuel f', sumSteps (step fuel) fF N (put (core e) ⟨ω, 0⟩) 0 = .ok (A N, f')) ∧
      Tendsto (fun N : ℕ => (A N : ℝ) / N) atTop (𝓝 ((∑ y ∈ Ω, π y * f y : ℚ) : ℝ)) := by
  set μ := ∑ y ∈ Ω, π y * f y with hμ
  have hπ : ∑ y ∈ Ω, π y = 1 := h.steady.limit_total h.mem h.conv he
  -- the bad events along the squares
  have hbad : ∀ m : ℕ, ∀ᵐ ω ∂uniformTape, ∀ᶠ j : ℕ in atTop,
      ∃ a, SumIs put step fF (core e) ((j + 1) ^ 2) ω a ∧ |a - ((j + 1) ^ 2 : ℕ) * μ| < ((j + 1) ^ 2 : ℕ) * (1 / (m + 1 : ℚ)) := by
    intro m
    have hδ : (0 : ℚ) < 1 / (m + 1 : ℚ) := by positivity
    obtain ⟨K, N₀, hK, hrate⟩ := h.steady.rate h.mem hπ h.conv f hδ
    have hmeas : ∀ N : ℕ, N₀ ≤ N →
        uniformTape {ω | ∃ a, SumIs put step fF (core e) N ω a ∧ |a - N * μ| < N * (1 / (m + 1 : ℚ))}ᶜ ≤
          ENNReal.ofReal ((K / N : ℚ) : ℝ) := by
      intro N hN
      have hS := h.law.withSum hf (fun x => decide (|x - N * μ| < N * (1 / (m + 1 : ℚ))))
      have h1 := hS.chance_steps true N (e, 0) (h.valid e he)
      have hset : {ω | ∃ a, SumIs put step fF (core e) N ω a ∧ |a - N * μ| < N * (1 / (m + 1 : ℚ))} =
          {ω | ∃ l c' j, RetOf (mkStep (putSum put)) (fun fuel r => mSteps (stepSum (step fuel) fF) N (putSum put (core e, 0) r)) ω 0
            (l, c') j ∧ decide (|c'.2 - N * μ| < N * (1 / (m + 1 : ℚ))) = true} := by
        ext ω
        constructor
        · rintro ⟨a, ⟨l, c', j, k1⟩, k2⟩; exact ⟨l, (c', a), j, k1, by simpa using k2⟩
        · rintro ⟨l, ⟨c', a⟩, j, k1, k2⟩; exact ⟨a, ⟨l, c', j, k1⟩, by simpa using k2⟩
      rw [hset, prob_compl_eq_one_sub (h1.meas 0), h1.prob 0]
      have h2 := h.steady.law_total (fun e => f (obs e)) (fun x => decide (|x - N * μ| < N * (1 / (m + 1 : ℚ)))) N e 0 he
      have h3 := hrate N hN e he
      have h4 := hS.law_nonneg true N (e, 0) (h.valid e he)
      rw [← ENNReal.ofReal_one, ← ENNReal.ofReal_sub _ (by exact_mod_cast h4)]
      refine ENNReal.ofReal_le_ofReal ?_
      have : 1 - lawAfterW (fun e : E × ℚ => draws e.1) (fun e => wt e.1) (runSum run fun e => f (obs e))
        (fun e => decide (|e.2 - N * μ| < N * (1 / (m + 1 : ℚ)))) N (e, 0) true ≤ K / N := by linarith
      exact_mod_cast this
    set s : ℕ → Set (ℕ → ℝ) := fun j => if N₀ ≤ (j + 1) ^ 2 then
      {ω | ∃ a, SumIs put step fF (core e) ((j + 1) ^ 2) ω a ∧
        |a - ((j + 1) ^ 2 : ℕ) * μ| < ((j + 1) ^ 2 : ℕ) * (1 / (m + 1 : ℚ))}ᶜ else ∅ with hs
    have hle : ∀ j, uniformTape (s j) ≤ ENNReal.ofReal ((K : ℝ) * (1 / ((j + 1 : ℕ) : ℝ) ^ 2)) := by
      intro j
      rw [hs]
      dsimp only
      split
      · rename_i hj
        refine (hmeas _ hj).trans (ENNReal.ofReal_le_ofReal (le_of_eq ?_))
        push_cast
        ring
      · simp
    have hsum : Summable (fun j : ℕ => (K : ℝ) * (1 / ((j + 1 : ℕ) : ℝ) ^ 2)) :=
      ((summable_nat_add_iff 1).mpr (Real.summable_one_div_nat_pow.mpr (by norm_num : 1 < 2))).mul_left _
    have hfin : (∑' j, uniformTape (s j)) ≠ ⊤ :=
      ne_top_of_le_ne_top hsum.tsum_ofReal_ne_top (ENNReal.tsum_le_tsum hle)
    filter_upwards [ae_eventually_notMem hfin] with ω hω
    filter_upwards [hω, eventually_ge_atTop N₀] with j hj hjN
    have hjN' : N₀ ≤ (j + 1) ^ 2 := by nlinarith
    rw [hs] at hj
    dsimp only at hj
    rw [if_pos hjN'] at hj
    exact not_not.mp hj
  filter_upwards [ae_all_iff.mpr hbad] with ω hω
  have hall : ∀ N, ∃ a, SumIs put step fF (core e) N ω a := by
    intro N
    obtain ⟨j, ⟨a, ha, _⟩, hj⟩ := ((hω 0).and (eventually_ge_atTop N)).exists
    exact h.sumIs_mono f hf he (show N ≤ (j + 1) ^ 2 by nlinarith) ha
  choose A hA using hall
  refine ⟨A, fun N => sumIs_run (hA N), ?_⟩
  set b : ℚ := ∑ y ∈ Ω, |f y| with hb
  have hmono : Monotone (fun N : ℕ => (A N : ℝ) + b * N) := by
    refine monotone_nat_of_le_succ fun N => ?_
    obtain ⟨a, h1, h2⟩ := h.sumIs_succ f hf he (hA (N + 1))
    rw [h.sumIs_unique f hf h1 (hA N)] at h2
    have h3 := (abs_le.mp h2).1
    have h4 : (-(b : ℝ)) ≤ (A (N + 1) : ℝ) - A N := by exact_mod_cast h3
    push_cast
    linarith
  have hsq : Tendsto (fun j : ℕ => (A ((j + 1) ^ 2) : ℝ) / ((j + 1) ^ 2 : ℕ)) atTop (𝓝 (μ : ℝ)) := by
    rw [Metric.tendsto_atTop]
    intro ε hε
    obtain ⟨m, hm⟩ := exists_nat_one_div_lt hε
    obtain ⟨J, hJ⟩ := eventually_atTop.mp (hω m)
    refine ⟨J, fun j hj => ?_⟩
    obtain ⟨a, h1, h2⟩ := hJ j hj
    rw [h.sumIs_unique f hf h1 (hA _)] at h2
    have hpos : (0 : ℝ) < ((j + 1) ^ 2 : ℕ) := by positivity
    have h3 : |(A ((j + 1) ^ 2) : ℝ) - (((j + 1) ^ 2 : ℕ) : ℝ) * μ| < (((j + 1) ^ 2 : ℕ) : ℝ) * (1 / (m + 1 : ℝ)) := by
      have key : ∀ (M : ℕ) (a : ℚ), |a - M * μ| < M * (1 / (m + 1 : ℚ)) → |(a : ℝ) - M * (μ : ℝ)| < M * (1 / (m + 1 : ℝ)) := by
        intro M a hh
        have := (Rat.cast_lt (K := ℝ)).mpr hh
        push_cast at this
        exact this
      exact key _ _ h2
    rw [Real.dist_eq, show (A ((j + 1) ^ 2) : ℝ) / ((j + 1) ^ 2 : ℕ) - μ = ((A ((j + 1) ^ 2) : ℝ) - ((j + 1) ^ 2 : ℕ) * μ) / ((j + 1) ^ 2 : ℕ) by
      field_simp, abs_div, abs_of_pos hpos, div_lt_iff₀ hpos]
    calc _ < _ := h3
      _ < (((j + 1) ^ 2 : ℕ) : ℝ) * ε := mul_lt_mul_of_pos_left hm hpos
      _ = _ := mul_comm _ _
  have hu := tendsto_div_of_monotone_of_exists_subseq_tendsto_div _ ((μ : ℝ) + b) hmono (fun x hx => by
    refine ⟨fun j => (j + 1) ^ 2, ?_, ?_, ?_⟩
    · obtain ⟨J, hJ⟩ := exists_nat_gt (3 / (x - 1))
      have hx' : 0 < x - 1 := by linarith
      rw [div_lt_iff₀ hx'] at hJ
      filter_upwards [eventually_ge_atTop J] with j hj
      have hj' : (J : ℝ) ≤ j := by exact_mod_cast hj
      have h1 : (J : ℝ) * (x - 1) ≤ j * (x - 1) := mul_le_mul_of_nonneg_right hj' hx'.le
      have h0 : (0 : ℝ) ≤ j := by positivity
      push_cast
      have h2 : 3 ≤ ((j : ℝ) + 1) * (x - 1) := by nlinarith
      have h3 := mul_le_mul_of_nonneg_left h2 (by positivity : (0 : ℝ) ≤ (j : ℝ) + 1)
      nlinarith
    · exact tendsto_atTop_mono (fun j => show j ≤ (j + 1) ^ 2 by nlinarith) tendsto_id
    · refine (hsq.add_const (b : ℝ)).congr fun j => ?_
      have hpos : (((j + 1) ^ 2 : ℕ) : ℝ) ≠ 0 := by positivity
      field_simp)
  have hv := hu.sub_const (b : ℝ)
  rw [add_sub_cancel_right] at hv
  refine hv.congr' ?_
  filter_upwards [eventually_gt_atTop 0] with N hN
  have : (N : ℝ) ≠ 0 := by positivity
  field_simp
  ring

end Mixing

end Tape

end Verif
