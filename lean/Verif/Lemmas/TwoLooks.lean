import Verif.Lemmas.Rate
import Verif.Lemmas.Resample

/-!
# A network drawn from the ensemble, and the same network some Markov steps later

The joint distribution of what `randomize` returns and of what is there `t` Markov steps later.
-/

set_option linter.unusedSectionVars false
set_option linter.unusedSimpArgs false

namespace Verif
open MeasureTheory ProbabilityTheory Finset Markov

variable {C F S E D O : Type} [DecidableEq O] {put : C → Stream → F} {step : ℕ → F → Res (S × F)} {V : C → Prop} {o : C → O}
  {core : E → C} {draws : E → Finset D} {wt : E → D → ℚ} {run : E → D → Res E} {obs : E → O} {W : E → Prop} {Ω : Finset O}
  {rnd : ℕ → F → Res F} {Vr : C → Prop} {w : O → ENNReal}

/-- The probability that the first look shows `A` and the second one, `t` steps later, shows `B`. -/
theorem Resample.two_looks (hr : Resample put rnd Vr o Ω w) (hs : StepLaw put step V o core draws wt run obs)
    (link : ∀ c, Vr c → ∃ e, W e ∧ core e = c) (valid : ∀ e, W e → V (core e)) {look : F → O} (hl : ∀ c r, look (put c r) = o c)
    (A B : O → Prop) [DecidablePred A] [DecidablePred B] (t : ℕ) {g : O → ℚ}
    (hg : ∀ e, W e → lawAfterW draws wt run (fun e => decide (B (obs e))) t e true = g (obs e)) {c : C} (hc : Vr c) (k : ℕ) :
    uniformTape {ω | ∃ fuel e₁ l e₂, rnd fuel (put c (⟨ω, k⟩ : Stream)) = .ok e₁ ∧ mSteps (step fuel) t e₁ = .ok (l, e₂) ∧
      A (look e₁) ∧ B (look e₂)} = ∑ y ∈ Ω with A y, w y * ENNReal.ofReal (g y : ℝ) := by
  have hsB := hs.comp (fun y => decide (B y))
  let R : (ℕ → ℝ) → ℕ → C → ℕ → Prop := RetOf put (fun fuel r => rnd fuel (put c r))
  have hR : Sampler R := (hr.adaptive c).sampler hr.joins
  let Q : C → (ℕ → ℝ) → ℕ → Prop := fun c' ω k => ∃ l c2 j,
    RetOf (mkStep put) (fun fuel r => mSteps (step fuel) t (put c' r)) ω k (l, c2) j ∧ decide (B (o c2)) = true
  have hQ : ∀ c', Vr c' → Chance (Q c') (ENNReal.ofReal (g (o c') : ℝ)) := by
    intro c' hc'
    obtain ⟨e, he, rfl⟩ := link c' hc'
    have h1 := hsB.chance_steps true t e (valid e he)
    rw [hg e he, hs.obs_eq] at h1
    exact h1
  have hterm : ∀ y ∈ Ω.filter A, Chance (fun ω k => ∃ a j, R ω k a j ∧ (o a = y ∧ Vr a) ∧ Q a ω j)
      (w y * ENNReal.ofReal (g y : ℝ)) := by
    intro y hy
    have h1 := hr.chance c hc y (mem_filter.mp hy).1
    have h2 : Chance (fun ω k => ∃ a j, R ω k a j ∧ (o a = y ∧ Vr a)) (w y) := by
      refine h1.congr fun ω k => ⟨?_, ?_⟩
      · rintro ⟨a, j, b1, b2⟩; exact ⟨a, j, b1, b2, (hr.keeps c hc b1).1⟩
      · rintro ⟨a, j, b1, b2, _⟩; exact ⟨a, j, b1, b2⟩
    refine chance_bind hR h2 (Q := Q) ?_
    rintro a ⟨rfl, ha⟩
    exact hQ a ha
  have hsum := Chance.sum _ hterm (by
    rintro y1 - y2 - ω k ⟨a, j, r1, ⟨rfl, _⟩, _⟩ ⟨a', j', r2, ⟨rfl, _⟩, _⟩
    rw [(hR.det r1 r2).1])
  rw [← hsum.prob k]
  congr 1
  ext ω
  simp only [Set.mem_ofPred_eq]
  constructor
  · rintro ⟨fuel, e₁, l, e₂, h1, h2, h3, h4⟩
    obtain ⟨a, j, rfl, b2⟩ := (hr.adaptive c).ret (r := (⟨ω, k⟩ : Stream)) h1
    obtain ⟨⟨l', c2⟩, j2, b3, b4⟩ := (mSteps_adaptive hs.adaptive t a).ret (r := (⟨ω, j⟩ : Stream)) h2
    have b5 : e₂ = put c2 ⟨ω, j2⟩ := congrArg Prod.snd b3
    rw [hl] at h3
    rw [b5, hl] at h4
    have hk := hr.keeps c hc b2
    exact ⟨o a, mem_filter.mpr ⟨hk.2, h3⟩, a, j, b2, ⟨rfl, hk.1⟩, l', c2, j2, b4, decide_eq_true h4⟩
  · rintro ⟨y, hy, a, j, b1, ⟨rfl, _⟩, l, c2, j2, b2, b3⟩
    obtain ⟨F₁, hF₁⟩ := b1
    obtain ⟨F₂, hF₂⟩ := b2
    exact ⟨max F₁ F₂, put a ⟨ω, j⟩, l, put c2 ⟨ω, j2⟩, hF₁ _ (le_max_left _ _), hF₂ _ (le_max_right _ _),
      by rw [hl]; exact (mem_filter.mp hy).2, by rw [hl]; exact of_decide_eq_true b3⟩

/-- What is needed to speak of two looks: `randomize` draws from the distribution `π`, the steps form a Markov chain on the same networks, and
`π` is in detailed balance with it. -/
structure Looks (put : C → Stream → F) (rnd : ℕ → F → Res F) (step : ℕ → F → Res (S × F)) (look : F → O) (Vr V : C → Prop) (o : C → O)
    (core : E → C) (draws : E → Finset D) (wt : E → D → ℚ) (run : E → D → Res E) (obs : E → O) (W : E → Prop) (Ω : Finset O)
    (π : O → ℚ) : Prop where
  resample : Resample put rnd Vr o Ω (fun y => ENNReal.ofReal (π y : ℝ))
  law : StepLaw put step V o core draws wt run obs
  lumped : LumpedW W draws wt run obs Ω
  balance : ∀ x ∈ Ω, ∀ y ∈ Ω, π x * lumpP W draws wt run obs x y = π y * lumpP W draws wt run obs y x
  nonneg : ∀ x ∈ Ω, 0 ≤ π x
  total : ∑ x ∈ Ω, π x = 1
  link : ∀ c, Vr c → ∃ e, W e ∧ core e = c
  valid : ∀ e, W e → V (core e)
  look_eq : ∀ c r, look (put c r) = o c

/-- First look `A`, second look, `t` steps later, `B`. -/
def TwoLooks (put : C → Stream → F) (rnd : ℕ → F → Res F) (step : ℕ → F → Res (S × F)) (look : F → O) (c : C) (k t : ℕ) (A B : O → Prop) :
    Set (ℕ → ℝ) :=
  {ω | ∃ fuel e₁ l e₂, rnd fuel (put c (⟨ω, k⟩ : Stream)) = .ok e₁ ∧ mSteps (step fuel) t e₁ = .ok (l, e₂) ∧ A (look e₁) ∧ B (look e₂)}

namespace Looks

variable {look : F → O} {π : O → ℚ}

theorem steady (h : Looks put rnd step look Vr V o core draws wt run obs W Ω π) : Steady W draws wt run :=
  ⟨h.lumped.total, fun e he d hd => (h.lumped.pos e he d hd).le, h.lumped.step⟩

/-- The mean of `f` after `t` steps from the network `y`. -/
noncomputable def after (W : E → Prop) (draws : E → Finset D) (wt : E → D → ℚ) (run : E → D → Res E) (obs : E → O) (Ω : Finset O) (f : O → ℚ) (t : ℕ) (y : O) :
    ℚ := ∑ z ∈ Ω, f z * pow Ω (lumpP W draws wt run obs) t y z

theorem after_eq (h : Looks put rnd step look Vr V o core draws wt run obs W Ω π) (f : O → ℚ) (t : ℕ) {e : E} (he : W e) :
    after W draws wt run obs Ω f t (obs e) = Steady.meanAfter draws wt run (fun e => f (obs e)) t e := by
  rw [h.steady.mean_eq_law h.lumped.mem f t he]
  exact sum_congr rfl fun z _ => by rw [h.lumped.law_eq t he]

theorem prob (h : Looks put rnd step look Vr V o core draws wt run obs W Ω π) (A B : O → Prop) [DecidablePred A] [DecidablePred B] (t : ℕ)
    {c : C} (hc : Vr c) (k : ℕ) :
    (uniformTape (TwoLooks put rnd step look c k t A B)).toReal =
      ((∑ y ∈ Ω with A y, π y * after W draws wt run obs Ω (fun z => if B z then 1 else 0) t y : ℚ) : ℝ) := by
  have h0 : ∀ y ∈ Ω, 0 ≤ after W draws wt run obs Ω (fun z => if B z then 1 else 0) t y := fun y hy =>
    sum_nonneg fun z hz => mul_nonneg (by dsimp only; split <;> norm_num) ((pow_kernel h.lumped.kernel t).nonneg y hy z hz)
  have h1 := h.resample.two_looks h.law h.link h.valid h.look_eq A B t
    (g := after W draws wt run obs Ω (fun z => if B z then 1 else 0) t) (fun e he => by
      rw [h.after_eq _ t he]
      have h2 := h.steady.mean_eq_law (obs := fun e => decide (B (obs e))) (Ω := {true, false}) (fun e _ => by
        cases decide (B (obs e)) <;> simp) (fun b => if b then 1 else 0) t he
      rw [Finset.sum_pair (by simp)] at h2
      simp only [if_true, one_mul, Bool.false_eq_true, if_false, zero_mul, add_zero, decide_eq_true_eq] at h2
      exact h2.symm) hc k
  unfold TwoLooks
  rw [h1, Rat.cast_sum]
  rw [ENNReal.toReal_sum (fun y _ => ENNReal.mul_ne_top ENNReal.ofReal_ne_top ENNReal.ofReal_ne_top)]
  refine sum_congr rfl fun y hy => ?_
  have hy := (mem_filter.mp hy).1
  rw [ENNReal.toReal_mul, ENNReal.toReal_ofReal (by exact_mod_cast h.nonneg y hy), ENNReal.toReal_ofReal (by exact_mod_cast h0 y hy),
    Rat.cast_mul]

/-- In the ensemble it makes no difference in which direction time runs. -/
theorem sum_symm (h : Looks put rnd step look Vr V o core draws wt run obs W Ω π) (f g : O → ℚ) (t : ℕ) :
    ∑ y ∈ Ω, π y * (f y * after W draws wt run obs Ω g t y) = ∑ y ∈ Ω, π y * (g y * after W draws wt run obs Ω f t y) := by
  unfold after
  simp only [mul_sum]
  rw [sum_comm]
  refine sum_congr rfl fun y hy => sum_congr rfl fun z hz => ?_
  have := pow_balance h.balance t z hz y hy
  calc π z * (f z * (g y * pow Ω (lumpP W draws wt run obs) t z y)) = (π z * pow Ω (lumpP W draws wt run obs) t z y) * (f z * g y) := by ring
    _ = _ := by rw [this]; ring

theorem after_one (h : Looks put rnd step look Vr V o core draws wt run obs W Ω π) (t : ℕ) {y : O} (hy : y ∈ Ω) :
    after W draws wt run obs Ω (fun _ => 1) t y = 1 := by
  unfold after
  simp only [one_mul]
  exact (pow_kernel h.lumped.kernel t).row y hy

theorem sum_after (h : Looks put rnd step look Vr V o core draws wt run obs W Ω π) (f : O → ℚ) (t : ℕ) :
    ∑ y ∈ Ω, π y * after W draws wt run obs Ω f t y = ∑ y ∈ Ω, π y * f y := by
  have := h.sum_symm (fun _ => 1) f t
  simp only [one_mul] at this
  rw [this]
  exact sum_congr rfl fun y hy => by rw [h.after_one t hy, mul_one]

theorem reversible (h : Looks put rnd step look Vr V o core draws wt run obs W Ω π) (A B : O → Prop) [DecidablePred A] [DecidablePred B]
    (t : ℕ) {c : C} (hc : Vr c) (k : ℕ) :
    (uniformTape (TwoLooks put rnd step look c k t A B)).toReal = (uniformTape (TwoLooks put rnd step look c k t B A)).toReal := by
  rw [h.prob A B t hc k, h.prob B A t hc k]
  congr 1
  have := h.sum_symm (fun y => if A y then 1 else 0) (fun y => if B y then 1 else 0) t
  simp only [ite_mul, one_mul, zero_mul, mul_ite, mul_zero] at this
  rw [← sum_filter, ← sum_filter] at this
  exact this

theorem stationary (h : Looks put rnd step look Vr V o core draws wt run obs W Ω π) (B : O → Prop) [DecidablePred B]
    (t : ℕ) {c : C} (hc : Vr c) (k : ℕ) :
    (uniformTape (TwoLooks put rnd step look c k t (fun _ => True) B)).toReal = ((∑ y ∈ Ω with B y, π y : ℚ) : ℝ) := by
  rw [h.prob _ B t hc k, filter_true_of_mem (fun _ _ => trivial), h.sum_after]
  congr 1
  rw [sum_filter]
  exact sum_congr rfl fun y _ => by split <;> simp

/-- The mean of the product of a quantity of the first look and one of the second. -/
theorem product (h : Looks put rnd step look Vr V o core draws wt run obs W Ω π) (f g : O → ℚ) (t : ℕ) {c : C} (hc : Vr c) (k : ℕ) :
    ∑ y ∈ Ω, ∑ z ∈ Ω, (f y : ℝ) * (g z : ℝ) *
      (uniformTape (TwoLooks put rnd step look c k t (fun x => x = y) (fun x => x = z))).toReal =
      ((∑ y ∈ Ω, π y * (f y * after W draws wt run obs Ω g t y) : ℚ) : ℝ) := by
  rw [Rat.cast_sum]
  refine sum_congr rfl fun y hy => ?_
  have h1 : ∀ z ∈ Ω, (uniformTape (TwoLooks put rnd step look c k t (fun x => x = y) (fun x => x = z))).toReal =
      ((π y * pow Ω (lumpP W draws wt run obs) t y z : ℚ) : ℝ) := by
    intro z hz
    rw [h.prob (fun x => x = y) (fun x => x = z) t hc k, filter_eq' Ω y, if_pos hy, sum_singleton]
    congr 2
    unfold after
    dsimp only
    rw [sum_eq_single z (fun x _ hx => by rw [if_neg hx, zero_mul]) (fun hn => absurd hz hn), if_pos rfl, one_mul]
  rw [sum_congr rfl fun z hz => by rw [h1 z hz]]
  unfold after
  rw [← mul_assoc, mul_sum, Rat.cast_sum]
  refine sum_congr rfl fun z _ => ?_
  push_cast
  ring

/-- A quantity whose deviation from `μ` shrinks by the factor `ρ` in every step: `μ` is its mean, and its autocovariance after `t` steps is
`ρ ^ t` times its variance. -/
theorem mean_of_rate (h : Looks put rnd step look Vr V o core draws wt run obs W Ω π) {f : O → ℚ} {μ ρ : ℚ} (hρ : ρ ≠ 1)
    (hf : ∀ e, W e → Steady.meanAfter draws wt run (fun e => f (obs e)) 1 e = μ + (f (obs e) - μ) * ρ) : ∑ y ∈ Ω, π y * f y = μ := by
  have h1 := h.sum_after f 1
  have h2 : ∀ y ∈ Ω, after W draws wt run obs Ω f 1 y = μ + (f y - μ) * ρ := by
    intro y hy
    obtain ⟨e, he, rfl⟩ := h.lumped.ex y hy
    rw [h.after_eq f 1 he, hf e he]
  rw [sum_congr rfl fun y hy => by rw [h2 y hy]] at h1
  have h3 : ∑ y ∈ Ω, π y * (μ + (f y - μ) * ρ) = μ * (1 - ρ) + ρ * ∑ y ∈ Ω, π y * f y := by
    have ht : μ * (1 - ρ) = ∑ y ∈ Ω, π y * (μ * (1 - ρ)) := by rw [← sum_mul, h.total, one_mul]
    rw [ht, mul_sum, ← sum_add_distrib]
    exact sum_congr rfl fun y _ => by ring
  rw [h3] at h1
  have h4 : (1 - ρ) * (∑ y ∈ Ω, π y * f y - μ) = 0 := by linarith
  rcases mul_eq_zero.mp h4 with h5 | h5
  · exact absurd (by linarith) hρ
  · linarith

theorem covariance (h : Looks put rnd step look Vr V o core draws wt run obs W Ω π) {f : O → ℚ} {μ ρ : ℚ} (hρ : ρ ≠ 1)
    (hf : ∀ t e, W e → Steady.meanAfter draws wt run (fun e => f (obs e)) t e = μ + (f (obs e) - μ) * ρ ^ t) (g : O → ℚ) (t : ℕ) :
    ∑ y ∈ Ω, π y * (g y * after W draws wt run obs Ω f t y) - (∑ y ∈ Ω, π y * g y) * (∑ y ∈ Ω, π y * f y) =
      ρ ^ t * (∑ y ∈ Ω, π y * (g y * f y) - (∑ y ∈ Ω, π y * g y) * (∑ y ∈ Ω, π y * f y)) := by
  rw [h.mean_of_rate (f := f) (μ := μ) hρ (fun e he => by rw [hf 1 e he, _root_.pow_one])]
  have h2 : ∀ y ∈ Ω, after W draws wt run obs Ω f t y = μ + (f y - μ) * ρ ^ t := by
    intro y hy
    obtain ⟨e, he, rfl⟩ := h.lumped.ex y hy
    rw [h.after_eq f t he, hf t e he]
  have h4 : ∑ y ∈ Ω, π y * (g y * after W draws wt run obs Ω f t y) = ∑ y ∈ Ω, π y * (g y * (μ + (f y - μ) * ρ ^ t)) :=
    sum_congr rfl fun y hy => by rw [h2 y hy]
  rw [h4]
  have h3 : ∑ y ∈ Ω, π y * (g y * (μ + (f y - μ) * ρ ^ t)) =
      (∑ y ∈ Ω, π y * g y) * (μ * (1 - ρ ^ t)) + ρ ^ t * ∑ y ∈ Ω, π y * (g y * f y) := by
    rw [mul_sum, sum_mul, ← sum_add_distrib]
    exact sum_congr rfl fun y _ => by ring
  rw [h3]
  ring

/-- The covariance of a quantity `g` of the first look and the quantity `f` of the second look. -/
theorem autocovariance (h : Looks put rnd step look Vr V o core draws wt run obs W Ω π) {f : O → ℚ} {μ ρ : ℚ} (hρ : ρ ≠ 1)
    (hf : ∀ t e, W e → Steady.meanAfter draws wt run (fun e => f (obs e)) t e = μ + (f (obs e) - μ) * ρ ^ t) (g : O → ℚ) (t : ℕ)
    {c : C} (hc : Vr c) (k : ℕ) {P₁ : O → ℝ} (hP₁ : ∀ y ∈ Ω, P₁ y = (π y : ℝ)) {P₂ : O → O → ℝ}
    (hP₂ : ∀ y ∈ Ω, ∀ z ∈ Ω, P₂ y z = (uniformTape (TwoLooks put rnd step look c k t (fun x => x = y) (fun x => x = z))).toReal) :
    ∑ y ∈ Ω, ∑ z ∈ Ω, (g y : ℝ) * (f z : ℝ) * P₂ y z - (∑ y ∈ Ω, (g y : ℝ) * P₁ y) * (∑ y ∈ Ω, (f y : ℝ) * P₁ y) =
      (ρ : ℝ) ^ t * (∑ y ∈ Ω, (g y : ℝ) * (f y : ℝ) * P₁ y - (∑ y ∈ Ω, (g y : ℝ) * P₁ y) * (∑ y ∈ Ω, (f y : ℝ) * P₁ y)) := by
  have h1 : ∑ y ∈ Ω, ∑ z ∈ Ω, (g y : ℝ) * (f z : ℝ) * P₂ y z = ((∑ y ∈ Ω, π y * (g y * after W draws wt run obs Ω f t y) : ℚ) : ℝ) := by
    rw [← h.product g f t hc k]
    exact sum_congr rfl fun y hy => sum_congr rfl fun z hz => by rw [hP₂ y hy z hz]
  have h2 : ∀ u : O → ℚ, ∑ y ∈ Ω, (u y : ℝ) * P₁ y = ((∑ y ∈ Ω, π y * u y : ℚ) : ℝ) := fun u => by
    rw [Rat.cast_sum]
    exact sum_congr rfl fun y hy => by rw [hP₁ y hy]; push_cast; ring
  have h3 := h2 (fun y => g y * f y)
  simp only [Rat.cast_mul] at h3
  rw [h1, h2 g, h2 f, h3]
  have h4 := congrArg (fun q : ℚ => (q : ℝ)) (h.covariance hρ hf g t)
  push_cast at h4 ⊢
  exact h4

end Looks

/-! ## Sums over the edges -/

theorem Steady.mean_mul (a : ℚ) (G : E → ℚ) : ∀ (k : ℕ) (e : E),
    Steady.meanAfter draws wt run (fun e => a * G e) k e = a * Steady.meanAfter draws wt run G k e := by
  intro k
  induction k with
  | zero => intro e; rfl
  | succ k ih =>
    intro e
    show avg draws wt run _ e = a * avg draws wt run _ e
    rw [← Steady.avg_mul]
    congr 1
    funext e'
    exact ih e'

section
variable {n : ℕ} {q : Sym2 ℕ → ℚ} {obs : E → Finset (Sym2 ℕ)} {draws : E → Finset (ℕ × ℕ × ℕ)} {run : E → ℕ × ℕ × ℕ → Res E}

/-- A sum of weights over the edges, where every step draws the state of one random pair anew. -/
theorem toggle_sum_mean (h : Steady W draws (fun e _ => 1 / ((draws e).card : ℚ)) run) (hdraws : ∀ e, W e → draws e = pairDraws n)
    (hmem : ∀ e, W e → obs e ⊆ pairSet n)
    (hstep : ∀ e, W e → ∀ d ∈ pairDraws n, ∃ e', run e d = .ok e' ∧ W e' ∧ obs e' = toggled q (obs e) d)
    (a : Sym2 ℕ → ℚ) (k : ℕ) {e : E} (he : W e) :
    Steady.meanAfter draws (fun e _ => 1 / ((draws e).card : ℚ)) run (fun e => ∑ x ∈ obs e, a x) k e =
      ∑ x ∈ pairSet n, a x * headProb (q x) + (∑ x ∈ obs e, a x - ∑ x ∈ pairSet n, a x * headProb (q x)) *
        (1 - 1 / ((pairSet n).card : ℚ)) ^ k := by
  have h1 : ∀ e, W e → ∑ x ∈ obs e, a x = ∑ x ∈ pairSet n, a x * (if x ∈ obs e then 1 else 0) := by
    intro e he
    simp only [mul_ite, mul_one, mul_zero]
    rw [← sum_filter, filter_mem_eq_inter, inter_eq_right.mpr (hmem e he)]
  rw [h.mean_congr h1 k he, Steady.mean_sum, h1 e he, ← sum_sub_distrib, sum_mul, ← sum_add_distrib]
  refine sum_congr rfl fun x hx => ?_
  rw [Steady.mean_mul, toggle_pair_mean h hdraws hstep hx k he]
  ring

end

section
variable {α : Type} [DecidableEq α] {Λ : Finset α} {m : ℕ}

/-- The probability that `x` is chosen after one exchange. -/
theorem swap_pair {T : Finset α} (hT : T ⊆ Λ) (hm : T.card = m) (hm0 : 0 < m) (hmΛ : m < Λ.card) {x : α} (hx : x ∈ Λ) :
    swapMean Λ (fun T => if x ∈ T then 1 else 0) T =
      (m : ℚ) / Λ.card + ((if x ∈ T then 1 else 0) - (m : ℚ) / Λ.card) * (1 - (Λ.card : ℚ) / (m * (Λ.card - m))) := by
  have hN : ((Λ \ T).card : ℚ) = Λ.card - m := by
    rw [card_sdiff_of_subset hT, hm, Nat.cast_sub hmΛ.le]
  have hp : (0 : ℚ) < Λ.card - m := by
    have : (m : ℚ) < Λ.card := by exact_mod_cast hmΛ
    linarith
  have hm' : (0 : ℚ) < m := by exact_mod_cast hm0
  have hΛ : (0 : ℚ) < Λ.card := by linarith
  unfold swapMean
  rw [hN, hm]
  by_cases hxT : x ∈ T
  · have h1 : ∀ a ∈ T, ∑ y ∈ Λ \ T, (if x ∈ insert y (T.erase a) then (1 : ℚ) else 0) = (Λ.card - m) * (1 - if a = x then 1 else 0) := by
      intro a ha
      rw [← hN]
      by_cases hax : a = x
      · rw [if_pos hax, sub_self, mul_zero]
        refine sum_eq_zero fun y hy => if_neg ?_
        rw [mem_insert, hax]
        rintro (rfl | h2)
        · exact (mem_sdiff.mp hy).2 hxT
        · exact absurd h2 (notMem_erase _ _)
      · rw [if_neg hax, sub_zero, mul_one, sum_congr rfl fun y _ => if_pos (mem_insert_of_mem (mem_erase.mpr ⟨Ne.symm hax, hxT⟩))]
        rw [sum_const, nsmul_eq_mul, mul_one]
    rw [sum_congr rfl h1, ← mul_sum, sum_sub_distrib, sum_const, nsmul_eq_mul, mul_one, hm, sum_ite_eq' T x, if_pos hxT]
    field_simp
    ring
  · have h1 : ∀ a ∈ T, ∑ y ∈ Λ \ T, (if x ∈ insert y (T.erase a) then (1 : ℚ) else 0) = 1 := by
      intro a ha
      have h2 : ∀ y ∈ Λ \ T, (if x ∈ insert y (T.erase a) then (1 : ℚ) else 0) = if x = y then 1 else 0 := fun y _ => by
        refine if_congr ?_ rfl rfl
        rw [mem_insert]
        exact ⟨fun h => h.resolve_right fun h => hxT (mem_of_mem_erase h), Or.inl⟩
      rw [sum_congr rfl h2, sum_ite_eq (Λ \ T) x, if_pos (mem_sdiff.mpr ⟨hx, hxT⟩)]
    rw [sum_congr rfl h1, sum_const, nsmul_eq_mul, mul_one, hm, if_neg hxT]
    field_simp
    ring

end

end Verif
