import Verif.Lemmas.TwoLooks
import Verif.Spec.Average

/-!
# The variance of an average along one chain

A program draws a network with `randomize`, makes `N` Markov steps and averages a quantity over the networks after the single steps. If the
deviation of the quantity from its mean shrinks by a constant factor in every step, the variance of the average is known exactly.
-/

set_option linter.unusedSectionVars false
set_option linter.unusedSimpArgs false

namespace Verif
open MeasureTheory ProbabilityTheory Finset Markov

variable {C F S E D O : Type} [DecidableEq O] {put : C → Stream → F} {step : ℕ → F → Res (S × F)} {V : C → Prop} {o : C → O}
  {core : E → C} {draws : E → Finset D} {wt : E → D → ℚ} {run : E → D → Res E} {obs : E → O} {W : E → Prop} {Ω : Finset O}
  {rnd : ℕ → F → Res F} {Vr : C → Prop} {w : O → ENNReal}

/-- Chebyshev's inequality. -/
theorem HasMeanVar.near {prog : (ℕ → ℝ) → Res ℚ} {m s : ℚ} (h : HasMeanVar prog m s) (δ : ℚ) (hδ : 0 < δ) :
    1 - ((s / δ ^ 2 : ℚ) : ℝ) ≤ (uniformTape {ω | ∃ v, prog ω = .ok v ∧ |v - m| < δ}).toReal := by
  obtain ⟨hmeas, vals, h1, h2, h3, h4⟩ := h
  set P : ℚ → ℝ := fun v => (uniformTape {ω | prog ω = .ok v}).toReal with hP
  have hp : ∀ v, 0 ≤ P v := fun v => ENNReal.toReal_nonneg
  -- the values far from the mean
  have hfar : ∑ v ∈ vals with ¬ |v - m| < δ, P v ≤ ((s / δ ^ 2 : ℚ) : ℝ) := by
    have hδ' : (0 : ℝ) < ((δ ^ 2 : ℚ) : ℝ) := by exact_mod_cast pow_pos hδ 2
    rw [Rat.cast_div, le_div_iff₀ hδ', ← h4, sum_mul]
    refine (sum_le_sum (fun v hv => ?_)).trans (sum_le_sum_of_subset_of_nonneg (filter_subset _ vals)
      (fun v _ _ => mul_nonneg (by exact_mod_cast sq_nonneg (v - m)) (hp v)))
    rw [mul_comm]
    refine mul_le_mul_of_nonneg_right ?_ (hp v)
    have h5 : δ ^ 2 ≤ (v - m) ^ 2 := by
      rw [← sq_abs (v - m)]
      exact pow_le_pow_left₀ hδ.le (not_lt.mp (mem_filter.mp hv).2) 2
    exact_mod_cast h5
  have hsplit := sum_filter_add_sum_filter_not vals (fun v => |v - m| < δ) P
  have htot : ∑ v ∈ vals, P v = 1 := h2
  -- the values near the mean
  have hnear : ∑ v ∈ vals with |v - m| < δ, P v ≤ (uniformTape {ω | ∃ v, prog ω = .ok v ∧ |v - m| < δ}).toReal := by
    rw [← ENNReal.toReal_sum (fun v _ => measure_ne_top _ _), ← measure_biUnion_finset ?_ (fun v _ => hmeas v)]
    · refine ENNReal.toReal_mono (measure_ne_top _ _) (measure_mono ?_)
      intro ω hω
      obtain ⟨v, hv, hω⟩ := Set.mem_iUnion₂.mp hω
      exact ⟨v, hω, (mem_filter.mp hv).2⟩
    · intro v _ v' _ hne
      rw [Function.onFun, Set.disjoint_left]
      intro ω k1 k2
      exact hne (Res.ok.inj (Eq.trans (Eq.symm k1) k2))
  linarith

/-- `randomize`, then `N` steps: the sum of `fF` over the networks after the steps is `v`. -/
def SumIs (put : C → Stream → F) (rnd : ℕ → F → Res F) (step : ℕ → F → Res (S × F)) (fF : F → ℚ) (c : C) (k N : ℕ) (v : ℚ) :
    Set (ℕ → ℝ) :=
  {ω | ∃ fuel e₁ e₂, rnd fuel (put c (⟨ω, k⟩ : Stream)) = .ok e₁ ∧ sumSteps (step fuel) fF N e₁ 0 = .ok (v, e₂)}

theorem Resample.then_sum (hr : Resample put rnd Vr o Ω w) (hs : StepLaw put step V o core draws wt run obs)
    (link : ∀ c, Vr c → ∃ e, W e ∧ core e = c) (valid : ∀ e, W e → V (core e)) {fF : F → ℚ} {f : O → ℚ}
    (hf : ∀ c r, fF (put c r) = f (o c)) (N : ℕ) (v : ℚ) {g : O → ℚ}
    (hg : ∀ e, W e → lawAfterW (fun e : E × ℚ => draws e.1) (fun e => wt e.1) (runSum run fun e => f (obs e))
      (fun e => decide (e.2 = v)) N (e, 0) true = g (obs e)) {c : C} (hc : Vr c) (k : ℕ) :
    MeasurableSet (SumIs put rnd step fF c k N v) ∧
      uniformTape (SumIs put rnd step fF c k N v) = ∑ y ∈ Ω, w y * ENNReal.ofReal (g y : ℝ) := by
  have hsB := hs.withSum hf (fun x => decide (x = v))
  let R : (ℕ → ℝ) → ℕ → C → ℕ → Prop := RetOf put (fun fuel r => rnd fuel (put c r))
  have hR : Sampler R := (hr.adaptive c).sampler hr.joins
  let Q : C → (ℕ → ℝ) → ℕ → Prop := fun c' ω k => ∃ l c2 j,
    RetOf (mkStep (putSum put)) (fun fuel r => mSteps (stepSum (step fuel) fF) N (putSum put (c', 0) r)) ω k (l, c2) j ∧ decide (c2.2 = v) = true
  have hQ : ∀ c', Vr c' → Chance (Q c') (ENNReal.ofReal (g (o c') : ℝ)) := by
    intro c' hc'
    obtain ⟨e, he, rfl⟩ := link c' hc'
    have h1 := hsB.chance_steps true N (e, 0) (valid e he)
    rw [hg e he, hs.obs_eq] at h1
    exact h1
  have hterm : ∀ y ∈ Ω, Chance (fun ω k => ∃ a j, R ω k a j ∧ (o a = y ∧ Vr a) ∧ Q a ω j)
      (w y * ENNReal.ofReal (g y : ℝ)) := by
    intro y hy
    have h1 := hr.chance c hc y hy
    have h2 : Chance (fun ω k => ∃ a j, R ω k a j ∧ (o a = y ∧ Vr a)) (w y) := by
      refine h1.congr fun ω k => ⟨?_, ?_⟩
      · rintro ⟨a, j, b1, b2⟩; exact ⟨a, j, b1, b2, (hr.keeps c hc b1).1⟩
      · rintro ⟨a, j, b1, b2, _⟩; exact ⟨a, j, b1, b2⟩
    refine chance_bind hR h2 (Q := Q) ?_
    rintro a ⟨rfl, ha⟩
    exact hQ a ha
  have hsum := Chance.sum _ hterm (by
    rintro y1 - y2 - ω k ⟨a, j, r1, ⟨rfl, _⟩, _⟩ ⟨a', j', r2, ⟨rfl, _⟩, _⟩
    rw [(hR.det r1 r2).1])
  suffices hset : SumIs put rnd step fF c k N v = {ω | ∃ y ∈ Ω, ∃ a j, R ω k a j ∧ (o a = y ∧ Vr a) ∧ Q a ω j} by
    rw [hset]
    exact ⟨hsum.meas k, hsum.prob k⟩
  ext ω
  simp only [SumIs, Set.mem_ofPred_eq]
  constructor
  · rintro ⟨fuel, e₁, e₂, h1, h2⟩
    obtain ⟨a, j, rfl, b2⟩ := (hr.adaptive c).ret (r := (⟨ω, k⟩ : Stream)) h1
    rw [sumSteps_eq, Res.bind_eq_ok] at h2
    obtain ⟨⟨l, x⟩, h3, h4⟩ := h2
    obtain ⟨⟨l', c2⟩, j2, b3, b4⟩ := (mSteps_adaptive hsB.adaptive N (a, 0)).ret (r := (⟨ω, j⟩ : Stream)) h3
    have b5 : x = putSum put c2 ⟨ω, j2⟩ := congrArg Prod.snd b3
    have h5 : x.2 = v := by injection h4 with h4; exact (Prod.mk.inj h4).1
    have hk := hr.keeps c hc b2
    refine ⟨o a, hk.2, a, j, b2, ⟨rfl, hk.1⟩, l', c2, j2, b4, decide_eq_true ?_⟩
    rw [← h5, b5]
    rfl
  · rintro ⟨y, hy, a, j, b1, ⟨rfl, _⟩, l, c2, j2, b2, b3⟩
    obtain ⟨F₁, hF₁⟩ := b1
    obtain ⟨F₂, hF₂⟩ := b2
    refine ⟨max F₁ F₂, put a ⟨ω, j⟩, put c2.1 ⟨ω, j2⟩, hF₁ _ (le_max_left _ _), ?_⟩
    rw [sumSteps_eq]
    have h1 := hF₂ _ (le_max_right F₁ F₂)
    dsimp only at h1
    rw [show ((put a ⟨ω, j⟩, 0) : F × ℚ) = putSum put (a, 0) ⟨ω, j⟩ from rfl, h1]
    show Res.ok (c2.2, put c2.1 ⟨ω, j2⟩) = _
    rw [of_decide_eq_true b3]

/-- The values the sum can have. -/
def sumVals (Ω : Finset O) (f : O → ℚ) : ℕ → ℚ → Finset ℚ
  | 0, a => {a}
  | N + 1, a => Ω.biUnion fun z => sumVals Ω f N (a + f z)

namespace Looks

variable {look : F → O} {π : O → ℚ} {rnd₀ : F → Res F} {step₀ : F → Res (S × F)}

/-- The probability that the sum is `v`, starting at `y` with `a`. -/
noncomputable def sumLaw (W : E → Prop) (draws : E → Finset D) (wt : E → D → ℚ) (run : E → D → Res E) (obs : E → O) (Ω : Finset O)
    (f : O → ℚ) (v : ℚ) : ℕ → ℚ → O → ℚ
  | 0, a, _ => if a = v then 1 else 0
  | N + 1, a, y => after W draws wt run obs Ω (fun z => sumLaw W draws wt run obs Ω f v N (a + f z) z) 1 y

/-- The mean of `G` of the sum. -/
noncomputable def sumMean (W : E → Prop) (draws : E → Finset D) (wt : E → D → ℚ) (run : E → D → Res E) (obs : E → O) (Ω : Finset O)
    (f : O → ℚ) (G : ℚ → ℚ) : ℕ → ℚ → O → ℚ
  | 0, a, _ => G a
  | N + 1, a, y => after W draws wt run obs Ω (fun z => sumMean W draws wt run obs Ω f G N (a + f z) z) 1 y

theorem sum_law (h : Looks put rnd step look Vr V o core draws wt run obs W Ω π) (f : O → ℚ) (v : ℚ) : ∀ (N : ℕ) (a : ℚ) {e : E}, W e →
    lawAfterW (fun e : E × ℚ => draws e.1) (fun e => wt e.1) (runSum run fun e => f (obs e)) (fun e => decide (e.2 = v)) N (e, a) true =
      sumLaw W draws wt run obs Ω f v N a (obs e) := by
  intro N
  induction N with
  | zero =>
    intro a e _
    show (if decide (a = v) = true then (1 : ℚ) else 0) = if a = v then 1 else 0
    simp
  | succ N ih =>
    intro a e he
    rw [Steady.law_sum_succ (fun e => f (obs e)) (fun x => decide (x = v))]
    rw [h.steady.avg_congr (fun e' he' => ih (a + f (obs e')) he') he]
    exact (h.after_eq (fun z => sumLaw W draws wt run obs Ω f v N (a + f z) z) 1 he).symm

theorem after_congr {f g : O → ℚ} (hfg : ∀ z ∈ Ω, f z = g z) (t : ℕ) (y : O) :
    after W draws wt run obs Ω f t y = after W draws wt run obs Ω g t y :=
  sum_congr rfl fun z hz => by rw [hfg z hz]

theorem after_add (f g : O → ℚ) (t : ℕ) (y : O) :
    after W draws wt run obs Ω (fun z => f z + g z) t y = after W draws wt run obs Ω f t y + after W draws wt run obs Ω g t y := by
  unfold after
  rw [← sum_add_distrib]
  exact sum_congr rfl fun z _ => by ring

theorem after_mul (a : ℚ) (f : O → ℚ) (t : ℕ) (y : O) :
    after W draws wt run obs Ω (fun z => a * f z) t y = a * after W draws wt run obs Ω f t y := by
  unfold after
  rw [mul_sum]
  exact sum_congr rfl fun z _ => by ring

theorem after_const (h : Looks put rnd step look Vr V o core draws wt run obs W Ω π) (a : ℚ) (t : ℕ) {y : O} (hy : y ∈ Ω) :
    after W draws wt run obs Ω (fun _ => a) t y = a := by
  have h1 := after_mul (W := W) (draws := draws) (wt := wt) (run := run) (obs := obs) (Ω := Ω) a (fun _ => 1) t y
  simp only [mul_one] at h1
  rw [h1, h.after_one t hy, mul_one]

theorem sum_mean (f : O → ℚ) (G : ℚ → ℚ) : ∀ (N : ℕ) (a : ℚ) (vals : Finset ℚ), sumVals Ω f N a ⊆ vals → ∀ y : O,
    ∑ v ∈ vals, G v * sumLaw W draws wt run obs Ω f v N a y = sumMean W draws wt run obs Ω f G N a y := by
  intro N
  induction N with
  | zero =>
    intro a vals hv y
    show ∑ v ∈ vals, G v * (if a = v then 1 else 0) = G a
    have ha : a ∈ vals := hv (mem_singleton_self a)
    simp [ha]
  | succ N ih =>
    intro a vals hv y
    have h1 : ∀ z ∈ Ω, sumMean W draws wt run obs Ω f G N (a + f z) z = ∑ v ∈ vals, G v * sumLaw W draws wt run obs Ω f v N (a + f z) z :=
      fun z hz => (ih (a + f z) vals (fun x hx => hv (mem_biUnion.mpr ⟨z, hz, hx⟩)) z).symm
    show _ = after W draws wt run obs Ω (fun z => sumMean W draws wt run obs Ω f G N (a + f z) z) 1 y
    rw [after_congr h1]
    unfold after
    simp only [sum_mul]
    rw [sum_comm]
    refine sum_congr rfl fun v _ => ?_
    show G v * (∑ z ∈ Ω, _) = _
    rw [mul_sum]
    exact sum_congr rfl fun z _ => by ring

section Rate

variable {f : O → ℚ} {μ τ : ℚ}

theorem sum_mean_one (h : Looks put rnd step look Vr V o core draws wt run obs W Ω π) : ∀ (N : ℕ) (a : ℚ) {y : O}, y ∈ Ω →
    sumMean W draws wt run obs Ω f (fun _ => 1) N a y = 1 := by
  intro N
  induction N with
  | zero => intro a y _; rfl
  | succ N ih =>
    intro a y hy
    show after W draws wt run obs Ω _ 1 y = 1
    rw [after_congr (fun z hz => ih (a + f z) hz), h.after_one 1 hy]

theorem sum_mean_id (h : Looks put rnd step look Vr V o core draws wt run obs W Ω π) (hτ : τ ≠ 0)
    (hf : ∀ y ∈ Ω, after W draws wt run obs Ω (fun z => f z - μ) 1 y = (f y - μ) * (1 - 1 / τ)) : ∀ (N : ℕ) (a : ℚ) {y : O}, y ∈ Ω →
    sumMean W draws wt run obs Ω f (fun x => x) N a y = a + N * μ + (f y - μ) * ((τ - 1) * (1 - (1 - 1 / τ) ^ N)) := by
  intro N
  induction N with
  | zero => intro a y _; show a = _; simp
  | succ N ih =>
    intro a y hy
    show after W draws wt run obs Ω _ 1 y = _
    have h1 : ∀ z ∈ Ω, sumMean W draws wt run obs Ω f (fun x => x) N (a + f z) z =
        (a + (N + 1 : ℕ) * μ) + (1 + (τ - 1) * (1 - (1 - 1 / τ) ^ N)) * (f z - μ) := fun z hz => by
      rw [ih (a + f z) hz]; push_cast; ring
    rw [after_congr h1, after_add, h.after_const _ 1 hy, after_mul, hf y hy]
    rw [pow_succ]
    field_simp
    ring

/-- What the deviations contribute to the mean of the square. -/
noncomputable def devSq (W : E → Prop) (draws : E → Finset D) (wt : E → D → ℚ) (run : E → D → Res E) (obs : E → O) (Ω : Finset O)
    (f : O → ℚ) (μ τ : ℚ) : ℕ → O → ℚ
  | 0, _ => 0
  | N + 1, y => after W draws wt run obs Ω (fun z => (1 + 2 * ((τ - 1) * (1 - (1 - 1 / τ) ^ N))) * ((f z - μ) * (f z - μ)) +
      devSq W draws wt run obs Ω f μ τ N z) 1 y

theorem sum_mean_sq (h : Looks put rnd step look Vr V o core draws wt run obs W Ω π) (hτ : τ ≠ 0)
    (hf : ∀ y ∈ Ω, after W draws wt run obs Ω (fun z => f z - μ) 1 y = (f y - μ) * (1 - 1 / τ)) (K : ℚ) : ∀ (N : ℕ) (a : ℚ) {y : O}, y ∈ Ω →
    sumMean W draws wt run obs Ω f (fun x => (x - K) * (x - K)) N a y =
      (a + N * μ - K) * (a + N * μ - K) + 2 * (a + N * μ - K) * ((f y - μ) * ((τ - 1) * (1 - (1 - 1 / τ) ^ N))) +
        devSq W draws wt run obs Ω f μ τ N y := by
  intro N
  induction N with
  | zero => intro a y _; show (a - K) * (a - K) = _ + devSq W draws wt run obs Ω f μ τ 0 y; simp [devSq]
  | succ N ih =>
    intro a y hy
    show after W draws wt run obs Ω _ 1 y = _
    set m := a + (N + 1 : ℕ) * μ - K with hm
    have h1 : ∀ z ∈ Ω, sumMean W draws wt run obs Ω f (fun x => (x - K) * (x - K)) N (a + f z) z =
        m * m + ((2 * m * (1 + (τ - 1) * (1 - (1 - 1 / τ) ^ N))) * (f z - μ) +
          ((1 + 2 * ((τ - 1) * (1 - (1 - 1 / τ) ^ N))) * ((f z - μ) * (f z - μ)) + devSq W draws wt run obs Ω f μ τ N z)) := fun z hz => by
      rw [ih (a + f z) hz, hm]; push_cast; ring
    rw [after_congr h1, after_add, h.after_const _ 1 hy, after_add, after_mul, hf y hy]
    show _ = _ + _ + after W draws wt run obs Ω _ 1 y
    rw [pow_succ]
    field_simp
    ring

theorem devSq_mean (h : Looks put rnd step look Vr V o core draws wt run obs W Ω π) (hτ : τ ≠ 0) : ∀ N : ℕ,
    ∑ y ∈ Ω, π y * devSq W draws wt run obs Ω f μ τ N y =
      (∑ y ∈ Ω, π y * ((f y - μ) * (f y - μ))) * (N * (2 * τ - 1) - 2 * τ * (τ - 1) * (1 - (1 - 1 / τ) ^ N)) := by
  intro N
  induction N with
  | zero => simp [devSq]
  | succ N ih =>
    show ∑ y ∈ Ω, π y * after W draws wt run obs Ω _ 1 y = _
    rw [h.sum_after]
    simp only [mul_add]
    rw [sum_add_distrib, ih]
    have h1 : ∑ y ∈ Ω, π y * ((1 + 2 * ((τ - 1) * (1 - (1 - 1 / τ) ^ N))) * ((f y - μ) * (f y - μ))) =
        (1 + 2 * ((τ - 1) * (1 - (1 - 1 / τ) ^ N))) * ∑ y ∈ Ω, π y * ((f y - μ) * (f y - μ)) := by
      rw [mul_sum]
      exact sum_congr rfl fun y _ => by ring
    rw [h1, pow_succ]
    push_cast
    field_simp
    ring

end Rate

/-- Every sum that is returned is one of these values. -/
theorem sum_mem (h : Looks put rnd step look Vr V o core draws wt run obs W Ω π) {fF : F → ℚ} {f : O → ℚ}
    (hf : ∀ c r, fF (put c r) = f (o c)) (fuel : ℕ) : ∀ (N : ℕ) (a : ℚ) {e : E}, W e → ∀ {ω : ℕ → ℝ} {k : ℕ} {v : ℚ} {x : F},
    sumSteps (step fuel) fF N (put (core e) (⟨ω, k⟩ : Stream)) a = .ok (v, x) → v ∈ sumVals Ω f N a := by
  intro N
  induction N with
  | zero =>
    intro a e _ ω k v x hx
    have : (a, put (core e) (⟨ω, k⟩ : Stream)) = (v, x) := Res.ok.inj hx
    rw [← (Prod.mk.inj this).1]
    exact mem_singleton_self _
  | succ N ih =>
    intro a e he ω k v x hx
    obtain ⟨⟨s, e'⟩, h1, h2⟩ := Res.bind_eq_ok.mp hx
    obtain ⟨⟨s', c'⟩, j, b1, b2⟩ := (h.law.adaptive (core e)).ret (r := (⟨ω, k⟩ : Stream)) h1
    obtain ⟨d, hd, e1, r1, r2⟩ := h.law.ret e (h.valid e he) b2
    obtain ⟨e2, r3, r4⟩ := h.lumped.step e he d hd
    rw [r1] at r3
    injection r3 with r3
    subst r3
    have b3 : e' = put c' (⟨ω, j⟩ : Stream) := congrArg Prod.snd b1
    subst r2
    dsimp only at h2
    rw [b3, hf, ← h.law.obs_eq] at h2
    exact mem_biUnion.mpr ⟨obs e1, h.lumped.mem e1 r4, ih _ r4 h2⟩

/-- A program that calls `randomize` and averages over the next `N` networks. -/
theorem average (h : Looks put rnd step look Vr V o core draws wt run obs W Ω π) {fF : F → ℚ} {f : O → ℚ}
    (hf : ∀ c r, fF (put c r) = f (o c)) {μ τ : ℚ} (hτ : τ ≠ 0)
    (hrate : ∀ e, W e → Steady.meanAfter draws wt run (fun e => f (obs e)) 1 e = μ + (f (obs e) - μ) * (1 - 1 / τ))
    {N : ℕ} (hN : 0 < N) {c : C} (hc : Vr c) (k : ℕ) {P : ℚ → ℝ} (hP : ∀ v, P v = (uniformTape (SumIs put rnd step fF c k N v)).toReal) :
    ∃ vals : Finset ℚ, (∀ ω fuel e₁ v e₂, rnd fuel (put c (⟨ω, k⟩ : Stream)) = .ok e₁ → sumSteps (step fuel) fF N e₁ 0 = .ok (v, e₂) → v ∈ vals) ∧
      ∑ v ∈ vals, P v = 1 ∧ ∑ v ∈ vals, ((v / N : ℚ) : ℝ) * P v = μ ∧
      ∑ v ∈ vals, (((v / N - μ) ^ 2 : ℚ) : ℝ) * P v = ((∑ y ∈ Ω, π y * ((f y - μ) * (f y - μ))) *
        (N * (2 * τ - 1) - 2 * τ * (τ - 1) * (1 - (1 - 1 / τ) ^ N)) / N ^ 2 : ℚ) := by
  have hNq : (N : ℚ) ≠ 0 := by exact_mod_cast hN.ne'
  have h1 : ∀ v, P v = ((∑ y ∈ Ω, π y * sumLaw W draws wt run obs Ω f v N 0 y : ℚ) : ℝ) := by
    intro v
    have hn : ∀ y ∈ Ω, 0 ≤ sumLaw W draws wt run obs Ω f v N 0 y := by
      intro y hy
      obtain ⟨e, he, rfl⟩ := h.lumped.ex y hy
      rw [← h.sum_law f v N 0 he]
      exact (h.law.withSum hf (fun x => decide (x = v))).law_nonneg true N (e, 0) (h.valid e he)
    rw [hP, (h.resample.then_sum h.law h.link h.valid hf N v (g := sumLaw W draws wt run obs Ω f v N 0)
      (fun e he => h.sum_law f v N 0 he) hc k).2, Rat.cast_sum,
      ENNReal.toReal_sum (fun y _ => ENNReal.mul_ne_top ENNReal.ofReal_ne_top ENNReal.ofReal_ne_top)]
    refine sum_congr rfl fun y hy => ?_
    rw [ENNReal.toReal_mul, ENNReal.toReal_ofReal (by exact_mod_cast h.nonneg y hy), ENNReal.toReal_ofReal (by exact_mod_cast hn y hy),
      Rat.cast_mul]
  have h2 : ∀ G : ℚ → ℚ, ∑ v ∈ sumVals Ω f N 0, (G v : ℝ) * P v = ((∑ y ∈ Ω, π y * sumMean W draws wt run obs Ω f G N 0 y : ℚ) : ℝ) := by
    intro G
    have h3 : ∑ y ∈ Ω, π y * sumMean W draws wt run obs Ω f G N 0 y =
        ∑ v ∈ sumVals Ω f N 0, G v * ∑ y ∈ Ω, π y * sumLaw W draws wt run obs Ω f v N 0 y := by
      simp only [mul_sum]
      rw [sum_comm]
      refine sum_congr rfl fun y _ => ?_
      rw [← sum_mean f G N 0 _ (Finset.Subset.refl _) y, mul_sum]
      exact sum_congr rfl fun v _ => by ring
    rw [h3, Rat.cast_sum]
    exact sum_congr rfl fun v _ => by rw [h1 v, Rat.cast_mul]
  have hstep : ∀ y ∈ Ω, after W draws wt run obs Ω (fun z => f z - μ) 1 y = (f y - μ) * (1 - 1 / τ) := by
    intro y hy
    have k1 : after W draws wt run obs Ω (fun z => f z + -μ) 1 y = _ := after_add f (fun _ => -μ) 1 y
    simp only [← sub_eq_add_neg] at k1
    rw [k1, h.after_const _ 1 hy]
    obtain ⟨e, he, rfl⟩ := h.lumped.ex y hy
    rw [h.after_eq f 1 he, hrate e he]
    ring
  have hμ : ∑ y ∈ Ω, π y * (f y - μ) = 0 := by
    have k1 := h.mean_of_rate (f := f) (μ := μ) (ρ := 1 - 1 / τ) (by
      intro hh
      have : 1 / τ = 0 := by linarith
      rw [one_div, inv_eq_zero] at this
      exact hτ this) hrate
    simp only [mul_sub, sum_sub_distrib]
    rw [k1, ← sum_mul, h.total]
    ring
  refine ⟨sumVals Ω f N 0, ?_, ?_, ?_, ?_⟩
  · intro ω fuel e₁ v e₂ r1 r2
    obtain ⟨a, j, rfl, b2⟩ := (h.resample.adaptive c).ret (r := (⟨ω, k⟩ : Stream)) r1
    obtain ⟨e, he, rfl⟩ := h.link a (h.resample.keeps c hc b2).1
    exact h.sum_mem hf fuel N 0 he r2
  · have := h2 (fun _ => 1)
    simp only [Rat.cast_one, one_mul] at this
    rw [this, sum_congr rfl fun y hy => by rw [h.sum_mean_one N 0 hy, mul_one], h.total, Rat.cast_one]
  · have k1 := h2 (fun x => x)
    have k0 : ∑ y ∈ Ω, π y * sumMean W draws wt run obs Ω f (fun x => x) N 0 y =
        ∑ y ∈ Ω, π y * (0 + N * μ + (f y - μ) * ((τ - 1) * (1 - (1 - 1 / τ) ^ N))) :=
      sum_congr rfl fun y hy => by rw [h.sum_mean_id hτ hstep N 0 hy]
    rw [k0] at k1
    have k2 : ∑ y ∈ Ω, π y * (0 + N * μ + (f y - μ) * ((τ - 1) * (1 - (1 - 1 / τ) ^ N))) = N * μ := by
      have : ∀ y ∈ Ω, π y * (0 + N * μ + (f y - μ) * ((τ - 1) * (1 - (1 - 1 / τ) ^ N))) =
          (N * μ) * π y + ((τ - 1) * (1 - (1 - 1 / τ) ^ N)) * (π y * (f y - μ)) := fun y _ => by ring
      rw [sum_congr rfl this, sum_add_distrib, ← mul_sum, ← mul_sum, hμ, h.total]
      ring
    rw [k2] at k1
    have k3 : ∑ v ∈ sumVals Ω f N 0, ((v / N : ℚ) : ℝ) * P v = (∑ v ∈ sumVals Ω f N 0, (v : ℝ) * P v) / N := by
      rw [sum_div]
      exact sum_congr rfl fun v _ => by push_cast; ring
    rw [k3, k1]
    push_cast
    have : (N : ℝ) ≠ 0 := by exact_mod_cast hN.ne'
    field_simp
  · have k1 := h2 (fun x => (x - N * μ) * (x - N * μ))
    have k0 : ∑ y ∈ Ω, π y * sumMean W draws wt run obs Ω f (fun x => (x - N * μ) * (x - N * μ)) N 0 y =
        ∑ y ∈ Ω, π y * ((0 + N * μ - N * μ) * (0 + N * μ - N * μ) +
        2 * (0 + N * μ - N * μ) * ((f y - μ) * ((τ - 1) * (1 - (1 - 1 / τ) ^ N))) + devSq W draws wt run obs Ω f μ τ N y) :=
      sum_congr rfl fun y hy => by rw [h.sum_mean_sq hτ hstep (N * μ) N 0 hy]
    rw [k0] at k1
    have k2 : ∑ y ∈ Ω, π y * ((0 + N * μ - N * μ) * (0 + N * μ - N * μ) +
        2 * (0 + N * μ - N * μ) * ((f y - μ) * ((τ - 1) * (1 - (1 - 1 / τ) ^ N))) + devSq W draws wt run obs Ω f μ τ N y) =
        ∑ y ∈ Ω, π y * devSq W draws wt run obs Ω f μ τ N y := sum_congr rfl fun y _ => by ring
    rw [k2, h.devSq_mean hτ] at k1
    have k3 : ∑ v ∈ sumVals Ω f N 0, (((v / N - μ) ^ 2 : ℚ) : ℝ) * P v =
        (∑ v ∈ sumVals Ω f N 0, (((v - N * μ) * (v - N * μ) : ℚ) : ℝ) * P v) / (N ^ 2 : ℚ) := by
      rw [sum_div]
      refine sum_congr rfl fun v _ => ?_
      have : (v / N - μ) ^ 2 = (v - N * μ) * (v - N * μ) / N ^ 2 := by field_simp
      rw [this]
      push_cast
      ring
    rw [k3, k1, ← Rat.cast_div]

/-- The same for the program as a whole. -/
theorem average_program (h : Looks put (fun _ => rnd₀) (fun _ => step₀) look Vr V o core draws wt run obs W Ω π) {fF : F → ℚ} {f : O → ℚ}
    (hf : ∀ c r, fF (put c r) = f (o c)) {μ τ σ : ℚ} (hτ : τ ≠ 0)
    (hrates : ∀ t e, W e → Steady.meanAfter draws wt run (fun e => f (obs e)) t e = μ + (f (obs e) - μ) * (1 - 1 / τ) ^ t)
    (hσ : ∑ y ∈ Ω, π y * (f y * f y) - (∑ y ∈ Ω, π y * f y) * (∑ y ∈ Ω, π y * f y) = σ)
    {N : ℕ} (hN : 0 < N) {c : C} (hc : Vr c) (k : ℕ) :
    HasMeanVar (fun ω => randomAverage rnd₀ step₀ fF N (put c (⟨ω, k⟩ : Stream))) μ
      (σ * (N * (2 * τ - 1) - 2 * τ * (τ - 1) * (1 - (1 - 1 / τ) ^ N)) / N ^ 2) := by
  have hrate : ∀ e, W e → Steady.meanAfter draws wt run (fun e => f (obs e)) 1 e = μ + (f (obs e) - μ) * (1 - 1 / τ) := fun e he => by
    rw [hrates 1 e he, _root_.pow_one]
  have hNq : (N : ℚ) ≠ 0 := by exact_mod_cast hN.ne'
  have hprog : ∀ (ω : ℕ → ℝ) (u : ℚ), randomAverage rnd₀ step₀ fF N (put c (⟨ω, k⟩ : Stream)) = .ok u ↔
      ∃ e₁ v e₂, rnd₀ (put c (⟨ω, k⟩ : Stream)) = .ok e₁ ∧ sumSteps step₀ fF N e₁ 0 = .ok (v, e₂) ∧ v / N = u := by
    intro ω u
    unfold randomAverage
    constructor
    · intro hu
      obtain ⟨e₁, h1, h2⟩ := Res.bind_eq_ok.mp hu
      obtain ⟨⟨v, e₂⟩, h3, h4⟩ := Res.bind_eq_ok.mp h2
      exact ⟨e₁, v, e₂, h1, h3, Res.ok.inj h4⟩
    · rintro ⟨e₁, v, e₂, h1, h2, h3⟩
      exact Res.bind_eq_ok.mpr ⟨e₁, h1, Res.bind_eq_ok.mpr ⟨(v, e₂), h2, congrArg Res.ok h3⟩⟩
  have hset : ∀ v : ℚ, {ω | randomAverage rnd₀ step₀ fF N (put c (⟨ω, k⟩ : Stream)) = .ok (v / N)} =
      SumIs put (fun _ => rnd₀) (fun _ => step₀) fF c k N v := by
    intro v
    ext ω
    simp only [Set.mem_ofPred_eq, SumIs]
    rw [hprog]
    constructor
    · rintro ⟨e₁, v', e₂, h1, h2, h3⟩
      rw [div_left_inj' hNq] at h3
      subst h3
      exact ⟨0, e₁, e₂, h1, h2⟩
    · rintro ⟨_, e₁, e₂, h1, h2⟩
      exact ⟨e₁, v, e₂, h1, h2, rfl⟩
  obtain ⟨vals, h1, h2, h3, h4⟩ := h.average hf hτ hrate hN hc k (P := fun v =>
    (uniformTape {ω | randomAverage rnd₀ step₀ fF N (put c (⟨ω, k⟩ : Stream)) = .ok (v / N)}).toReal) (fun v => by rw [hset])
  have hinj : ∀ G : ℚ → ℝ, ∑ u ∈ vals.image (fun v : ℚ => v / N), G u = ∑ v ∈ vals, G (v / N) := fun G =>
    sum_image fun x _ y _ hxy => (div_left_inj' hNq).mp hxy
  have hμ : ∑ y ∈ Ω, π y * f y = μ := h.mean_of_rate (ρ := 1 - 1 / τ) (by
      intro hh
      have : 1 / τ = 0 := by linarith
      rw [one_div, inv_eq_zero] at this
      exact hτ this) hrate
  have hσ' : ∑ y ∈ Ω, π y * ((f y - μ) * (f y - μ)) = σ := by
    rw [← hσ, hμ]
    have : ∀ y ∈ Ω, π y * ((f y - μ) * (f y - μ)) = π y * (f y * f y) - 2 * μ * (π y * f y) + μ * μ * π y := fun y _ => by ring
    rw [sum_congr rfl this, sum_add_distrib, sum_sub_distrib, ← mul_sum, ← mul_sum, hμ, h.total]
    ring
  refine ⟨fun u => ?_, vals.image (fun v : ℚ => v / N), ?_, ?_, ?_, ?_⟩
  · have := hset (u * N)
    rw [mul_div_cancel_right₀ u hNq] at this
    rw [this]
    exact (h.resample.then_sum h.law h.link h.valid hf N (u * N) (fun e he => h.sum_law f (u * N) N 0 he) hc k).1
  · intro ω u hu
    obtain ⟨e₁, v, e₂, r1, r2, rfl⟩ := (hprog ω u).mp hu
    exact mem_image_of_mem _ (h1 ω 0 e₁ v e₂ r1 r2)
  · rw [hinj]; exact h2
  · rw [hinj]; exact h3
  · rw [hinj, ← hσ']
    exact h4

/-- A program that averages over the next `N` networks, from any network on. -/
theorem plain_program (h : Looks put (fun _ => rnd₀) (fun _ => step₀) look Vr V o core draws wt run obs W Ω π) {fF : F → ℚ} {f : O → ℚ}
    (hf : ∀ c r, fF (put c r) = f (o c)) {μ τ : ℚ} (hτ : τ ≠ 0)
    (hrates : ∀ t e, W e → Steady.meanAfter draws wt run (fun e => f (obs e)) t e = μ + (f (obs e) - μ) * (1 - 1 / τ) ^ t)
    {N : ℕ} (hN : 0 < N) {e : E} (he : W e) (k : ℕ) :
    HasMean (fun ω => plainAverage step₀ fF N (put (core e) (⟨ω, k⟩ : Stream)))
      (μ + (f (obs e) - μ) * ((τ - 1) * (1 - (1 - 1 / τ) ^ N)) / N) := by
  have hNq : (N : ℚ) ≠ 0 := by exact_mod_cast hN.ne'
  have hprog : ∀ (ω : ℕ → ℝ) (u : ℚ), plainAverage step₀ fF N (put (core e) (⟨ω, k⟩ : Stream)) = .ok u ↔
      ∃ v e₂, sumSteps step₀ fF N (put (core e) (⟨ω, k⟩ : Stream)) 0 = .ok (v, e₂) ∧ v / N = u := by
    intro ω u
    unfold plainAverage
    constructor
    · intro hu
      obtain ⟨⟨v, e₂⟩, h3, h4⟩ := Res.bind_eq_ok.mp hu
      exact ⟨v, e₂, h3, Res.ok.inj h4⟩
    · rintro ⟨v, e₂, h2, h3⟩
      exact Res.bind_eq_ok.mpr ⟨(v, e₂), h2, congrArg Res.ok h3⟩
  have hchance : ∀ v : ℚ, MeasurableSet {ω | plainAverage step₀ fF N (put (core e) (⟨ω, k⟩ : Stream)) = .ok (v / N)} ∧
      (uniformTape {ω | plainAverage step₀ fF N (put (core e) (⟨ω, k⟩ : Stream)) = .ok (v / N)}).toReal =
        ((sumLaw W draws wt run obs Ω f v N 0 (obs e) : ℚ) : ℝ) := by
    intro v
    have hsB := h.law.withSum hf (fun x => decide (x = v))
    have h1 := hsB.chance_steps true N (e, 0) (h.valid e he)
    have hn := hsB.law_nonneg true N (e, 0) (h.valid e he)
    rw [h.sum_law f v N 0 he] at h1 hn
    have hset : {ω | plainAverage step₀ fF N (put (core e) (⟨ω, k⟩ : Stream)) = .ok (v / N)} = {ω | ∃ l c' j,
        RetOf (mkStep (putSum put)) (fun _ r => mSteps (stepSum step₀ fF) N (putSum put (core e, 0) r)) ω k (l, c') j ∧
          decide (c'.2 = v) = true} := by
      ext ω
      simp only [Set.mem_ofPred_eq]
      rw [hprog]
      constructor
      · rintro ⟨v', e₂, r1, r2⟩
        rw [div_left_inj' hNq] at r2
        subst r2
        rw [sumSteps_eq, Res.bind_eq_ok] at r1
        obtain ⟨⟨l, x⟩, r3, r4⟩ := r1
        obtain ⟨⟨l', c2⟩, j2, b3, b4⟩ := (mSteps_adaptive hsB.adaptive N (core e, 0)).ret (r := (⟨ω, k⟩ : Stream)) (fuel := 0) r3
        have b5 : x = putSum put c2 ⟨ω, j2⟩ := congrArg Prod.snd b3
        have b6 : x.2 = v' := by injection r4 with r4; exact (Prod.mk.inj r4).1
        refine ⟨l', c2, j2, b4, decide_eq_true ?_⟩
        rw [← b6, b5]
        rfl
      · rintro ⟨l, c2, j2, ⟨F₂, hF₂⟩, b3⟩
        refine ⟨v, put c2.1 ⟨ω, j2⟩, ?_, rfl⟩
        rw [sumSteps_eq]
        have r1 := hF₂ _ (le_refl _)
        dsimp only at r1
        rw [show ((put (core e) ⟨ω, k⟩, 0) : F × ℚ) = putSum put (core e, 0) ⟨ω, k⟩ from rfl, r1]
        show Res.ok (c2.2, put c2.1 ⟨ω, j2⟩) = _
        rw [of_decide_eq_true b3]
    rw [hset]
    exact ⟨h1.meas k, by rw [h1.prob k, ENNReal.toReal_ofReal (by exact_mod_cast hn)]⟩
  have hstep : ∀ y ∈ Ω, after W draws wt run obs Ω (fun z => f z - μ) 1 y = (f y - μ) * (1 - 1 / τ) := by
    intro y hy
    have k1 : after W draws wt run obs Ω (fun z => f z + -μ) 1 y = _ := after_add f (fun _ => -μ) 1 y
    simp only [← sub_eq_add_neg] at k1
    rw [k1, h.after_const _ 1 hy]
    obtain ⟨e, he, rfl⟩ := h.lumped.ex y hy
    rw [h.after_eq f 1 he, hrates 1 e he]
    ring
  have hmean : ∀ G : ℚ → ℚ, ∑ v ∈ sumVals Ω f N 0, (G v : ℝ) *
      (uniformTape {ω | plainAverage step₀ fF N (put (core e) (⟨ω, k⟩ : Stream)) = .ok (v / N)}).toReal =
        ((sumMean W draws wt run obs Ω f G N 0 (obs e) : ℚ) : ℝ) := by
    intro G
    rw [← sum_mean f G N 0 _ (Finset.Subset.refl _) (obs e), Rat.cast_sum]
    exact sum_congr rfl fun v _ => by rw [(hchance v).2, Rat.cast_mul]
  have hinj : ∀ G : ℚ → ℝ, ∑ u ∈ (sumVals Ω f N 0).image (fun v : ℚ => v / N), G u = ∑ v ∈ sumVals Ω f N 0, G (v / N) := fun G =>
    sum_image fun x _ y _ hxy => (div_left_inj' hNq).mp hxy
  refine ⟨fun u => ?_, (sumVals Ω f N 0).image (fun v : ℚ => v / N), ?_, ?_, ?_⟩
  · have := (hchance (u * N)).1
    rwa [mul_div_cancel_right₀ u hNq] at this
  · intro ω u hu
    obtain ⟨v, e₂, r2, rfl⟩ := (hprog ω u).mp hu
    exact mem_image_of_mem _ (h.sum_mem hf 0 N 0 he r2)
  · rw [hinj]
    have := hmean (fun _ => 1)
    simp only [Rat.cast_one, one_mul] at this
    rw [this, h.sum_mean_one N 0 (h.lumped.mem e he), Rat.cast_one]
  · rw [hinj]
    have k1 := hmean (fun x => x / N)
    rw [k1]
    have k2 : sumMean W draws wt run obs Ω f (fun x => x / N) N 0 (obs e) =
        sumMean W draws wt run obs Ω f (fun x => x) N 0 (obs e) / N := by
      rw [← sum_mean f (fun x => x / N) N 0 _ (Finset.Subset.refl _) (obs e), ← sum_mean f (fun x => x) N 0 _ (Finset.Subset.refl _) (obs e),
        sum_div]
      exact sum_congr rfl fun v _ => by ring
    rw [k2, h.sum_mean_id hτ hstep N 0 (h.lumped.mem e he)]
    congr 1
    field_simp
    ring

end Looks

end Verif
