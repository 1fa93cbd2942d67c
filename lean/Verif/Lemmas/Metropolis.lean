import Verif.Lemmas.Indep
import Verif.Lemmas.Chain
import Verif.Model.Metropolis

/-!
# Chains with rejection

The chain of trials of `Model/Metropolis.lean` converges to the weights of the underlying chain times the weights of the simulation.
-/

set_option linter.unusedSectionVars false
set_option linter.unusedSimpArgs false

namespace Verif
open Finset

variable {E D S O : Type} [DecidableEq O]

namespace Markov

variable {Ω : Finset O} {P Q : O → O → ℚ} {w π : O → ℚ}

theorem pow_mul (k t : ℕ) : ∀ x ∈ Ω, ∀ y, pow Ω (pow Ω P k) t x y = pow Ω P (k * t) x y := by
  induction t with
  | zero => intro x _ y; rfl
  | succ t ih =>
    intro x hx y
    rw [show k * (t + 1) = k + k * t by ring, pow_add k (k * t) x y hx]
    exact sum_congr rfl (fun z hz => by rw [ih z hz])

theorem pow_lower {c : ℚ} (hc : 0 ≤ c) (hQ : Kernel Ω Q) (h : ∀ x ∈ Ω, ∀ y ∈ Ω, c * Q x y ≤ P x y) :
    ∀ t, ∀ x ∈ Ω, ∀ y ∈ Ω, c ^ t * pow Ω Q t x y ≤ pow Ω P t x y := by
  intro t
  induction t with
  | zero => intro x _ y _; simp [pow]
  | succ t ih =>
    intro x hx y hy
    show c ^ (t + 1) * (∑ z ∈ Ω, Q x z * pow Ω Q t z y) ≤ ∑ z ∈ Ω, P x z * pow Ω P t z y
    rw [mul_sum]
    refine sum_le_sum (fun z hz => ?_)
    have h1 := h x hx z hz
    have h2 := ih z hz y hy
    have h3 : 0 ≤ c ^ t * pow Ω Q t z y := mul_nonneg (pow_nonneg hc t) ((pow_kernel hQ t).nonneg z hz y hy)
    have h4 : 0 ≤ P x z := le_trans (mul_nonneg hc (hQ.nonneg x hx z hz)) h1
    calc c ^ (t + 1) * (Q x z * pow Ω Q t z y) = (c * Q x z) * (c ^ t * pow Ω Q t z y) := by ring
      _ ≤ P x z * (c ^ t * pow Ω Q t z y) := mul_le_mul_of_nonneg_right h1 h3
      _ ≤ P x z * pow Ω P t z y := mul_le_mul_of_nonneg_left h2 h4

/-- The transition probabilities with rejection. -/
def reject (Ω : Finset O) (Q : O → O → ℚ) (w : O → ℚ) (x y : O) : ℚ :=
  Q x y * acceptance w x y + if x = y then ∑ z ∈ Ω, Q x z * (1 - acceptance w x z) else 0

theorem acceptance_pos {x y : O} (hx : 0 < w x) (hy : 0 < w y) : 0 < acceptance w x y :=
  lt_min one_pos (div_pos hy hx)

theorem acceptance_le {x y : O} : acceptance w x y ≤ 1 := min_le_left _ _

theorem acceptance_balance {x y : O} (hx : 0 < w x) (hy : 0 < w y) : w x * acceptance w x y = w y * acceptance w y x := by
  have key : ∀ {x y : O}, 0 < w x → w x * acceptance w x y = min (w x) (w y) := by
    intro x y hx
    unfold acceptance
    rw [mul_min_of_nonneg _ _ hx.le, mul_one, mul_div_cancel₀ _ hx.ne']
  rw [key hx, key hy, min_comm]

/-- Sums with respect to the transition probabilities with rejection. -/
theorem sum_reject {x : O} (hx : x ∈ Ω) (f : O → ℚ) :
    ∑ y ∈ Ω, reject Ω Q w x y * f y = ∑ z ∈ Ω, Q x z * (acceptance w x z * f z + (1 - acceptance w x z) * f x) := by
  unfold reject
  simp only [add_mul, mul_add, sum_add_distrib, ite_mul, zero_mul]
  rw [sum_ite_eq Ω x, if_pos hx, sum_mul]
  congr 1
  · exact sum_congr rfl (fun z _ => by ring)
  · exact sum_congr rfl (fun z _ => by ring)

theorem reject_zero {x y : O} (hxy : x ≠ y) (hy : w y = 0) : reject Ω Q w x y = 0 := by
  unfold reject acceptance
  rw [if_neg hxy, hy, zero_div]
  norm_num

theorem acceptance_nonneg {x y : O} (hx : 0 ≤ w x) (hy : 0 ≤ w y) : 0 ≤ acceptance w x y :=
  le_min zero_le_one (div_nonneg hy hx)

theorem reject_kernel (hQ : Kernel Ω Q) (hw : ∀ x ∈ Ω, 0 ≤ w x) : Kernel Ω (reject Ω Q w) := by
  constructor
  · intro x hx y hy
    have h1 : 0 ≤ Q x y * acceptance w x y := mul_nonneg (hQ.nonneg x hx y hy) (acceptance_nonneg (hw x hx) (hw y hy))
    have h2 : 0 ≤ ∑ z ∈ Ω, Q x z * (1 - acceptance w x z) :=
      sum_nonneg (fun z hz => mul_nonneg (hQ.nonneg x hx z hz) (sub_nonneg.mpr acceptance_le))
    unfold reject
    split <;> linarith
  · intro x hx
    have := sum_reject (Q := Q) (w := w) hx (fun _ => 1)
    simp only [mul_one] at this
    rw [this]
    exact (sum_congr rfl (fun z _ => by ring)).trans (hQ.row x hx)

theorem reject_balance (hb : ∀ x ∈ Ω, ∀ y ∈ Ω, π x * Q x y = π y * Q y x) :
    ∀ x ∈ Ω, ∀ y ∈ Ω, 0 < w x → 0 < w y → (π x * w x) * reject Ω Q w x y = (π y * w y) * reject Ω Q w y x := by
  intro x hx y hy hwx hwy
  by_cases hxy : x = y
  · subst hxy; rfl
  · unfold reject
    rw [if_neg hxy, if_neg (Ne.symm hxy), add_zero, add_zero]
    have h1 := hb x hx y hy
    have h2 := acceptance_balance hwx hwy
    calc π x * w x * (Q x y * acceptance w x y) = (π x * Q x y) * (w x * acceptance w x y) := by ring
      _ = (π y * Q y x) * (w y * acceptance w y x) := by rw [h1, h2]
      _ = _ := by ring

theorem reject_pos (hQ : Kernel Ω Q) {x y : O} (hx : x ∈ Ω) (h : 0 < Q x y) (hwx : 0 < w x) (hwy : 0 < w y) :
    0 < reject Ω Q w x y := by
  have h1 : 0 < Q x y * acceptance w x y := mul_pos h (acceptance_pos hwx hwy)
  have h2 : 0 ≤ ∑ z ∈ Ω, Q x z * (1 - acceptance w x z) :=
    sum_nonneg (fun z hz => mul_nonneg (hQ.nonneg x hx z hz) (sub_nonneg.mpr acceptance_le))
  unfold reject
  split <;> linarith

/-- A part of the states that is never left. -/
theorem pow_closed {Ω' : Finset O} (hsub : Ω' ⊆ Ω) (hz : ∀ x ∈ Ω', ∀ z ∈ Ω, z ∉ Ω' → P x z = 0) :
    ∀ t, ∀ x ∈ Ω', ∀ y, pow Ω P t x y = pow Ω' P t x y := by
  intro t
  induction t with
  | zero => intro x _ y; rfl
  | succ t ih =>
    intro x hx y
    show (∑ z ∈ Ω, P x z * pow Ω P t z y) = ∑ z ∈ Ω', P x z * pow Ω' P t z y
    rw [← sum_subset hsub (fun z hz1 hz2 => by rw [hz x hx z hz1 hz2, zero_mul])]
    exact sum_congr rfl (fun z hz => by rw [ih z hz])

theorem kernel_closed {Ω' : Finset O} (hP : Kernel Ω P) (hsub : Ω' ⊆ Ω) (hz : ∀ x ∈ Ω', ∀ z ∈ Ω, z ∉ Ω' → P x z = 0) :
    Kernel Ω' P :=
  ⟨fun x hx y hy => hP.nonneg x (hsub hx) y (hsub hy),
    fun x hx => (sum_subset hsub (hz x hx)).trans (hP.row x (hsub hx))⟩

theorem pow_self_pos (hP : Kernel Ω P) {x : O} (hx : x ∈ Ω) (h : 0 < P x x) : ∀ t, 0 < pow Ω P t x x := by
  intro t
  induction t with
  | zero => simp [pow]
  | succ t ih =>
    exact lt_of_lt_of_le (mul_pos h ih) (single_le_sum (f := fun z => P x z * pow Ω P t z x)
      (fun z hz => mul_nonneg (hP.nonneg x hx z hz) ((pow_kernel hP t).nonneg z hz x hx)) hx)

theorem pow_succ_pos (hP : Kernel Ω P) {x y z : O} (hx : x ∈ Ω) (hy : y ∈ Ω) (hz : z ∈ Ω) (h : 0 < P x y) {t : ℕ}
    (h' : 0 < pow Ω P t y z) : 0 < pow Ω P (t + 1) x z :=
  lt_of_lt_of_le (mul_pos h h') (single_le_sum (f := fun u => P x u * pow Ω P t u z)
    (fun u hu => mul_nonneg (hP.nonneg x hx u hu) ((pow_kernel hP t).nonneg u hu z hz)) hy)

theorem reject_lower (hQ : Kernel Ω Q) (hw : ∀ x ∈ Ω, 0 < w x) (hne : Ω.Nonempty) :
    ∃ c : ℚ, 0 < c ∧ ∀ x ∈ Ω, ∀ y ∈ Ω, c * Q x y ≤ reject Ω Q w x y := by
  obtain ⟨p, hp, hmin⟩ := exists_min_image (Ω ×ˢ Ω) (fun p => acceptance w p.1 p.2) (hne.product hne)
  rw [mem_product] at hp
  refine ⟨acceptance w p.1 p.2, acceptance_pos (hw _ hp.1) (hw _ hp.2), fun x hx y hy => ?_⟩
  have h1 := hmin (x, y) (mem_product.mpr ⟨hx, hy⟩)
  have h2 : 0 ≤ ∑ z ∈ Ω, Q x z * (1 - acceptance w x z) :=
    sum_nonneg (fun z hz => mul_nonneg (hQ.nonneg x hx z hz) (sub_nonneg.mpr acceptance_le))
  have h3 := mul_le_mul_of_nonneg_right h1 (hQ.nonneg x hx y hy)
  unfold reject
  simp only at h3
  split <;> linarith

variable {V : E → Prop} {draws : E → Finset D} {wt : E → D → ℚ} {run : E → D → Res E} {obs : E → O}

/-- What is needed of the steps to be undone. -/
structure Undo (V : E → Prop) (draws : E → Finset D) (run : E → D → Res E) (obs : E → O) (step : E → D → Res (S × E))
    (undo : E → S → Res E) (Sim : E → E → Prop) : Prop where
  run_eq : ∀ e d, run e d = (step e d >>= fun p => pure p.2)
  back : ∀ e d s e' x, V e → d ∈ draws e → step e d = .ok (s, e') → V e' → V x → Sim e' x → ∃ x', undo x s = .ok x' ∧ V x' ∧ Sim e x'
  refl : ∀ e, Sim e e
  obs_eq : ∀ e x, V e → V x → Sim e x → obs x = obs e

variable {step : E → D → Res (S × E)} {undo : E → S → Res E} {Sim : E → E → Prop}

theorem meanSteps_eq (hl : LumpedW V draws wt run obs Ω) (hu : Undo V draws run obs step undo Sim) : ∀ (k : ℕ) (e : E), V e →
    ∀ (F : List S → E → ℚ) (f : O → ℚ),
      (∀ l e', V e' → (∀ x, V x → Sim e' x → ∃ x', undoStepsQuiet undo l x = .ok x' ∧ V x' ∧ Sim e x') → F l e' = f (obs e')) →
      meanSteps draws wt step k e F = ∑ z ∈ Ω, pow Ω (lumpP V draws wt run obs) k (obs e) z * f z := by
  intro k
  induction k with
  | zero =>
    intro e he F f hF
    show F [] e = _
    rw [hF [] e he (fun x hx hs => ⟨x, rfl, hx, hs⟩)]
    simp [pow, hl.mem e he]
  | succ k ih =>
    intro e he F f hF
    have e1 : meanSteps draws wt step (k + 1) e F = ∑ d ∈ draws e, wt e d * match run e d with
        | .ok e' => ∑ z ∈ Ω, pow Ω (lumpP V draws wt run obs) k (obs e') z * f z
        | _ => 0 := by
      show (∑ d ∈ draws e, wt e d * match step e d with
        | .ok (s, e') => meanSteps draws wt step k e' (fun l => F (s :: l))
        | _ => 0) = _
      refine sum_congr rfl (fun d hd => ?_)
      congr 1
      obtain ⟨e', h1, h2⟩ := hl.step e he d hd
      have h3 := h1
      rw [hu.run_eq] at h3
      simp only [Res.bind_eq_ok, Prod.exists, Res.pure_eq, Res.ok.injEq] at h3
      obtain ⟨s, e'', h3, rfl⟩ := h3
      rw [h1, h3]
      simp only
      refine ih e'' h2 (fun l => F (s :: l)) f (fun l e' he' hback => hF (s :: l) e' he' (fun x hx hs => ?_))
      obtain ⟨x1, k1, k2, k3⟩ := hback x hx hs
      obtain ⟨x2, k4, k5, k6⟩ := hu.back e d s e'' x1 he hd h3 h2 k2 k3
      refine ⟨x2, ?_, k5, k6⟩
      rw [undoStepsQuiet_cons, k1]
      exact k4
    refine e1.trans (Eq.trans (hl.sum_draws he (F := fun e' => ∑ z ∈ Ω, pow Ω (lumpP V draws wt run obs) k (obs e') z * f z)
      (f := fun y => ∑ z ∈ Ω, pow Ω (lumpP V draws wt run obs) k y z * f z) (fun _ _ => rfl)) ?_)
    rw [sum_congr rfl (fun y hy => by rw [← hl.P_eq he hy])]
    simp only [pow, mul_sum, sum_mul]
    rw [sum_comm]
    exact sum_congr rfl (fun z _ => sum_congr rfl (fun y _ => by ring))

theorem lawAfterTrials_eq (hl : LumpedW V draws wt run obs Ω) (hu : Undo V draws run obs step undo Sim) (k : ℕ) (o : O) :
    ∀ (t : ℕ) (e : E), V e → lawAfterTrials draws wt step undo obs w k t e o =
      pow Ω (reject Ω (pow Ω (lumpP V draws wt run obs) k) w) t (obs e) o := by
  intro t
  induction t with
  | zero => intro e _; rfl
  | succ t ih =>
    intro e he
    refine (meanSteps_eq hl hu k e he _ (fun z =>
      acceptance w (obs e) z * pow Ω (reject Ω (pow Ω (lumpP V draws wt run obs) k) w) t z o +
      (1 - acceptance w (obs e) z) * pow Ω (reject Ω (pow Ω (lumpP V draws wt run obs) k) w) t (obs e) o) ?_).trans ?_
    · intro l e' he' hback
      obtain ⟨x, h1, h2, h3⟩ := hback e' he' (hu.refl e')
      rw [ih e' he', h1]
      simp only
      rw [ih x h2, hu.obs_eq e x he h2 h3]
    · exact (sum_reject (hl.mem e he) _).symm

/-- The chain of trials converges to the weights of the underlying chain times the weights of the simulation. -/
theorem Ergodic.trials (h : Ergodic V draws wt run obs Ω π) (hu : Undo V draws run obs step undo Sim) {k : ℕ} (hk : 0 < k)
    (hw : ∀ x ∈ Ω, 0 < w x) {ε : ℚ} (hε : 0 < ε) :
    ∃ t₀, ∀ t, t₀ ≤ t → ∀ e, V e → ∀ y ∈ Ω,
      |lawAfterTrials draws wt step undo obs w k t e y - π y * w y / ∑ z ∈ Ω, π z * w z| < ε := by
  have hK := pow_kernel h.lumped.kernel k
  obtain ⟨o, ho, hpo, k₀, hcol⟩ := h.column
  obtain ⟨c, hc, hlow⟩ := reject_lower hK hw ⟨o, ho⟩
  have hM := reject_kernel hK (fun x hx => (hw x hx).le)
  obtain ⟨t₀, ht⟩ := Markov.converges hM (w := fun x => π x * w x) (fun x hx => mul_nonneg (h.nonneg x hx) (hw x hx).le)
    (lt_of_lt_of_le (mul_pos hpo (hw o ho)) (single_le_sum (f := fun x => π x * w x)
      (fun x hx => mul_nonneg (h.nonneg x hx) (hw x hx).le) ho))
    (fun x hx y hy => reject_balance (pow_balance h.balance k) x hx y hy (hw x hx) (hw y hy)) ho (k := k₀) (fun x hx => by
      have h1 := pow_lower hc.le hK hlow k₀ x hx o ho
      rw [pow_mul k k₀ x hx] at h1
      exact lt_of_lt_of_le (mul_pos (_root_.pow_pos hc _) (hcol _ (Nat.le_mul_of_pos_left _ hk) x hx)) h1) hε
  refine ⟨t₀, fun t hle e he y hy => ?_⟩
  rw [lawAfterTrials_eq h.lumped hu k y t e he]
  exact ht t hle _ (h.lumped.mem e he) y hy

/-- One trial leaves the distribution alone: the weights times the transition probabilities of a trial are symmetric. -/
theorem Ergodic.trials_balance (h : Ergodic V draws wt run obs Ω π) (hu : Undo V draws run obs step undo Sim) (k : ℕ)
    (hw : ∀ x ∈ Ω, 0 < w x) (t : ℕ) {e e' : E} (he : V e) (he' : V e') :
    π (obs e) * w (obs e) * lawAfterTrials draws wt step undo obs w k t e (obs e') =
      π (obs e') * w (obs e') * lawAfterTrials draws wt step undo obs w k t e' (obs e) := by
  rw [lawAfterTrials_eq h.lumped hu k _ t e he, lawAfterTrials_eq h.lumped hu k _ t e' he']
  exact pow_balance (w := fun x => π x * w x) (fun x hx y hy => reject_balance (pow_balance h.balance k) x hx y hy (hw x hx) (hw y hy)) t _
    (h.lumped.mem e he) _ (h.lumped.mem e' he')

/-- Weights that may vanish: the networks with weight zero are never accepted.  What has to be known is that some network `o` can be
reached from all those with positive weight. -/
theorem Ergodic.trials_nonneg (h : Ergodic V draws wt run obs Ω π) (hu : Undo V draws run obs step undo Sim) {k : ℕ}
    (hw : ∀ x ∈ Ω, 0 ≤ w x) {o : O} (ho : o ∈ Ω) (hπo : 0 < π o) (hwo : 0 < w o) {t₁ : ℕ}
    (hreach : ∀ x ∈ Ω, 0 < w x → 0 < pow Ω (reject Ω (pow Ω (lumpP V draws wt run obs) k) w) t₁ x o) {ε : ℚ} (hε : 0 < ε) :
    ∃ t₀, ∀ t, t₀ ≤ t → ∀ e, V e → 0 < w (obs e) → ∀ y ∈ Ω,
      |lawAfterTrials draws wt step undo obs w k t e y - π y * w y / ∑ z ∈ Ω, π z * w z| < ε := by
  have hK := pow_kernel h.lumped.kernel k
  set Q := pow Ω (lumpP V draws wt run obs) k with hQ
  let Ω' := Ω.filter (fun x => 0 < w x)
  have hsub : Ω' ⊆ Ω := filter_subset _ _
  have hpos : ∀ x ∈ Ω', 0 < w x := fun x hx => (mem_filter.mp hx).2
  have hzero : ∀ x ∈ Ω, x ∉ Ω' → w x = 0 := fun x hx hx' =>
    le_antisymm (not_lt.mp (fun hlt => hx' (mem_filter.mpr ⟨hx, hlt⟩))) (hw x hx)
  have hz : ∀ x ∈ Ω', ∀ z ∈ Ω, z ∉ Ω' → reject Ω Q w x z = 0 := fun x hx z hz hz' =>
    reject_zero (by rintro rfl; exact hz' hx) (hzero z hz hz')
  have hM := kernel_closed (reject_kernel hK hw) hsub hz
  have ho' : o ∈ Ω' := mem_filter.mpr ⟨ho, hwo⟩
  have hnn : ∀ x ∈ Ω, 0 ≤ π x * w x := fun x hx => mul_nonneg (h.nonneg x hx) (hw x hx)
  have hsum : ∑ z ∈ Ω, π z * w z = ∑ z ∈ Ω', π z * w z :=
    (sum_subset hsub (fun z hz1 hz2 => by rw [hzero z hz1 hz2, mul_zero])).symm
  obtain ⟨t₀, ht⟩ := Markov.converges hM (w := fun x => π x * w x) (fun x hx => hnn x (hsub hx))
    (lt_of_lt_of_le (mul_pos hπo hwo) (single_le_sum (f := fun x => π x * w x) (fun x hx => hnn x (hsub hx)) ho'))
    (fun x hx y hy => reject_balance (pow_balance h.balance k) x (hsub hx) y (hsub hy) (hpos x hx) (hpos y hy)) ho' (k := t₁)
    (fun x hx => by rw [← pow_closed hsub hz t₁ x hx]; exact hreach x (hsub hx) (hpos x hx)) hε
  refine ⟨t₀, fun t hle e he hwe y hy => ?_⟩
  have hx : obs e ∈ Ω' := mem_filter.mpr ⟨h.lumped.mem e he, hwe⟩
  rw [lawAfterTrials_eq h.lumped hu k y t e he, hsum, ← hQ, pow_closed hsub hz t _ hx]
  by_cases hy' : y ∈ Ω'
  · exact ht t hle _ hx y hy'
  · have hall : pow Ω' (reject Ω Q w) t (obs e) y = 0 := by
      have : ∀ t, ∀ x ∈ Ω', pow Ω' (reject Ω Q w) t x y = 0 := by
        intro t
        induction t with
        | zero => intro x hx; exact if_neg (fun h => hy' (by rw [← h]; exact hx))
        | succ t ih => intro x hx; exact sum_eq_zero (fun z hz => by rw [ih z hz, mul_zero])
      exact this t _ hx
    rw [hall, hzero y hy hy']
    simpa using hε

/-- Networks with weight zero are never met. -/
theorem Ergodic.trials_zero (h : Ergodic V draws wt run obs Ω π) (hu : Undo V draws run obs step undo Sim) (k : ℕ)
    (hw : ∀ x ∈ Ω, 0 ≤ w x) (t : ℕ) {e : E} (he : V e) (hwe : 0 < w (obs e)) {y : O} (hy : w y = 0) :
    lawAfterTrials draws wt step undo obs w k t e y = 0 := by
  rw [lawAfterTrials_eq h.lumped hu k y t e he]
  have : ∀ t, ∀ x ∈ Ω, 0 < w x → pow Ω (reject Ω (pow Ω (lumpP V draws wt run obs) k) w) t x y = 0 := by
    intro t
    induction t with
    | zero => intro x _ hx; exact if_neg (by rintro rfl; exact hx.ne' hy)
    | succ t ih =>
      intro x hx hwx
      refine sum_eq_zero (fun z hz => ?_)
      rcases (hw z hz).lt_or_eq with h0 | h0
      · rw [ih z hz h0, mul_zero]
      · rw [reject_zero (by rintro rfl; exact hwx.ne h0) h0.symm, zero_mul]
  exact this t _ (h.lumped.mem e he) hwe

/-- With sufficiently many steps in a trial all weights are possible. -/
theorem Ergodic.trials_large (h : Ergodic V draws wt run obs Ω π) (hu : Undo V draws run obs step undo Sim) :
    ∃ k₀, ∀ k, k₀ ≤ k → ∀ w : O → ℚ, (∀ x ∈ Ω, 0 ≤ w x) → (∃ x ∈ Ω, 0 < π x ∧ 0 < w x) → ∀ ε : ℚ, 0 < ε →
      ∃ t₀, ∀ t, t₀ ≤ t → ∀ e, V e → 0 < w (obs e) → ∀ y ∈ Ω,
        |lawAfterTrials draws wt step undo obs w k t e y - π y * w y / ∑ z ∈ Ω, π z * w z| < ε := by
  obtain ⟨o₀, ho₀, hpo₀, k₁, hcol⟩ := h.column
  obtain ⟨m, hm, hmin⟩ := exists_min_image (Ω.filter (fun x => 0 < π x)) π ⟨o₀, mem_filter.mpr ⟨ho₀, hpo₀⟩⟩
  have hm0 : 0 < π m / ∑ z ∈ Ω, π z := div_pos (mem_filter.mp hm).2 h.sum_pos
  obtain ⟨k₀, hk₀⟩ := Markov.converges h.lumped.kernel h.nonneg h.sum_pos h.balance ho₀ (hcol k₁ le_rfl) hm0
  refine ⟨k₀, fun k hk w hw ⟨o, ho, hπo, hwo⟩ ε hε => h.trials_nonneg hu hw ho hπo hwo (t₁ := 1) (fun x hx hwx => ?_) hε⟩
  have hK := pow_kernel h.lumped.kernel k
  have h1 : 0 < pow Ω (lumpP V draws wt run obs) k x o := by
    have h2 := (abs_lt.mp (hk₀ k hk x hx o ho)).1
    have h3 : π m / ∑ z ∈ Ω, π z ≤ π o / ∑ z ∈ Ω, π z :=
      div_le_div_of_nonneg_right (hmin o (mem_filter.mpr ⟨ho, hπo⟩)) h.sum_pos.le
    linarith
  refine pow_succ_pos (reject_kernel hK hw) hx ho ho ?_ (t := 0) (by simp [pow])
  exact reject_pos hK hx h1 hwx hwo

/-- Weights inverse to the density of states: every value of `f` that occurs has the same probability in the end. -/
theorem Ergodic.trials_flat {U : Type} [DecidableEq U] (h : Ergodic V draws wt run obs Ω π) (hu : Undo V draws run obs step undo Sim)
    {k : ℕ} (hk : 0 < k) (hπ : ∀ x ∈ Ω, 0 < π x) (f : O → U) {ε : ℚ} (hε : 0 < ε) :
    ∃ t₀, ∀ t, t₀ ≤ t → ∀ e, V e → ∀ u ∈ Ω.image f,
      |(∑ y ∈ Ω with f y = u, lawAfterTrials draws wt step undo obs (fun x => 1 / ∑ z ∈ Ω with f z = f x, π z) k t e y) -
        1 / ((Ω.image f).card : ℚ)| < ε := by
  set w : O → ℚ := fun x => 1 / ∑ z ∈ Ω with f z = f x, π z with hwdef
  have hpos : ∀ u ∈ Ω.image f, 0 < ∑ z ∈ Ω with f z = u, π z := by
    intro u hu
    obtain ⟨x, hx, rfl⟩ := mem_image.mp hu
    exact Finset.sum_pos (fun z hz => hπ z (mem_filter.mp hz).1) ⟨x, mem_filter.mpr ⟨hx, rfl⟩⟩
  have hw : ∀ x ∈ Ω, 0 < w x := fun x hx => one_div_pos.mpr (hpos _ (mem_image_of_mem f hx))
  have hgroup : ∀ u ∈ Ω.image f, ∑ y ∈ Ω with f y = u, π y * w y = 1 := by
    intro u hu
    rw [sum_congr rfl (g := fun y => π y * (1 / ∑ z ∈ Ω with f z = u, π z)) (fun y hy => by
      simp only [hwdef]; rw [(mem_filter.mp hy).2]), ← sum_mul]
    exact mul_one_div_cancel (hpos u hu).ne'
  have htot : ∑ z ∈ Ω, π z * w z = (Ω.image f).card := by
    rw [← sum_fiberwise_of_maps_to (g := f) (t := Ω.image f) (fun x hx => mem_image_of_mem f hx), sum_congr rfl hgroup]
    simp
  have hc : (0 : ℚ) < Ω.card + 1 := by positivity
  obtain ⟨t₀, ht⟩ := h.trials hu hk hw (div_pos hε hc)
  refine ⟨t₀, fun t hle e he u hu => ?_⟩
  have h1 : 1 / ((Ω.image f).card : ℚ) = ∑ y ∈ Ω with f y = u, π y * w y / ∑ z ∈ Ω, π z * w z := by
    rw [← sum_div, hgroup u hu, htot]
  rw [h1, ← sum_sub_distrib]
  refine lt_of_le_of_lt (abs_sum_le_sum_abs _ _) (lt_of_le_of_lt (sum_le_sum (g := fun _ => ε / (Ω.card + 1 : ℚ)) (fun y hy =>
    (ht t hle e he y (mem_filter.mp hy).1).le)) ?_)
  rw [sum_const, nsmul_eq_mul]
  have h2 : ((Ω.filter (fun y => f y = u)).card : ℚ) ≤ Ω.card := by exact_mod_cast card_filter_le _ _
  have h3 : 0 < ε / (Ω.card + 1 : ℚ) := div_pos hε hc
  calc ((Ω.filter (fun y => f y = u)).card : ℚ) * (ε / (Ω.card + 1)) ≤ Ω.card * (ε / (Ω.card + 1)) :=
        mul_le_mul_of_nonneg_right h2 h3.le
    _ < (Ω.card + 1) * (ε / (Ω.card + 1)) := by linarith
    _ = ε := mul_div_cancel₀ _ hc.ne'

end Markov

/-- Chains that toggle pairs, with weights whose support is closed under adding edges: any positive number of steps in a trial is
enough, since the complete network is reached by adding one edge after the other. -/
theorem Toggles.trials_up {V : E → Prop} {n : ℕ} {q : Sym2 ℕ → ℚ} {draws : E → Finset (ℕ × ℕ × ℕ)} {run : E → ℕ × ℕ × ℕ → Res E}
    {obs : E → Finset (Sym2 ℕ)} {step : E → ℕ × ℕ × ℕ → Res (S × E)} {undo : E → S → Res E} {Sim : E → E → Prop}
    (h : Toggles V n q draws run obs) (hn : 2 ≤ n) (hq : ∀ x ∈ pairSet n, 0 < headProb (q x))
    (hu : Markov.Undo V draws run obs step undo Sim) {k : ℕ} (hk : 0 < k) {w : Finset (Sym2 ℕ) → ℚ} (hw : ∀ S ⊆ pairSet n, 0 ≤ w S)
    (hup : ∀ S S', S ⊆ S' → S' ⊆ pairSet n → 0 < w S → 0 < w S') {ε : ℚ} (hε : 0 < ε) :
    ∃ t₀, ∀ t, t₀ ≤ t → ∀ e, V e → 0 < w (obs e) → ∀ y ⊆ pairSet n,
      |lawAfterTrials draws (fun e _ => 1 / ((draws e).card : ℚ)) step undo obs w k t e y -
        indepProb n (fun x => headProb (q x)) y * w y / ∑ z ∈ (pairSet n).powerset, indepProb n (fun x => headProb (q x)) z * w z| < ε := by
  by_cases hex : ∃ e, V e ∧ 0 < w (obs e)
  swap
  · exact ⟨0, fun t _ e he hwe => absurd ⟨e, he, hwe⟩ hex⟩
  obtain ⟨e0, he0, hwe0⟩ := hex
  have herg := h.ergodic hn
  have hP := herg.lumped.kernel
  have hK := Markov.pow_kernel hP k
  set P := Markov.lumpP V draws (fun e _ => 1 / ((draws e).card : ℚ)) run obs with hPdef
  set M := Markov.reject (pairSet n).powerset (Markov.pow (pairSet n).powerset P k) w with hMdef
  have hM : Markov.Kernel (pairSet n).powerset M := Markov.reject_kernel hK (fun S hS => hw S (mem_powerset.mp hS))
  have hposs : ∀ S ⊆ pairSet n, ∀ x ∈ pairSet n, 0 < P S (insert x S) := fun S hS x hx =>
    (herg.lumped.P_pos ((toggle_possible h.draws_eq h.ex h.step S hS x hx).1 (hq x hx))).2.2
  have hins : ∀ S ⊆ pairSet n, ∀ x ∈ pairSet n, insert x S ⊆ pairSet n := fun S hS x hx => insert_subset hx hS
  have hstep : ∀ S ⊆ pairSet n, 0 < w S → ∀ x ∈ pairSet n, 0 < M S (insert x S) := by
    intro S hS hwS x hx
    refine Markov.reject_pos hK (mem_powerset.mpr hS) ?_ hwS (hup S _ (subset_insert x S) (hins S hS x hx) hwS)
    obtain ⟨j, rfl⟩ : ∃ j, k = j + 1 := ⟨k - 1, by omega⟩
    refine Markov.pow_succ_pos hP (mem_powerset.mpr hS) (mem_powerset.mpr (hins S hS x hx)) (mem_powerset.mpr (hins S hS x hx))
      (hposs S hS x hx) (Markov.pow_self_pos hP (mem_powerset.mpr (hins S hS x hx)) ?_ j)
    have := hposs (insert x S) (hins S hS x hx) x hx
    rwa [insert_idem] at this
  have hlist : ∀ l : List (Sym2 ℕ), (∀ x ∈ l, x ∈ pairSet n) → ∀ S ⊆ pairSet n, 0 < w S →
      0 < Markov.pow (pairSet n).powerset M l.length S (l.foldl (fun S x => insert x S) S) := by
    intro l
    induction l with
    | nil => intro _ S _ _; simp [Markov.pow]
    | cons x l ih =>
      intro hl S hS hwS
      have hx := hl x (by simp)
      have hS' := hins S hS x hx
      have hwS' := hup S _ (subset_insert x S) hS' hwS
      have hend : ∀ l : List (Sym2 ℕ), (∀ x ∈ l, x ∈ pairSet n) → ∀ S ⊆ pairSet n, l.foldl (fun S x => insert x S) S ⊆ pairSet n := by
        intro l
        induction l with
        | nil => intro _ S hS; exact hS
        | cons x l ih => intro hl S hS; exact ih (fun y hy => hl y (by simp [hy])) _ (hins S hS x (hl x (by simp)))
      exact Markov.pow_succ_pos hM (mem_powerset.mpr hS) (mem_powerset.mpr hS')
        (mem_powerset.mpr (hend l (fun y hy => hl y (by simp [hy])) _ hS')) (hstep S hS hwS x hx)
        (ih (fun y hy => hl y (by simp [hy])) _ hS' hwS')
  have hfold : ∀ (l : List (Sym2 ℕ)) (S : Finset (Sym2 ℕ)), l.foldl (fun S x => insert x S) S = S ∪ l.toFinset := by
    intro l
    induction l with
    | nil => intro S; simp
    | cons x l ih => intro S; rw [List.foldl_cons, ih]; ext y; simp
  have hreach : ∀ S ⊆ pairSet n, 0 < w S → 0 < Markov.pow (pairSet n).powerset M (pairSet n).toList.length S (pairSet n) := by
    intro S hS hwS
    have := hlist (pairSet n).toList (fun x hx => mem_toList.mp hx) S hS hwS
    rwa [hfold, toList_toFinset, union_eq_right.mpr hS] at this
  have hwo : 0 < w (pairSet n) := hup _ _ (h.mem e0 he0) subset_rfl hwe0
  have hπo : 0 < indepProb n (fun x => headProb (q x)) (pairSet n) := by
    unfold indepProb
    exact prod_pos (fun x hx => by rw [if_pos hx]; exact hq x hx)
  obtain ⟨t₀, ht⟩ := herg.trials_nonneg hu (fun S hS => hw S (mem_powerset.mp hS)) (mem_powerset.mpr subset_rfl) hπo hwo
    (t₁ := (pairSet n).toList.length) (fun S hS hwS => hreach S (mem_powerset.mp hS) hwS) hε
  exact ⟨t₀, fun t hle e he hwe y hy => ht t hle e he hwe y (mem_powerset.mpr hy)⟩

end Verif
