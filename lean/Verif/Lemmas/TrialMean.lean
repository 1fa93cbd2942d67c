import Verif.Lemmas.Metropolis
import Verif.Lemmas.ChainMean

/-!
# Averages over the trials of a simulation with rejection
-/

set_option linter.unusedSectionVars false
set_option linter.unusedSimpArgs false

namespace Verif.Markov
open Finset

variable {E D S O : Type} [DecidableEq O]

/-- The mean of `F` over the lists of the first `N` states of a chain with the kernel `P`. -/
def listMean (Ω : Finset O) (P : O → O → ℚ) : ℕ → O → (List O → ℚ) → ℚ
  | 0, _, F => F []
  | N + 1, x, F => ∑ y ∈ Ω, P x y * listMean Ω P N y (fun os => F (y :: os))

section
variable {V : E → Prop} {draws : E → Finset D} {wt : E → D → ℚ} {run : E → D → Res E} {obs : E → O} {Ω : Finset O}
  {step : E → D → Res (S × E)} {undo : E → S → Res E} {Sim : E → E → Prop} {w : O → ℚ}

theorem meanTrials_eq (hl : LumpedW V draws wt run obs Ω) (hu : Undo V draws run obs step undo Sim) (k : ℕ) :
    ∀ (t : ℕ) (e : E) (F : List O → ℚ), V e → meanTrials draws wt step undo obs w k t e F =
      listMean Ω (reject Ω (pow Ω (lumpP V draws wt run obs) k) w) t (obs e) F := by
  intro t
  induction t with
  | zero => intro e F _; rfl
  | succ t ih =>
    intro e F he
    set P := reject Ω (pow Ω (lumpP V draws wt run obs) k) w with hP
    refine (meanSteps_eq hl hu k e he _ (fun z =>
      acceptance w (obs e) z * listMean Ω P t z (fun os => F (z :: os)) +
      (1 - acceptance w (obs e) z) * listMean Ω P t (obs e) (fun os => F (obs e :: os))) ?_).trans ?_
    · intro l e' he' hback
      obtain ⟨x, h1, h2, h3⟩ := hback e' he' (hu.refl e')
      rw [ih e' _ he', h1]
      simp only
      rw [ih x _ h2, hu.obs_eq e x he h2 h3]
    · exact (sum_reject (hl.mem e he) (fun z => listMean Ω P t z (fun os => F (z :: os)))).symm

end

variable {Ω Ω' : Finset O} {P : O → O → ℚ}

theorem listMean_closed (hsub : Ω' ⊆ Ω) (hz : ∀ x ∈ Ω', ∀ z ∈ Ω, z ∉ Ω' → P x z = 0) :
    ∀ (N : ℕ) (F : List O → ℚ), ∀ x ∈ Ω', listMean Ω P N x F = listMean Ω' P N x F := by
  intro N
  induction N with
  | zero => intro F x _; rfl
  | succ N ih =>
    intro F x hx
    show ∑ y ∈ Ω, _ = ∑ y ∈ Ω', _
    rw [← sum_subset hsub (fun z h1 h2 => by rw [hz x hx z h1 h2, zero_mul])]
    exact sum_congr rfl (fun y hy => by rw [ih _ y hy])

theorem listMean_one (hP : Kernel Ω P) : ∀ (N : ℕ), ∀ x ∈ Ω, listMean Ω P N x (fun _ => 1) = 1 := by
  intro N
  induction N with
  | zero => intro x _; rfl
  | succ N ih =>
    intro x hx
    show ∑ y ∈ Ω, P x y * listMean Ω P N y (fun _ => 1) = 1
    rw [sum_congr rfl (fun y hy => by rw [ih y hy, mul_one]), hP.row x hx]

theorem listMean_sum (f : O → ℚ) (q : ℚ → Bool) : ∀ (N : ℕ) (x : O) (a : ℚ),
    lawAfterW (fun _ : O × ℚ => Ω) (fun e => P e.1) (runSum (fun _ y => .ok y) f) (fun e => q e.2) N (x, a) true =
      listMean Ω P N x (fun os => if q (a + (os.map f).sum) = true then 1 else 0) := by
  intro N
  induction N with
  | zero =>
    intro x a
    show (if q a = true then (1 : ℚ) else 0) = if q (a + ([].map f).sum) = true then 1 else 0
    simp
  | succ N ih =>
    intro x a
    refine sum_congr rfl (fun y _ => ?_)
    have := ih y (a + f y)
    refine congrArg (P x y * ·) (Eq.trans this ?_)
    simp only [List.map_cons, List.sum_cons, add_assoc]

theorem law_pow : ∀ (t : ℕ) (x y : O), lawAfterW (fun _ : O => Ω) P (fun _ z => .ok z) id t x y = pow Ω P t x y := by
  intro t
  induction t with
  | zero => intro x y; rfl
  | succ t ih =>
    intro x y
    exact sum_congr rfl (fun z _ => congrArg (P x z * ·) (ih z y))

section
variable {V : E → Prop} {draws : E → Finset D} {wt : E → D → ℚ} {run : E → D → Res E} {obs : E → O} {Ω : Finset O}
  {step : E → D → Res (S × E)} {undo : E → S → Res E} {Sim : E → E → Prop} {w : O → ℚ}

theorem LumpedW.trials_one (hl : LumpedW V draws wt run obs Ω) (hu : Undo V draws run obs step undo Sim) (k : ℕ)
    (hw : ∀ x ∈ Ω, 0 ≤ w x) (N : ℕ) {e : E} (he : V e) : meanTrials draws wt step undo obs w k N e (fun _ => 1) = 1 := by
  rw [meanTrials_eq hl hu k N e _ he]
  exact listMean_one (reject_kernel (pow_kernel hl.kernel k) hw) N _ (hl.mem e he)

/-- If the law after many trials converges, averages over the trials converge to the mean of the limit. -/
theorem LumpedW.trials_average (hl : LumpedW V draws wt run obs Ω) (hu : Undo V draws run obs step undo Sim) (k : ℕ)
    (hw : ∀ x ∈ Ω, 0 ≤ w x) {π : O → ℚ} (hπ0 : ∀ y ∈ Ω, w y = 0 → π y = 0)
    (hc : ∀ ε : ℚ, 0 < ε → ∃ t₀, ∀ t, t₀ ≤ t → ∀ e, V e → 0 < w (obs e) → ∀ y ∈ Ω,
      |lawAfterTrials draws wt step undo obs w k t e y - π y| < ε) (f : O → ℚ) {δ η : ℚ} (hδ : 0 < δ) (hη : 0 < η) :
    ∃ N₀ : ℕ, ∀ N : ℕ, N₀ ≤ N → ∀ e, V e → 0 < w (obs e) →
      1 - η < meanTrials draws wt step undo obs w k N e (fun os => if |(os.map f).sum / N - ∑ y ∈ Ω, π y * f y| < δ then 1 else 0) := by
  by_cases hex : ∃ e, V e ∧ 0 < w (obs e)
  swap
  · exact ⟨0, fun N _ e h1 h2 => absurd ⟨e, h1, h2⟩ hex⟩
  obtain ⟨e₀, he₀, hwe₀⟩ := hex
  set P := reject Ω (pow Ω (lumpP V draws wt run obs) k) w with hPdef
  have hP : Kernel Ω P := reject_kernel (pow_kernel hl.kernel k) hw
  set Ω' := Ω.filter (fun x => 0 < w x) with hΩ'
  have hsub : Ω' ⊆ Ω := filter_subset _ _
  have hz : ∀ x ∈ Ω', ∀ z ∈ Ω, z ∉ Ω' → P x z = 0 := fun x hx z hz hz' =>
    reject_zero (by rintro rfl; exact hz' hx)
      (le_antisymm (not_lt.mp (fun hlt => hz' (mem_filter.mpr ⟨hz, hlt⟩))) (hw z hz))
  have hP' := kernel_closed hP hsub hz
  have hst : Steady (· ∈ Ω') (fun _ : O => Ω') P (fun _ z => .ok z) :=
    ⟨fun x hx => hP'.row x hx, fun x hx d hd => hP'.nonneg x hx d hd, fun x _ d hd => ⟨d, rfl, hd⟩⟩
  have hmem : ∀ e, V e → 0 < w (obs e) → obs e ∈ Ω' := fun e h1 h2 => mem_filter.mpr ⟨hl.mem e h1, h2⟩
  have hc' : ∀ ε : ℚ, 0 < ε → ∃ t₀, ∀ t, t₀ ≤ t → ∀ x, x ∈ Ω' → ∀ y ∈ Ω',
      |lawAfterW (fun _ : O => Ω') P (fun _ z => .ok z) id t x y - π y| < ε := by
    intro ε hε
    obtain ⟨t₀, ht⟩ := hc ε hε
    refine ⟨t₀, fun t hle x hx y hy => ?_⟩
    obtain ⟨h1, h2⟩ := mem_filter.mp hx
    obtain ⟨e, h3, rfl⟩ := hl.ex x h1
    rw [law_pow, ← pow_closed hsub hz t _ hx, ← lawAfterTrials_eq hl hu k y t e h3]
    exact ht t hle e h3 h2 y (hsub hy)
  have htot := hst.limit_total (obs := id) (fun x hx => hx) hc' (hmem e₀ he₀ hwe₀)
  obtain ⟨N₀, hN⟩ := hst.weak_law (obs := id) (fun x hx => hx) htot hc' f hδ hη
  refine ⟨N₀ + 1, fun N hle e h1 h2 => ?_⟩
  have hNpos : (0 : ℚ) < N := by exact_mod_cast (by omega : 0 < N)
  have := hN N (by omega) (obs e) (hmem e h1 h2)
  rw [meanTrials_eq hl hu k N e _ h1, listMean_closed hsub hz N _ _ (hmem e h1 h2)]
  refine this.trans_eq ((listMean_sum f (fun x => decide (|x - N * ∑ y ∈ Ω', π y * f y| < N * δ)) N (obs e) 0).trans ?_)
  have hμ : ∑ y ∈ Ω', π y * f y = ∑ y ∈ Ω, π y * f y := by
    refine sum_subset hsub (fun z hz1 hz2 => ?_)
    rw [hπ0 z hz1 (le_antisymm (not_lt.mp (fun hlt => hz2 (mem_filter.mpr ⟨hz1, hlt⟩))) (hw z hz1)), zero_mul]
  congr 1
  funext os
  rw [hμ, zero_add]
  simp only [decide_eq_true_eq]
  have : (os.map f).sum / N - ∑ y ∈ Ω, π y * f y = ((os.map f).sum - N * ∑ y ∈ Ω, π y * f y) / N := by
    field_simp
  refine if_congr ?_ rfl rfl
  rw [this, abs_div, abs_of_pos hNpos, div_lt_iff₀ hNpos, mul_comm δ]

end

end Verif.Markov
