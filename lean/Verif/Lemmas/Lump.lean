import Verif.Lemmas.Markov
import Verif.Model.Prelude
import Mathlib.Tactic.Positivity
import Mathlib.Tactic.FieldSimp

/-!
# The law of an ensemble after many steps

`lawAfter` is the specification used in C66: it is defined directly from the runs of a step function.  The rest of the file
carries the convergence theorem over to it.
-/

set_option linter.unusedSectionVars false
set_option linter.unusedSimpArgs false

namespace Verif
open Finset

variable {E D O : Type} [DecidableEq O]

/-- The probability that the observable `obs` has the value `o` after `t` steps from the state `e`, if in every step the draws are
those in the finite set `draws` of the current state with the probabilities `wt`, independent of the previous ones.  (A step that
does not return contributes nothing.) -/
def lawAfterW (draws : E → Finset D) (wt : E → D → ℚ) (run : E → D → Res E) (obs : E → O) : ℕ → E → O → ℚ
  | 0, e, o => if obs e = o then 1 else 0
  | t + 1, e, o => ∑ d ∈ draws e, wt e d * match run e d with
      | .ok e' => lawAfterW draws wt run obs t e' o
      | _ => 0

/-- The probability that the observable `obs` has the value `o` after `t` steps from the state `e`, if in every step the draws are
uniform on the finite set `draws` of the current state and independent of the previous ones.  (A step that does not return
contributes nothing.) -/
def lawAfter (draws : E → Finset D) (run : E → D → Res E) (obs : E → O) : ℕ → E → O → ℚ
  | 0, e, o => if obs e = o then 1 else 0
  | t + 1, e, o => (∑ d ∈ draws e, match run e d with
      | .ok e' => lawAfter draws run obs t e' o
      | _ => 0) / (draws e).card

theorem lawAfter_eq (draws : E → Finset D) (run : E → D → Res E) (obs : E → O) (t : ℕ) : ∀ (e : E) (o : O),
    lawAfter draws run obs t e o = lawAfterW draws (fun e _ => 1 / ((draws e).card : ℚ)) run obs t e o := by
  induction t with
  | zero => intro e o; rfl
  | succ t ih =>
    intro e o
    show (∑ d ∈ draws e, match run e d with
      | .ok e' => lawAfter draws run obs t e' o
      | _ => 0) / ((draws e).card : ℚ) = ∑ d ∈ draws e, _
    rw [sum_div]
    refine sum_congr rfl (fun d _ => ?_)
    cases run e d with
    | ok e' => simp only [ih]; ring
    | panic => simp
    | diverge => simp

namespace Markov

open Classical in
/-- Number of draws that lead to the value `o`. -/
noncomputable def cnt (draws : E → Finset D) (run : E → D → Res E) (obs : E → O) (e : E) (o : O) : ℕ :=
  ((draws e).filter (fun d => ∃ e', run e d = .ok e' ∧ obs e' = o)).card

open Classical in
/-- Probability of the draws that lead to the value `o`. -/
noncomputable def pr (draws : E → Finset D) (wt : E → D → ℚ) (run : E → D → Res E) (obs : E → O) (e : E) (o : O) : ℚ :=
  ∑ d ∈ (draws e).filter (fun d => ∃ e', run e d = .ok e' ∧ obs e' = o), wt e d

/-- What is needed to see the observable as a Markov chain of its own on the finite set `Ω`. -/
structure LumpedW (V : E → Prop) (draws : E → Finset D) (wt : E → D → ℚ) (run : E → D → Res E) (obs : E → O) (Ω : Finset O) :
    Prop where
  total : ∀ e, V e → ∑ d ∈ draws e, wt e d = 1
  pos : ∀ e, V e → ∀ d ∈ draws e, 0 < wt e d
  step : ∀ e, V e → ∀ d ∈ draws e, ∃ e', run e d = .ok e' ∧ V e'
  mem : ∀ e, V e → obs e ∈ Ω
  ex : ∀ o ∈ Ω, ∃ e, V e ∧ obs e = o
  lump : ∀ e e', V e → V e' → obs e = obs e' → ∀ o ∈ Ω, pr draws wt run obs e o = pr draws wt run obs e' o

/-- The same for equally likely draws. -/
structure Lumped (V : E → Prop) (draws : E → Finset D) (run : E → D → Res E) (obs : E → O) (Ω : Finset O) (W : ℕ) : Prop where
  total : ∀ e, V e → (draws e).card = W
  pos : 0 < W
  step : ∀ e, V e → ∀ d ∈ draws e, ∃ e', run e d = .ok e' ∧ V e'
  mem : ∀ e, V e → obs e ∈ Ω
  ex : ∀ o ∈ Ω, ∃ e, V e ∧ obs e = o
  lump : ∀ e e', V e → V e' → obs e = obs e' → ∀ o ∈ Ω, cnt draws run obs e o = cnt draws run obs e' o

variable {V : E → Prop} {draws : E → Finset D} {wt : E → D → ℚ} {run : E → D → Res E} {obs : E → O} {Ω : Finset O} {W : ℕ}

open Classical in
/-- The transition probabilities of the observable. -/
noncomputable def lumpP (V : E → Prop) (draws : E → Finset D) (wt : E → D → ℚ) (run : E → D → Res E) (obs : E → O) (x y : O) : ℚ :=
  if h : ∃ e, V e ∧ obs e = x then pr draws wt run obs h.choose y else 0

theorem LumpedW.P_eq (h : LumpedW V draws wt run obs Ω) {e : E} (he : V e) {y : O} (hy : y ∈ Ω) :
    lumpP V draws wt run obs (obs e) y = pr draws wt run obs e y := by
  have hex : ∃ e', V e' ∧ obs e' = obs e := ⟨e, he, rfl⟩
  unfold lumpP
  rw [dif_pos hex, h.lump _ e hex.choose_spec.1 he hex.choose_spec.2 y hy]

/-- Sums over the draws of a function of the observable. -/
theorem LumpedW.sum_draws (h : LumpedW V draws wt run obs Ω) {e : E} (he : V e) {F : E → ℚ} {f : O → ℚ}
    (hF : ∀ e', V e' → F e' = f (obs e')) :
    (∑ d ∈ draws e, wt e d * match run e d with
      | .ok e' => F e'
      | _ => 0) = ∑ z ∈ Ω, pr draws wt run obs e z * f z := by
  classical
  have : Nonempty E := ⟨e⟩
  have hrun := h.step e he
  choose! nx h1 h2 using hrun
  have e1 : (∑ d ∈ draws e, wt e d * match run e d with
      | .ok e' => F e'
      | _ => 0) = ∑ d ∈ draws e, wt e d * f (obs (nx d)) :=
    sum_congr rfl (fun d hd => by rw [h1 d hd]; simp only; rw [hF _ (h2 d hd)])
  rw [e1, ← sum_fiberwise_of_maps_to (s := draws e) (t := Ω) (g := fun d => obs (nx d)) (fun d hd => h.mem _ (h2 d hd))]
  refine sum_congr rfl (fun z _ => ?_)
  rw [sum_congr rfl (g := fun d => wt e d * f z) (fun d hd => by rw [(mem_filter.mp hd).2]), ← sum_mul]
  congr 1
  unfold pr
  refine sum_congr (filter_congr (fun d hd => ?_)) (fun _ _ => rfl)
  constructor
  · intro k; exact ⟨nx d, h1 d hd, k⟩
  · rintro ⟨e', k1, k2⟩
    rw [h1 d hd] at k1
    cases k1
    exact k2

theorem LumpedW.kernel (h : LumpedW V draws wt run obs Ω) : Kernel Ω (lumpP V draws wt run obs) := by
  classical
  constructor
  · intro x hx y hy
    obtain ⟨e, he, rfl⟩ := h.ex x hx
    rw [h.P_eq he hy]
    exact sum_nonneg (fun d hd => (h.pos e he d (mem_filter.mp hd).1).le)
  · intro x hx
    obtain ⟨e, he, rfl⟩ := h.ex x hx
    rw [sum_congr rfl (fun y hy => h.P_eq he hy)]
    have := h.sum_draws he (F := fun _ => 1) (f := fun _ => 1) (fun _ _ => rfl)
    simp only [mul_one] at this
    rw [← this]
    refine (sum_congr rfl (fun d hd => ?_)).trans (h.total e he)
    obtain ⟨e', k, _⟩ := h.step e he d hd
    rw [k]
    simp

theorem LumpedW.law_eq (h : LumpedW V draws wt run obs Ω) {o : O} : ∀ (t : ℕ) {e : E}, V e →
    lawAfterW draws wt run obs t e o = pow Ω (lumpP V draws wt run obs) t (obs e) o := by
  intro t
  induction t with
  | zero => intro e _; rfl
  | succ t ih =>
    intro e he
    show (∑ d ∈ draws e, wt e d * match run e d with
      | .ok e' => lawAfterW draws wt run obs t e' o
      | _ => 0) = ∑ z ∈ Ω, _
    rw [h.sum_draws he (F := fun e' => lawAfterW draws wt run obs t e' o)
      (f := fun z => pow Ω (lumpP V draws wt run obs) t z o) (fun e' he' => ih he')]
    refine sum_congr rfl (fun z hz => ?_)
    rw [h.P_eq he hz]

/-- `y` is possible after one step from `x`. -/
def Possible (V : E → Prop) (draws : E → Finset D) (run : E → D → Res E) (obs : E → O) (x y : O) : Prop :=
  ∃ e, V e ∧ obs e = x ∧ ∃ d ∈ draws e, ∃ e', run e d = .ok e' ∧ obs e' = y

theorem LumpedW.P_pos (h : LumpedW V draws wt run obs Ω) {x y : O} (hp : Possible V draws run obs x y) :
    x ∈ Ω ∧ y ∈ Ω ∧ 0 < lumpP V draws wt run obs x y := by
  classical
  obtain ⟨e, he, rfl, d, hd, e', h1, rfl⟩ := hp
  obtain ⟨e'', k1, k2⟩ := h.step e he d hd
  rw [h1] at k1
  cases k1
  refine ⟨h.mem e he, h.mem e' k2, ?_⟩
  rw [h.P_eq he (h.mem e' k2)]
  unfold pr
  exact sum_pos (fun d hd => h.pos e he d (mem_filter.mp hd).1) ⟨d, mem_filter.mpr ⟨hd, e', h1, rfl⟩⟩

/-- Convergence of the law of the observable. -/
theorem LumpedW.converges (h : LumpedW V draws wt run obs Ω) {w : O → ℚ} (hw : ∀ x ∈ Ω, 0 ≤ w x) (hpos : 0 < ∑ x ∈ Ω, w x)
    (hb : ∀ e e', V e → V e' → w (obs e) * pr draws wt run obs e (obs e') = w (obs e') * pr draws wt run obs e' (obs e))
    {o : O} (ho : o ∈ Ω)
    (hc : Possible V draws run obs o o ∨ ∃ a b, Possible V draws run obs o a ∧ Possible V draws run obs a o ∧
      Possible V draws run obs a b ∧ Possible V draws run obs b o)
    (hr : ∀ x ∈ Ω, Relation.ReflTransGen (Possible V draws run obs) x o) {ε : ℚ} (hε : 0 < ε) :
    ∃ t₀, ∀ t, t₀ ≤ t → ∀ e, V e → ∀ y ∈ Ω, |lawAfterW draws wt run obs t e y - w y / ∑ z ∈ Ω, w z| < ε := by
  have hk := h.kernel
  have hcyc : ∃ N, ∀ k, N ≤ k → 0 < pow Ω (lumpP V draws wt run obs) k o o := by
    rcases hc with hc | ⟨a, b, c1, c2, c3, c4⟩
    · exact ⟨0, fun k _ => pow_self hk ho (h.P_pos hc).2.2 k⟩
    · obtain ⟨_, a1, p1⟩ := h.P_pos c1
      obtain ⟨_, _, p2⟩ := h.P_pos c2
      obtain ⟨_, b1, p3⟩ := h.P_pos c3
      obtain ⟨_, _, p4⟩ := h.P_pos c4
      rw [← pow_one (Ω := Ω) (P := lumpP V draws wt run obs) a1] at p1
      rw [← pow_one (Ω := Ω) (P := lumpP V draws wt run obs) ho] at p2 p4
      rw [← pow_one (Ω := Ω) (P := lumpP V draws wt run obs) b1] at p3
      have q2 := pow_pos_trans hk ho a1 ho p1 p2
      have q3 := pow_pos_trans hk ho b1 ho (pow_pos_trans hk ho a1 b1 p1 p3) p4
      refine ⟨2, fun k hk2 => ?_⟩
      induction k using Nat.strong_induction_on with
      | _ k ih =>
        rcases Nat.lt_or_ge k 4 with h4 | h4
        · rcases (by omega : k = 2 ∨ k = 3) with rfl | rfl
          · exact q2
          · exact q3
        · have := pow_pos_trans hk ho ho ho (ih (k - 2) (by omega) (by omega)) q2
          rwa [show k - 2 + (1 + 1) = k by omega] at this
  obtain ⟨N, hN⟩ := hcyc
  obtain ⟨k, hk'⟩ := common_steps hk ho hN (fun x hx => pow_of_path hk ho
    (Relation.ReflTransGen.mono (r := Possible V draws run obs)
      (p := fun a b => a ∈ Ω ∧ b ∈ Ω ∧ 0 < lumpP V draws wt run obs a b) (fun a b hab => h.P_pos hab) x o (hr x hx)))
  obtain ⟨t₀, ht⟩ := Markov.converges hk hw hpos (by
    intro x hx y hy
    obtain ⟨e, he, rfl⟩ := h.ex x hx
    obtain ⟨e', he', rfl⟩ := h.ex y hy
    rw [h.P_eq he hy, h.P_eq he' hx, hb e e' he he']) ho hk' hε
  refine ⟨t₀, fun t hle e he y hy => ?_⟩
  rw [h.law_eq t he]
  exact ht t hle _ (h.mem e he) y hy

theorem pr_uniform (e : E) (o : O) : pr draws (fun e _ => 1 / ((draws e).card : ℚ)) run obs e o =
    (cnt draws run obs e o : ℚ) / (draws e).card := by
  classical
  unfold pr cnt
  rw [sum_const, nsmul_eq_mul, mul_one_div]

theorem Lumped.toW (h : Lumped V draws run obs Ω W) : LumpedW V draws (fun e _ => 1 / ((draws e).card : ℚ)) run obs Ω := by
  have hW : (0 : ℚ) < W := by exact_mod_cast h.pos
  refine ⟨?_, ?_, h.step, h.mem, h.ex, ?_⟩
  · intro e he
    rw [sum_const, nsmul_eq_mul, h.total e he]
    field_simp
  · intro e he d _
    simp only [h.total e he]
    positivity
  · intro e e' he he' ho o hoΩ
    rw [pr_uniform, pr_uniform, h.total e he, h.total e' he', h.lump e e' he he' ho o hoΩ]

/-- Convergence of the law of the observable. -/
theorem Lumped.converges (h : Lumped V draws run obs Ω W) {w : O → ℚ} (hw : ∀ x ∈ Ω, 0 ≤ w x) (hpos : 0 < ∑ x ∈ Ω, w x)
    (hb : ∀ e e', V e → V e' → w (obs e) * cnt draws run obs e (obs e') = w (obs e') * cnt draws run obs e' (obs e))
    {o : O} (ho : o ∈ Ω)
    (hc : Possible V draws run obs o o ∨ ∃ a b, Possible V draws run obs o a ∧ Possible V draws run obs a o ∧
      Possible V draws run obs a b ∧ Possible V draws run obs b o)
    (hr : ∀ x ∈ Ω, Relation.ReflTransGen (Possible V draws run obs) x o) {ε : ℚ} (hε : 0 < ε) :
    ∃ t₀, ∀ t, t₀ ≤ t → ∀ e, V e → ∀ y ∈ Ω, |lawAfter draws run obs t e y - w y / ∑ z ∈ Ω, w z| < ε := by
  have hW : (0 : ℚ) < W := by exact_mod_cast h.pos
  obtain ⟨t₀, ht⟩ := h.toW.converges hw hpos (by
    intro e e' he he'
    rw [pr_uniform, pr_uniform, h.total e he, h.total e' he', mul_div_assoc', mul_div_assoc', hb e e' he he']) ho hc hr hε
  refine ⟨t₀, fun t hle e he y hy => ?_⟩
  rw [lawAfter_eq]
  exact ht t hle e he y hy

/-- A chain with everything that is needed for convergence: it is in detailed balance with the weights `w`, and some value of positive
weight is reached from everywhere after any sufficiently large number of steps. -/
structure Ergodic (V : E → Prop) (draws : E → Finset D) (wt : E → D → ℚ) (run : E → D → Res E) (obs : E → O) (Ω : Finset O)
    (w : O → ℚ) : Prop where
  lumped : LumpedW V draws wt run obs Ω
  nonneg : ∀ x ∈ Ω, 0 ≤ w x
  sum_pos : 0 < ∑ x ∈ Ω, w x
  balance : ∀ x ∈ Ω, ∀ y ∈ Ω, w x * lumpP V draws wt run obs x y = w y * lumpP V draws wt run obs y x
  column : ∃ o ∈ Ω, 0 < w o ∧ ∃ k₀, ∀ k, k₀ ≤ k → ∀ x ∈ Ω, 0 < pow Ω (lumpP V draws wt run obs) k x o

theorem Ergodic.converges {w : O → ℚ} (h : Ergodic V draws wt run obs Ω w) {ε : ℚ} (hε : 0 < ε) :
    ∃ t₀, ∀ t, t₀ ≤ t → ∀ e, V e → ∀ y ∈ Ω, |lawAfterW draws wt run obs t e y - w y / ∑ z ∈ Ω, w z| < ε := by
  obtain ⟨o, ho, _, k₀, hk⟩ := h.column
  obtain ⟨t₀, ht⟩ := Markov.converges h.lumped.kernel h.nonneg h.sum_pos h.balance ho (hk k₀ le_rfl) hε
  refine ⟨t₀, fun t hle e he y hy => ?_⟩
  rw [h.lumped.law_eq t he]
  exact ht t hle _ (h.lumped.mem e he) y hy

theorem LumpedW.ergodic (h : LumpedW V draws wt run obs Ω) {w : O → ℚ} (hw : ∀ x ∈ Ω, 0 ≤ w x) (hpos : 0 < ∑ x ∈ Ω, w x)
    (hb : ∀ e e', V e → V e' → w (obs e) * pr draws wt run obs e (obs e') = w (obs e') * pr draws wt run obs e' (obs e))
    {o : O} (ho : o ∈ Ω)
    (hc : Possible V draws run obs o o ∨ ∃ a b, Possible V draws run obs o a ∧ Possible V draws run obs a o ∧
      Possible V draws run obs a b ∧ Possible V draws run obs b o)
    (hr : ∀ x ∈ Ω, Relation.ReflTransGen (Possible V draws run obs) x o) : Ergodic V draws wt run obs Ω w := by
  refine ⟨h, hw, hpos, ?_, ?_⟩
  · intro x hx y hy
    obtain ⟨e, he, rfl⟩ := h.ex x hx
    obtain ⟨e', he', rfl⟩ := h.ex y hy
    rw [h.P_eq he hy, h.P_eq he' hx, hb e e' he he']
  · obtain ⟨o', ho', hpo⟩ : ∃ o' ∈ Ω, 0 < w o' := by
      by_contra hcon
      push Not at hcon
      exact absurd (sum_nonpos hcon) (not_le.mpr hpos)
    have hq : 0 < w o' / ∑ z ∈ Ω, w z := div_pos hpo hpos
    obtain ⟨t₀, ht⟩ := h.converges hw hpos hb ho hc hr hq
    refine ⟨o', ho', hpo, t₀, fun k hk x hx => ?_⟩
    obtain ⟨e, he, rfl⟩ := h.ex x hx
    have := ht k hk e he o' ho'
    rw [h.law_eq k he, abs_lt] at this
    linarith [this.1]

theorem Lumped.ergodic (h : Lumped V draws run obs Ω W) {w : O → ℚ} (hw : ∀ x ∈ Ω, 0 ≤ w x) (hpos : 0 < ∑ x ∈ Ω, w x)
    (hb : ∀ e e', V e → V e' → w (obs e) * cnt draws run obs e (obs e') = w (obs e') * cnt draws run obs e' (obs e))
    {o : O} (ho : o ∈ Ω)
    (hc : Possible V draws run obs o o ∨ ∃ a b, Possible V draws run obs o a ∧ Possible V draws run obs a o ∧
      Possible V draws run obs a b ∧ Possible V draws run obs b o)
    (hr : ∀ x ∈ Ω, Relation.ReflTransGen (Possible V draws run obs) x o) :
    Ergodic V draws (fun e _ => 1 / ((draws e).card : ℚ)) run obs Ω w := by
  have hW : (0 : ℚ) < W := by exact_mod_cast h.pos
  exact h.toW.ergodic hw hpos (by
    intro e e' he he'
    rw [pr_uniform, pr_uniform, h.total e he, h.total e' he', mul_div_assoc', mul_div_assoc', hb e e' he he']) ho hc hr

end Markov
end Verif
