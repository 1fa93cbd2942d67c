import Verif.Lemmas.UntilState
import Verif.Lemmas.Lump
import Verif.Model.Chain

/-!
# The law of a Markov chain on a random tape

Connects `lawAfterW`, which is defined step by step from finitely many draws, with the probability that the chain, run on a tape of
independent uniform numbers, shows a given value.
-/

set_option linter.unusedSectionVars false
set_option linter.unusedSimpArgs false

namespace Verif
open MeasureTheory ProbabilityTheory

variable {C F S : Type}

/-- The result of a step: the value returned, and the state put together again with the generator. -/
def mkStep {Z : Type} (put : C → Stream → F) (a : Z × C) (r : Stream) : Z × F := (a.1, put a.2 r)

theorem joins_mkStep {Z : Type} {put : C → Stream → F} (hp : Joins put) : Joins (mkStep (Z := Z) put) := by
  intro a a' r r' h
  have h' : (a.1, put a.2 r) = (a'.1, put a'.2 r') := h
  obtain ⟨h1, h0⟩ := Prod.mk.inj h'
  obtain ⟨h2, h3⟩ := hp h0
  exact ⟨Prod.ext h1 h2, h3⟩

theorem mSteps_adaptive {put : C → Stream → F} {step : ℕ → F → Res (S × F)}
    (hA : ∀ c, Adaptive (mkStep put) (fun fuel r => step fuel (put c r))) :
    ∀ (t : ℕ) (c : C), Adaptive (mkStep put) (fun fuel r => mSteps (step fuel) t (put c r)) := by
  intro t
  induction t with
  | zero => intro c; exact Adaptive.ok (mk := mkStep put) (([], c) : List S × C)
  | succ t ih =>
    intro c
    refine Adaptive.bind (mk := mkStep put) (g := fun fuel (p : S × F) => do
      let (l, e) ← mSteps (step fuel) t p.2
      return (p.1 :: l, e)) (hA c) ?_
    rintro ⟨s, c'⟩
    refine Adaptive.bind (mk := mkStep put) (g := fun fuel (q : List S × F) => .ok (s :: q.1, q.2)) (ih c') ?_
    rintro ⟨l, c''⟩
    exact Adaptive.ok (mk := mkStep put) ((s :: l, c'') : List S × C)

theorem mSteps_ret_zero {put : C → Stream → F} (hp : Joins put) {step : ℕ → F → Res (S × F)} {c c' : C} {l : List S} {ω : ℕ → ℝ} {k j : ℕ} :
    RetOf (mkStep put) (fun fuel r => mSteps (step fuel) 0 (put c r)) ω k (l, c') j ↔ l = [] ∧ c' = c ∧ j = k := by
  constructor
  · rintro ⟨F, hF⟩
    have h := hF F (le_refl F)
    have h2 : (([] : List S), put c (⟨ω, k⟩ : Stream)) = (l, put c' (⟨ω, j⟩ : Stream)) := by
      have : (Res.ok (([] : List S), put c (⟨ω, k⟩ : Stream))) = .ok (l, put c' (⟨ω, j⟩ : Stream)) := h
      injection this
    obtain ⟨k1, k2⟩ := Prod.mk.inj h2
    obtain ⟨k3, k4⟩ := hp k2
    refine ⟨k1.symm, k3.symm, ?_⟩
    injection k4 with _ k5
    exact k5.symm
  · rintro ⟨rfl, rfl, rfl⟩
    exact ⟨0, fun _ _ => rfl⟩

theorem mSteps_ret_succ {put : C → Stream → F} (hp : Joins put) {step : ℕ → F → Res (S × F)}
    (hA : ∀ c, Adaptive (mkStep put) (fun fuel r => step fuel (put c r))) {t : ℕ} {c c' : C} {l : List S} {ω : ℕ → ℝ} {k j : ℕ} :
    RetOf (mkStep put) (fun fuel r => mSteps (step fuel) (t + 1) (put c r)) ω k (l, c') j ↔
      ∃ s c1 i l', RetOf (mkStep put) (fun fuel r => step fuel (put c r)) ω k (s, c1) i ∧ l = s :: l' ∧
        RetOf (mkStep put) (fun fuel r => mSteps (step fuel) t (put c1 r)) ω i (l', c') j := by
  have h1 := RetOf.bind_iff (mk := mkStep put) (mk' := mkStep (Z := List S) put) (f := fun fuel r => step fuel (put c r))
    (g := fun fuel (p : S × F) => do
      let (l, e) ← mSteps (step fuel) t p.2
      return (p.1 :: l, e)) (hA c) (ω := ω) (k := k) (j := j) (c := (l, c'))
  refine Iff.trans h1 ?_
  constructor
  · rintro ⟨⟨s, c1⟩, i, h2, h3⟩
    have h4 := (RetOf.bind_iff (mk := mkStep put) (mk' := mkStep (Z := List S) put) (f := fun fuel r => mSteps (step fuel) t (put c1 r))
      (g := fun fuel (q : List S × F) => .ok (s :: q.1, q.2)) (mSteps_adaptive hA t c1) (ω := ω) (k := i) (j := j) (c := (l, c'))).mp h3
    obtain ⟨⟨l', c2⟩, i', h5, F, hF⟩ := h4
    have h6 : (Res.ok (s :: l', put c2 (⟨ω, i'⟩ : Stream))) = .ok (l, put c' (⟨ω, j⟩ : Stream)) := hF F (le_refl F)
    injection h6 with h6
    obtain ⟨k1, k2⟩ := Prod.mk.inj h6
    obtain ⟨k3, k4⟩ := hp k2
    injection k4 with _ k5
    subst k3 k5
    exact ⟨s, c1, i, l', h2, k1.symm, h5⟩
  · rintro ⟨s, c1, i, l', h2, rfl, h3⟩
    refine ⟨(s, c1), i, h2, ?_⟩
    refine (RetOf.bind_iff (mk := mkStep put) (mk' := mkStep (Z := List S) put) (f := fun fuel r => mSteps (step fuel) t (put c1 r))
      (g := fun fuel (q : List S × F) => .ok (s :: q.1, q.2)) (mSteps_adaptive hA t c1) (ω := ω) (k := i) (j := j)
      (c := (s :: l', c'))).mpr ?_
    exact ⟨(l', c'), j, h3, 0, fun _ _ => rfl⟩

/-- What has to be known about one step. -/
structure StepLaw {E D O : Type} (put : C → Stream → F) (step : ℕ → F → Res (S × F)) (V : C → Prop) (o : C → O) (core : E → C)
    (draws : E → Finset D) (wt : E → D → ℚ) (run : E → D → Res E) (obs : E → O) : Prop where
  joins : Joins put
  adaptive : ∀ c, Adaptive (mkStep put) (fun fuel r => step fuel (put c r))
  obs_eq : ∀ e, obs e = o (core e)
  nonneg : ∀ e, V (core e) → ∀ d ∈ draws e, 0 ≤ wt e d
  run_ok : ∀ e, V (core e) → ∀ d ∈ draws e, ∃ e', run e d = .ok e' ∧ V (core e')
  ret : ∀ e, V (core e) → ∀ {ω k s c' j}, RetOf (mkStep put) (fun fuel r => step fuel (put (core e) r)) ω k (s, c') j →
    ∃ d ∈ draws e, ∃ e', run e d = .ok e' ∧ core e' = c'
  chance : ∀ e, V (core e) → ∀ c' (P : D → Prop) [DecidablePred P], (∀ d, P d ↔ ∃ e', run e d = .ok e' ∧ core e' = c') →
    Chance (fun ω k => ∃ s j, RetOf (mkStep put) (fun fuel r => step fuel (put (core e) r)) ω k (s, c') j)
      (∑ d ∈ (draws e).filter P, ENNReal.ofReal (wt e d : ℝ))

variable {E D O : Type} [DecidableEq O] {put : C → Stream → F} {step : ℕ → F → Res (S × F)} {V : C → Prop} {o : C → O} {core : E → C}
  {draws : E → Finset D} {wt : E → D → ℚ} {run : E → D → Res E} {obs : E → O}

theorem StepLaw.law_nonneg (h : StepLaw put step V o core draws wt run obs) (x : O) : ∀ (t : ℕ) (e : E), V (core e) →
    0 ≤ lawAfterW draws wt run obs t e x := by
  intro t
  induction t with
  | zero => intro e _; show (0 : ℚ) ≤ if obs e = x then 1 else 0; split <;> norm_num
  | succ t ih =>
    intro e he
    refine Finset.sum_nonneg (fun d hd => mul_nonneg (h.nonneg e he d hd) ?_)
    obtain ⟨e', h1, h2⟩ := h.run_ok e he d hd
    rw [h1]
    exact ih e' h2

/-- The probability that the chain shows the value `x` after `t` steps. -/
theorem StepLaw.chance_steps (h : StepLaw put step V o core draws wt run obs) (x : O) : ∀ (t : ℕ) (e : E), V (core e) →
    Chance (fun ω k => ∃ l c' j, RetOf (mkStep put) (fun fuel r => mSteps (step fuel) t (put (core e) r)) ω k (l, c') j ∧ o c' = x)
      (ENNReal.ofReal (lawAfterW draws wt run obs t e x : ℝ)) := by
  classical
  intro t
  induction t with
  | zero =>
    intro e he
    by_cases hx : o (core e) = x
    · have : lawAfterW draws wt run obs 0 e x = 1 := by
        show (if obs e = x then (1 : ℚ) else 0) = 1
        rw [h.obs_eq, if_pos hx]
      rw [this]
      simp only [Rat.cast_one, ENNReal.ofReal_one]
      refine Chance.true.congr fun ω k => ⟨fun _ => ⟨[], core e, k, (mSteps_ret_zero h.joins).mpr ⟨rfl, rfl, rfl⟩, hx⟩, fun _ => trivial⟩
    · have : lawAfterW draws wt run obs 0 e x = 0 := by
        show (if obs e = x then (1 : ℚ) else 0) = 0
        rw [h.obs_eq, if_neg hx]
      rw [this]
      simp only [Rat.cast_zero, ENNReal.ofReal_zero]
      refine Chance.false.congr fun ω k => ⟨fun h => h.elim, ?_⟩
      rintro ⟨l, c', j, h1, h2⟩
      obtain ⟨_, rfl, _⟩ := (mSteps_ret_zero h.joins).mp h1
      exact hx h2
  | succ t ih =>
    intro e he
    have : Nonempty E := ⟨e⟩
    have hrun := h.run_ok e he
    choose! nx n1 n2 using hrun
    set Q : C → (ℕ → ℝ) → ℕ → Prop := fun c ω k =>
      ∃ l c' j, RetOf (mkStep put) (fun fuel r => mSteps (step fuel) t (put c r)) ω k (l, c') j ∧ o c' = x with hQ
    let R : (ℕ → ℝ) → ℕ → (S × C) → ℕ → Prop := RetOf (mkStep put) (fun fuel r => step fuel (put (core e) r))
    have hR : Sampler R := (h.adaptive (core e)).sampler (joins_mkStep h.joins)
    -- one term for every possible next state
    have hterm : ∀ c' ∈ (draws e).image (fun d => core (nx d)),
        Chance (fun ω k => ∃ a j, R ω k a j ∧ a.2 = c' ∧ Q a.2 ω j)
          (∑ d ∈ (draws e).filter (fun d => core (nx d) = c'),
            ENNReal.ofReal (wt e d : ℝ) * ENNReal.ofReal (lawAfterW draws wt run obs t (nx d) x : ℝ)) := by
      intro c' hc'
      obtain ⟨d0, hd0, hdc⟩ := Finset.mem_image.mp hc'
      have h1 := h.chance e he c' (fun d => ∃ e', run e d = .ok e' ∧ core e' = c') (fun d => Iff.rfl)
      have h1' : Chance (fun ω k => ∃ a j, R ω k a j ∧ a.2 = c')
          (∑ d ∈ (draws e).filter (fun d => ∃ e', run e d = .ok e' ∧ core e' = c'), ENNReal.ofReal (wt e d : ℝ)) := by
        refine h1.congr fun ω k => ⟨?_, ?_⟩
        · rintro ⟨s, j, hr⟩; exact ⟨(s, c'), j, hr, rfl⟩
        · rintro ⟨⟨s, c''⟩, j, hr, rfl⟩; exact ⟨s, j, hr⟩
      have h2 := ih (nx d0) (n2 d0 hd0)
      rw [show core (nx d0) = c' from hdc] at h2
      have h3 := chance_bind hR h1' (Q := fun a => Q a.2) (w := ENNReal.ofReal (lawAfterW draws wt run obs t (nx d0) x : ℝ)) (by
        rintro ⟨s, c''⟩ hc
        change c'' = c' at hc
        subst hc
        exact h2)
      have hval : (∑ d ∈ (draws e).filter (fun d => core (nx d) = c'),
            ENNReal.ofReal (wt e d : ℝ) * ENNReal.ofReal (lawAfterW draws wt run obs t (nx d) x : ℝ)) =
          (∑ d ∈ (draws e).filter (fun d => ∃ e', run e d = .ok e' ∧ core e' = c'), ENNReal.ofReal (wt e d : ℝ)) *
            ENNReal.ofReal (lawAfterW draws wt run obs t (nx d0) x : ℝ) := by
        rw [Finset.sum_mul]
        refine Finset.sum_congr (Finset.filter_congr fun d hd => ?_) (fun d hd => ?_)
        · constructor
          · intro hc; exact ⟨nx d, n1 d hd, hc⟩
          · rintro ⟨e', k1, k2⟩
            rw [n1 d hd] at k1
            cases k1
            exact k2
        · rw [Finset.mem_filter] at hd
          obtain ⟨hd1, e', k1, k2⟩ := hd
          rw [n1 d hd1] at k1
          cases k1
          have h4 := ih (nx d) (n2 d hd1)
          rw [k2] at h4
          rw [h4.unique h2]
      rw [hval]
      exact h3
    have hsum := Chance.sum _ hterm (by
      rintro c1 - c2 - ω k ⟨a, j, r1, rfl, _⟩ ⟨a', j', r2, rfl, _⟩
      rw [(hR.det r1 r2).1])
    have hval : ENNReal.ofReal (lawAfterW draws wt run obs (t + 1) e x : ℝ) =
        ∑ c' ∈ (draws e).image (fun d => core (nx d)), ∑ d ∈ (draws e).filter (fun d => core (nx d) = c'),
            ENNReal.ofReal (wt e d : ℝ) * ENNReal.ofReal (lawAfterW draws wt run obs t (nx d) x : ℝ) := by
      rw [Finset.sum_fiberwise_of_maps_to (s := draws e) (t := (draws e).image (fun d => core (nx d))) (g := fun d => core (nx d))
        (fun d hd => Finset.mem_image_of_mem _ hd)]
      have : lawAfterW draws wt run obs (t + 1) e x = ∑ d ∈ draws e, wt e d * lawAfterW draws wt run obs t (nx d) x := by
        show (∑ d ∈ draws e, _) = _
        refine Finset.sum_congr rfl (fun d hd => ?_)
        rw [n1 d hd]
      rw [this, Rat.cast_sum, ENNReal.ofReal_sum_of_nonneg]
      · refine Finset.sum_congr rfl (fun d hd => ?_)
        rw [Rat.cast_mul, ENNReal.ofReal_mul]
        exact_mod_cast h.nonneg e he d hd
      · intro d hd
        exact_mod_cast mul_nonneg (h.nonneg e he d hd) (h.law_nonneg x t (nx d) (n2 d hd))
    rw [hval]
    refine hsum.congr fun ω k => ⟨?_, ?_⟩
    · rintro ⟨c', _, a, j, r1, rfl, l, c2, j', r2, r3⟩
      exact ⟨a.1 :: l, c2, j', (mSteps_ret_succ h.joins h.adaptive).mpr ⟨a.1, a.2, j, l, r1, rfl, r2⟩, r3⟩
    · rintro ⟨l, c2, j', r1, r3⟩
      obtain ⟨s, c1, i, l', q1, rfl, q2⟩ := (mSteps_ret_succ h.joins h.adaptive).mp r1
      obtain ⟨d, hd, e', k1, rfl⟩ := h.ret e he q1
      rw [n1 d hd] at k1
      cases k1
      exact ⟨core (nx d), Finset.mem_image_of_mem _ hd, (s, core (nx d)), i, q1, rfl, l', c2, j', q2, r3⟩

/-- The same for the runs of the program. -/
theorem StepLaw.law_eq (h : StepLaw put step V o core draws wt run obs) {e : E} (he : V (core e)) (x : O) (t : ℕ) (P : F → Prop)
    (hP : ∀ c r, P (put c r) ↔ o c = x) :
    (uniformTape {ω | ∃ fuel l f, mSteps (step fuel) t (put (core e) ⟨ω, 0⟩) = .ok (l, f) ∧ P f}).toReal =
      (lawAfterW draws wt run obs t e x : ℝ) := by
  have h1 := (h.chance_steps x t e he).prob 0
  have hset : {ω | ∃ fuel l f, mSteps (step fuel) t (put (core e) ⟨ω, 0⟩) = .ok (l, f) ∧ P f} = {ω : ℕ → ℝ |
      ∃ l c' j, RetOf (mkStep put) (fun fuel r => mSteps (step fuel) t (put (core e) r)) ω 0 (l, c') j ∧ o c' = x} := by
    ext ω
    constructor
    · rintro ⟨fuel, l, f, h2, h3⟩
      obtain ⟨a, j, h4, h5⟩ := (mSteps_adaptive h.adaptive t (core e)).ret (r := (⟨ω, 0⟩ : Stream)) h2
      refine ⟨a.1, a.2, j, h5, ?_⟩
      have : f = put a.2 ⟨ω, j⟩ := congrArg Prod.snd h4
      rw [this] at h3
      exact (hP _ _).mp h3
    · rintro ⟨l, c', j, ⟨F, hF⟩, h3⟩
      exact ⟨F, l, put c' ⟨ω, j⟩, hF F (le_refl F), (hP _ _).mpr h3⟩
  rw [hset, h1, ENNReal.toReal_ofReal]
  exact_mod_cast h.law_nonneg x t e he

/-! ## Draws that are read one after the other -/

/-- Two draws from different ranges. -/
theorem chance_draw_pair {m n : ℕ} (hm : 0 < m) (hn : 0 < n) (P : ℕ × ℕ → Prop) [DecidablePred P] :
    Chance (fun ω k => P (partOf (ω k) m, partOf (ω (k + 1)) n))
      ((((Finset.range m ×ˢ Finset.range n).filter P).card : ENNReal) * ((m * n : ℕ) : ENNReal)⁻¹) := by
  have hterm : ∀ a ∈ Finset.range m, Chance (fun ω k => ∃ b j, (b = partOf (ω k) m ∧ j = k + 1) ∧ b = a ∧ P (a, partOf (ω j) n))
      ((m : ENNReal)⁻¹ * ((((Finset.range n).filter (fun b => P (a, b))).card : ENNReal) * (n : ENNReal)⁻¹)) := by
    intro a ha
    have h1 : Chance (fun ω k => ∃ b j, (b = partOf (ω k) m ∧ j = k + 1) ∧ b = a) ((m : ENNReal)⁻¹) := by
      have := chance_draw hm (fun t => t = a)
      rw [Finset.filter_eq' _ a, if_pos ha, Finset.card_singleton, Nat.cast_one, one_mul] at this
      exact this.congr fun ω k => ⟨fun h => ⟨_, _, ⟨rfl, rfl⟩, h⟩, by rintro ⟨_, _, ⟨rfl, _⟩, h⟩; exact h⟩
    exact chance_bind (Sampler.draw m) h1 (Q := fun _ ω j => P (a, partOf (ω j) n)) (fun _ _ => chance_draw hn (fun b => P (a, b)))
  have hs := Chance.sum (Finset.range m) hterm (by
    rintro a - a' - ω k ⟨b, j, h1, rfl, _⟩ ⟨b', j', h1', rfl, _⟩
    exact ((Sampler.draw m).det h1 h1').1)
  have hval : (∑ a ∈ Finset.range m, (m : ENNReal)⁻¹ *
      ((((Finset.range n).filter (fun b => P (a, b))).card : ENNReal) * (n : ENNReal)⁻¹)) =
      (((Finset.range m ×ˢ Finset.range n).filter P).card : ENNReal) * ((m * n : ℕ) : ENNReal)⁻¹ := by
    rw [Nat.cast_mul, ENNReal.mul_inv (Or.inl (by exact_mod_cast hm.ne')) (Or.inl (ENNReal.natCast_ne_top _)),
      ← Finset.mul_sum, ← Finset.sum_mul, ← Nat.cast_sum]
    have : (∑ a ∈ Finset.range m, ((Finset.range n).filter (fun b => P (a, b))).card) =
        ((Finset.range m ×ˢ Finset.range n).filter P).card := by
      rw [Finset.card_filter, Finset.sum_product]
      exact Finset.sum_congr rfl fun a _ => Finset.card_filter _ _
    rw [this]
    ring
  rw [hval] at hs
  refine hs.congr fun ω k => ⟨?_, ?_⟩
  · rintro ⟨a, _, b, j, ⟨rfl, rfl⟩, h2, h3⟩; rw [h2]; exact h3
  · intro h
    exact ⟨_, Finset.mem_range.mpr (partOf_lt _ hm), _, _, ⟨rfl, rfl⟩, rfl, h⟩

/-- Three draws from different ranges. -/
theorem chance_draw_three {m n l : ℕ} (hm : 0 < m) (hn : 0 < n) (hl : 0 < l) (P : ℕ × ℕ × ℕ → Prop) [DecidablePred P] :
    Chance (fun ω k => P (partOf (ω k) m, partOf (ω (k + 1)) n, partOf (ω (k + 2)) l))
      ((((Finset.range m ×ˢ Finset.range n ×ˢ Finset.range l).filter P).card : ENNReal) * ((m * (n * l) : ℕ) : ENNReal)⁻¹) := by
  have hterm : ∀ a ∈ Finset.range m, Chance (fun ω k => ∃ b j, (b = partOf (ω k) m ∧ j = k + 1) ∧ b = a ∧
      P (a, partOf (ω j) n, partOf (ω (j + 1)) l))
      ((m : ENNReal)⁻¹ * ((((Finset.range n ×ˢ Finset.range l).filter (fun b => P (a, b))).card : ENNReal) * ((n * l : ℕ) : ENNReal)⁻¹)) := by
    intro a ha
    have h1 : Chance (fun ω k => ∃ b j, (b = partOf (ω k) m ∧ j = k + 1) ∧ b = a) ((m : ENNReal)⁻¹) := by
      have := chance_draw hm (fun t => t = a)
      rw [Finset.filter_eq' _ a, if_pos ha, Finset.card_singleton, Nat.cast_one, one_mul] at this
      exact this.congr fun ω k => ⟨fun h => ⟨_, _, ⟨rfl, rfl⟩, h⟩, by rintro ⟨_, _, ⟨rfl, _⟩, h⟩; exact h⟩
    exact chance_bind (Sampler.draw m) h1 (Q := fun _ ω j => P (a, partOf (ω j) n, partOf (ω (j + 1)) l))
      (fun _ _ => chance_draw_pair hn hl (fun b => P (a, b)))
  have hs := Chance.sum (Finset.range m) hterm (by
    rintro a - a' - ω k ⟨b, j, h1, rfl, _⟩ ⟨b', j', h1', rfl, _⟩
    exact ((Sampler.draw m).det h1 h1').1)
  have hval : (∑ a ∈ Finset.range m, (m : ENNReal)⁻¹ *
      ((((Finset.range n ×ˢ Finset.range l).filter (fun b => P (a, b))).card : ENNReal) * ((n * l : ℕ) : ENNReal)⁻¹)) =
      (((Finset.range m ×ˢ Finset.range n ×ˢ Finset.range l).filter P).card : ENNReal) * ((m * (n * l) : ℕ) : ENNReal)⁻¹ := by
    rw [Nat.cast_mul m, ENNReal.mul_inv (Or.inl (by exact_mod_cast hm.ne')) (Or.inl (ENNReal.natCast_ne_top _)),
      ← Finset.mul_sum, ← Finset.sum_mul, ← Nat.cast_sum]
    have : (∑ a ∈ Finset.range m, ((Finset.range n ×ˢ Finset.range l).filter (fun b => P (a, b))).card) =
        ((Finset.range m ×ˢ Finset.range n ×ˢ Finset.range l).filter P).card := by
      rw [Finset.card_filter, Finset.sum_product]
      exact Finset.sum_congr rfl fun a _ => Finset.card_filter _ _
    rw [this]
    ring
  rw [hval] at hs
  refine hs.congr fun ω k => ⟨?_, ?_⟩
  · rintro ⟨a, _, b, j, ⟨rfl, rfl⟩, h2, h3⟩; rw [h2]; exact h3
  · intro h
    exact ⟨_, Finset.mem_range.mpr (partOf_lt _ hm), _, _, ⟨rfl, rfl⟩, rfl, h⟩

/-- A sum of equal weights. -/
theorem sum_uniform (s t : Finset D) (N : ℕ) (hN : t.card = N) (h0 : 0 < N) :
    (∑ _d ∈ s, ENNReal.ofReal (((1 / (t.card : ℚ) : ℚ)) : ℝ)) = (s.card : ENNReal) * (N : ENNReal)⁻¹ := by
  rw [Finset.sum_const, nsmul_eq_mul, hN]
  congr 1
  push_cast
  rw [one_div, ENNReal.ofReal_inv_of_pos (by exact_mod_cast h0), ENNReal.ofReal_natCast]

/-- Steps that read a few numbers and then act deterministically. -/
theorem StepLaw.of_draws (X : C → D → Res (S × C)) (rd : C → (ℕ → ℝ) → ℕ → D) (len : C → D → ℕ) (hj : Joins put)
    (hA : ∀ c, Adaptive (mkStep put) (fun fuel r => step fuel (put c r))) (hobs : ∀ e, obs e = o (core e))
    (hstep : ∀ c, V c → ∀ fuel ω k, step fuel (put c ⟨ω, k⟩) =
      X c (rd c ω k) >>= fun a => .ok (mkStep put a ⟨ω, k + len c (rd c ω k)⟩))
    (hrun : ∀ e, V (core e) → ∀ d ∈ draws e, ∃ g : S × C → E, (run e d = X (core e) d >>= fun a => .ok (g a)) ∧ ∀ a, core (g a) = a.2)
    (hX : ∀ e, V (core e) → ∀ d ∈ draws e, ∃ a, X (core e) d = .ok a ∧ V a.2)
    (hmem : ∀ e, V (core e) → ∀ ω k, rd (core e) ω k ∈ draws e)
    (hch : ∀ e, V (core e) → ∀ (P : D → Prop) [DecidablePred P],
      Chance (fun ω k => P (rd (core e) ω k)) ((((draws e).filter P).card : ENNReal) * ((draws e).card : ENNReal)⁻¹)) :
    StepLaw put step V o core draws (fun e _ => 1 / ((draws e).card : ℚ)) run obs := by
  have key : ∀ e, V (core e) → ∀ {ω k c'}, (∃ s j, RetOf (mkStep put) (fun fuel r => step fuel (put (core e) r)) ω k (s, c') j) ↔
      ∃ e', run e (rd (core e) ω k) = .ok e' ∧ core e' = c' := by
    intro e he ω k c'
    obtain ⟨g, g1, g2⟩ := hrun e he _ (hmem e he ω k)
    obtain ⟨a, a1, _⟩ := hX e he _ (hmem e he ω k)
    rw [g1, a1]
    constructor
    · rintro ⟨s, j, F, hF⟩
      have h1 : step F (put (core e) ⟨ω, k⟩) = .ok (mkStep put (s, c') ⟨ω, j⟩) := hF F (le_refl F)
      rw [hstep _ he, a1] at h1
      have h2 : (Res.ok (mkStep put a (⟨ω, k + len (core e) (rd (core e) ω k)⟩ : Stream))) = .ok (mkStep put (s, c') ⟨ω, j⟩) := h1
      injection h2 with h2
      have h3 := (joins_mkStep hj h2).1
      exact ⟨g a, rfl, by rw [g2, h3]⟩
    · rintro ⟨e', h1, rfl⟩
      have h2 : (Res.ok (g a)) = .ok e' := h1
      injection h2 with h2
      subst h2
      refine ⟨a.1, k + len (core e) (rd (core e) ω k), 0, fun fuel _ => ?_⟩
      show step fuel (put (core e) ⟨ω, k⟩) = _
      rw [hstep _ he, a1, g2]
      rfl
  refine ⟨hj, hA, hobs, ?_, ?_, ?_, ?_⟩
  · intro e _ d _
    positivity
  · intro e he d hd
    obtain ⟨g, g1, g2⟩ := hrun e he d hd
    obtain ⟨a, a1, a2⟩ := hX e he d hd
    refine ⟨g a, by rw [g1, a1]; rfl, by rw [g2]; exact a2⟩
  · intro e he ω k s c' j h
    exact ⟨_, hmem e he ω k, (key e he).mp ⟨s, j, h⟩⟩
  · intro e he c' P _ hP
    have hpos : 0 < (draws e).card := Finset.card_pos.mpr ⟨_, hmem e he (fun _ => 0) 0⟩
    rw [sum_uniform _ _ _ rfl hpos]
    refine (hch e he P).congr fun ω k => ?_
    rw [hP, key e he]

theorem retOf_nofuel {α β : Type} {mk : α → Stream → β} {f : Stream → Res β} {ω : ℕ → ℝ} {k j : ℕ} {a : α} :
    RetOf mk (fun _ r => f r) ω k a j ↔ f ⟨ω, k⟩ = .ok (mk a ⟨ω, j⟩) :=
  ⟨fun ⟨F, hF⟩ => hF F (le_refl F), fun h => ⟨0, fun _ _ => h⟩⟩

end Verif
