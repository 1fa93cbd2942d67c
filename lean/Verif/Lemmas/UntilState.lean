import Verif.Lemmas.Adaptive
import Mathlib.Analysis.SpecificLimits.Basic

/-!
# Drawing until it fits, when a failure leaves something behind

The order of the halves in the configuration model after a failed attempt is the start of the next shuffle.  If the probabilities of
failure and success do not depend on what a failure leaves behind, the law is the same as for independent attempts.
-/

set_option linter.unusedSectionVars false
set_option linter.unusedSimpArgs false

namespace Verif
open MeasureTheory ProbabilityTheory

variable {σ α : Type}

/-- Attempts are made until one succeeds; a failure returns the state for the next attempt. -/
inductive UntilS (Att : σ → (ℕ → ℝ) → ℕ → σ ⊕ α → ℕ → Prop) (ω : ℕ → ℝ) : σ → ℕ → α → ℕ → Prop
  | done {s : σ} {k j : ℕ} {a : α} : Att s ω k (.inr a) j → UntilS Att ω s k a j
  | again {s s' : σ} {k i j : ℕ} {a : α} : Att s ω k (.inl s') i → UntilS Att ω s' i a j → UntilS Att ω s k a j

/-- Success within `n` attempts. -/
def UntilN (Att : σ → (ℕ → ℝ) → ℕ → σ ⊕ α → ℕ → Prop) (ω : ℕ → ℝ) : ℕ → σ → ℕ → α → ℕ → Prop
  | 0, _, _, _, _ => False
  | n + 1, s, k, a, j => Att s ω k (.inr a) j ∨ ∃ s' i, Att s ω k (.inl s') i ∧ UntilN Att ω n s' i a j

variable {Att : σ → (ℕ → ℝ) → ℕ → σ ⊕ α → ℕ → Prop}

theorem untilN_mono {ω : ℕ → ℝ} : ∀ {n : ℕ} {s : σ} {k : ℕ} {a : α} {j : ℕ}, UntilN Att ω n s k a j → UntilN Att ω (n + 1) s k a j := by
  intro n
  induction n with
  | zero => intro s k a j h; exact h.elim
  | succ n ih =>
    intro s k a j h
    rcases h with h | ⟨s', i, h1, h2⟩
    · exact Or.inl h
    · exact Or.inr ⟨s', i, h1, ih h2⟩

theorem untilS_iff {ω : ℕ → ℝ} {s : σ} {k : ℕ} {a : α} {j : ℕ} : UntilS Att ω s k a j ↔ ∃ n, UntilN Att ω n s k a j := by
  constructor
  · intro h
    induction h with
    | done h => exact ⟨1, Or.inl h⟩
    | again h _ ih =>
      obtain ⟨n, hn⟩ := ih
      exact ⟨n + 1, Or.inr ⟨_, _, h, hn⟩⟩
  · rintro ⟨n, h⟩
    induction n generalizing s k with
    | zero => exact h.elim
    | succ n ih =>
      rcases h with h | ⟨s', i, h1, h2⟩
      · exact .done h
      · exact .again h1 (ih h2)

theorem chance_untilN (hS : ∀ s, Sampler (Att s)) {I : σ → Prop} (hI : ∀ {s ω k s' j}, I s → Att s ω k (.inl s') j → I s') {P : α → Prop}
    {r w : ENNReal} (hr : ∀ s, I s → Chance (fun ω k => ∃ s' j, Att s ω k (.inl s') j) r)
    (hw : ∀ s, I s → Chance (fun ω k => ∃ a j, Att s ω k (.inr a) j ∧ P a) w) (n : ℕ) :
    ∀ s, I s → Chance (fun ω k => ∃ a j, UntilN Att ω n s k a j ∧ P a) (w * ∑ i ∈ Finset.range n, r ^ i) := by
  induction n with
  | zero =>
    intro s _
    rw [Finset.range_zero, Finset.sum_empty, mul_zero]
    refine Chance.false.congr fun ω k => ⟨False.elim, ?_⟩
    rintro ⟨a, j, h, _⟩
    exact h
  | succ n ih =>
    intro s hs
    have hr' : Chance (fun ω k => ∃ (x : σ ⊕ α) (j : ℕ), Att s ω k x j ∧ ∃ s', x = .inl s' ∧ I s') r :=
      (hr s hs).congr fun ω k => ⟨fun ⟨s', j, h⟩ => ⟨_, j, h, s', rfl, hI hs h⟩, fun ⟨x, j, h, s', hx, _⟩ => ⟨s', j, hx ▸ h⟩⟩
    have h1 := chance_bind (hS s) (P := fun x => ∃ s', x = .inl s' ∧ I s') hr'
      (Q := fun x ω k => ∃ s', x = .inl s' ∧ ∃ a j, UntilN Att ω n s' k a j ∧ P a) (w := w * ∑ i ∈ Finset.range n, r ^ i) (by
        rintro x ⟨s', rfl, hs'⟩
        refine (ih s' hs').congr fun ω k => ⟨fun h => ⟨s', rfl, h⟩, ?_⟩
        rintro ⟨s2, he, h⟩
        cases he
        exact h)
    have h2 := (hw s hs).or h1 (by
      rintro ω k ⟨a, j, h, _⟩ ⟨x, j', h', ⟨s', rfl, _⟩, _⟩
      have := ((hS s).det h h').1
      cases this)
    have h3 : w + r * (w * ∑ i ∈ Finset.range n, r ^ i) = w * ∑ i ∈ Finset.range (n + 1), r ^ i := by
      rw [Finset.sum_range_succ', mul_add, pow_zero, mul_one, add_comm, ← mul_assoc, mul_comm r w, mul_assoc, Finset.mul_sum]
      have h4 : ∀ i ∈ Finset.range n, r * r ^ i = r ^ (i + 1) := fun i _ => by rw [pow_succ, mul_comm]
      rw [Finset.sum_congr rfl h4]
    rw [h3] at h2
    refine h2.congr fun ω k => ?_
    constructor
    · rintro (⟨a, j, h, hp⟩ | ⟨x, j, h, ⟨s', rfl, _⟩, s2, he, a, j', h', hp⟩)
      · exact ⟨a, j, Or.inl h, hp⟩
      · cases he
        exact ⟨a, j', Or.inr ⟨s', j, h, h'⟩, hp⟩
    · rintro ⟨a, j, h | ⟨s', i, h, h'⟩, hp⟩
      · exact Or.inl ⟨a, j, h, hp⟩
      · exact Or.inr ⟨_, i, h, ⟨s', rfl, hI hs h⟩, s', rfl, a, j, h', hp⟩

/-- **Drawing until it fits, with a state.**  If from every state an attempt fails with probability `r` and succeeds with a value with
the property `P` with probability `w`, then the first success has the property with probability `w / (1 - r)`. -/
theorem chance_untilS (hS : ∀ s, Sampler (Att s)) {I : σ → Prop} (hI : ∀ {s ω k s' j}, I s → Att s ω k (.inl s') j → I s') {P : α → Prop}
    {r w : ENNReal} (hr : ∀ s, I s → Chance (fun ω k => ∃ s' j, Att s ω k (.inl s') j) r)
    (hw : ∀ s, I s → Chance (fun ω k => ∃ a j, Att s ω k (.inr a) j ∧ P a) w) (s : σ) (hs : I s) :
    Chance (fun ω k => ∃ a j, UntilS Att ω s k a j ∧ P a) (w * (1 - r)⁻¹) := by
  have hn := fun n => chance_untilN hS hI hr hw n s hs
  have hset : ∀ k, {ω | ∃ a j, UntilS Att ω s k a j ∧ P a} = ⋃ n, {ω | ∃ a j, UntilN Att ω n s k a j ∧ P a} := by
    intro k
    ext ω
    simp only [Set.mem_iUnion, Set.mem_ofPred_eq, untilS_iff]
    constructor
    · rintro ⟨a, j, ⟨n, h⟩, hp⟩
      exact ⟨n, a, j, h, hp⟩
    · rintro ⟨n, a, j, h, hp⟩
      exact ⟨a, j, ⟨n, h⟩, hp⟩
  refine ⟨fun k => ?_, ?_, fun k => ?_⟩
  · rw [hset]
    exact MeasurableSet.iUnion fun n => (hn n).meas k
  · rintro k ω ω' hag ⟨a, j, h, hp⟩
    obtain ⟨n, h⟩ := untilS_iff.mp h
    obtain ⟨a', j', h', hp'⟩ := (hn n).tail hag ⟨a, j, h, hp⟩
    exact ⟨a', j', untilS_iff.mpr ⟨n, h'⟩, hp'⟩
  · rw [hset, Monotone.measure_iUnion]
    · simp only [(hn _).prob k]
      rw [← ENNReal.mul_iSup, ← ENNReal.tsum_eq_iSup_nat, ENNReal.tsum_geometric]
    · exact monotone_nat_of_le_succ fun n ω ⟨a, j, h, hp⟩ => ⟨a, j, untilN_mono h, hp⟩

theorem ratio_of_counts {x y N : ℕ} (hN : 0 < N) :
    (x : ENNReal) * (N : ENNReal)⁻¹ * ((y : ENNReal) * (N : ENNReal)⁻¹)⁻¹ = (x : ENNReal) / (y : ENNReal) := by
  have h1 : (N : ENNReal) ≠ 0 := by exact_mod_cast hN.ne'
  have h2 : (N : ENNReal) ≠ ⊤ := ENNReal.natCast_ne_top N
  rw [ENNReal.mul_inv (Or.inr (ENNReal.inv_ne_top.mpr h1)) (Or.inr (ENNReal.inv_ne_zero.mpr h2)), inv_inv,
    mul_mul_mul_comm, ENNReal.inv_mul_cancel h1 h2, mul_one]
  rfl

theorem Sampler.untilS (hS : ∀ s, Sampler (Att s)) (s : σ) : Sampler (fun ω k a j => UntilS Att ω s k a j) := by
  refine ⟨?_, ?_⟩
  · intro ω k a j h
    induction h with
    | @done s k j a h =>
      obtain ⟨l, h1, h2, h3⟩ := (hS s).loc h
      exact ⟨l, h1, h2, fun ω' k' hm => .done (h3 ω' k' hm)⟩
    | @again s s' k i j a h _ ih =>
      obtain ⟨l, rfl, h2, h3⟩ := (hS s).loc h
      obtain ⟨l', rfl, h2', h3'⟩ := ih
      refine ⟨l ++ l', by simp [Nat.add_assoc], matches_append.mpr ⟨h2, h2'⟩, fun ω' k' hm => ?_⟩
      obtain ⟨m1, m2⟩ := matches_append.mp hm
      rw [List.length_append, ← Nat.add_assoc]
      exact .again (h3 ω' k' m1) (h3' ω' _ m2)
  · intro ω k a a' j j' h
    induction h with
    | @done s k j a h =>
      intro h'
      cases h' with
      | done h' =>
        obtain ⟨h1, h2⟩ := (hS s).det h h'
        exact ⟨Sum.inr.inj h1, h2⟩
      | again h' _ =>
        obtain ⟨h1, _⟩ := (hS s).det h h'
        cases h1
    | @again s s' k i j a h _ ih =>
      intro h'
      cases h' with
      | done h' =>
        obtain ⟨h1, _⟩ := (hS s).det h h'
        cases h1
      | again h' h'' =>
        obtain ⟨h1, h2⟩ := (hS s).det h h'
        cases h1
        subst h2
        exact ih h''

/-- Folds of any joined state. -/
theorem Adaptive.foldlM' {β ε : Type} {mk : α → Stream → β} {step : ℕ → β → ε → Res β}
    (hs : ∀ x a, Adaptive mk (fun fuel r => step fuel (mk a r) x)) :
    ∀ (l : List ε) (a : α), Adaptive mk (fun fuel r => l.foldlM (step fuel) (mk a r)) := by
  intro l
  induction l with
  | nil => intro a; exact Adaptive.ok a
  | cons x l ih =>
    intro a
    have := (hs x a).bind (g := fun fuel b => l.foldlM (step fuel) b) (fun a' => ih a')
    simpa only [List.foldlM_cons] using this

/-- What is returned with some fuel is returned with every larger one. -/
theorem Adaptive.retOf {β : Type} {mk : α → Stream → β} (hm : Joins mk) {f : ℕ → Stream → Res β} (hf : Adaptive mk f) {fuel : ℕ}
    {ω : ℕ → ℝ} {k j : ℕ} {a : α} (h : f fuel ⟨ω, k⟩ = .ok (mk a ⟨ω, j⟩)) : RetOf mk f ω k a j := by
  obtain ⟨a', j', h1, h2⟩ := hf.ret h
  obtain ⟨rfl, h3⟩ := hm h1
  cases h3
  exact h2

end Verif
