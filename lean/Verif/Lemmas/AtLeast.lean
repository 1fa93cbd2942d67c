import Verif.Lemmas.Adaptive

/-!
# Lower bounds for the probability of a chain of programs
-/

set_option linter.unusedSectionVars false
set_option linter.unusedSimpArgs false

namespace Verif
open MeasureTheory ProbabilityTheory

variable {α β : Type}

/-- From every position on, the event about the rest of the tape has probability `w` or more. -/
structure AtLeast (Q : (ℕ → ℝ) → ℕ → Prop) (w : ENNReal) : Prop where
  meas : ∀ k, MeasurableSet {ω | Q ω k}
  tail : ∀ {k} {ω ω' : ℕ → ℝ}, (∀ t, k ≤ t → ω t = ω' t) → Q ω k → Q ω' k
  prob : ∀ k, w ≤ uniformTape {ω | Q ω k}

theorem Chance.atLeast {Q : (ℕ → ℝ) → ℕ → Prop} {w w' : ENNReal} (h : Chance Q w) (hw : w' ≤ w) : AtLeast Q w' :=
  ⟨h.meas, h.tail, fun k => by rw [h.prob k]; exact hw⟩

theorem AtLeast.congr {Q Q' : (ℕ → ℝ) → ℕ → Prop} {w : ENNReal} (h : AtLeast Q w) (he : ∀ ω k, Q ω k ↔ Q' ω k) : AtLeast Q' w := by
  have : Q = Q' := by funext ω k; exact propext (he ω k)
  rwa [← this]

theorem AtLeast.mono {Q : (ℕ → ℝ) → ℕ → Prop} {w w' : ENNReal} (h : AtLeast Q w) (hw : w' ≤ w) : AtLeast Q w' :=
  ⟨h.meas, h.tail, fun k => hw.trans (h.prob k)⟩

/-- The program with a fixed number of rounds. -/
theorem Adaptive.samplerAt {mk : α → Stream → β} (hm : Joins mk) {f : ℕ → Stream → Res β} (hf : Adaptive mk f) (F : ℕ) :
    Sampler (fun ω k a j => f F ⟨ω, k⟩ = .ok (mk a ⟨ω, j⟩)) := by
  refine ⟨?_, ?_⟩
  · intro ω k a j h
    obtain ⟨a', l, h1, h2, h3⟩ := hf F ω k _ h
    obtain ⟨rfl, h4⟩ := hm h1
    exact ⟨l, congrArg Stream.pos h4, h2, fun ω' k' hm' => h3 F (le_refl F) ω' k' hm'⟩
  · intro ω k a a' j j' h h'
    rw [h] at h'
    obtain ⟨h2, h3⟩ := hm (Res.ok.inj h')
    exact ⟨h2, congrArg Stream.pos h3⟩

/-- One program after the other. -/
theorem atLeast_bind {Ret : (ℕ → ℝ) → ℕ → α → ℕ → Prop} (hS : Sampler Ret) {P : α → Prop} {v w : ENNReal}
    (hP : AtLeast (fun ω k => ∃ a j, Ret ω k a j ∧ P a) v) {Q : α → (ℕ → ℝ) → ℕ → Prop} (hQ : ∀ a, P a → AtLeast (Q a) w) :
    AtLeast (fun ω k => ∃ a j, Ret ω k a j ∧ P a ∧ Q a ω j) (v * w) := by
  have main : ∀ k, MeasurableSet {ω | ∃ a j, Ret ω k a j ∧ P a ∧ Q a ω j} ∧
      v * w ≤ uniformTape {ω | ∃ a j, Ret ω k a j ∧ P a ∧ Q a ω j} := by
    intro k
    let I := {l : List (ℕ × ℕ) // ∃ a, P a ∧ ∀ ω' k', Matches ω' k' l → Ret ω' k' a (k' + l.length)}
    by_cases hne : Nonempty I
    · obtain ⟨e, he⟩ := exists_surjective_nat I
      choose val hval1 hval2 using fun n => (e n).2
      let N : ℕ → Set (ℕ → ℝ) := fun n => {ω | Matches ω k (e n).1}
      have hNm : ∀ n, MeasurableSet (N n) := fun n => measurableSet_matches k _
      have hDm : ∀ n, MeasurableSet (disjointed N n) := fun n => MeasurableSet.disjointed hNm n
      have hsub : ∀ n, disjointed N n ⊆ N n := fun n => disjointed_subset N n
      let j : ℕ → ℕ := fun n => k + (e n).1.length
      let B : ℕ → Set (ℕ → ℝ) := fun n => disjointed N n ∩ {ω | Q (val n) ω (j n)}
      have hret : ∀ n ω, ω ∈ N n → Ret ω k (val n) (j n) := fun n ω hω => hval2 n ω k hω
      have hinit : ∀ n (ω ω' : ℕ → ℝ), (∀ t, t < j n → ω t = ω' t) → ω ∈ disjointed N n → ω' ∈ disjointed N n := by
        intro n ω ω' hag hω
        have h1 : ω' ∈ N n := Matches.congr (hsub n hω) (fun t _ ht => hag t ht)
        rw [disjointed_eq_inter_compl] at hω ⊢
        have hω2 : ∀ m < n, ω ∉ N m := by
          intro m hm hc
          exact Set.mem_iInter₂.mp hω.2 m hm hc
        refine ⟨h1, Set.mem_iInter₂.mpr ?_⟩
        intro m hm hm'
        have hj : j m = j n := (hS.det (hret m ω' hm') (hret n ω' h1)).2
        exact hω2 m hm (Matches.congr hm' (fun t _ ht => (hag t (by rw [← hj]; exact ht)).symm))
      have hcover : ∀ ω a i, Ret ω k a i → P a → ∃ n, ω ∈ disjointed N n ∧ val n = a ∧ j n = i := by
        intro ω a i hr hp
        obtain ⟨l, rfl, h1, h2⟩ := hS.loc hr
        obtain ⟨n, hn⟩ := he ⟨l, a, hp, h2⟩
        have hω : ω ∈ ⋃ n, N n := by
          refine Set.mem_iUnion.mpr ⟨n, ?_⟩
          show Matches ω k (e n).1
          rw [hn]; exact h1
        rw [← iUnion_disjointed] at hω
        obtain ⟨m, hm⟩ := Set.mem_iUnion.mp hω
        obtain ⟨h3, h4⟩ := hS.det (hret m ω (hsub m hm)) hr
        exact ⟨m, hm, h3, h4⟩
      have hset : {ω | ∃ a j, Ret ω k a j ∧ P a ∧ Q a ω j} = ⋃ n, B n := by
        ext ω
        simp only [Set.mem_ofPred_eq, Set.mem_iUnion]
        constructor
        · rintro ⟨a, i, hr, hp, hq⟩
          obtain ⟨n, h1, h2, h3⟩ := hcover ω a i hr hp
          exact ⟨n, h1, by simp only [Set.mem_ofPred_eq]; rw [h2, h3]; exact hq⟩
        · rintro ⟨n, h1, h2⟩
          exact ⟨val n, j n, hret n ω (hsub n h1), hval1 n, h2⟩
      have hset' : {ω | ∃ a j, Ret ω k a j ∧ P a} = ⋃ n, disjointed N n := by
        ext ω
        simp only [Set.mem_ofPred_eq, Set.mem_iUnion]
        constructor
        · rintro ⟨a, i, hr, hp⟩
          obtain ⟨n, h1, _⟩ := hcover ω a i hr hp
          exact ⟨n, h1⟩
        · rintro ⟨n, h1⟩
          exact ⟨val n, j n, hret n ω (hsub n h1), hval1 n⟩
      have hBm : ∀ n, MeasurableSet (B n) := fun n => (hDm n).inter ((hQ _ (hval1 n)).meas _)
      have hdis := disjoint_disjointed N
      refine ⟨by rw [hset]; exact MeasurableSet.iUnion hBm, ?_⟩
      rw [hset, measure_iUnion (fun a b hab => ((hdis hab).mono Set.inter_subset_left Set.inter_subset_left)) hBm]
      have hB : ∀ n, uniformTape (disjointed N n) * w ≤ uniformTape (B n) := by
        intro n
        refine (mul_le_mul_right ((hQ _ (hval1 n)).prob (j n)) _).trans (le_of_eq ?_)
        exact (indep_before_after (hDm n) (hinit n) ((hQ _ (hval1 n)).meas _) (fun ω ω' hag hω => (hQ _ (hval1 n)).tail hag hω)).symm
      refine le_trans ?_ (ENNReal.tsum_le_tsum hB)
      rw [ENNReal.tsum_mul_right, ← measure_iUnion hdis hDm, ← hset']
      exact mul_le_mul_left (hP.prob k) _
    · have hno : ∀ ω a j, Ret ω k a j → ¬ P a := by
        intro ω a j hr hp
        obtain ⟨l, _, _, h2⟩ := hS.loc hr
        exact hne ⟨⟨l, a, hp, h2⟩⟩
      have h1 : {ω | ∃ a j, Ret ω k a j ∧ P a ∧ Q a ω j} = ∅ := by
        ext ω
        simp only [Set.mem_ofPred_eq, Set.mem_empty_iff_false, iff_false]
        rintro ⟨a, j, hr, hp, _⟩
        exact hno ω a j hr hp
      have h2 : {ω | ∃ a j, Ret ω k a j ∧ P a} = ∅ := by
        ext ω
        simp only [Set.mem_ofPred_eq, Set.mem_empty_iff_false, iff_false]
        rintro ⟨a, j, hr, hp⟩
        exact hno ω a j hr hp
      have h3 := hP.prob k
      rw [h2, measure_empty] at h3
      have h4 : v = 0 := le_antisymm h3 zero_le
      rw [h1, h4]
      simp
  refine ⟨fun k => (main k).1, ?_, fun k => (main k).2⟩
  rintro k ω ω' hag ⟨a, j, hr, hp, hq⟩
  exact ⟨a, j, hS.congr_tail hag hr, hp, (hQ a hp).tail (fun t ht => hag t ((hS.le hr).trans ht)) hq⟩

end Verif
