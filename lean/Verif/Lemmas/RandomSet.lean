import Verif.Lemmas.TapeMean
import Mathlib.Algebra.BigOperators.Ring.Finset

/-!
# Random subsets in which every element is contained independently with the same probability
-/

set_option linter.unusedSectionVars false
set_option linter.unusedSimpArgs false

namespace Verif
open MeasureTheory ProbabilityTheory

variable {Ω β : Type} [MeasurableSpace Ω] [DecidableEq β] {μ : Measure Ω} [IsProbabilityMeasure μ]

/-- `X` is a random subset of `base` with the product law. -/
structure ProductLaw (μ : Measure Ω) (base : Finset β) (r : ℝ) (X : Ω → Finset β) : Prop where
  r0 : 0 ≤ r
  r1 : r ≤ 1
  sub : ∀ ω, X ω ⊆ base
  meas : ∀ S, MeasurableSet {ω | X ω = S}
  prob : ∀ S ⊆ base, μ {ω | X ω = S} = ENNReal.ofReal (r ^ S.card * (1 - r) ^ (base.card - S.card))

namespace ProductLaw

variable {base : Finset β} {r : ℝ} {X : Ω → Finset β}

theorem event_eq (h : ProductLaw μ base r X) (P : Finset β → Prop) [DecidablePred P] :
    {ω | P (X ω)} = ⋃ S ∈ base.powerset.filter P, {ω | X ω = S} := by
  ext ω
  simp only [Set.mem_ofPred_eq, Set.mem_iUnion, Finset.mem_filter, Finset.mem_powerset, exists_prop]
  constructor
  · intro hp; exact ⟨X ω, ⟨h.sub ω, hp⟩, rfl⟩
  · rintro ⟨S, ⟨_, hp⟩, hS⟩; rw [hS]; exact hp

theorem measurable (h : ProductLaw μ base r X) (P : Finset β → Prop) : MeasurableSet {ω | P (X ω)} := by
  classical
  rw [h.event_eq P]
  exact Finset.measurableSet_biUnion _ fun S _ => h.meas S

theorem event (h : ProductLaw μ base r X) (P : Finset β → Prop) [DecidablePred P] :
    μ {ω | P (X ω)} = ENNReal.ofReal (∑ S ∈ base.powerset.filter P, r ^ S.card * (1 - r) ^ (base.card - S.card)) := by
  have h1 : 0 ≤ 1 - r := by have := h.r1; linarith
  have h0 := h.r0
  rw [h.event_eq P, measure_biUnion_finset, ENNReal.ofReal_sum_of_nonneg]
  · exact Finset.sum_congr rfl fun S hS => h.prob S (Finset.mem_powerset.mp (Finset.mem_filter.mp hS).1)
  · intro S _; positivity
  · intro S _ S' _ hne
    rw [Function.onFun, Set.disjoint_left]
    intro ω h1 h2
    exact hne (h1.symm.trans h2)
  · intro S _; exact h.meas S

/-- Given elements are contained and other given elements are not. -/
theorem inside_outside (h : ProductLaw μ base r X) {A B : Finset β} (hA : A ⊆ base) (hB : B ⊆ base) (hAB : Disjoint A B) :
    μ {ω | A ⊆ X ω ∧ Disjoint B (X ω)} = ENNReal.ofReal (r ^ A.card * (1 - r) ^ B.card) := by
  classical
  rw [h.event (fun S => A ⊆ S ∧ Disjoint B S)]
  congr 1
  set C := (base \ A) \ B with hC
  have hcard : C.card + A.card + B.card = base.card := by
    rw [hC, Finset.card_sdiff_of_subset, Finset.card_sdiff_of_subset hA]
    · have h1 := Finset.card_le_card (Finset.union_subset hA hB)
      rw [Finset.card_union_of_disjoint hAB] at h1
      omega
    · intro x hx
      exact Finset.mem_sdiff.mpr ⟨hB hx, fun hc => Finset.disjoint_left.mp hAB hc hx⟩
  have hsum : ∑ S ∈ base.powerset.filter (fun S => A ⊆ S ∧ Disjoint B S), r ^ S.card * (1 - r) ^ (base.card - S.card) =
      ∑ S ∈ C.powerset, (r ^ A.card * (1 - r) ^ B.card) * (r ^ S.card * (1 - r) ^ (C.card - S.card)) := by
    refine (Finset.sum_bij' (fun S _ => S ∪ A) (fun S _ => S \ A) ?_ ?_ ?_ ?_ ?_).symm
    · intro S hS
      have hS := Finset.mem_powerset.mp hS
      refine Finset.mem_filter.mpr ⟨Finset.mem_powerset.mpr (Finset.union_subset (fun x hx => ?_) hA), Finset.subset_union_right, ?_⟩
      · have := hS hx
        rw [hC, Finset.mem_sdiff, Finset.mem_sdiff] at this
        exact this.1.1
      · rw [Finset.disjoint_union_right]
        refine ⟨?_, hAB.symm⟩
        rw [Finset.disjoint_left]
        intro x hxB hxS
        have := hS hxS
        rw [hC, Finset.mem_sdiff] at this
        exact this.2 hxB
    · intro S hS
      obtain ⟨h1, h2, h3⟩ := Finset.mem_filter.mp hS
      rw [Finset.mem_powerset] at h1 ⊢
      intro x hx
      obtain ⟨hx1, hx2⟩ := Finset.mem_sdiff.mp hx
      rw [hC, Finset.mem_sdiff, Finset.mem_sdiff]
      exact ⟨⟨h1 hx1, hx2⟩, fun hb => Finset.disjoint_left.mp h3 hb hx1⟩
    · intro S hS
      have hS := Finset.mem_powerset.mp hS
      refine Finset.union_sdiff_cancel_right ?_
      rw [Finset.disjoint_left]
      intro x hxS hxA
      have := hS hxS
      rw [hC, Finset.mem_sdiff, Finset.mem_sdiff] at this
      exact this.1.2 hxA
    · intro S hS
      obtain ⟨h1, h2, h3⟩ := Finset.mem_filter.mp hS
      exact Finset.sdiff_union_of_subset h2
    · intro S hS
      have hS := Finset.mem_powerset.mp hS
      have hd : Disjoint S A := by
        rw [Finset.disjoint_left]
        intro x hxS hxA
        have := hS hxS
        rw [hC, Finset.mem_sdiff, Finset.mem_sdiff] at this
        exact this.1.2 hxA
      have hle := Finset.card_le_card hS
      rw [Finset.card_union_of_disjoint hd, show base.card - (S.card + A.card) = B.card + (C.card - S.card) by omega, pow_add, pow_add]
      ring
  rw [hsum, ← Finset.mul_sum, Finset.sum_pow_mul_eq_add_pow]
  rw [show r + (1 - r) = 1 by ring, one_pow, mul_one]

/-- The number of elements is binomial. -/
theorem card_law (h : ProductLaw μ base r X) (k : ℕ) :
    μ {ω | (X ω).card = k} = ENNReal.ofReal ((base.card.choose k : ℝ) * (r ^ k * (1 - r) ^ (base.card - k))) := by
  rw [h.event (fun S => S.card = k)]
  congr 1
  rw [show base.powerset.filter (fun S => S.card = k) = base.powersetCard k from (Finset.powersetCard_eq_filter).symm,
    Finset.sum_congr rfl (fun S hS => by rw [(Finset.mem_powersetCard.mp hS).2]), Finset.sum_const, Finset.card_powersetCard, nsmul_eq_mul]

theorem single (h : ProductLaw μ base r X) {o : β} (ho : o ∈ base) : μ {ω | o ∈ X ω} = ENNReal.ofReal r := by
  have := h.inside_outside (A := {o}) (B := ∅) (Finset.singleton_subset_iff.mpr ho) (Finset.empty_subset _) (Finset.disjoint_empty_right _)
  simpa using this

/-- Mean and variance of the number of elements. -/
theorem moments (h : ProductLaw μ base r X) : MemLp (fun ω => ((X ω).card : ℝ)) 2 μ ∧
    ∫ ω, ((X ω).card : ℝ) ∂μ = base.card * r ∧ variance (fun ω => ((X ω).card : ℝ)) μ = base.card * (r * (1 - r)) := by
  classical
  set A : {o // o ∈ base} → Set Ω := fun o => {ω | o.1 ∈ X ω} with hA
  have hm : ∀ o, MeasurableSet (A o) := fun o => h.measurable (fun S => o.1 ∈ S)
  have hr : ∀ o, μ.real (A o) = r := by
    intro o
    rw [measureReal_def, hA, h.single o.2, ENNReal.toReal_ofReal h.r0]
  have hcount : (fun ω => ((X ω).card : ℝ)) = howMany (Finset.univ : Finset {o // o ∈ base}) A := by
    funext ω
    rw [howMany_eq_card]
    congr 1
    refine (Finset.card_bij (fun o _ => o.1) ?_ ?_ ?_).symm
    · intro o ho; exact (Finset.mem_filter.mp ho).2
    · intro a _ b _ hab; exact Subtype.ext hab
    · intro o ho; exact ⟨⟨o, h.sub ω ho⟩, Finset.mem_filter.mpr ⟨Finset.mem_univ _, ho⟩, rfl⟩
  have hI : iIndepSet A μ := by
    rw [iIndepSet_iff_meas_biInter hm]
    intro s
    have hset : (⋂ i ∈ s, A i) = {ω | s.map (Function.Embedding.subtype _) ⊆ X ω ∧ Disjoint (∅ : Finset β) (X ω)} := by
      ext ω
      simp only [Set.mem_iInter, Set.mem_ofPred_eq, hA, Finset.disjoint_empty_left, and_true, Finset.subset_iff, Finset.mem_map,
        Function.Embedding.subtype_apply]
      constructor
      · rintro h x ⟨a, ha, rfl⟩; exact h a ha
      · intro h a ha; exact h ⟨a, ha, rfl⟩
    rw [hset, h.inside_outside (fun x hx => by
      obtain ⟨a, _, rfl⟩ := Finset.mem_map.mp hx
      exact a.2) (Finset.empty_subset _) (Finset.disjoint_empty_right _)]
    rw [Finset.prod_congr rfl (fun o _ => h.single o.2), Finset.prod_const, Finset.card_map, Finset.card_empty, pow_zero, mul_one,
      ENNReal.ofReal_pow h.r0]
  rw [hcount]
  refine ⟨howMany_memLp _ hm, ?_, ?_⟩
  · rw [howMany_mean _ hm, Finset.sum_congr rfl (fun o _ => hr o), Finset.sum_const, Finset.card_univ, Fintype.card_coe, nsmul_eq_mul]
  · rw [howMany_variance _ hm hI, Finset.sum_congr rfl (fun o _ => by rw [hr o]), Finset.sum_const, Finset.card_univ, Fintype.card_coe, nsmul_eq_mul]

end ProductLaw
end Verif
