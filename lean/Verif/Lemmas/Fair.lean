import Verif.Spec.Stream

/-!
# Almost every tape is fair
-/

set_option linter.unusedSectionVars false
set_option linter.unusedSimpArgs false

namespace Verif
open MeasureTheory ProbabilityTheory

theorem getD_lt {α : Type} {l : List α} {i : ℕ} (h : i < l.length) {d : α} : l.getD i d = l[i] := by simp [h]

/-- Position `t` of a tape that follows the pattern in block `j`: the block and the place in it. -/
theorem follows_iff_pi {w : List (ℚ × ℚ)} (hw : w ≠ []) (s : ℕ) (S : Finset ℕ) (ω : ℕ → ℝ) :
    (∀ j ∈ S, Follows ω w (s + j * w.length)) ↔
      ω ∈ Set.pi ((S ×ˢ Finset.range w.length).image (fun p => s + p.1 * w.length + p.2) : Finset ℕ)
        (fun t => Set.Ico (((w.getD ((t - s) % w.length) (0, 0)).1 : ℚ) : ℝ) (((w.getD ((t - s) % w.length) (0, 0)).2 : ℚ) : ℝ)) := by
  have hl : 0 < w.length := List.length_pos_of_ne_nil hw
  constructor
  · intro h t ht
    simp only [Finset.coe_image, Set.mem_image, Finset.mem_coe, Finset.mem_product, Finset.mem_range] at ht
    obtain ⟨⟨j, i⟩, ⟨hj, hi⟩, rfl⟩ := ht
    have h1 := h j hj i hi
    have h2 : (s + j * w.length + i - s) % w.length = i := by
      rw [Nat.add_assoc, Nat.add_sub_cancel_left, Nat.mul_comm, Nat.mul_add_mod, Nat.mod_eq_of_lt hi]
    show _ ∧ _
    rw [h2, getD_lt hi]
    exact h1
  · intro h j hj i hi
    have h1 := h (s + j * w.length + i) (by
      simp only [Finset.coe_image, Set.mem_image, Finset.mem_coe, Finset.mem_product, Finset.mem_range]
      exact ⟨(j, i), ⟨hj, hi⟩, rfl⟩)
    have h2 : (s + j * w.length + i - s) % w.length = i := by
      rw [Nat.add_assoc, Nat.add_sub_cancel_left, Nat.mul_comm, Nat.mul_add_mod, Nat.mod_eq_of_lt hi]
    simp only [h2, getD_lt hi] at h1
    exact h1

/-- The probability that the tape follows the pattern in all the given blocks. -/
theorem measure_follows {w : List (ℚ × ℚ)} (hw : w ≠ []) (s : ℕ) (S : Finset ℕ) :
    uniformTape {ω | ∀ j ∈ S, Follows ω w (s + j * w.length)} =
      ∏ _j ∈ S, ∏ i ∈ Finset.range w.length, (volume.restrict (Set.Ico (0 : ℝ) 1))
        (Set.Ico (((w.getD i (0, 0)).1 : ℚ) : ℝ) (((w.getD i (0, 0)).2 : ℚ) : ℝ)) := by
  have hl : 0 < w.length := List.length_pos_of_ne_nil hw
  have h1 : {ω | ∀ j ∈ S, Follows ω w (s + j * w.length)} =
      Set.pi ((S ×ˢ Finset.range w.length).image (fun p => s + p.1 * w.length + p.2) : Finset ℕ)
        (fun t => Set.Ico (((w.getD ((t - s) % w.length) (0, 0)).1 : ℚ) : ℝ) (((w.getD ((t - s) % w.length) (0, 0)).2 : ℚ) : ℝ)) :=
    Set.ext (fun ω => follows_iff_pi hw s S ω)
  rw [h1, uniformTape, Measure.infinitePi_pi _ (fun _ _ => measurableSet_Ico), Finset.prod_image, Finset.prod_product]
  · refine Finset.prod_congr rfl fun j _ => Finset.prod_congr rfl fun i hi => ?_
    have h2 : (s + j * w.length + i - s) % w.length = i := by
      rw [Nat.add_assoc, Nat.add_sub_cancel_left, Nat.mul_comm, Nat.mul_add_mod, Nat.mod_eq_of_lt (Finset.mem_range.mp hi)]
    rw [h2]
  · rintro ⟨j, i⟩ h ⟨j', i'⟩ h' he
    simp only [Finset.coe_product, Set.mem_prod, Finset.mem_coe, Finset.mem_range] at h h'
    simp only at he
    have e1 : (w.length * j + i) % w.length = (w.length * j' + i') % w.length := by
      congr 1
      rw [Nat.mul_comm, Nat.mul_comm w.length]
      omega
    rw [Nat.mul_add_mod, Nat.mul_add_mod, Nat.mod_eq_of_lt h.2, Nat.mod_eq_of_lt h'.2] at e1
    subst e1
    have e2 : j * w.length = j' * w.length := by omega
    rw [Nat.eq_of_mul_eq_mul_right hl e2]

theorem measurableSet_follows {w : List (ℚ × ℚ)} (hw : w ≠ []) (k : ℕ) : MeasurableSet {ω : ℕ → ℝ | Follows ω w k} := by
  have h1 := follows_iff_pi hw k {0}
  simp only [Finset.mem_singleton, forall_eq, Nat.zero_mul, Nat.add_zero] at h1
  have h2 : {ω : ℕ → ℝ | Follows ω w k} = _ := Set.ext (fun ω => h1 ω)
  rw [h2]
  exact MeasurableSet.pi (Finset.countable_toSet _) (fun _ _ => measurableSet_Ico)

/-- Almost every tape is fair. -/
theorem ae_fair : ∀ᵐ ω ∂uniformTape, Fair ω := by
  have key : ∀ w : List (ℚ × ℚ), Pattern w → ∀ s : ℕ, ∀ᵐ ω ∂uniformTape, ∃ j, Follows ω w (s + j * w.length) := by
    rintro w ⟨hw, hI⟩ s
    have hm : ∀ j, MeasurableSet {ω : ℕ → ℝ | Follows ω w (s + j * w.length)} := fun j => measurableSet_follows hw _
    have hone : ∀ j : ℕ, uniformTape {ω | Follows ω w (s + j * w.length)} =
        ∏ i ∈ Finset.range w.length, (volume.restrict (Set.Ico (0 : ℝ) 1))
        (Set.Ico (((w.getD i (0, 0)).1 : ℚ) : ℝ) (((w.getD i (0, 0)).2 : ℚ) : ℝ)) := by
      intro j
      have := measure_follows hw s {j}
      simpa using this
    have hind : iIndepSet (fun j : ℕ => {ω : ℕ → ℝ | Follows ω w (s + j * w.length)}) uniformTape := by
      rw [iIndepSet_iff_meas_biInter hm]
      intro S
      have h1 : (⋂ j ∈ S, {ω : ℕ → ℝ | Follows ω w (s + j * w.length)}) = {ω | ∀ j ∈ S, Follows ω w (s + j * w.length)} := by
        ext ω; simp
      rw [h1, measure_follows hw]
      exact Finset.prod_congr rfl fun j _ => (hone j).symm
    have hpos : (∏ i ∈ Finset.range w.length, (volume.restrict (Set.Ico (0 : ℝ) 1))
        (Set.Ico (((w.getD i (0, 0)).1 : ℚ) : ℝ) (((w.getD i (0, 0)).2 : ℚ) : ℝ))) ≠ 0 := by
      rw [Finset.prod_ne_zero_iff]
      intro i hi
      have hi' := Finset.mem_range.mp hi
      obtain ⟨a1, a2, a3⟩ := hI (w[i]) (List.getElem_mem hi')
      rw [getD_lt hi', Measure.restrict_apply measurableSet_Ico]
      have hsub : Set.Ico ((w[i].1 : ℚ) : ℝ) ((w[i].2 : ℚ) : ℝ) ∩ Set.Ico 0 1 = Set.Ico ((w[i].1 : ℚ) : ℝ) ((w[i].2 : ℚ) : ℝ) := by
        apply Set.inter_eq_left.mpr
        intro x hx
        have b1 : (0 : ℝ) ≤ ((w[i].1 : ℚ) : ℝ) := by exact_mod_cast a1
        have b2 : ((w[i].2 : ℚ) : ℝ) ≤ 1 := by exact_mod_cast a3
        exact ⟨b1.trans hx.1, lt_of_lt_of_le hx.2 b2⟩
      rw [hsub, Real.volume_Ico]
      have b3 : ((w[i].1 : ℚ) : ℝ) < ((w[i].2 : ℚ) : ℝ) := by exact_mod_cast a2
      simpa using b3
    have hsum : (∑' j : ℕ, uniformTape {ω | Follows ω w (s + j * w.length)}) = ⊤ := by
      simp only [hone]
      exact ENNReal.tsum_const_eq_top_of_ne_zero hpos
    have hlim := measure_limsup_eq_one hm hind hsum
    have hae : ∀ᵐ ω ∂uniformTape, ω ∈ Filter.limsup (fun j : ℕ => {ω : ℕ → ℝ | Follows ω w (s + j * w.length)}) Filter.atTop := by
      rw [← prob_compl_eq_zero_iff (MeasurableSet.measurableSet_limsup hm)] at hlim
      rw [ae_iff]
      exact hlim
    filter_upwards [hae] with ω hω
    rw [Filter.mem_limsup_iff_frequently_mem] at hω
    obtain ⟨j, _, hj⟩ := (Filter.frequently_atTop.mp hω) 0
    exact ⟨j, hj⟩
  have h2 : ∀ᵐ ω ∂uniformTape, ∀ w : List (ℚ × ℚ), ∀ s : ℕ, Pattern w → ∃ j, Follows ω w (s + j * w.length) := by
    rw [ae_all_iff]
    intro w
    rw [ae_all_iff]
    intro s
    by_cases hw : Pattern w
    · filter_upwards [key w hw s] with ω hω _ using hω
    · exact Filter.Eventually.of_forall fun ω h => absurd h hw
  filter_upwards [h2] with ω hω w hw s using hω w s hw

end Verif
