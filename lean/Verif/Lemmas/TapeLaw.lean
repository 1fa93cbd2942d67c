import Verif.Lemmas.Draws
import Verif.Lemmas.Dog
import Mathlib.Probability.Independence.InfinitePi
import Mathlib.MeasureTheory.Function.Floor

/-!
# Probabilities on the tape

The numbers of the tape are independent, and cutting `[0, 1)` into equal parts gives uniform draws.  A sequence of throws reads one
number each.
-/

set_option linter.unusedSectionVars false
set_option linter.unusedSimpArgs false

namespace Verif
open MeasureTheory ProbabilityTheory AdjContainer GenericGraph

theorem measurable_partOf (h : ℕ) : Measurable (fun x : ℝ => partOf x h) := by
  unfold partOf
  exact (Nat.measurable_floor.comp (measurable_id.mul_const (h : ℝ))).min measurable_const

theorem measurableSet_partOf (h k : ℕ) : MeasurableSet {x : ℝ | partOf x h = k} :=
  measurable_partOf h (measurableSet_singleton k)

theorem partOf_iff {x : ℝ} {h k : ℕ} (hk : k < h) (h0 : 0 ≤ x) (h1 : x < 1) :
    partOf x h = k ↔ (k : ℝ) / h ≤ x ∧ x < ((k : ℝ) + 1) / h := by
  refine ⟨fun he => ?_, fun hx => partOf_eq hk hx.1 hx.2⟩
  have hh : (0 : ℝ) < h := by exact_mod_cast (by omega : 0 < h)
  have hlt : ⌊x * h⌋₊ < h := by
    rw [Nat.floor_lt (mul_nonneg h0 hh.le)]
    nlinarith
  have he' : ⌊x * h⌋₊ = k := by
    unfold partOf at he
    omega
  rw [Nat.floor_eq_iff (mul_nonneg h0 hh.le)] at he'
  exact ⟨(div_le_iff₀ hh).mpr he'.1, (lt_div_iff₀ hh).mpr he'.2⟩

theorem volume_partOf {h k : ℕ} (hk : k < h) :
    (volume.restrict (Set.Ico (0 : ℝ) 1)) {x | partOf x h = k} = (h : ENNReal)⁻¹ := by
  have hh : (0 : ℝ) < h := by exact_mod_cast (by omega : 0 < h)
  rw [Measure.restrict_apply (measurableSet_partOf h k)]
  have : {x : ℝ | partOf x h = k} ∩ Set.Ico 0 1 = Set.Ico ((k : ℝ) / h) (((k : ℝ) + 1) / h) := by
    ext x
    simp only [Set.mem_inter_iff, Set.mem_ofPred_eq, Set.mem_Ico]
    constructor
    · rintro ⟨h1, h2, h3⟩
      exact (partOf_iff hk h2 h3).mp h1
    · rintro ⟨h1, h2⟩
      have h3 : 0 ≤ x := le_trans (by positivity) h1
      have h4 : x < 1 := by
        refine lt_of_lt_of_le h2 ?_
        rw [div_le_one hh]
        exact_mod_cast hk
      exact ⟨(partOf_iff hk h3 h4).mpr ⟨h1, h2⟩, h3, h4⟩
  rw [this, Real.volume_Ico, show ((k : ℝ) + 1) / h - (k : ℝ) / h = (h : ℝ)⁻¹ by field_simp; ring,
    ENNReal.ofReal_inv_of_pos hh, ENNReal.ofReal_natCast]

theorem measurableSet_partOf_pred (h : ℕ) (Q : ℕ → Prop) : MeasurableSet {x : ℝ | Q (partOf x h)} :=
  measurable_partOf h (MeasurableSet.of_discrete (s := {k | Q k}))

/-- The probability of a set of draws is their number divided by the size of the range. -/
theorem volume_partOf_pred {h : ℕ} (hh : 0 < h) (Q : ℕ → Prop) [DecidablePred Q] :
    (volume.restrict (Set.Ico (0 : ℝ) 1)) {x | Q (partOf x h)} = (((Finset.range h).filter Q).card : ENNReal) * (h : ENNReal)⁻¹ := by
  have h1 : {x : ℝ | Q (partOf x h)} = ⋃ k ∈ (Finset.range h).filter Q, {x | partOf x h = k} := by
    ext x
    simp only [Set.mem_ofPred_eq, Set.mem_iUnion, Finset.mem_filter, Finset.mem_range, exists_prop]
    constructor
    · exact fun hq => ⟨_, ⟨partOf_lt x hh, hq⟩, rfl⟩
    · rintro ⟨k, ⟨_, hq⟩, rfl⟩
      exact hq
  rw [h1, measure_biUnion_finset _ (fun k _ => measurableSet_partOf h k)]
  · rw [Finset.sum_congr rfl (fun k hk => volume_partOf (Finset.mem_range.mp (Finset.mem_filter.mp hk).1)), Finset.sum_const,
      nsmul_eq_mul]
  · intro a _ b _ hab
    rw [Function.onFun, Set.disjoint_left]
    intro x hx hy
    exact hab (Eq.trans (Eq.symm hx) hy)

/-- The probability of a condition on one number of the tape. -/
theorem tape_one (t : ℕ) {B : Set ℝ} (hB : MeasurableSet B) :
    uniformTape {ω | ω t ∈ B} = (volume.restrict (Set.Ico (0 : ℝ) 1)) B := by
  have h1 : {ω : ℕ → ℝ | ω t ∈ B} = Set.pi (({t} : Finset ℕ) : Set ℕ) (fun _ => B) := by
    ext ω; simp
  rw [h1, uniformTape, Measure.infinitePi_pi _ (fun _ _ => hB)]
  simp

/-- Conditions on different numbers of the tape are independent. -/
theorem tape_indep {ι : Type} {k : ι → ℕ} (hk : Function.Injective k) {B : ι → Set ℝ} (hB : ∀ i, MeasurableSet (B i)) :
    iIndepSet (fun i => {ω : ℕ → ℝ | ω (k i) ∈ B i}) uniformTape := by
  have h0 : iIndepFun (fun (i : ℕ) (ω : ℕ → ℝ) => ω i) uniformTape :=
    iIndepFun_infinitePi (P := fun _ : ℕ => volume.restrict (Set.Ico (0 : ℝ) 1)) (X := fun _ x => x) (fun _ => measurable_id)
  have h1 := h0.precomp hk
  have hm : ∀ i, MeasurableSet {ω : ℕ → ℝ | ω (k i) ∈ B i} := fun i => measurable_pi_apply (k i) (hB i)
  rw [iIndepSet_iff_meas_biInter hm]
  intro S
  exact h1.meas_biInter (fun i _ => ⟨B i, hB i, rfl⟩)

/-! ## Throws -/

/-- The `k`-th throw reads the `k`-th number. -/
theorem throws_stream (p : ℕ × ℕ → ℚ) : ∀ (l : List (ℕ × ℕ)) (r : Stream) (k : ℕ) (q : ℕ × ℕ), l[k]? = some q →
    (throws p l r).1[k]? = some (decide ((partOf (r.tape (r.pos + k)) (2 ^ 53) : ℚ) / 2 ^ 53 ≤ p q)) := by
  intro l
  induction l with
  | nil => intro r k q h; simp at h
  | cons a l ih =>
    intro r k q h
    cases k with
    | zero =>
      simp only [List.getElem?_cons_zero, Option.some.injEq] at h
      subst h
      rfl
    | succ k =>
      have h2 : l[k]? = some q := by simpa using h
      have := ih (r.skip 1) k q h2
      rw [throws, List.getElem?_cons_succ, Stream.coin_snd, this, Stream.skip_tape, Stream.skip_pos]
      rw [show r.pos + 1 + k = r.pos + (k + 1) by omega]

theorem throwsLt_stream (p : ℕ × ℕ → ℚ) : ∀ (l : List (ℕ × ℕ)) (r : Stream) (k : ℕ) (q : ℕ × ℕ), l[k]? = some q →
    (throwsLt p l r).1[k]? = some (decide (((partOf (r.tape (r.pos + k)) (2 ^ 53) / 2 : ℕ) : ℚ) / 2 ^ 52 < p q)) := by
  intro l
  induction l with
  | nil => intro r k q h; simp at h
  | cons a l ih =>
    intro r k q h
    cases k with
    | zero =>
      simp only [List.getElem?_cons_zero, Option.some.injEq] at h
      subst h
      rfl
    | succ k =>
      have h2 : l[k]? = some q := by simpa using h
      have := ih (r.skip 1) k q h2
      rw [throwsLt, List.getElem?_cons_succ, show (coinLt r (p a)).2 = r.skip 1 from rfl, this, Stream.skip_tape, Stream.skip_pos]
      rw [show r.pos + 1 + k = r.pos + (k + 1) by omega]

/-- Whether a pair is chosen depends on its own throw only. -/
theorem mem_chosen_iff {l : List (ℕ × ℕ)} (hl : (l.map toEdge).Nodup) {bs : List Bool} {k : ℕ} {q : ℕ × ℕ} (hk : l[k]? = some q)
    {b : Bool} (hb : bs[k]? = some b) : s(q.1, q.2) ∈ chosen l bs ↔ b = true := by
  unfold chosen
  rw [List.mem_toFinset, List.mem_map]
  constructor
  · rintro ⟨⟨q', b'⟩, h1, h2⟩
    rw [List.mem_filter] at h1
    obtain ⟨h3, h4⟩ := h1
    obtain ⟨k', hk'⟩ := List.mem_iff_getElem?.mp h3
    rw [List.getElem?_zip_eq_some] at hk'
    obtain ⟨a1, a2⟩ := hk'
    have e1 : (l.map toEdge)[k']? = some (toEdge q') := by simp [a1]
    have e2 : (l.map toEdge)[k]? = some (toEdge q) := by simp [hk]
    have h2' : toEdge q' = toEdge q := h2
    rw [h2'] at e1
    have hlt : k' < (l.map toEdge).length := by
      by_contra hc
      rw [List.getElem?_eq_none (by omega)] at e1
      cases e1
    have : k' = k := (List.getElem?_inj hlt hl).mp (e1.trans e2.symm)
    subst this
    simp only at a2
    rw [hb] at a2
    simp only [Option.some.injEq] at a2
    rw [a2]; exact h4
  · rintro rfl
    refine ⟨(q, true), ?_, rfl⟩
    rw [List.mem_filter]
    refine ⟨?_, rfl⟩
    apply List.mem_iff_getElem?.mpr
    exact ⟨k, List.getElem?_zip_eq_some.mpr ⟨hk, hb⟩⟩

end Verif
