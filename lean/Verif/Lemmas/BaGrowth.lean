import Verif.Props.Binomial
import Mathlib.Logic.Equiv.Finset

/-!
# Growing a network by preferential attachment: symmetry, order and means

Consequences of the recursions `picks` and `grownLaw` (the specification of C84).
-/

set_option linter.unusedSectionVars false
set_option linter.unusedSimpArgs false

namespace Verif
open Finset

/-! ## What can be picked -/

theorem picks_support {n : ℕ} {w : ℕ → ℕ} : ∀ (r : ℕ) (S S' : Finset ℕ), picks n w r S S' ≠ 0 →
    S ⊆ S' ∧ (∀ x ∈ S', x ∈ S ∨ (x < n ∧ w x ≠ 0)) ∧ S'.card = S.card + r := by
  intro r
  induction r with
  | zero =>
    intro S S' h
    unfold picks at h
    split at h
    · rename_i hS
      subst hS
      exact ⟨Subset.refl _, fun x hx => Or.inl hx, rfl⟩
    · exact absurd rfl h
  | succ r ih =>
    intro S S' h
    unfold picks at h
    obtain ⟨v, hv, h1⟩ := exists_ne_zero_of_sum_ne_zero h
    rw [mem_sdiff, mem_range] at hv
    have hw : w v ≠ 0 := by
      intro h0
      rw [h0] at h1
      simp at h1
    obtain ⟨i1, i2, i3⟩ := ih _ _ (right_ne_zero_of_mul h1)
    refine ⟨(subset_insert v S).trans i1, fun x hx => ?_, ?_⟩
    · rcases i2 x hx with h2 | h2
      · rcases mem_insert.mp h2 with rfl | h3
        · exact Or.inr ⟨hv.1, hw⟩
        · exact Or.inl h3
      · exact Or.inr h2
    · rw [i3, card_insert_of_notMem hv.2]
      omega

/-- Relabelling the vertices. -/
theorem picks_relabel {n : ℕ} (σ : Equiv.Perm ℕ) (hσ : ∀ x, σ x < n ↔ x < n) (w : ℕ → ℕ) : ∀ (r : ℕ) (S S' : Finset ℕ),
    picks n (w ∘ σ.symm) r (S.map σ.toEmbedding) (S'.map σ.toEmbedding) = picks n w r S S' := by
  have hmem : ∀ (S : Finset ℕ) (x : ℕ), x ∈ range n \ S ↔ σ x ∈ range n \ S.map σ.toEmbedding := by
    intro S x
    simp [hσ]
  intro r
  induction r with
  | zero =>
    intro S S'
    unfold picks
    simp
  | succ r ih =>
    intro S S'
    unfold picks
    symm
    refine sum_equiv σ (hmem S) (fun x _ => ?_)
    have h1 : ∑ u ∈ range n \ S, w u = ∑ u ∈ range n \ S.map σ.toEmbedding, (w ∘ σ.symm) u :=
      sum_equiv σ (hmem S) (fun y _ => by simp)
    have h2 : insert (σ x) (S.map σ.toEmbedding) = (insert x S).map σ.toEmbedding := by
      rw [map_insert]; rfl
    rw [h1, h2, ih]
    simp

/-! ## Passing over a vertex -/

/-- The probability that `u` is not among the vertices picked. -/
noncomputable def passed (n : ℕ) (w : ℕ → ℕ) (u r : ℕ) (S : Finset ℕ) : ENNReal :=
  ∑ S' ∈ (range n).powerset with u ∉ S', picks n w r S S'

theorem passed_zero {n : ℕ} {w : ℕ → ℕ} {u : ℕ} {S : Finset ℕ} (hS : S ⊆ range n) (hu : u ∉ S) : passed n w u 0 S = 1 := by
  unfold passed
  rw [sum_eq_single S]
  · unfold picks
    rw [if_pos rfl]
  · intro S' _ hne
    unfold picks
    rw [if_neg (Ne.symm hne)]
  · intro h
    exact absurd (mem_filter.mpr ⟨mem_powerset.mpr hS, hu⟩) h

theorem passed_mem {n : ℕ} {w : ℕ → ℕ} {u r : ℕ} {S : Finset ℕ} (hu : u ∈ S) : passed n w u r S = 0 := by
  unfold passed
  refine sum_eq_zero fun S' hS' => ?_
  by_contra h
  exact (mem_filter.mp hS').2 ((picks_support r S S' h).1 hu)

theorem passed_succ {n : ℕ} {w : ℕ → ℕ} {u r : ℕ} {S : Finset ℕ} :
    passed n w u (r + 1) S = ∑ x ∈ range n \ S, ((w x : ℕ) : ENNReal) / ((∑ y ∈ range n \ S, w y : ℕ) : ENNReal) *
      passed n w u r (insert x S) := by
  unfold passed
  conv_lhs => unfold picks
  rw [sum_comm]
  refine sum_congr rfl fun x _ => ?_
  rw [mul_sum]

/-- If `u` has at least the weight of `v`, `u` is passed over after `v` was picked at most as often as `v` after `u` was picked. -/
theorem passed_exchange {n : ℕ} {w : ℕ → ℕ} {u v : ℕ} (huv : w v ≤ w u) (hne : u ≠ v) (hu : u < n) (hv : v < n) : ∀ (r : ℕ) (S : Finset ℕ),
    S ⊆ range n → u ∉ S → v ∉ S → passed n w u r (insert v S) ≤ passed n w v r (insert u S) := by
  intro r
  induction r with
  | zero =>
    intro S hS h1 h2
    rw [passed_zero (insert_subset (mem_range.mpr hv) hS) (by simp [hne, h1]),
      passed_zero (insert_subset (mem_range.mpr hu) hS) (by simp [hne.symm, h2])]
  | succ r ih =>
    intro S hS h1 h2
    have hu' : u ∈ range n \ insert v S := by simp [hu, hne, h1]
    have hv' : v ∈ range n \ insert u S := by simp [hv, hne.symm, h2]
    have e1 : (range n \ insert v S).erase u = ((range n \ S).erase u).erase v := by
      ext x; simp only [mem_erase, mem_sdiff, mem_insert]; tauto
    have e2 : (range n \ insert u S).erase v = ((range n \ S).erase u).erase v := by
      ext x; simp only [mem_erase, mem_sdiff, mem_insert]; tauto
    have hW : ∑ y ∈ range n \ insert u S, w y ≤ ∑ y ∈ range n \ insert v S, w y := by
      rw [← add_sum_erase _ _ hu', ← add_sum_erase _ _ hv', e1, e2]
      omega
    rw [passed_succ, passed_succ, ← add_sum_erase _ _ hu', ← add_sum_erase _ _ hv', e1, e2, passed_mem (mem_insert_self u _),
      passed_mem (mem_insert_self v _), mul_zero, mul_zero, zero_add, zero_add]
    refine sum_le_sum fun x hx => ?_
    simp only [mem_erase, mem_sdiff, mem_range] at hx
    refine mul_le_mul' (ENNReal.div_le_div_left (by exact_mod_cast hW) _) ?_
    rw [insert_comm x v, insert_comm x u]
    exact ih _ (insert_subset (mem_range.mpr hx.2.2.1) hS) (by simp [h1, Ne.symm hx.2.1]) (by simp [h2, Ne.symm hx.1])

/-- A vertex of higher weight is passed over at most as often. -/
theorem passed_le {n : ℕ} {w : ℕ → ℕ} {u v : ℕ} (huv : w v ≤ w u) (hne : u ≠ v) (hu : u < n) (hv : v < n) : ∀ (r : ℕ) (S : Finset ℕ),
    S ⊆ range n → u ∉ S → v ∉ S → passed n w u r S ≤ passed n w v r S := by
  intro r
  induction r with
  | zero =>
    intro S hS h1 h2
    rw [passed_zero hS h1, passed_zero hS h2]
  | succ r ih =>
    intro S hS h1 h2
    have hu' : u ∈ range n \ S := by simp [hu, h1]
    have hv' : v ∈ (range n \ S).erase u := by simp [hv, h2, hne.symm]
    have hv'' : v ∈ range n \ S := by simp [hv, h2]
    have hu'' : u ∈ (range n \ S).erase v := by simp [hu, h1, hne]
    rw [passed_succ, passed_succ, ← add_sum_erase _ _ hu', ← add_sum_erase _ _ hv', passed_mem (mem_insert_self u _), mul_zero, zero_add]
    conv_rhs => rw [← add_sum_erase _ _ hu', ← add_sum_erase _ _ hv', passed_mem (mem_insert_self v _), mul_zero, zero_add]
    refine add_le_add ?_ (sum_le_sum fun x hx => ?_)
    · exact mul_le_mul' (ENNReal.div_le_div_right (by exact_mod_cast huv) _) (passed_exchange huv hne hu hv r S hS h1 h2)
    · simp only [mem_erase, mem_sdiff, mem_range] at hx
      exact mul_le_mul' (le_refl _) (ih _ (insert_subset (mem_range.mpr hx.2.2.1) hS) (by simp [h1, Ne.symm hx.2.1])
        (by simp [h2, Ne.symm hx.1]))

/-- The weights of the choices never add up to more than one. -/
theorem picks_total_le (n : ℕ) (w : ℕ → ℕ) : ∀ (r : ℕ) (S : Finset ℕ), ∑ S' ∈ (range n).powerset, picks n w r S S' ≤ 1 := by
  intro r
  induction r with
  | zero =>
    intro S
    unfold picks
    rw [sum_ite_eq]
    split <;> simp
  | succ r ih =>
    intro S
    unfold picks
    rw [sum_comm]
    calc ∑ x ∈ range n \ S, ∑ S' ∈ (range n).powerset, ((w x : ℕ) : ENNReal) / ((∑ y ∈ range n \ S, w y : ℕ) : ENNReal) *
          picks n w r (insert x S) S'
        = ∑ x ∈ range n \ S, ((w x : ℕ) : ENNReal) / ((∑ y ∈ range n \ S, w y : ℕ) : ENNReal) *
          ∑ S' ∈ (range n).powerset, picks n w r (insert x S) S' := sum_congr rfl fun x _ => (mul_sum _ _ _).symm
      _ ≤ ∑ x ∈ range n \ S, ((w x : ℕ) : ENNReal) / ((∑ y ∈ range n \ S, w y : ℕ) : ENNReal) :=
        sum_le_sum fun x _ => mul_le_of_le_one_right' (ih _)
      _ ≤ 1 := by
        simp only [div_eq_mul_inv]
        rw [← sum_mul, ← div_eq_mul_inv, ← Nat.cast_sum]
        exact ENNReal.div_self_le_one

/-- A vertex of higher weight is picked at least as often. -/
theorem picked_le {n : ℕ} {w : ℕ → ℕ} {u v : ℕ} (huv : w v ≤ w u) (hne : u ≠ v) (hu : u < n) (hv : v < n) (r : ℕ) :
    ∑ S' ∈ (range n).powerset with v ∈ S', picks n w r ∅ S' ≤ ∑ S' ∈ (range n).powerset with u ∈ S', picks n w r ∅ S' := by
  have h1 : ∀ x, ∑ S' ∈ (range n).powerset with x ∈ S', picks n w r ∅ S' + passed n w x r ∅ =
      ∑ S' ∈ (range n).powerset, picks n w r ∅ S' := fun x => sum_filter_add_sum_filter_not _ _ _
  have h2 := passed_le huv hne hu hv r ∅ (empty_subset _) (by simp) (by simp)
  have h3 : passed n w u r ∅ ≠ ⊤ := by
    refine ne_top_of_le_ne_top ENNReal.one_ne_top (le_trans ?_ (picks_total_le n w r ∅))
    rw [← h1 u]
    exact le_add_self
  refine (ENNReal.add_le_add_iff_right h3).mp ?_
  rw [h1 u, ← h1 v]
  exact add_le_add_right h2 _

/-! ## Means over the grown networks -/

/-- The mean of `F` over the networks grown in the given order. -/
noncomputable def growMean (n m : ℕ) : List ℕ → Finset (Sym2 ℕ) → (Finset (Sym2 ℕ) → ENNReal) → ENNReal
  | [], E, F => F E
  | i :: rest, E, F => ∑ S ∈ (range n).powerset, picks n (degIn E) m ∅ S * growMean n m rest (E ∪ S.image (fun v => s(i, v))) F

/-- The degrees after the vertex `i` was joined to the vertices `S`. -/
def grown (w : ℕ → ℕ) (i : ℕ) (S : Finset ℕ) (x : ℕ) : ℕ := w x + (if x ∈ S then 1 else 0) + if x = i then S.card else 0

/-- The same mean for functions of the degrees: only the degrees at the start matter. -/
noncomputable def degMean (n m : ℕ) : List ℕ → (ℕ → ℕ) → ((ℕ → ℕ) → ENNReal) → ENNReal
  | [], w, F => F w
  | i :: rest, w, F => ∑ S ∈ (range n).powerset, picks n w m ∅ S * degMean n m rest (grown w i S) F

theorem not_mem_of_degIn {E : Finset (Sym2 ℕ)} {i : ℕ} (h : degIn E i = 0) {x : Sym2 ℕ} (hx : x ∈ E) : i ∉ x := by
  intro hi
  have : x ∈ E.filter (fun e => i ∈ e) := mem_filter.mpr ⟨hx, hi⟩
  rw [card_eq_zero.mp h] at this
  exact absurd this (notMem_empty x)

theorem degIn_grown {E : Finset (Sym2 ℕ)} {i : ℕ} {S : Finset ℕ} (hE : degIn E i = 0) (hi : i ∉ S) :
    degIn (E ∪ S.image (fun v => s(i, v))) = grown (degIn E) i S := by
  funext x
  have hinj : Function.Injective (fun v : ℕ => s(i, v)) := fun a b h => by
    rcases Sym2.eq_iff.mp h with ⟨_, h⟩ | ⟨h1, h2⟩
    · exact h
    · exact h2.trans h1
  unfold grown
  unfold degIn
  rw [filter_union, card_union_of_disjoint, add_assoc]
  · congr 1
    rw [filter_image, card_image_of_injective _ hinj]
    by_cases hx : x = i
    · subst hx
      rw [if_neg hi, if_pos rfl, zero_add, filter_true_of_mem]
      intro v _
      simp
    · rw [if_neg hx, add_zero, ← card_singleton x, ← card_empty (α := ℕ), ← apply_ite card]
      congr 1
      ext v
      simp only [mem_filter, Sym2.mem_iff, hx, false_or]
      split
      · rename_i h
        rw [mem_singleton]
        exact ⟨fun h => h.2.symm, fun h' => ⟨h' ▸ h, h'.symm⟩⟩
      · rename_i h
        simp only [notMem_empty, iff_false]
        rintro ⟨h1, rfl⟩
        exact h h1
  · rw [disjoint_left]
    intro y hy hy'
    obtain ⟨v, _, rfl⟩ := mem_image.mp (mem_filter.mp hy').1
    exact not_mem_of_degIn hE (mem_filter.mp hy).1 (by simp)

/-- New vertices: below `n`, different from each other, without edges. -/
structure Fresh (n : ℕ) (order : List ℕ) (E : Finset (Sym2 ℕ)) : Prop where
  nodup : order.Nodup
  lt : ∀ i ∈ order, i < n
  deg : ∀ i ∈ order, degIn E i = 0
  sub : E ⊆ pairSet n

theorem Fresh.step {n m : ℕ} {i : ℕ} {rest : List ℕ} {E : Finset (Sym2 ℕ)} (h : Fresh n (i :: rest) E) {S : Finset ℕ}
    (hS : picks n (degIn E) m ∅ S ≠ 0) : i ∉ S ∧ Fresh n rest (E ∪ S.image (fun v => s(i, v))) := by
  obtain ⟨_, h2, _⟩ := picks_support _ _ _ hS
  have hpos : ∀ x ∈ S, x < n ∧ degIn E x ≠ 0 := fun x hx => (h2 x hx).resolve_left (by simp)
  have hi : i ∉ S := fun hi => (hpos i hi).2 (h.deg i (by simp))
  refine ⟨hi, (List.nodup_cons.mp h.nodup).2, fun j hj => h.lt j (by simp [hj]), fun j hj => ?_, ?_⟩
  · rw [degIn_grown (h.deg i (by simp)) hi]
    unfold grown
    rw [h.deg j (by simp [hj]), if_neg (fun hj' => (hpos j hj').2 (h.deg j (by simp [hj]))), if_neg]
    rintro rfl
    exact (List.nodup_cons.mp h.nodup).1 hj
  · refine union_subset h.sub ?_
    intro x hx
    obtain ⟨v, hv, rfl⟩ := mem_image.mp hx
    exact mk_mem_pairSet.mpr ⟨h.lt i (by simp), (hpos v hv).1, fun hiv => hi (hiv ▸ hv)⟩

theorem sum_grownLaw {n m : ℕ} (F : Finset (Sym2 ℕ) → ENNReal) : ∀ (order : List ℕ) (E : Finset (Sym2 ℕ)), Fresh n order E →
    ∑ E' ∈ (pairSet n).powerset, grownLaw n m order E E' * F E' = growMean n m order E F := by
  intro order
  induction order with
  | nil =>
    intro E h
    simp only [grownLaw, growMean]
    simp only [ite_mul, one_mul, zero_mul]
    rw [sum_ite_eq, if_pos (mem_powerset.mpr h.sub)]
  | cons i rest ih =>
    intro E h
    simp only [grownLaw, growMean, sum_mul]
    rw [sum_comm]
    refine sum_congr rfl fun S _ => ?_
    by_cases hS : picks n (degIn E) m ∅ S = 0
    · simp [hS]
    · rw [← ih _ (h.step hS).2, mul_sum]
      exact sum_congr rfl fun _ _ => mul_assoc _ _ _

theorem growMean_deg {n m : ℕ} (F : (ℕ → ℕ) → ENNReal) : ∀ (order : List ℕ) (E : Finset (Sym2 ℕ)), Fresh n order E →
    growMean n m order E (fun E' => F (degIn E')) = degMean n m order (degIn E) F := by
  intro order
  induction order with
  | nil => intro E _; rfl
  | cons i rest ih =>
    intro E h
    simp only [growMean, degMean]
    refine sum_congr rfl fun S _ => ?_
    by_cases hS : picks n (degIn E) m ∅ S = 0
    · simp [hS]
    · obtain ⟨h1, h2⟩ := h.step hS
      rw [ih _ h2, degIn_grown (h.deg i (by simp)) h1]

theorem sum_powerset_relabel {n : ℕ} (σ : Equiv.Perm ℕ) (hσ : ∀ x, σ x < n ↔ x < n) (f g : Finset ℕ → ENNReal)
    (h : ∀ S, f S = g (S.map σ.toEmbedding)) : ∑ S ∈ (range n).powerset, f S = ∑ S ∈ (range n).powerset, g S := by
  refine sum_equiv σ.finsetCongr (fun S => ?_) (fun S _ => h S)
  simp only [mem_powerset, Equiv.finsetCongr_apply, subset_iff, mem_range, mem_map_equiv]
  constructor
  · intro h x hx
    have := h hx
    rwa [← hσ, Equiv.apply_symm_apply] at this
  · intro h x hx
    rw [← hσ]
    exact h (by simpa using hx)

theorem degMean_relabel {n m : ℕ} (σ : Equiv.Perm ℕ) (hσ : ∀ x, σ x < n ↔ x < n) (F : (ℕ → ℕ) → ENNReal) : ∀ (order : List ℕ) (w : ℕ → ℕ),
    degMean n m (order.map σ) (w ∘ σ.symm) F = degMean n m order w (fun w' => F (w' ∘ σ.symm)) := by
  intro order
  induction order with
  | nil => intro w; rfl
  | cons i rest ih =>
    intro w
    simp only [List.map_cons, degMean]
    symm
    refine sum_powerset_relabel σ hσ _ _ (fun S => ?_)
    have h1 : grown (w ∘ σ.symm) (σ i) (S.map σ.toEmbedding) = grown w i S ∘ σ.symm := by
      funext x
      simp only [grown, Function.comp_apply, mem_map_equiv, card_map, Equiv.symm_apply_eq]
    rw [h1, ih, ← picks_relabel σ hσ, map_empty]

/-- A vertex that starts with the higher degree keeps its advantage. -/
theorem degMean_le {n m : ℕ} {u v : ℕ} (hu : u < n) (hv : v < n) {F : ℕ → ENNReal} (hF : Monotone F) : ∀ (order : List ℕ) (w : ℕ → ℕ),
    u ∉ order → v ∉ order → w v ≤ w u → degMean n m order w (fun w => F (w v)) ≤ degMean n m order w (fun w => F (w u)) := by
  intro order
  induction order with
  | nil => intro w _ _ h; exact hF h
  | cons i rest ih =>
    intro w h1 h2 h
    rcases h.lt_or_eq with h | h
    · simp only [degMean]
      refine sum_le_sum fun S _ => mul_le_mul' (le_refl _) (ih _ (fun hm => h1 (by simp [hm])) (fun hm => h2 (by simp [hm])) ?_)
      have h3 : v ≠ i := fun hh => h2 (by simp [hh])
      unfold grown
      rw [if_neg h3]
      split <;> omega
    · have hσ : ∀ x, Equiv.swap u v x < n ↔ x < n := by
        intro x
        rw [Equiv.swap_apply_def]
        split
        · rename_i hx; subst hx; exact ⟨fun _ => hu, fun _ => hv⟩
        · split
          · rename_i hx; subst hx; exact ⟨fun _ => hv, fun _ => hu⟩
          · rfl
      have h3 : (i :: rest).map (Equiv.swap u v) = i :: rest := by
        conv_rhs => rw [← List.map_id (i :: rest)]
        refine List.map_congr_left fun x hx => ?_
        exact Equiv.swap_apply_of_ne_of_ne (fun hh => h1 (hh ▸ hx)) (fun hh => h2 (hh ▸ hx))
      have h4 : w ∘ (Equiv.swap u v).symm = w := by
        funext x
        rw [Function.comp_apply, Equiv.symm_swap, Equiv.swap_apply_def]
        split
        · rename_i hx; rw [hx, h]
        · split
          · rename_i hx; rw [hx, h]
          · rfl
      have h5 := degMean_relabel (m := m) (Equiv.swap u v) hσ (fun w => F (w v)) (i :: rest) w
      rw [h3, h4] at h5
      rw [h5]
      simp

/-! ## One edge per vertex -/

theorem sum_picks_one {n : ℕ} (w : ℕ → ℕ) (G : Finset ℕ → ENNReal) :
    ∑ S ∈ (range n).powerset, picks n w 1 ∅ S * G S =
      ∑ x ∈ range n, ((w x : ℕ) : ENNReal) / ((∑ y ∈ range n, w y : ℕ) : ENNReal) * G {x} := by
  simp only [picks, sdiff_empty, sum_mul]
  rw [sum_comm]
  refine sum_congr rfl fun x hx => ?_
  rw [sum_eq_single {x}]
  · simp
  · intro S _ hS
    rw [if_neg (by simpa using Ne.symm hS)]
    simp
  · intro h
    exact absurd (mem_powerset.mpr (singleton_subset_iff.mpr hx)) h

theorem sum_grown_one {n : ℕ} {w : ℕ → ℕ} {i x : ℕ} (hi : i < n) (hx : x < n) :
    ∑ y ∈ range n, grown w i {x} y = ∑ y ∈ range n, w y + 2 := by
  simp only [grown, sum_add_distrib, mem_singleton, card_singleton, sum_ite_eq', mem_range, hi, hx, if_true]

theorem sum_weights_one {n : ℕ} {w : ℕ → ℕ} (hW : 0 < ∑ y ∈ range n, w y) :
    ∑ x ∈ range n, ((w x : ℕ) : ENNReal) / ((∑ y ∈ range n, w y : ℕ) : ENNReal) = 1 := by
  simp only [div_eq_mul_inv]
  rw [← sum_mul, ← div_eq_mul_inv, ← Nat.cast_sum]
  exact ENNReal.div_self (by exact_mod_cast hW.ne') (ENNReal.natCast_ne_top _)

/-- The mean degree of an old vertex. -/
theorem degMean_one {n v : ℕ} (hv : v < n) : ∀ (order : List ℕ) (w : ℕ → ℕ), (∀ i ∈ order, i < n) → v ∉ order → 0 < ∑ y ∈ range n, w y →
    degMean n 1 order w (fun w => ((w v : ℕ) : ENNReal)) =
      (w v : ENNReal) * ∏ t ∈ range order.length, (1 + 1 / ((∑ y ∈ range n, w y + 2 * t : ℕ) : ENNReal)) := by
  intro order
  induction order with
  | nil => intro w _ _ _; simp [degMean]
  | cons i rest ih =>
    intro w h1 h2 hW
    have hi : i < n := h1 i (by simp)
    have hvi : v ≠ i := fun h => h2 (by simp [h])
    simp only [degMean]
    rw [sum_picks_one]
    have h3 : ∀ x ∈ range n, ((w x : ℕ) : ENNReal) / ((∑ y ∈ range n, w y : ℕ) : ENNReal) *
        degMean n 1 rest (grown w i {x}) (fun w => ((w v : ℕ) : ENNReal)) =
        (((w x : ℕ) : ENNReal) / ((∑ y ∈ range n, w y : ℕ) : ENNReal) * (w v : ENNReal) +
          if x = v then ((w x : ℕ) : ENNReal) / ((∑ y ∈ range n, w y : ℕ) : ENNReal) else 0) *
          ∏ t ∈ range rest.length, (1 + 1 / ((∑ y ∈ range n, w y + 2 * (t + 1) : ℕ) : ENNReal)) := by
      intro x hx
      rw [ih _ (fun j hj => h1 j (by simp [hj])) (fun h => h2 (by simp [h])) (by rw [sum_grown_one hi (mem_range.mp hx)]; omega),
        sum_grown_one hi (mem_range.mp hx), ← mul_assoc]
      congr 1
      · simp only [grown, mem_singleton, if_neg hvi, add_zero]
        by_cases hxv : x = v
        · subst hxv
          simp [mul_add]
        · rw [if_neg hxv, if_neg (Ne.symm hxv)]
          simp
      · refine prod_congr rfl fun t _ => ?_
        rw [show ∑ y ∈ range n, w y + 2 + 2 * t = ∑ y ∈ range n, w y + 2 * (t + 1) by ring]
    rw [sum_congr rfl h3, ← sum_mul, sum_add_distrib, ← sum_mul, sum_weights_one hW, one_mul, sum_ite_eq', if_pos (mem_range.mpr hv),
      List.length_cons, prod_range_succ', mul_zero, add_zero, mul_comm (∏ t ∈ range rest.length, _), ← mul_assoc]
    congr 1
    rw [mul_add, mul_one, mul_one_div]

/-- The sum of the degrees. -/
theorem degMean_total {n : ℕ} : ∀ (order : List ℕ) (w : ℕ → ℕ), (∀ i ∈ order, i < n) → 0 < ∑ y ∈ range n, w y →
    degMean n 1 order w (fun w => ((∑ y ∈ range n, w y : ℕ) : ENNReal)) = ((∑ y ∈ range n, w y + 2 * order.length : ℕ) : ENNReal) := by
  intro order
  induction order with
  | nil => intro w _ _; simp [degMean]
  | cons i rest ih =>
    intro w h1 hW
    have hi : i < n := h1 i (by simp)
    simp only [degMean]
    rw [sum_picks_one]
    rw [sum_congr rfl (g := fun x => ((w x : ℕ) : ENNReal) / ((∑ y ∈ range n, w y : ℕ) : ENNReal) *
        ((∑ y ∈ range n, w y + 2 * (i :: rest).length : ℕ) : ENNReal)) (fun x hx => by
      rw [ih _ (fun j hj => h1 j (by simp [hj])) (by rw [sum_grown_one hi (mem_range.mp hx)]; omega), sum_grown_one hi (mem_range.mp hx),
        List.length_cons]
      congr 2
      ring), ← sum_mul, sum_weights_one hW, one_mul]

theorem degMean_sum {n m : ℕ} {ι : Type} (s : Finset ι) (F : ι → (ℕ → ℕ) → ENNReal) : ∀ (order : List ℕ) (w : ℕ → ℕ),
    degMean n m order w (fun w => ∑ i ∈ s, F i w) = ∑ i ∈ s, degMean n m order w (F i) := by
  intro order
  induction order with
  | nil => intro w; rfl
  | cons i rest ih =>
    intro w
    simp only [degMean, ih, mul_sum]
    rw [sum_comm]

/-! ## Relabelling the new vertices -/

theorem map_union_star (σ : Equiv.Perm ℕ) (E : Finset (Sym2 ℕ)) (i : ℕ) (S : Finset ℕ) :
    E.image (Sym2.map σ) ∪ (S.map σ.toEmbedding).image (fun v => s(σ i, v)) = (E ∪ S.image (fun v => s(i, v))).image (Sym2.map σ) := by
  rw [image_union]
  congr 1
  ext x
  simp only [mem_image, mem_map, Equiv.coe_toEmbedding, exists_exists_and_eq_and, Sym2.map_mk]

theorem degIn_relabel (σ : Equiv.Perm ℕ) (E : Finset (Sym2 ℕ)) : degIn (E.image (Sym2.map σ)) = degIn E ∘ σ.symm := by
  funext x
  unfold degIn
  rw [Function.comp_apply, filter_image, card_image_of_injective _ (Sym2.map.injective σ.injective)]
  congr 1
  ext y
  simp only [mem_filter, and_congr_right_iff, Sym2.mem_map]
  intro _
  constructor
  · rintro ⟨a, ha, rfl⟩
    simpa using ha
  · intro h
    exact ⟨_, h, by simp⟩

theorem grownLaw_relabel {n m : ℕ} (σ : Equiv.Perm ℕ) (hσ : ∀ x, σ x < n ↔ x < n) (E' : Finset (Sym2 ℕ)) :
    ∀ (order : List ℕ) (E : Finset (Sym2 ℕ)),
    grownLaw n m (order.map σ) (E.image (Sym2.map σ)) (E'.image (Sym2.map σ)) = grownLaw n m order E E' := by
  have hinj : Function.Injective (fun E : Finset (Sym2 ℕ) => E.image (Sym2.map σ)) := image_injective (Sym2.map.injective σ.injective)
  intro order
  induction order with
  | nil =>
    intro E
    simp only [List.map_nil, grownLaw, hinj.eq_iff]
  | cons i rest ih =>
    intro E
    simp only [List.map_cons, grownLaw]
    symm
    refine sum_powerset_relabel σ hσ _ _ (fun S => ?_)
    rw [map_union_star, ih, degIn_relabel, ← picks_relabel σ hσ, map_empty]

end Verif
