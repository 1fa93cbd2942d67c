import Verif.Props.Independent
import Verif.Props.Connect
import Mathlib.Data.Nat.Choose.Sum

/-!
# C95: how many edges, and how many at a vertex
-/

set_option linter.unusedSectionVars false
set_option linter.unusedSimpArgs false

namespace Verif
open MeasureTheory ProbabilityTheory Filter AdjContainer GenericGraph

variable {T : Type}

/-! ## Sums over edge sets -/

/-- The probability that a single call returns and shows an element of a given set. -/
theorem Resample.event {C F O : Type} [DecidableEq O] {put : C → Stream → F} {rnd : ℕ → F → Res F} {V : C → Prop} {o : C → O} {Ω : Finset O}
    {w : O → ENNReal} (h : Resample put rnd V o Ω w) {look : F → O} (hl : ∀ c r, look (put c r) = o c) {c : C} (hc : V c) {P : O → Prop}
    [DecidablePred P] (k : ℕ) :
    uniformTape {ω | ∃ fuel e', rnd fuel (put c (⟨ω, k⟩ : Stream)) = .ok e' ∧ P (look e')} = ∑ y ∈ Ω with P y, w y := by
  have h1 := Chance.sum (Ω.filter P) (fun y hy => h.chance c hc y (Finset.mem_filter.mp hy).1) (by
    rintro y _ y' _ ω k ⟨c1, j1, a1, rfl⟩ ⟨c2, j2, a2, rfl⟩
    rw [(((h.adaptive c).sampler h.joins).det a1 a2).1])
  rw [← h1.prob k]
  congr 1
  ext ω
  simp only [Set.mem_ofPred_eq]
  constructor
  · rintro ⟨fuel, e', h2, h3⟩
    obtain ⟨c', j, rfl, h4⟩ := (h.adaptive c).ret (r := ⟨ω, k⟩) h2
    rw [hl] at h3
    exact ⟨o c', Finset.mem_filter.mpr ⟨(h.keeps c hc h4).2, h3⟩, c', j, h4, rfl⟩
  · rintro ⟨y, hy, c', j, ⟨F, hF⟩, rfl⟩
    exact ⟨F, _, hF F (le_refl F), by rw [hl]; exact (Finset.mem_filter.mp hy).2⟩

section count
variable {α : Type} [DecidableEq α]

/-- Subsets of `U` with `k` elements in `A` are a subset of `A` with `k` elements and a subset of the rest. -/
theorem sum_split {M : Type} [AddCommMonoid M] {U A : Finset α} (hA : A ⊆ U) (k : ℕ) (f : Finset α → M) :
    ∑ S ∈ U.powerset with (A ∩ S).card = k, f S = ∑ B ∈ A.powersetCard k, ∑ C ∈ (U \ A).powerset, f (B ∪ C) := by
  rw [← Finset.sum_product']
  refine Finset.sum_nbij' (fun S => (A ∩ S, S \ A)) (fun p => p.1 ∪ p.2) ?_ ?_ ?_ ?_ ?_
  · intro S hS
    simp only [Finset.mem_filter, Finset.mem_powerset, Finset.mem_product, Finset.mem_powersetCard] at hS ⊢
    exact ⟨⟨Finset.inter_subset_left, hS.2⟩, Finset.sdiff_subset_sdiff hS.1 (Finset.Subset.refl A)⟩
  · rintro ⟨B, C⟩ hS
    simp only [Finset.mem_filter, Finset.mem_powerset, Finset.mem_product, Finset.mem_powersetCard] at hS ⊢
    obtain ⟨⟨h1, h2⟩, h3⟩ := hS
    have h4 : A ∩ (B ∪ C) = B := by
      ext x
      simp only [Finset.mem_inter, Finset.mem_union]
      constructor
      · rintro ⟨hx, hx' | hx'⟩
        · exact hx'
        · exact absurd hx (Finset.mem_sdiff.mp (h3 hx')).2
      · exact fun hx => ⟨h1 hx, Or.inl hx⟩
    rw [h4]
    exact ⟨Finset.union_subset (h1.trans hA) (h3.trans Finset.sdiff_subset), h2⟩
  · intro S _
    ext x
    simp only [Finset.mem_union, Finset.mem_inter, Finset.mem_sdiff]
    tauto
  · rintro ⟨B, C⟩ hS
    simp only [Finset.mem_powerset, Finset.mem_product, Finset.mem_powersetCard] at hS
    obtain ⟨⟨h1, h2⟩, h3⟩ := hS
    have h5 : ∀ x ∈ C, x ∉ A := fun x hx => (Finset.mem_sdiff.mp (h3 hx)).2
    refine Prod.ext ?_ ?_
    · ext x
      simp only [Finset.mem_inter, Finset.mem_union]
      exact ⟨fun ⟨hx, hx'⟩ => hx'.elim id fun hc => absurd hx (h5 x hc), fun hx => ⟨h1 hx, Or.inl hx⟩⟩
    · ext x
      simp only [Finset.mem_sdiff, Finset.mem_union]
      exact ⟨fun ⟨hx, hx'⟩ => hx.elim (fun hb => absurd (h1 hb) hx') id, fun hx => ⟨Or.inr hx, h5 x hx⟩⟩
  · intro S _
    congr 1
    ext x
    simp only [Finset.mem_union, Finset.mem_inter, Finset.mem_sdiff]
    tauto

theorem card_union_of {U A B C : Finset α} (hB : B ⊆ A) (hC : C ⊆ U \ A) : (B ∪ C).card = B.card + C.card :=
  Finset.card_union_of_disjoint (Finset.disjoint_left.mpr fun _ hx hx' => (Finset.mem_sdiff.mp (hC hx')).2 (hB hx))

/-- The binomial distribution. -/
theorem sum_binomial {U A : Finset α} (hA : A ⊆ U) (k : ℕ) (h : ℚ) :
    ∑ S ∈ U.powerset with (A ∩ S).card = k, h ^ S.card * (1 - h) ^ (U.card - S.card) =
      (A.card.choose k : ℚ) * h ^ k * (1 - h) ^ (A.card - k) := by
  rw [sum_split hA]
  have hU : U.card = A.card + (U \ A).card := by rw [Finset.card_sdiff_of_subset hA]; have := Finset.card_le_card hA; omega
  have h1 : ∀ B ∈ A.powersetCard k, ∑ C ∈ (U \ A).powerset, h ^ (B ∪ C).card * (1 - h) ^ (U.card - (B ∪ C).card) =
      h ^ k * (1 - h) ^ (A.card - k) := by
    intro B hB
    obtain ⟨hB1, hB2⟩ := Finset.mem_powersetCard.mp hB
    have hk : k ≤ A.card := hB2 ▸ Finset.card_le_card hB1
    have h2 : ∀ C ∈ (U \ A).powerset, h ^ (B ∪ C).card * (1 - h) ^ (U.card - (B ∪ C).card) =
        h ^ k * (1 - h) ^ (A.card - k) * (h ^ C.card * (1 - h) ^ ((U \ A).card - C.card)) := by
      intro C hC
      have hC := Finset.mem_powerset.mp hC
      have hc := Finset.card_le_card hC
      rw [card_union_of hB1 hC, hB2, pow_add, show U.card - (k + C.card) = (A.card - k) + ((U \ A).card - C.card) by omega, pow_add]
      ring
    rw [Finset.sum_congr rfl h2, ← Finset.mul_sum, Finset.sum_pow_mul_eq_add_pow]
    simp
  rw [Finset.sum_congr rfl h1, Finset.sum_const, Finset.card_powersetCard, nsmul_eq_mul]
  ring

/-- The hypergeometric distribution. -/
theorem card_hypergeometric {U A : Finset α} (hA : A ⊆ U) (k m : ℕ) :
    ((U.powersetCard m).filter fun S => (A ∩ S).card = k).card = if k ≤ m then A.card.choose k * (U.card - A.card).choose (m - k) else 0 := by
  have h0 : ((U.powersetCard m).filter fun S => (A ∩ S).card = k) = (U.powerset.filter fun S => (A ∩ S).card = k).filter fun S => S.card = m := by
    ext S
    simp only [Finset.mem_filter, Finset.mem_powersetCard, Finset.mem_powerset]
    tauto
  rw [h0, Finset.card_filter, sum_split hA]
  have h1 : ∀ B ∈ A.powersetCard k, ∑ C ∈ (U \ A).powerset, (if (B ∪ C).card = m then 1 else 0) =
      if k ≤ m then (U.card - A.card).choose (m - k) else 0 := by
    intro B hB
    obtain ⟨hB1, hB2⟩ := Finset.mem_powersetCard.mp hB
    have h2 : ∀ C ∈ (U \ A).powerset, (if (B ∪ C).card = m then 1 else 0) = if k + C.card = m then 1 else 0 := by
      intro C hC
      rw [card_union_of hB1 (Finset.mem_powerset.mp hC), hB2]
    rw [Finset.sum_congr rfl h2, ← Finset.card_filter]
    split
    · rename_i hk
      rw [← Finset.card_sdiff_of_subset hA, ← Finset.card_powersetCard]
      congr 1
      ext C
      simp only [Finset.mem_filter, Finset.mem_powerset, Finset.mem_powersetCard]
      exact and_congr_right fun _ => by omega
    · rename_i hk
      rw [Finset.card_eq_zero, Finset.filter_eq_empty_iff]
      intro C _
      omega
  rw [Finset.sum_congr rfl h1, Finset.sum_const, Finset.card_powersetCard, smul_eq_mul]
  split <;> simp

end count

/-- The pairs with the vertex `v`. -/
def pairsAt (n v : ℕ) : Finset (Sym2 ℕ) := (pairSet n).filter fun x => v ∈ x

theorem mk_mem_pairSet {n a b : ℕ} : s(a, b) ∈ pairSet n ↔ a < n ∧ b < n ∧ a ≠ b := by
  constructor
  · intro h
    obtain ⟨⟨i, j⟩, hp, h1⟩ := mem_pairSet.mp h
    obtain ⟨h2, h3⟩ := mem_allPairs.mp hp
    simp only at h2 h3
    rcases Sym2.eq_iff.mp h1 with ⟨rfl, rfl⟩ | ⟨rfl, rfl⟩ <;> refine ⟨?_, ?_, ?_⟩ <;> omega
  · exact fun ⟨h1, h2, h3⟩ => pairSet_mk h3 h1 h2

theorem pairsAt_eq {n v : ℕ} (hv : v < n) : pairsAt n v = ((Finset.range n).erase v).image fun w => s(v, w) := by
  ext x
  induction x with
  | _ a b =>
    simp only [pairsAt, Finset.mem_filter, mk_mem_pairSet, Finset.mem_image, Finset.mem_erase, Finset.mem_range, Sym2.mem_iff]
    constructor
    · rintro ⟨⟨h1, h2, h3⟩, rfl | rfl⟩
      · exact ⟨b, ⟨Ne.symm h3, h2⟩, rfl⟩
      · exact ⟨a, ⟨h3, h1⟩, Sym2.eq_swap⟩
    · rintro ⟨w, ⟨h1, h2⟩, h3⟩
      rcases Sym2.eq_iff.mp h3 with ⟨rfl, rfl⟩ | ⟨rfl, rfl⟩
      · exact ⟨⟨hv, h2, Ne.symm h1⟩, Or.inl rfl⟩
      · exact ⟨⟨h2, hv, h1⟩, Or.inr rfl⟩

theorem card_pairsAt {n v : ℕ} (hv : v < n) : (pairsAt n v).card = n - 1 := by
  rw [pairsAt_eq hv, Finset.card_image_of_injOn, Finset.card_erase_of_mem (Finset.mem_range.mpr hv), Finset.card_range]
  intro a _ b _ h
  exact Sym2.congr_right.mp h

theorem degree_pairsAt {A : Type} [AdjContainer T A] [LawfulAdj T A] {g : GenericGraph T A} (h : g.WF) {v : ℕ} (hv : v < g.nextId) :
    g.degree v = some (pairsAt g.nextId v ∩ g.edges).card := by
  rw [degree_spec h hv, h.deg_eq, degOf]
  congr 2
  ext x
  simp only [pairsAt, Finset.mem_filter, Finset.mem_inter]
  exact ⟨fun ⟨a, b⟩ => ⟨⟨edges_sub_pairSet h a, b⟩, a⟩, fun ⟨⟨_, b⟩, a⟩ => ⟨a, b⟩⟩

theorem indepProb_const {n : ℕ} {h : ℚ} {S : Finset (Sym2 ℕ)} (hS : S ⊆ pairSet n) :
    indepProb n (fun _ => h) S = h ^ S.card * (1 - h) ^ ((pairSet n).card - S.card) := by
  unfold indepProb
  rw [Finset.prod_ite, Finset.prod_const, Finset.prod_const, Finset.filter_mem_eq_inter, Finset.inter_eq_right.mpr hS,
    Finset.filter_notMem_eq_sdiff, Finset.card_sdiff_of_subset hS]

/-- Looking only at the pairs in `A`. -/
theorem indepProb_marginal {n : ℕ} (pr : Sym2 ℕ → ℚ) {A B : Finset (Sym2 ℕ)} (hA : A ⊆ pairSet n) (hB : B ⊆ A) :
    ∑ S ∈ (pairSet n).powerset with A ∩ S = B, indepProb n pr S = ∏ x ∈ A, if x ∈ B then pr x else 1 - pr x := by
  have h1 : ∑ S ∈ (pairSet n).powerset with A ∩ S = B, indepProb n pr S = ∑ C ∈ (pairSet n \ A).powerset, indepProb n pr (B ∪ C) := by
    refine Finset.sum_nbij' (fun S => S \ A) (fun C => B ∪ C) ?_ ?_ ?_ ?_ ?_
    · intro S hS
      rw [Finset.mem_filter, Finset.mem_powerset] at hS
      exact Finset.mem_powerset.mpr (Finset.sdiff_subset_sdiff hS.1 (Finset.Subset.refl A))
    · intro C hC
      rw [Finset.mem_powerset] at hC
      rw [Finset.mem_filter, Finset.mem_powerset]
      refine ⟨Finset.union_subset (hB.trans hA) (hC.trans Finset.sdiff_subset), ?_⟩
      ext x
      simp only [Finset.mem_inter, Finset.mem_union]
      exact ⟨fun ⟨hx, hx'⟩ => hx'.elim id fun hc => absurd hx (Finset.mem_sdiff.mp (hC hc)).2, fun hx => ⟨hB hx, Or.inl hx⟩⟩
    · intro S hS
      rw [Finset.mem_filter] at hS
      rw [← hS.2]
      ext x
      simp only [Finset.mem_union, Finset.mem_inter, Finset.mem_sdiff]
      tauto
    · intro C hC
      rw [Finset.mem_powerset] at hC
      ext x
      simp only [Finset.mem_sdiff, Finset.mem_union]
      exact ⟨fun ⟨hx, hx'⟩ => hx.elim (fun hb => absurd (hB hb) hx') id, fun hx => ⟨Or.inr hx, (Finset.mem_sdiff.mp (hC hx)).2⟩⟩
    · intro S hS
      rw [Finset.mem_filter] at hS
      rw [← hS.2]
      congr 1
      ext x
      simp only [Finset.mem_union, Finset.mem_inter, Finset.mem_sdiff]
      tauto
  rw [h1]
  have h2 : ∀ C ∈ (pairSet n \ A).powerset, indepProb n pr (B ∪ C) =
      (∏ x ∈ A, if x ∈ B then pr x else 1 - pr x) * ∏ x ∈ pairSet n \ A, if x ∈ C then pr x else 1 - pr x := by
    intro C hC
    rw [Finset.mem_powerset] at hC
    unfold indepProb
    rw [← Finset.prod_sdiff hA, mul_comm]
    congr 1
    · refine Finset.prod_congr rfl fun x hx => ?_
      have : x ∉ C := fun hc => (Finset.mem_sdiff.mp (hC hc)).2 hx
      simp [this]
    · refine Finset.prod_congr rfl fun x hx => ?_
      have : x ∉ B := fun hc => (Finset.mem_sdiff.mp hx).2 (hB hc)
      simp [this]
  rw [Finset.sum_congr rfl h2, ← Finset.mul_sum]
  have h3 := Finset.prod_add pr (fun x => 1 - pr x) (pairSet n \ A)
  simp only [add_sub_cancel, Finset.prod_const_one] at h3
  have h4 : ∑ C ∈ (pairSet n \ A).powerset, ∏ x ∈ pairSet n \ A, (if x ∈ C then pr x else 1 - pr x) = 1 := by
    refine Eq.trans (Finset.sum_congr rfl fun C hC => ?_) h3.symm
    rw [Finset.prod_ite, Finset.filter_mem_eq_inter, Finset.inter_eq_right.mpr (Finset.mem_powerset.mp hC), Finset.filter_notMem_eq_sdiff]
  rw [h4, mul_one]

theorem edgesLaw_filter {n : ℕ} {pr : Sym2 ℕ → ℚ} (h0 : ∀ x, 0 ≤ pr x) (h1 : ∀ x, pr x ≤ 1) (Q : Finset (Sym2 ℕ) → Prop) [DecidablePred Q] :
    ∑ S ∈ (pairSet n).powerset with Q S, edgesLaw n pr S =
      ENNReal.ofReal ((∑ S ∈ (pairSet n).powerset with Q S, indepProb n pr S : ℚ) : ℝ) := by
  unfold edgesLaw
  rw [← ENNReal.ofReal_sum_of_nonneg (fun S _ => by exact_mod_cast indepProb_nonneg h0 h1 S), ← Rat.cast_sum]

/-! ## `ErEnsembleC` -/

namespace ErC

theorem event {e : ErC T Stream} (h : e.graph.WF) (Q : Finset (Sym2 ℕ) → Prop) [DecidablePred Q] (k : ℕ) :
    uniformTape {ω | ∃ e', randomize { e with rng := (⟨ω, k⟩ : Stream) } = .ok e' ∧ Q e'.graph.edges} =
      ENNReal.ofReal ((∑ S ∈ (pairSet e.graph.vertexCount).powerset with Q S,
        indepProb e.graph.vertexCount (fun _ => headProb e.prob) S : ℚ) : ℝ) := by
  rw [← edgesLaw_filter (fun _ => headProb_nonneg _) (fun _ => headProb_le_one _)]
  rw [← (ErC.resample e.graph.vertexCount e.prob).event (look := fun e => e.graph.edges) (fun _ _ => rfl) (c := e.core')
    ⟨h, rfl, rfl⟩ (P := Q) k]
  congr 1
  ext ω
  exact ⟨fun ⟨e', a⟩ => ⟨0, e', a⟩, fun ⟨_, e', a⟩ => ⟨e', a⟩⟩

end ErC

/-- **C95, `ErEnsembleC`, any set of pairs.**  The number of edges among the pairs `A` is binomially distributed. -/
theorem C95_er_c_pairs {e : ErC T Stream} (h : e.graph.WF) {A : Finset (Sym2 ℕ)}
    (hA : ∀ x ∈ A, ∃ a b, a < e.graph.vertexCount ∧ b < e.graph.vertexCount ∧ a ≠ b ∧ x = s(a, b)) (d k : ℕ) :
    uniformTape {ω | ∃ e', ErC.randomize { e with rng := (⟨ω, k⟩ : Stream) } = .ok e' ∧ (A ∩ e'.graph.edges).card = d} =
      ENNReal.ofReal ((A.card.choose d * headProb e.prob ^ d * (1 - headProb e.prob) ^ (A.card - d) : ℚ) : ℝ) := by
  have hA' : A ⊆ pairSet e.graph.vertexCount := fun x hx => by
    obtain ⟨a, b, h1, h2, h3, rfl⟩ := hA x hx
    exact mk_mem_pairSet.mpr ⟨h1, h2, h3⟩
  rw [ErC.event h (fun E => (A ∩ E).card = d) k]
  congr 2
  rw [← sum_binomial hA' d (headProb e.prob)]
  exact Finset.sum_congr rfl fun S hS => indepProb_const (Finset.mem_powerset.mp (Finset.mem_filter.mp hS).1)

/-- **C95, `ErEnsembleC`, the edges of a graph.**  `edge_count` is binomially distributed over all `n (n - 1) / 2` pairs. -/
theorem C95_er_c_edge_count {e : ErC T Stream} (h : e.graph.WF) (d k : ℕ) :
    uniformTape {ω | ∃ e', ErC.randomize { e with rng := (⟨ω, k⟩ : Stream) } = .ok e' ∧ e'.graph.edgeCount = d} =
      ENNReal.ofReal (((e.graph.vertexCount * (e.graph.vertexCount - 1) / 2).choose d * headProb e.prob ^ d *
        (1 - headProb e.prob) ^ (e.graph.vertexCount * (e.graph.vertexCount - 1) / 2 - d) : ℚ) : ℝ) := by
  have h1 := C95_er_c_pairs h (A := pairSet e.graph.vertexCount) (fun x hx => by
    induction x with
    | _ a b => have := mk_mem_pairSet.mp hx; exact ⟨a, b, this.1, this.2.1, this.2.2, rfl⟩) d k
  rw [card_pairSet] at h1
  rw [← h1]
  congr 1
  ext ω
  refine exists_congr fun e' => and_congr_right fun hr => ?_
  obtain ⟨e'', a1, a2, a3, _⟩ := ErC.randomize_spec (e := { e with rng := (⟨ω, k⟩ : Stream) }) h
  rw [a1] at hr
  cases Res.ok.inj hr
  have a3 : e'.graph.nextId = e.graph.vertexCount := a3
  have hs := edges_sub_pairSet a2
  rw [a3] at hs
  rw [a2.edgeCount_eq_card, Finset.inter_eq_right.mpr hs]

/-- **C95, `ErEnsembleC`, the degrees.**  `degree(v)` is binomially distributed over the `n - 1` other vertices. -/
theorem C95_er_c_degree {e : ErC T Stream} (h : e.graph.WF) {v : ℕ} (hv : v < e.graph.vertexCount) (d k : ℕ) :
    uniformTape {ω | ∃ e', ErC.randomize { e with rng := (⟨ω, k⟩ : Stream) } = .ok e' ∧ e'.graph.degree v = some d} =
      ENNReal.ofReal (((e.graph.vertexCount - 1).choose d * headProb e.prob ^ d *
        (1 - headProb e.prob) ^ (e.graph.vertexCount - 1 - d) : ℚ) : ℝ) := by
  have h1 := C95_er_c_pairs h (A := pairsAt e.graph.vertexCount v) (fun x hx => by
    have hx := (Finset.mem_filter.mp hx).1
    induction x with
    | _ a b => have := mk_mem_pairSet.mp hx; exact ⟨a, b, this.1, this.2.1, this.2.2, rfl⟩) d k
  rw [card_pairsAt hv] at h1
  rw [← h1]
  congr 1
  ext ω
  refine exists_congr fun e' => and_congr_right fun hr => ?_
  obtain ⟨e'', a1, a2, a3, _⟩ := ErC.randomize_spec (e := { e with rng := (⟨ω, k⟩ : Stream) }) h
  rw [a1] at hr
  cases Res.ok.inj hr
  have a3 : e'.graph.nextId = e.graph.vertexCount := a3
  rw [degree_pairsAt a2 (by rw [a3]; exact hv), Option.some_inj, a3]

/-- The pairs of vertices of `t`. -/
def pairsIn (t : Finset ℕ) : Finset (Sym2 ℕ) := t.offDiag.image fun p => s(p.1, p.2)

/-- The number of triangles of the graph with the vertices `0 … n - 1` and the edges `E`: sets of three vertices that are pairwise joined. -/
def triangleCount (n : ℕ) (E : Finset (Sym2 ℕ)) : ℕ :=
  (((Finset.range n).powersetCard 3).filter fun t => ∀ a ∈ t, ∀ b ∈ t, a ≠ b → s(a, b) ∈ E).card

theorem pairsIn_sub {t : Finset ℕ} {E : Finset (Sym2 ℕ)} : pairsIn t ⊆ E ↔ ∀ a ∈ t, ∀ b ∈ t, a ≠ b → s(a, b) ∈ E := by
  simp only [pairsIn, Finset.image_subset_iff, Finset.mem_offDiag, Prod.forall]
  exact ⟨fun h a ha b hb hab => h a b ⟨ha, hb, hab⟩, fun h a b ⟨ha, hb, hab⟩ => h a ha b hb hab⟩

theorem lawMean_triangles {n : ℕ} {Ω : Finset (Finset (Sym2 ℕ))} {w : Finset (Sym2 ℕ) → ENNReal} {c : ℝ}
    (hc : ∀ t ∈ (Finset.range n).powersetCard 3, ∑ S ∈ Ω with pairsIn t ⊆ S, (w S).toReal = c) :
    lawMean Ω w (fun E => (triangleCount n E : ℝ)) = n.choose 3 * c := by
  have h1 : ∀ S ∈ Ω, (w S).toReal * (triangleCount n S : ℝ) =
      ∑ t ∈ (Finset.range n).powersetCard 3, if pairsIn t ⊆ S then (w S).toReal else 0 := by
    intro S _
    rw [← Finset.sum_filter, Finset.sum_const, nsmul_eq_mul, mul_comm]
    congr 2
    unfold triangleCount
    exact congrArg Finset.card (Finset.filter_congr fun t _ => pairsIn_sub.symm)
  unfold lawMean
  rw [Finset.sum_congr rfl h1, Finset.sum_comm]
  have h2 : ∀ t ∈ (Finset.range n).powersetCard 3, ∑ S ∈ Ω, (if pairsIn t ⊆ S then (w S).toReal else 0) = c := fun t ht => by
    rw [← Finset.sum_filter]; exact hc t ht
  rw [Finset.sum_congr rfl h2, Finset.sum_const, Finset.card_powersetCard, Finset.card_range, nsmul_eq_mul]

theorem pairsIn_pairSet {n m : ℕ} {t : Finset ℕ} (ht : t ∈ (Finset.range n).powersetCard m) :
    pairsIn t ⊆ pairSet n ∧ (pairsIn t).card = m.choose 2 := by
  obtain ⟨h1, h2⟩ := Finset.mem_powersetCard.mp ht
  refine ⟨pairsIn_sub.mpr fun a ha b hb hab => mk_mem_pairSet.mpr ⟨Finset.mem_range.mp (h1 ha), Finset.mem_range.mp (h1 hb), hab⟩, ?_⟩
  rw [← h2]
  exact Sym2.card_image_offDiag t

/-- **C95, `ErEnsembleC`, given pairs.**  For pairs `A` and a part `B` of them: the probability that exactly the pairs `B` of `A` are joined. -/
theorem C95_er_c_exactly {e : ErC T Stream} (h : e.graph.WF) {A B : Finset (Sym2 ℕ)}
    (hA : ∀ x ∈ A, ∃ a b, a < e.graph.vertexCount ∧ b < e.graph.vertexCount ∧ a ≠ b ∧ x = s(a, b)) (hB : B ⊆ A) (k : ℕ) :
    uniformTape {ω | ∃ e', ErC.randomize { e with rng := (⟨ω, k⟩ : Stream) } = .ok e' ∧ A ∩ e'.graph.edges = B} =
      ENNReal.ofReal ((headProb e.prob ^ B.card * (1 - headProb e.prob) ^ (A.card - B.card) : ℚ) : ℝ) := by
  have hA' : A ⊆ pairSet e.graph.vertexCount := fun x hx => by
    obtain ⟨a, b, h1, h2, h3, rfl⟩ := hA x hx
    exact mk_mem_pairSet.mpr ⟨h1, h2, h3⟩
  rw [ErC.event h (fun E => A ∩ E = B) k]
  congr 2
  rw [indepProb_marginal _ hA' hB, Finset.prod_ite, Finset.prod_const, Finset.prod_const, Finset.filter_mem_eq_inter,
    Finset.inter_eq_right.mpr hB, Finset.filter_notMem_eq_sdiff, Finset.card_sdiff_of_subset hB]

/-- **C95, `ErEnsembleC`, triangles.**  The average number of triangles over repeated `randomize` calls converges with probability one to
`n (n - 1) (n - 2) / 6` times the third power of the edge probability; this is also the expected number after each call. -/
theorem C95_er_c_triangles {e : ErC T Stream} (h : e.graph.WF) :
    ∃ X, Sampled (fun _ => ErC.randomize) (fun e => e.graph.edges) (fun r => { e with rng := r })
      (pairSet e.graph.vertexCount).powerset (edgesLaw e.graph.vertexCount (fun _ => headProb e.prob)) X ∧
    (∀ i, ∫ ω, (triangleCount e.graph.vertexCount (X i ω) : ℝ) ∂uniformTape =
      e.graph.vertexCount.choose 3 * ((headProb e.prob : ℚ) : ℝ) ^ 3) ∧
    ∀ᵐ ω ∂uniformTape, Tendsto (fun N : ℕ => (∑ i ∈ Finset.range N, (triangleCount e.graph.vertexCount (X i ω) : ℝ)) / N) atTop
      (nhds (e.graph.vertexCount.choose 3 * ((headProb e.prob : ℚ) : ℝ) ^ 3)) := by
  obtain ⟨X, hX⟩ := C94_er_c_independent h
  have hm : lawMean (pairSet e.graph.vertexCount).powerset (edgesLaw e.graph.vertexCount (fun _ => headProb e.prob))
      (fun E => (triangleCount e.graph.vertexCount E : ℝ)) = e.graph.vertexCount.choose 3 * ((headProb e.prob : ℚ) : ℝ) ^ 3 := by
    refine lawMean_triangles fun t ht => ?_
    obtain ⟨h1, h2⟩ := pairsIn_pairSet ht
    have h3 := indepProb_marginal (n := e.graph.vertexCount) (fun _ => headProb e.prob) h1 (Finset.Subset.refl (pairsIn t))
    have h4 : ∀ S ∈ (pairSet e.graph.vertexCount).powerset.filter (fun S => pairsIn t ⊆ S),
        (edgesLaw e.graph.vertexCount (fun _ => headProb e.prob) S).toReal =
          ((indepProb e.graph.vertexCount (fun _ => headProb e.prob) S : ℚ) : ℝ) := fun S _ =>
      ENNReal.toReal_ofReal (by exact_mod_cast indepProb_nonneg (fun _ => headProb_nonneg _) (fun _ => headProb_le_one _) S)
    rw [Finset.sum_congr rfl h4, ← Rat.cast_sum, Finset.filter_congr (q := fun S => pairsIn t ∩ S = pairsIn t)
      (fun S _ => Finset.inter_eq_left.symm), h3, Finset.prod_congr rfl (fun x hx => if_pos hx), Finset.prod_const, h2, Rat.cast_pow]
    rfl
  refine ⟨X, hX, fun i => ?_, ?_⟩
  · rw [← hm]; exact hX.integral (fun E => (triangleCount e.graph.vertexCount E : ℝ)) i
  · rw [← hm]; exact hX.average (fun E => (triangleCount e.graph.vertexCount E : ℝ))

/-! ## `SpacialEnsemble` -/

/-- **C95, `SpacialEnsemble`, given pairs.**  The same, each pair with its own probability. -/
theorem C95_spacial_exactly {e : Spacial T Stream} (h : e.graph.WF) {A B : Finset (Sym2 ℕ)}
    (hA : ∀ x ∈ A, ∃ a b, a < e.graph.vertexCount ∧ b < e.graph.vertexCount ∧ a ≠ b ∧ x = s(a, b)) (hB : B ⊆ A) (k : ℕ) :
    uniformTape {ω | ∃ e', Spacial.randomize { e with rng := (⟨ω, k⟩ : Stream) } = .ok e' ∧ A ∩ e'.graph.edges = B} =
      ENNReal.ofReal ((∏ x ∈ A, if x ∈ B then headProb (Spacial.edgeLaw e.law (coords e.graph) x)
        else 1 - headProb (Spacial.edgeLaw e.law (coords e.graph) x) : ℚ) : ℝ) := by
  have hA' : A ⊆ pairSet e.graph.vertexCount := fun x hx => by
    obtain ⟨a, b, h1, h2, h3, rfl⟩ := hA x hx
    exact mk_mem_pairSet.mpr ⟨h1, h2, h3⟩
  rw [← indepProb_marginal (fun x => headProb (Spacial.edgeLaw e.law (coords e.graph) x)) hA' hB,
    ← edgesLaw_filter (fun _ => headProb_nonneg _) (fun _ => headProb_le_one _),
    ← (Spacial.resample e.graph.vertexCount e.law (coords e.graph)).event (look := fun e => e.graph.edges) (fun _ _ => rfl)
      (c := e.core') ⟨h, rfl, rfl, rfl⟩ (P := fun E => A ∩ E = B) k]
  congr 1
  ext ω
  exact ⟨fun ⟨e', a⟩ => ⟨0, e', a⟩, fun ⟨_, e', a⟩ => ⟨e', a⟩⟩

/-- **C95, `SpacialEnsemble`, isolated vertices.**  `v` has no neighbours with the product of the probabilities that it is not joined to
each of the other vertices. -/
theorem C95_spacial_isolated {e : Spacial T Stream} (h : e.graph.WF) {v : ℕ} (hv : v < e.graph.vertexCount) (k : ℕ) :
    uniformTape {ω | ∃ e', Spacial.randomize { e with rng := (⟨ω, k⟩ : Stream) } = .ok e' ∧ e'.graph.degree v = some 0} =
      ENNReal.ofReal ((∏ u ∈ (Finset.range e.graph.vertexCount).erase v,
        (1 - headProb (Spacial.edgeLaw e.law (coords e.graph) s(v, u))) : ℚ) : ℝ) := by
  have h1 := C95_spacial_exactly h (A := pairsAt e.graph.vertexCount v) (B := ∅) (fun x hx => by
    have hx := (Finset.mem_filter.mp hx).1
    induction x with
    | _ a b => have := mk_mem_pairSet.mp hx; exact ⟨a, b, this.1, this.2.1, this.2.2, rfl⟩) (Finset.empty_subset _) k
  have h2 : (∏ x ∈ pairsAt e.graph.vertexCount v, if x ∈ (∅ : Finset (Sym2 ℕ)) then headProb (Spacial.edgeLaw e.law (coords e.graph) x)
        else 1 - headProb (Spacial.edgeLaw e.law (coords e.graph) x)) = ∏ u ∈ (Finset.range e.graph.vertexCount).erase v,
        (1 - headProb (Spacial.edgeLaw e.law (coords e.graph) s(v, u))) := by
    rw [pairsAt_eq hv, Finset.prod_image (fun a _ b _ h => Sym2.congr_right.mp h)]
    simp
  rw [h2] at h1
  rw [← h1]
  congr 1
  ext ω
  refine exists_congr fun e' => and_congr_right fun hr => ?_
  obtain ⟨e'', a1, a2, a3, _⟩ := Spacial.randomize_spec (e := { e with rng := (⟨ω, k⟩ : Stream) }) h
  rw [a1] at hr
  cases Res.ok.inj hr
  have a3 : e'.graph.nextId = e.graph.vertexCount := a3
  rw [degree_pairsAt a2 (by rw [a3]; exact hv), Option.some_inj, a3, Finset.card_eq_zero]

/-! ## `ErEnsembleM` -/

theorem ErM.Inv.le {e : ErM T Stream} (h : e.Inv) : e.m ≤ e.graph.vertexCount * (e.graph.vertexCount - 1) / 2 := by
  have h1 := h.len
  have h3 := h.split.length_eq
  rw [List.length_append, length_allPairs] at h3
  show e.m ≤ e.graph.nextId * (e.graph.nextId - 1) / 2
  omega

theorem ErM.event {e : ErM T Stream} (h : e.Inv) (Q : Finset (Sym2 ℕ) → Prop) [DecidablePred Q] (k : ℕ) :
    uniformTape {ω | ∃ e', randomize { e with rng := (⟨ω, k⟩ : Stream) } = .ok e' ∧ Q e'.graph.edges} =
      (((pairSet e.graph.vertexCount).powersetCard e.m).filter Q).card /
        (((e.graph.vertexCount * (e.graph.vertexCount - 1) / 2).choose e.m : ℕ) : ENNReal) := by
  have h1 := (ErM.resample e.graph.vertexCount e.m h.le).event (look := fun e => e.graph.edges) (fun _ _ => rfl) (c := e.core')
    ⟨⟨h.wf, h.len, h.cur, h.split, h.all⟩, rfl, rfl⟩ (P := Q) k
  rw [Finset.sum_const, nsmul_eq_mul, ← div_eq_mul_inv] at h1
  rw [← h1]
  congr 1
  ext ω
  exact ⟨fun ⟨e', a⟩ => ⟨0, e', a⟩, fun ⟨_, e', a⟩ => ⟨e', a⟩⟩

theorem ErM.Inv.randomize {e e' : ErM T Stream} (h : e.Inv) {r : Stream} (hr : ErM.randomize { e with rng := r } = .ok e') :
    e'.graph.WF ∧ e'.graph.nextId = e.graph.vertexCount := by
  obtain ⟨e'', a1, a2, a3, _⟩ := ErM.randomize_spec (e := { e with rng := r }) h.wf h.all h.len (by
    have h1 := h.len
    have h3 := h.split.length_eq
    rw [List.length_append] at h3
    show e.m + e.possibleEdges.length = (allPairs e.graph.nextId).length
    omega)
  rw [a1] at hr
  cases Res.ok.inj hr
  exact ⟨a2.wf, a3⟩

/-- **C95, `ErEnsembleM`, any set of pairs.**  The number of edges among the pairs `A` is hypergeometrically distributed. -/
theorem C95_er_m_pairs {e : ErM T Stream} (h : e.Inv) {A : Finset (Sym2 ℕ)}
    (hA : ∀ x ∈ A, ∃ a b, a < e.graph.vertexCount ∧ b < e.graph.vertexCount ∧ a ≠ b ∧ x = s(a, b)) {d : ℕ} (hd : d ≤ e.m) (k : ℕ) :
    uniformTape {ω | ∃ e', ErM.randomize { e with rng := (⟨ω, k⟩ : Stream) } = .ok e' ∧ (A ∩ e'.graph.edges).card = d} =
      ((A.card.choose d * (e.graph.vertexCount * (e.graph.vertexCount - 1) / 2 - A.card).choose (e.m - d) : ℕ) : ENNReal) /
        (((e.graph.vertexCount * (e.graph.vertexCount - 1) / 2).choose e.m : ℕ) : ENNReal) := by
  have hA' : A ⊆ pairSet e.graph.vertexCount := fun x hx => by
    obtain ⟨a, b, h1, h2, h3, rfl⟩ := hA x hx
    exact mk_mem_pairSet.mpr ⟨h1, h2, h3⟩
  rw [ErM.event h (fun E => (A ∩ E).card = d) k, card_hypergeometric hA', if_pos hd, card_pairSet]

/-- **C95, `ErEnsembleM`, the degrees.** -/
theorem C95_er_m_degree {e : ErM T Stream} (h : e.Inv) {v : ℕ} (hv : v < e.graph.vertexCount) {d : ℕ} (hd : d ≤ e.m) (k : ℕ) :
    uniformTape {ω | ∃ e', ErM.randomize { e with rng := (⟨ω, k⟩ : Stream) } = .ok e' ∧ e'.graph.degree v = some d} =
      (((e.graph.vertexCount - 1).choose d *
        (e.graph.vertexCount * (e.graph.vertexCount - 1) / 2 - (e.graph.vertexCount - 1)).choose (e.m - d) : ℕ) : ENNReal) /
        (((e.graph.vertexCount * (e.graph.vertexCount - 1) / 2).choose e.m : ℕ) : ENNReal) := by
  have h1 := C95_er_m_pairs h (A := pairsAt e.graph.vertexCount v) (fun x hx => by
    have hx := (Finset.mem_filter.mp hx).1
    induction x with
    | _ a b => have := mk_mem_pairSet.mp hx; exact ⟨a, b, this.1, this.2.1, this.2.2, rfl⟩) hd k
  rw [card_pairsAt hv] at h1
  rw [← h1]
  congr 1
  ext ω
  refine exists_congr fun e' => and_congr_right fun hr => ?_
  obtain ⟨a2, a3⟩ := h.randomize hr
  rw [degree_pairsAt a2 (by rw [a3]; exact hv), Option.some_inj, a3]

/-- **C95, `ErEnsembleM`, given edges.**  The probability that all of the pairs `A` are joined. -/
theorem C95_er_m_contains {e : ErM T Stream} (h : e.Inv) {A : Finset (Sym2 ℕ)}
    (hA : ∀ x ∈ A, ∃ a b, a < e.graph.vertexCount ∧ b < e.graph.vertexCount ∧ a ≠ b ∧ x = s(a, b)) (hm : A.card ≤ e.m) (k : ℕ) :
    uniformTape {ω | ∃ e', ErM.randomize { e with rng := (⟨ω, k⟩ : Stream) } = .ok e' ∧ A ⊆ e'.graph.edges} =
      (((e.graph.vertexCount * (e.graph.vertexCount - 1) / 2 - A.card).choose (e.m - A.card) : ℕ) : ENNReal) /
        (((e.graph.vertexCount * (e.graph.vertexCount - 1) / 2).choose e.m : ℕ) : ENNReal) := by
  have h1 := C95_er_m_pairs h hA hm k
  rw [Nat.choose_self, one_mul] at h1
  rw [← h1]
  congr 1
  ext ω
  refine exists_congr fun e' => and_congr_right fun _ => ?_
  constructor
  · intro hs; rw [Finset.inter_eq_left.mpr hs]
  · intro hs
    exact Finset.inter_eq_left.mp (Finset.eq_of_subset_of_card_le Finset.inter_subset_left hs.ge)

/-- **C95, `ErEnsembleM`, triangles.** -/
theorem C95_er_m_triangles {e : ErM T Stream} (h : e.Inv) (hm : 3 ≤ e.m) :
    ∃ X, Sampled (fun _ => ErM.randomize) (fun e => e.graph.edges) (fun r => { e with rng := r })
      ((pairSet e.graph.vertexCount).powersetCard e.m)
      (fun _ => (((e.graph.vertexCount * (e.graph.vertexCount - 1) / 2).choose e.m : ℕ) : ENNReal)⁻¹) X ∧
    ∀ᵐ ω ∂uniformTape, Tendsto (fun N : ℕ => (∑ i ∈ Finset.range N, (triangleCount e.graph.vertexCount (X i ω) : ℝ)) / N) atTop
      (nhds (e.graph.vertexCount.choose 3 * (((e.graph.vertexCount * (e.graph.vertexCount - 1) / 2 - 3).choose (e.m - 3) : ℝ) /
        (e.graph.vertexCount * (e.graph.vertexCount - 1) / 2).choose e.m))) := by
  obtain ⟨X, hX⟩ := C94_er_m_independent h
  refine ⟨X, hX, ?_⟩
  rw [← lawMean_triangles (Ω := (pairSet e.graph.vertexCount).powersetCard e.m)
    (w := fun _ => (((e.graph.vertexCount * (e.graph.vertexCount - 1) / 2).choose e.m : ℕ) : ENNReal)⁻¹) (fun t ht => ?_)]
  · exact hX.average (fun E => (triangleCount e.graph.vertexCount E : ℝ))
  · obtain ⟨h1, h2⟩ := pairsIn_pairSet ht
    have h2 : (pairsIn t).card = 3 := h2
    have h3 := card_hypergeometric h1 3 e.m
    rw [if_pos hm, h2, Nat.choose_self, one_mul, card_pairSet] at h3
    rw [Finset.sum_const, nsmul_eq_mul, ENNReal.toReal_inv, ENNReal.toReal_natCast, ← div_eq_mul_inv, ← h3]
    congr 3
    refine Finset.filter_congr fun S _ => ?_
    constructor
    · intro hs; rw [Finset.inter_eq_left.mpr hs, h2]
    · intro hs
      exact Finset.inter_eq_left.mp (Finset.eq_of_subset_of_card_le Finset.inter_subset_left (by rw [h2, hs]))

/-! ## Triangles and `transitivity` -/

theorem closed_triples (n : ℕ) (P : ℕ → ℕ → Prop) [DecidableRel P] (hs : ∀ a b, P a b → P b a) :
    (((Finset.range n ×ˢ Finset.range n ×ˢ Finset.range n).filter fun x => x.1 ≠ x.2.1 ∧ x.1 ≠ x.2.2 ∧ x.2.1 ≠ x.2.2 ∧
      P x.1 x.2.1 ∧ P x.2.1 x.2.2 ∧ P x.2.2 x.1)).card =
    6 * (((Finset.range n).powersetCard 3).filter fun t => ∀ a ∈ t, ∀ b ∈ t, a ≠ b → P a b).card := by
  rw [Finset.card_eq_sum_card_fiberwise (f := fun x => ({x.1, x.2.1, x.2.2} : Finset ℕ))
    (t := ((Finset.range n).powersetCard 3).filter fun t => ∀ a ∈ t, ∀ b ∈ t, a ≠ b → P a b)]
  · rw [Finset.sum_congr rfl (g := fun _ => 6), Finset.sum_const, smul_eq_mul, mul_comm]
    intro t ht
    obtain ⟨ht1, ht2⟩ := Finset.mem_filter.mp ht
    obtain ⟨ht3, ht4⟩ := Finset.mem_powersetCard.mp ht1
    obtain ⟨a, b, c, hab, hac, hbc, rfl⟩ := Finset.card_eq_three.mp ht4
    have : ((((Finset.range n ×ˢ Finset.range n ×ˢ Finset.range n).filter fun x => x.1 ≠ x.2.1 ∧ x.1 ≠ x.2.2 ∧ x.2.1 ≠ x.2.2 ∧
      P x.1 x.2.1 ∧ P x.2.1 x.2.2 ∧ P x.2.2 x.1)).filter fun x => ({x.1, x.2.1, x.2.2} : Finset ℕ) = {a, b, c}) =
      {(a, b, c), (a, c, b), (b, a, c), (b, c, a), (c, a, b), (c, b, a)} := by
      ext ⟨x, y, z⟩
      simp only [Finset.mem_filter, Finset.mem_product, Finset.mem_range, Finset.mem_insert, Finset.mem_singleton, Prod.mk.injEq]
      constructor
      · rintro ⟨⟨_, h1, h2, h3, _⟩, h⟩
        have hx : x ∈ ({a, b, c} : Finset ℕ) := h ▸ by simp
        have hy : y ∈ ({a, b, c} : Finset ℕ) := h ▸ by simp
        have hz : z ∈ ({a, b, c} : Finset ℕ) := h ▸ by simp
        simp only [Finset.mem_insert, Finset.mem_singleton] at hx hy hz
        clear h
        rcases hx with rfl | rfl | rfl <;> rcases hy with rfl | rfl | rfl <;> first | exact absurd rfl h1 | skip
        all_goals rcases hz with rfl | rfl | rfl <;> first | exact absurd rfl h2 | exact absurd rfl h3 | simp
      · intro h
        have e : ({x, y, z} : Finset ℕ) = {a, b, c} := by
          ext w
          simp only [Finset.mem_insert, Finset.mem_singleton]
          rcases h with ⟨rfl, rfl, rfl⟩ | ⟨rfl, rfl, rfl⟩ | ⟨rfl, rfl, rfl⟩ | ⟨rfl, rfl, rfl⟩ | ⟨rfl, rfl, rfl⟩ | ⟨rfl, rfl, rfl⟩ <;> tauto
        have hn : ∀ w ∈ ({x, y, z} : Finset ℕ), w < n := fun w hw => Finset.mem_range.mp (ht3 (e ▸ hw))
        have hne : x ≠ y ∧ x ≠ z ∧ y ≠ z := by
          have hb := Ne.symm hab; have hc := Ne.symm hac; have hd := Ne.symm hbc
          rcases h with ⟨rfl, rfl, rfl⟩ | ⟨rfl, rfl, rfl⟩ | ⟨rfl, rfl, rfl⟩ | ⟨rfl, rfl, rfl⟩ | ⟨rfl, rfl, rfl⟩ | ⟨rfl, rfl, rfl⟩ <;>
            refine ⟨?_, ?_, ?_⟩ <;> assumption
        rw [← e] at ht2
        exact ⟨⟨⟨hn x (by simp), hn y (by simp), hn z (by simp)⟩, hne.1, hne.2.1, hne.2.2, ht2 x (by simp) y (by simp) hne.1,
          ht2 y (by simp) z (by simp) hne.2.2, ht2 z (by simp) x (by simp) (Ne.symm hne.2.1)⟩, e⟩
    rw [this]
    have hb := Ne.symm hab; have hc := Ne.symm hac; have hd := Ne.symm hbc
    simp [Finset.card_insert_of_notMem, *]
  · rintro ⟨x, y, z⟩ h
    simp only [Finset.coe_filter, Finset.mem_product, Finset.mem_range, Set.mem_ofPred_eq] at h
    obtain ⟨⟨h1, h2, h3⟩, h4, h5, h6, h7, h8, h9⟩ := h
    simp only [Finset.coe_filter, Set.mem_ofPred_eq, Finset.mem_powersetCard]
    refine ⟨⟨?_, Finset.card_eq_three.mpr ⟨x, y, z, h4, h5, h6, rfl⟩⟩, ?_⟩
    · intro w hw
      simp only [Finset.mem_insert, Finset.mem_singleton] at hw
      rw [Finset.mem_range]
      rcases hw with rfl | rfl | rfl <;> assumption
    · intro a ha b hb hab
      simp only [Finset.mem_insert, Finset.mem_singleton] at ha hb
      rcases ha with rfl | rfl | rfl <;> rcases hb with rfl | rfl | rfl <;>
        first | exact absurd rfl hab | assumption | (apply hs; assumption)

/-- **C95, what `triangleCount` has to do with the API.**  The numerator of `transitivity` is six times the number of triangles. -/
theorem C95_triangles_transitivity {A : Type} [AdjContainer T A] [LawfulAdj T A] {g : GenericGraph T A} (h : g.WF) :
    ∃ p, g.transitivity = .ok (6 * triangleCount g.vertexCount g.edges, p) := by
  classical
  have hg := C24_transitivity h
  generalize hp : Finset.card (Finset.filter (fun t => g.toSimple.Adj t.1 t.2.1 ∧ g.toSimple.Adj t.2.1 t.2.2 ∧ t.1 ≠ t.2.2)
    (Finset.range g.vertexCount ×ˢ Finset.range g.vertexCount ×ˢ Finset.range g.vertexCount)) = p at hg
  refine ⟨p, hg.trans ?_⟩
  congr 2
  have h1 := closed_triples g.vertexCount (fun a b => s(a, b) ∈ g.edges) (fun a b hab => by rwa [Sym2.eq_swap])
  unfold triangleCount
  rw [← h1]
  congr 1
  refine Finset.filter_congr fun x _ => ?_
  have ha : ∀ a b, g.toSimple.Adj a b ↔ s(a, b) ∈ g.edges := fun a b => by rw [h.mem_edges, h.adj_iff]
  constructor
  · rintro ⟨h1, h2, h3, h4⟩
    exact ⟨h1.ne, h3, h2.ne, (ha _ _).mp h1, (ha _ _).mp h2, (ha _ _).mp h4.symm⟩
  · rintro ⟨_, h3, _, h1, h2, h4⟩
    exact ⟨(ha _ _).mpr h1, (ha _ _).mpr h2, h3, ((ha _ _).mpr h4).symm⟩

/-! ## Cases -/

example : ∃ e : ErC Nat Stream, e.graph.WF ∧ 3 < e.graph.vertexCount ∧ 0 < e.prob ∧ e.prob < 1 :=
  ⟨⟨exTail, 1 / 2, 2, ⟨fun _ => 0, 0⟩⟩, exTail_wf, by decide, by norm_num, by norm_num⟩

/-- Five vertices, four edges: vertex 0 is joined to all others with probability 1 / 210. -/
example : ∃ e : ErM Nat Stream, uniformTape {ω | ∃ e', ErM.randomize { e with rng := (⟨ω, 0⟩ : Stream) } = .ok e' ∧
    e'.graph.degree 0 = some 4} = 1 / 210 := by
  obtain ⟨e, _, h2, h3, h4, _⟩ := ErM.new_spec (T := Nat) (n := 5) (m := 4) (by decide) (by decide) (⟨fun _ => 0, 0⟩ : Stream)
  have h3 : e.graph.vertexCount = 5 := h3
  refine ⟨e, ?_⟩
  rw [C95_er_m_degree h2 (v := 0) (by omega) (d := 4) (by omega) 0, h3, h4]
  norm_num [Nat.choose]

example : ∃ e : ErM Nat Stream, e.Inv ∧ 3 ≤ e.m ∧ e.m < e.graph.vertexCount * (e.graph.vertexCount - 1) / 2 := by
  obtain ⟨e, _, h2, h3, h4, _⟩ := ErM.new_spec (T := Nat) (n := 5) (m := 4) (by decide) (by decide) (⟨fun _ => 0, 0⟩ : Stream)
  have h3 : e.graph.vertexCount = 5 := h3
  exact ⟨e, h2, by omega, by rw [h3, h4]; decide⟩

example : ∃ e : Spacial Nat Stream, e.graph.WF ∧ 2 < e.graph.vertexCount :=
  ⟨⟨exSpacial.graph, ⟨fun _ => 0, 0⟩, exSpacial.law⟩, exSpacial_wf, by decide⟩

/-- A triangle with one more edge has one triangle. -/
example : triangleCount 5 {s(0, 1), s(1, 2), s(0, 2), s(2, 3)} = 1 := by decide

end Verif
