import Verif.Props.Binomial
import Verif.Spec.Gilbert
import Mathlib.Algebra.BigOperators.Ring.Finset
import Mathlib.Tactic.Ring

/-!
# Sums over graphs, sorted by the component of one vertex

Used for C109.  Edge sets on the vertices `U` are weighted by `a ^ edges * b ^ (missing edges)` with numbers `a`, `b` of any commutative
ring.
-/

set_option linter.unusedSectionVars false

namespace Verif
open Classical

/-- The vertices of `U` that `E` joins to `v`. -/
noncomputable def compOf (U : Finset ℕ) (v : ℕ) (E : Finset (Sym2 ℕ)) : Finset ℕ := U.filter fun x => (ofEdges E).Reachable v x

theorem mk_mem_pairsIn {t : Finset ℕ} {x y : ℕ} : s(x, y) ∈ pairsIn t ↔ x ∈ t ∧ y ∈ t ∧ x ≠ y := by
  rw [pairsIn, Finset.mem_image]
  constructor
  · rintro ⟨⟨p, q⟩, h, e⟩
    have h' : p ∈ t ∧ q ∈ t ∧ p ≠ q := Finset.mem_offDiag.mp h
    rcases Sym2.eq_iff.mp e with ⟨h1, h2⟩ | ⟨h1, h2⟩
    · subst h1 h2; exact h'
    · subst h1 h2; exact ⟨h'.2.1, h'.1, h'.2.2.symm⟩
  · intro h
    exact ⟨(x, y), Finset.mem_offDiag.mpr h, rfl⟩

theorem card_pairsIn (t : Finset ℕ) : (pairsIn t).card = t.card.choose 2 := Sym2.card_image_offDiag t

theorem choose_two_add (x y : ℕ) : (x + y).choose 2 = x.choose 2 + y.choose 2 + x * y := by
  induction y with
  | zero => simp
  | succ y ih =>
    rw [← Nat.add_assoc, Nat.choose_succ_succ' (x + y) 1, Nat.choose_succ_succ' y 1, Nat.choose_one_right, Nat.choose_one_right, ih]
    ring

theorem mono_edges {E E' : Finset (Sym2 ℕ)} (h : E ⊆ E') {x y : ℕ} (hr : (ofEdges E).Reachable x y) : (ofEdges E').Reachable x y :=
  hr.mono (SimpleGraph.fromEdgeSet_mono (by exact_mod_cast h))

section
variable {U K : Finset ℕ} {v : ℕ} {E E1 E2 : Finset (Sym2 ℕ)}

theorem edge_of_adj {x y : ℕ} (h : (ofEdges E).Adj x y) : s(x, y) ∈ E := by
  have := (SimpleGraph.fromEdgeSet_adj _).mp h
  exact_mod_cast this.1

theorem adj_of_edge {x y : ℕ} (h : s(x, y) ∈ E) (hne : x ≠ y) : (ofEdges E).Adj x y :=
  (SimpleGraph.fromEdgeSet_adj _).mpr ⟨by exact_mod_cast h, hne⟩

/-- Edges do not leave the component. -/
theorem compOf_split (hE : E ⊆ pairsIn U) : E = E ∩ pairsIn (compOf U v E) ∪ E ∩ pairsIn (U \ compOf U v E) := by
  ext e
  rw [Finset.mem_union, Finset.mem_inter, Finset.mem_inter]
  constructor
  · intro he
    induction e with
    | _ x y =>
      obtain ⟨hx, hy, hne⟩ := mk_mem_pairsIn.mp (hE he)
      have had := (adj_of_edge he hne).reachable
      by_cases hr : (ofEdges E).Reachable v x
      · exact Or.inl ⟨he, mk_mem_pairsIn.mpr ⟨Finset.mem_filter.mpr ⟨hx, hr⟩, Finset.mem_filter.mpr ⟨hy, hr.trans had⟩, hne⟩⟩
      · refine Or.inr ⟨he, mk_mem_pairsIn.mpr ⟨Finset.mem_sdiff.mpr ⟨hx, fun h => hr (Finset.mem_filter.mp h).2⟩,
          Finset.mem_sdiff.mpr ⟨hy, fun h => hr ((Finset.mem_filter.mp h).2.trans had.symm)⟩, hne⟩⟩
  · rintro (h | h) <;> exact h.1

theorem compOf_connects (hE : E ⊆ pairsIn U) : Connects (compOf U v E) (E ∩ pairsIn (compOf U v E)) := by
  have key : ∀ x, (ofEdges E).Reachable v x → (ofEdges (E ∩ pairsIn (compOf U v E))).Reachable v x := by
    intro x hx
    rw [SimpleGraph.reachable_iff_reflTransGen] at hx
    induction hx with
    | refl => exact .refl _
    | @tail w y h1 h2 ih =>
      have he := edge_of_adj h2
      obtain ⟨hw, hy, hne⟩ := mk_mem_pairsIn.mp (hE he)
      have hr : (ofEdges E).Reachable v w := (SimpleGraph.reachable_iff_reflTransGen _ _).mpr h1
      refine ih.trans (adj_of_edge (Finset.mem_inter.mpr ⟨he, mk_mem_pairsIn.mpr ⟨Finset.mem_filter.mpr ⟨hw, hr⟩,
        Finset.mem_filter.mpr ⟨hy, hr.trans h2.reachable⟩, hne⟩⟩) hne).reachable
  intro x hx y hy
  exact (key x (Finset.mem_filter.mp hx).2).symm.trans (key y (Finset.mem_filter.mp hy).2)

theorem compOf_union (hK : K ⊆ U) (hv : v ∈ K) (h1 : E1 ⊆ pairsIn K) (h2 : E2 ⊆ pairsIn (U \ K)) (hc : Connects K E1) :
    compOf U v (E1 ∪ E2) = K := by
  ext x
  rw [compOf, Finset.mem_filter]
  constructor
  · rintro ⟨hx, hr⟩
    clear hx
    rw [SimpleGraph.reachable_iff_reflTransGen] at hr
    induction hr with
    | refl => exact hv
    | @tail w y _ h3 ih =>
      rcases Finset.mem_union.mp (edge_of_adj h3) with h | h
      · exact (mk_mem_pairsIn.mp (h1 h)).2.1
      · exact absurd ih (Finset.mem_sdiff.mp (mk_mem_pairsIn.mp (h2 h)).1).2
  · intro hx
    exact ⟨hK hx, mono_edges Finset.subset_union_left (hc v hv x hx)⟩

theorem pairsIn_mono (h : K ⊆ U) : pairsIn K ⊆ pairsIn U := by
  intro e he
  induction e with
  | _ x y =>
    obtain ⟨hx, hy, hne⟩ := mk_mem_pairsIn.mp he
    exact mk_mem_pairsIn.mpr ⟨h hx, h hy, hne⟩

theorem pairsIn_disjoint : Disjoint (pairsIn K) (pairsIn (U \ K)) := by
  rw [Finset.disjoint_left]
  intro e he he'
  induction e with
  | _ x y => exact (Finset.mem_sdiff.mp (mk_mem_pairsIn.mp he').1).2 (mk_mem_pairsIn.mp he).1

end

variable {R : Type} [CommRing R] (a b : R)

/-- The weight of an edge set on the vertices `U`. -/
def edgeWeight (U : Finset ℕ) (E : Finset (Sym2 ℕ)) : R := a ^ E.card * b ^ ((pairsIn U).card - E.card)

/-- The weight of all edge sets that connect `U`. -/
noncomputable def connectWeight (U : Finset ℕ) : R := ∑ E ∈ (pairsIn U).powerset with Connects U E, edgeWeight a b U E

theorem sum_edgeWeight (U : Finset ℕ) : ∑ E ∈ (pairsIn U).powerset, edgeWeight a b U E = (a + b) ^ (pairsIn U).card :=
  Finset.sum_pow_mul_eq_add_pow a b (pairsIn U)

/-- The edge sets in which the component of `v` is `K`. -/
theorem sum_compOf {U K : Finset ℕ} {v : ℕ} (hK : K ⊆ U) (hv : v ∈ K) :
    ∑ E ∈ (pairsIn U).powerset with compOf U v E = K, edgeWeight a b U E =
      connectWeight a b K * b ^ (K.card * (U \ K).card) * (a + b) ^ (pairsIn (U \ K)).card := by
  rw [← sum_edgeWeight, mul_assoc, mul_comm (b ^ _), ← mul_assoc, connectWeight, Finset.sum_mul_sum, ← Finset.sum_product',
    Finset.sum_mul]
  refine Finset.sum_bij' (fun E _ => (E ∩ pairsIn K, E ∩ pairsIn (U \ K))) (fun P _ => P.1 ∪ P.2) ?_ ?_ ?_ ?_ ?_
  · intro E hE
    obtain ⟨h1, h2⟩ := Finset.mem_filter.mp hE
    rw [Finset.mem_product, Finset.mem_filter, Finset.mem_powerset, Finset.mem_powerset]
    refine ⟨⟨Finset.inter_subset_right, ?_⟩, Finset.inter_subset_right⟩
    have := compOf_connects (v := v) (Finset.mem_powerset.mp h1)
    rwa [h2] at this
  · intro P hP
    rw [Finset.mem_product, Finset.mem_filter, Finset.mem_powerset, Finset.mem_powerset] at hP
    rw [Finset.mem_filter, Finset.mem_powerset]
    exact ⟨Finset.union_subset (hP.1.1.trans (pairsIn_mono hK)) (hP.2.trans (pairsIn_mono Finset.sdiff_subset)),
      compOf_union hK hv hP.1.1 hP.2 hP.1.2⟩
  · intro E hE
    obtain ⟨h1, h2⟩ := Finset.mem_filter.mp hE
    have := compOf_split (v := v) (Finset.mem_powerset.mp h1)
    rw [h2] at this
    exact this.symm
  · intro P hP
    rw [Finset.mem_product, Finset.mem_filter, Finset.mem_powerset, Finset.mem_powerset] at hP
    have d1 : P.2 ∩ pairsIn K = ∅ := Finset.disjoint_iff_inter_eq_empty.mp
      ((pairsIn_disjoint (U := U)).symm.mono_left hP.2)
    have d2 : P.1 ∩ pairsIn (U \ K) = ∅ := Finset.disjoint_iff_inter_eq_empty.mp
      ((pairsIn_disjoint (U := U)).mono_left hP.1.1)
    simp only [Finset.union_inter_distrib_right, d1, d2, Finset.inter_eq_left.mpr hP.1.1, Finset.inter_eq_left.mpr hP.2,
      Finset.union_empty, Finset.empty_union]
  · intro E hE
    obtain ⟨h1, h2⟩ := Finset.mem_filter.mp hE
    have hs := compOf_split (v := v) (Finset.mem_powerset.mp h1)
    rw [h2] at hs
    have hd : Disjoint (E ∩ pairsIn K) (E ∩ pairsIn (U \ K)) :=
      (pairsIn_disjoint (U := U)).mono Finset.inter_subset_right Finset.inter_subset_right
    have hc : E.card = (E ∩ pairsIn K).card + (E ∩ pairsIn (U \ K)).card := by
      rw [← Finset.card_union_of_disjoint hd, ← hs]
    have l1 : (E ∩ pairsIn K).card ≤ (pairsIn K).card := Finset.card_le_card Finset.inter_subset_right
    have l2 : (E ∩ pairsIn (U \ K)).card ≤ (pairsIn (U \ K)).card := Finset.card_le_card Finset.inter_subset_right
    have hU : (pairsIn U).card = (pairsIn K).card + (pairsIn (U \ K)).card + K.card * (U \ K).card := by
      rw [card_pairsIn, card_pairsIn, card_pairsIn, ← choose_two_add, Finset.card_sdiff_of_subset hK,
        Nat.add_sub_cancel' (Finset.card_le_card hK)]
    have he : (pairsIn U).card - E.card = ((pairsIn K).card - (E ∩ pairsIn K).card) +
        ((pairsIn (U \ K)).card - (E ∩ pairsIn (U \ K)).card) + K.card * (U \ K).card := by omega
    unfold edgeWeight
    rw [he, hc]
    ring

/-- The recursion for the weight of the connected graphs with `n + 1` vertices. -/
def connectRec (n : ℕ) : R :=
  (a + b) ^ (n + 1).choose 2 -
    ∑ k : Fin n, n.choose k * (connectRec k * b ^ (((k : ℕ) + 1) * (n - k)) * (a + b) ^ (n - k).choose 2)
termination_by n
decreasing_by exact k.2

/-- Sorting by the size of the component of `v`. -/
theorem sum_by_component {U : Finset ℕ} {v n : ℕ} (hv : v ∈ U) (hn : U.card = n + 1) {f : ℕ → R}
    (hf : ∀ K ⊆ U, v ∈ K → ∀ k, K.card = k + 1 → connectWeight a b K = f k) (Q : ℕ → Prop) [DecidablePred Q] :
    ∑ E ∈ (pairsIn U).powerset with Q ((compOf U v E).card - 1), edgeWeight a b U E =
      ∑ k ∈ (Finset.range (n + 1)).filter Q, n.choose k * (f k * b ^ ((k + 1) * (n - k)) * (a + b) ^ (n - k).choose 2) := by
  have hmaps : ∀ E ∈ (pairsIn U).powerset.filter (fun E => Q ((compOf U v E).card - 1)),
      (compOf U v E).erase v ∈ (U.erase v).powerset.filter (fun K => Q K.card) := by
    intro E hE
    have hvc : v ∈ compOf U v E := Finset.mem_filter.mpr ⟨hv, .refl _⟩
    rw [Finset.mem_filter, Finset.mem_powerset, Finset.card_erase_of_mem hvc]
    exact ⟨Finset.erase_subset_erase _ (Finset.filter_subset _ _), (Finset.mem_filter.mp hE).2⟩
  rw [← Finset.sum_fiberwise_of_maps_to hmaps]
  have hterm : ∀ K ∈ (U.erase v).powerset.filter (fun K => Q K.card),
      ∑ E ∈ ((pairsIn U).powerset.filter (fun E => Q ((compOf U v E).card - 1))).filter (fun E => (compOf U v E).erase v = K), edgeWeight a b U E =
        f K.card * b ^ ((K.card + 1) * (n - K.card)) * (a + b) ^ (n - K.card).choose 2 := by
    intro K hK
    obtain ⟨hK1, hK2⟩ := Finset.mem_filter.mp hK
    have hsub := Finset.mem_powerset.mp hK1
    have hvK : v ∉ K := fun h => (Finset.mem_erase.mp (hsub h)).1 rfl
    have hi : insert v K ⊆ U := Finset.insert_subset hv (hsub.trans (Finset.erase_subset _ _))
    have hcard : (insert v K).card = K.card + 1 := Finset.card_insert_of_notMem hvK
    have hsd : (U \ insert v K).card = n - K.card := by
      rw [Finset.card_sdiff_of_subset hi, hcard, hn]; omega
    have hfil : ((pairsIn U).powerset.filter (fun E => Q ((compOf U v E).card - 1))).filter (fun E => (compOf U v E).erase v = K) =
        (pairsIn U).powerset.filter (fun E => compOf U v E = insert v K) := by
      ext E
      rw [Finset.mem_filter, Finset.mem_filter, Finset.mem_filter]
      have hvc : v ∈ compOf U v E := Finset.mem_filter.mpr ⟨hv, .refl _⟩
      constructor
      · rintro ⟨⟨h1, _⟩, h2⟩
        exact ⟨h1, by rw [← h2, Finset.insert_erase hvc]⟩
      · rintro ⟨h1, h2⟩
        refine ⟨⟨h1, ?_⟩, by rw [h2, Finset.erase_insert hvK]⟩
        rw [h2, hcard]
        exact hK2
    rw [hfil, sum_compOf a b hi (Finset.mem_insert_self _ _), hcard, hsd, card_pairsIn, hsd,
      hf (insert v K) hi (Finset.mem_insert_self _ _) K.card hcard]
  rw [Finset.sum_congr rfl hterm, Finset.sum_filter, Finset.sum_filter]
  have := Finset.sum_powerset_apply_card (fun k => if Q k then f k * b ^ ((k + 1) * (n - k)) * (a + b) ^ (n - k).choose 2 else 0) (x := U.erase v)
  rw [Finset.card_erase_of_mem hv, hn, Nat.add_sub_cancel] at this
  rw [this]
  refine Finset.sum_congr rfl fun k _ => ?_
  by_cases hQ : Q k
  · rw [if_pos hQ, if_pos hQ, nsmul_eq_mul]
  · rw [if_neg hQ, if_neg hQ, nsmul_zero]

theorem connectWeight_eq (n : ℕ) : ∀ U : Finset ℕ, U.card = n + 1 → connectWeight a b U = connectRec a b n := by
  induction n using Nat.strong_induction_on with
  | _ n ih =>
    intro U hU
    obtain ⟨v, hv⟩ : U.Nonempty := Finset.card_pos.mp (by omega)
    have h1 := sum_by_component a b hv hU (f := fun k => if k = n then connectWeight a b U else connectRec a b k) (by
      intro K hK _ k hk
      by_cases hkn : k = n
      · rw [if_pos hkn, Finset.eq_of_subset_of_card_le hK (by omega)]
      · have := Finset.card_le_card hK
        rw [if_neg hkn]
        exact ih k (by omega) K hk) (fun _ => True)
    rw [Finset.filter_true_of_mem (fun _ _ => trivial), Finset.filter_true_of_mem (fun _ _ => trivial), sum_edgeWeight, card_pairsIn, hU,
      Finset.sum_range_succ] at h1
    simp only [if_true, Nat.choose_self, Nat.sub_self, mul_zero, pow_zero, Nat.cast_one, one_mul, mul_one] at h1
    have h0 : (0 : ℕ).choose 2 = 0 := rfl
    rw [h0, pow_zero, mul_one] at h1
    have h2 : ∑ k ∈ Finset.range n, (n.choose k : R) * ((if k = n then connectWeight a b U else connectRec a b k) * b ^ ((k + 1) * (n - k)) *
        (a + b) ^ (n - k).choose 2) =
        ∑ k : Fin n, (n.choose k : R) * (connectRec a b k * b ^ (((k : ℕ) + 1) * (n - k)) * (a + b) ^ (n - k).choose 2) := by
      rw [Finset.sum_range]
      exact Finset.sum_congr rfl fun k _ => by rw [if_neg (by omega)]
    rw [h2] at h1
    rw [connectRec, h1]
    ring

/-- The weight of the edge sets in which the component of `v` has `k + 1` vertices. -/
theorem sum_component_size {U : Finset ℕ} {v n k : ℕ} (hv : v ∈ U) (hn : U.card = n + 1) :
    ∑ E ∈ (pairsIn U).powerset with (compOf U v E).card = k + 1, edgeWeight a b U E =
      n.choose k * (connectRec a b k * b ^ ((k + 1) * (n - k)) * (a + b) ^ (n - k).choose 2) := by
  have h1 := sum_by_component a b hv hn (f := connectRec a b) (fun K _ _ k hk => connectWeight_eq a b k K hk) (fun j => j = k)
  have h2 : (pairsIn U).powerset.filter (fun E => (compOf U v E).card - 1 = k) =
      (pairsIn U).powerset.filter (fun E => (compOf U v E).card = k + 1) := by
    apply Finset.filter_congr
    intro E _
    have hvc : 0 < (compOf U v E).card := Finset.card_pos.mpr ⟨v, Finset.mem_filter.mpr ⟨hv, .refl _⟩⟩
    omega
  rw [h2] at h1
  rw [h1]
  by_cases hk : k ≤ n
  · rw [Finset.filter_eq', if_pos (Finset.mem_range.mpr (by omega)), Finset.sum_singleton]
  · rw [Finset.filter_eq', if_neg (fun h => hk (by have := Finset.mem_range.mp h; omega)), Finset.sum_empty,
      Nat.choose_eq_zero_of_lt (by omega), Nat.cast_zero, zero_mul]

end Verif
