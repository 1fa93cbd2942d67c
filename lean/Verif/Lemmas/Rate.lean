import Verif.Lemmas.ChainStrong
import Verif.Lemmas.Indep
import Mathlib.Algebra.Order.Field.GeomSum

/-!
# How fast a Markov chain forgets its first state

If the mean after `k` steps of a function of the observable differs by at most `B` between any two first states, then it differs by at most
`B` from the limit (`Steady.mean_near`).  For the chains that toggle one pair and for the chain that exchanges one edge the differences shrink by
a fixed factor in every step.
-/

set_option linter.unusedSectionVars false
set_option linter.unusedSimpArgs false

namespace Verif
open Finset

section Generic
variable {E D O : Type} [DecidableEq O]

namespace Steady
variable {W : E → Prop} {draws : E → Finset D} {wt : E → D → ℚ} {run : E → D → Res E} {obs : E → O}

theorem mean_congr (h : Steady W draws wt run) {F G : E → ℚ} (hFG : ∀ e, W e → F e = G e) :
    ∀ (k : ℕ) {e : E}, W e → meanAfter draws wt run F k e = meanAfter draws wt run G k e := by
  intro k
  induction k with
  | zero => intro e he; exact hFG e he
  | succ k ih => intro e he; exact h.avg_congr (fun e he => ih he) he

theorem mean_add (F : E → ℚ) (k : ℕ) : ∀ (j : ℕ) (e : E),
    meanAfter draws wt run F (j + k) e = meanAfter draws wt run (meanAfter draws wt run F k) j e := by
  intro j
  induction j with
  | zero => intro e; rw [Nat.zero_add]; rfl
  | succ j ih =>
    intro e
    rw [Nat.add_right_comm]
    show avg draws wt run _ e = avg draws wt run _ e
    congr 1
    funext e'
    exact ih e'

theorem mean_sub_const (h : Steady W draws wt run) (F : E → ℚ) (c : ℚ) : ∀ (k : ℕ) {e : E}, W e →
    meanAfter draws wt run (fun e => F e - c) k e = meanAfter draws wt run F k e - c := by
  intro k
  induction k with
  | zero => intro e _; rfl
  | succ k ih =>
    intro e he
    show avg draws wt run _ e = avg draws wt run _ e - c
    rw [h.avg_congr (fun e he => ih he) he]
    have := avg_add (draws := draws) (wt := wt) (run := run) (meanAfter draws wt run F k) (fun _ => -c) e
    rw [h.avg_const _ he] at this
    simp only [← sub_eq_add_neg] at this
    exact this

theorem mean_sum {ι : Type} (s : Finset ι) (F : ι → E → ℚ) : ∀ (k : ℕ) (e : E),
    meanAfter draws wt run (fun e => ∑ i ∈ s, F i e) k e = ∑ i ∈ s, meanAfter draws wt run (F i) k e := by
  intro k
  induction k with
  | zero => intro e; rfl
  | succ k ih =>
    intro e
    show avg draws wt run _ e = ∑ i ∈ s, avg draws wt run _ e
    rw [← avg_sum]
    congr 1
    funext e'
    exact ih e'

/-- If the first state makes a difference of at most `B` after `k` steps, the mean is within `B` of its limit. -/
theorem mean_near (h : Steady W draws wt run) {Ω : Finset O} (hΩ : ∀ e, W e → obs e ∈ Ω) {π : O → ℚ}
    (hc : ∀ ε : ℚ, 0 < ε → ∃ t₀, ∀ t, t₀ ≤ t → ∀ e, W e → ∀ y ∈ Ω, |lawAfterW draws wt run obs t e y - π y| < ε) (f : O → ℚ)
    {k : ℕ} {B : ℚ} (hB : ∀ e e', W e → W e' →
      |meanAfter draws wt run (fun e => f (obs e)) k e - meanAfter draws wt run (fun e => f (obs e)) k e'| ≤ B) {e : E} (he : W e) :
    |meanAfter draws wt run (fun e => f (obs e)) k e - ∑ y ∈ Ω, π y * f y| ≤ B := by
  refine le_of_forall_pos_le_add fun ε hε => ?_
  set K : ℚ := ∑ y ∈ Ω, |f y| + 1 with hK
  have hs0 : 0 ≤ ∑ y ∈ Ω, |f y| := sum_nonneg fun y _ => abs_nonneg _
  have hK0 : 0 < K := by linarith
  obtain ⟨t₀, ht⟩ := hc (ε / K) (by positivity)
  have h1 : |meanAfter draws wt run (fun e => f (obs e)) (t₀ + k) e - ∑ y ∈ Ω, π y * f y| ≤ ε := by
    rw [h.mean_eq_law hΩ f _ he, ← sum_sub_distrib]
    refine (abs_sum_le_sum_abs _ _).trans ?_
    have : ∀ y ∈ Ω, |f y * lawAfterW draws wt run obs (t₀ + k) e y - π y * f y| ≤ |f y| * (ε / K) := by
      intro y hy
      rw [show f y * lawAfterW draws wt run obs (t₀ + k) e y - π y * f y = f y * (lawAfterW draws wt run obs (t₀ + k) e y - π y) by ring,
        abs_mul]
      exact mul_le_mul_of_nonneg_left (ht _ (Nat.le_add_right _ _) e he y hy).le (abs_nonneg _)
    refine (sum_le_sum this).trans ?_
    rw [← sum_mul]
    have h2 : (∑ y ∈ Ω, |f y|) * (ε / K) ≤ K * (ε / K) := mul_le_mul_of_nonneg_right (by linarith) (by positivity)
    refine h2.trans (le_of_eq ?_)
    field_simp
  have h2 : |meanAfter draws wt run (fun e => f (obs e)) (t₀ + k) e - meanAfter draws wt run (fun e => f (obs e)) k e| ≤ B := by
    rw [mean_add, ← h.mean_sub_const _ _ _ he]
    exact h.abs_mean_le (fun e' he' => hB e' e he' he) t₀ he
  have h3 := abs_sub_le (meanAfter draws wt run (fun e => f (obs e)) k e) (meanAfter draws wt run (fun e => f (obs e)) (t₀ + k) e)
    (∑ y ∈ Ω, π y * f y)
  rw [abs_sub_comm] at h2
  linarith

/-- The second moment of the sum over `N` steps, if the means approach their limit geometrically. -/
theorem mom2_le_rate (h : Steady W draws wt run) {F : E → ℚ} {b C ρ : ℚ} (hb0 : 0 ≤ b) (hb : ∀ e, W e → |F e| ≤ b) (hρ0 : 0 ≤ ρ) (hρ1 : ρ < 1)
    (hr : ∀ k e, W e → |meanAfter draws wt run F k e| ≤ C * ρ ^ k) : ∀ (N : ℕ) {e : E}, W e →
    mom2 draws wt run F N e ≤ N * (b * b + 2 * (b * (C / (1 - ρ)))) := by
  have h1 : ∀ (N : ℕ) {e : E}, W e → |mom1 draws wt run F N e| ≤ C / (1 - ρ) := by
    intro N e he
    have hC : 0 ≤ C := by
      have := hr 0 e he
      rw [pow_zero, mul_one] at this
      exact (abs_nonneg _).trans this
    rw [h.mom1_eq F N he]
    refine (abs_sum_le_sum_abs _ _).trans ((sum_le_sum fun k _ => hr (k + 1) e he).trans ?_)
    rw [← mul_sum, div_eq_mul_inv]
    refine mul_le_mul_of_nonneg_left ?_ hC
    have h2 : ∑ k ∈ range N, ρ ^ (k + 1) ≤ ∑ k ∈ range N, ρ ^ k :=
      sum_le_sum fun k _ => pow_le_pow_of_le_one hρ0 hρ1.le (Nat.le_succ k)
    refine h2.trans ?_
    have h3 := geom_sum_mul_neg ρ N
    have h4 : (∑ k ∈ range N, ρ ^ k) * (1 - ρ) ≤ 1 := by rw [h3]; linarith [pow_nonneg hρ0 N]
    rw [← one_div, le_div_iff₀ (by linarith)]
    exact h4
  intro N
  induction N with
  | zero => intro e _; simp [mom2]
  | succ N ih =>
    intro e he
    have h2 : ∀ e', W e' → F e' * F e' + 2 * (F e' * mom1 draws wt run F N e') + mom2 draws wt run F N e' ≤
        (b * b + 2 * (b * (C / (1 - ρ)))) + N * (b * b + 2 * (b * (C / (1 - ρ)))) := by
      intro e' he'
      have k1 : F e' * F e' ≤ b * b := by
        rw [← abs_mul_abs_self (F e')]
        exact mul_le_mul (hb e' he') (hb e' he') (abs_nonneg _) hb0
      have k2 : F e' * mom1 draws wt run F N e' ≤ b * (C / (1 - ρ)) := by
        refine (le_abs_self _).trans ?_
        rw [abs_mul]
        exact mul_le_mul (hb e' he') (h1 N he') (abs_nonneg _) hb0
      have k3 := ih he'
      linarith
    have h3 := h.avg_le h2 he
    rw [h.avg_const _ he] at h3
    refine h3.trans (le_of_eq ?_)
    push_cast
    ring

end Steady
end Generic

/-! ## Chains that toggle a pair -/

theorem hit_card {n K : ℕ} {x : Sym2 ℕ} (P : ℕ → Prop) [DecidablePred P]
    (h2 : ((range n ×ˢ range (n - 1)).filter (fun d => drawn d = x)).card = 2) :
    ((range n ×ˢ range (n - 1) ×ˢ range K).filter (fun d => drawn (d.1, d.2.1) = x ∧ P d.2.2)).card = 2 * ((range K).filter P).card := by
  have : (range n ×ˢ range (n - 1) ×ˢ range K).filter (fun d => drawn (d.1, d.2.1) = x ∧ P d.2.2) =
      (((range n ×ˢ range (n - 1)).filter (fun d => drawn d = x)) ×ˢ ((range K).filter P)).map (Equiv.prodAssoc ℕ ℕ ℕ).toEmbedding := by
    ext ⟨a, b, u⟩
    simp only [mem_filter, mem_product, mem_range, mem_map, Equiv.coe_toEmbedding, Equiv.prodAssoc_apply, Prod.exists, Prod.mk.injEq]
    constructor
    · rintro ⟨⟨h1, h2, h3⟩, h4, h5⟩
      exact ⟨a, b, u, ⟨⟨⟨h1, h2⟩, h4⟩, h3, h5⟩, rfl, rfl, rfl⟩
    · rintro ⟨_, _, _, ⟨⟨⟨h1, h2⟩, h4⟩, h3, h5⟩, rfl, rfl, rfl⟩
      exact ⟨⟨h1, h2, h3⟩, h4, h5⟩
  rw [this, card_map, card_product, h2]

theorem hit_all {n K : ℕ} {x : Sym2 ℕ} (h2 : ((range n ×ˢ range (n - 1)).filter (fun d => drawn d = x)).card = 2) :
    ((range n ×ˢ range (n - 1) ×ˢ range K).filter (fun d => drawn (d.1, d.2.1) = x)).card = 2 * K := by
  have := hit_card (K := K) (fun _ => True) h2
  simpa only [and_true, filter_true, card_range] using this

/-- Every pair is hit by the same number of draws. -/
theorem pairDraws_hit {n : ℕ} {x : Sym2 ℕ} (hx : x ∈ pairSet n) :
    ((pairDraws n).filter (fun d => drawn (d.1, d.2.1) = x)).card * (pairSet n).card = (pairDraws n).card := by
  obtain ⟨p, hp, rfl⟩ := mem_pairSet.mp hx
  have hp := mem_allPairs.mp hp
  have h2 : ((range n ×ˢ range (n - 1)).filter (fun d => drawn d = toEdge p)).card = 2 :=
    drawn_card (n := n) (x := p.1) (y := p.2) (by omega) (by omega) (by omega)
  rw [card_pairSet, pairDraws]
  generalize 2 ^ 53 = K
  have h3 := hit_all (K := K) h2
  rw [h3, card_product, card_product, card_range, card_range, card_range]
  have h4 : n * (n - 1) / 2 * 2 = n * (n - 1) := Nat.div_mul_cancel (Nat.even_mul_pred_self n).two_dvd
  calc 2 * K * (n * (n - 1) / 2) = (n * (n - 1) / 2 * 2) * K := by ring
    _ = _ := by rw [h4]; ring

theorem toggled_sub {n : ℕ} (q : Sym2 ℕ → ℚ) {S : Finset (Sym2 ℕ)} (hS : S ⊆ pairSet n) {d : ℕ × ℕ × ℕ} (hd : d ∈ pairDraws n) :
    toggled q S d ⊆ pairSet n := by
  simp only [pairDraws, mem_product, mem_range] at hd
  unfold toggled
  split
  · exact insert_subset (drawn_mem hd.1 hd.2.1) hS
  · exact (erase_subset _ _).trans hS

/-- The mean after one step, as a function of the edges. -/
def toggleMean (n : ℕ) (q : Sym2 ℕ → ℚ) (F : Finset (Sym2 ℕ) → ℚ) (S : Finset (Sym2 ℕ)) : ℚ :=
  (∑ d ∈ pairDraws n, F (toggled q S d)) / ((pairDraws n).card : ℚ)

theorem toggle_contract {n : ℕ} (q : Sym2 ℕ → ℚ) {F : Finset (Sym2 ℕ) → ℚ} {L : ℚ} {x : Sym2 ℕ} (hx : x ∈ pairSet n)
    (hF : ∀ S ⊆ pairSet n, |F (insert x S) - F (S.erase x)| ≤ L) : ∀ S ⊆ pairSet n,
    |toggleMean n q F (insert x S) - toggleMean n q F (S.erase x)| ≤ (1 - 1 / ((pairSet n).card : ℚ)) * L := by
  intro S hS
  have hcard := pairDraws_hit hx
  have hN : 0 < (pairSet n).card := card_pos.mpr ⟨x, hx⟩
  have hpos : 0 < (pairDraws n).card := by
    obtain ⟨a, b, ha, hb, _⟩ := exists_drawn hx
    refine card_pos.mpr ⟨(a, b, 0), ?_⟩
    simp only [pairDraws, mem_product, mem_range]
    exact ⟨ha, hb, by norm_num⟩
  have h1 : ∀ d ∈ pairDraws n, |F (toggled q (insert x S) d) - F (toggled q (S.erase x) d)| ≤
      L - (if drawn (d.1, d.2.1) = x then L else 0) := by
    intro d hd
    by_cases hdx : drawn (d.1, d.2.1) = x
    · have : toggled q (insert x S) d = toggled q (S.erase x) d := by
        unfold toggled
        rw [hdx]
        split
        · rw [insert_idem]
          ext y
          by_cases hy : y = x <;> simp [hy]
        · rw [erase_insert_eq_erase, erase_idem]
      rw [this, if_pos hdx, sub_self, sub_self, abs_zero]
    · rw [if_neg hdx, sub_zero]
      have e1 : toggled q (insert x S) d = insert x (toggled q S d) := by
        unfold toggled
        split
        · rw [insert_comm]
        · ext y
          simp only [mem_erase, mem_insert]
          by_cases hy : y = x
          · subst hy; simp [Ne.symm hdx]
          · simp [hy]
      have e2 : toggled q (S.erase x) d = (toggled q S d).erase x := by
        unfold toggled
        split
        · ext y
          simp only [mem_erase, mem_insert]
          by_cases hy : y = x
          · subst hy; simp [Ne.symm hdx]
          · simp [hy]
        · exact erase_right_comm
      rw [e1, e2]
      exact hF _ (toggled_sub q hS hd)
  unfold toggleMean
  rw [← sub_div, ← sum_sub_distrib, abs_div, abs_of_pos (by exact_mod_cast hpos : (0 : ℚ) < ((pairDraws n).card : ℚ)),
    div_le_iff₀ (by exact_mod_cast hpos)]
  refine (abs_sum_le_sum_abs _ _).trans ((sum_le_sum h1).trans (le_of_eq ?_))
  rw [sum_sub_distrib, sum_const, nsmul_eq_mul, ← sum_filter, sum_const, nsmul_eq_mul]
  have hc : ((pairDraws n).card : ℚ) = ((pairDraws n).filter (fun d => drawn (d.1, d.2.1) = x)).card * ((pairSet n).card : ℚ) := by
    exact_mod_cast hcard.symm
  have hN' : ((pairSet n).card : ℚ) ≠ 0 := by exact_mod_cast hN.ne'
  rw [hc]
  field_simp

/-- Changing one pair after the other. -/
theorem toggle_osc {n : ℕ} {F : Finset (Sym2 ℕ) → ℚ} {L : Sym2 ℕ → ℚ}
    (hF : ∀ x ∈ pairSet n, ∀ S ⊆ pairSet n, |F (insert x S) - F (S.erase x)| ≤ L x) {S S' : Finset (Sym2 ℕ)} (hS : S ⊆ pairSet n)
    (hS' : S' ⊆ pairSet n) : |F S - F S'| ≤ ∑ x ∈ pairSet n, L x := by
  have key : ∀ U : Finset (Sym2 ℕ), U ⊆ pairSet n → |F S - F ((S \ U) ∪ (S' ∩ U))| ≤ ∑ x ∈ U, L x := by
    intro U
    induction U using Finset.induction_on with
    | empty => intro _; simp
    | insert x U hx ih =>
      intro hU
      have h1 := ih (fun y hy => hU (mem_insert_of_mem hy))
      have hxn := hU (mem_insert_self _ _)
      set A := (S \ U) ∪ (S' ∩ U) with hA
      have hAn : A ⊆ pairSet n := union_subset (fun y hy => hS (mem_sdiff.mp hy).1) (fun y hy => hS' (mem_inter.mp hy).1)
      have h2 := hF x hxn A hAn
      have h3 : |F A - F ((S \ insert x U) ∪ (S' ∩ insert x U))| ≤ L x := by
        have hL : 0 ≤ L x := (abs_nonneg _).trans h2
        have a1 : A = insert x A ∨ A = A.erase x := by
          by_cases hxA : x ∈ A
          · left; rw [insert_eq_of_mem hxA]
          · right; rw [erase_eq_of_notMem hxA]
        have a2 : (S \ insert x U) ∪ (S' ∩ insert x U) = insert x A ∨ (S \ insert x U) ∪ (S' ∩ insert x U) = A.erase x := by
          by_cases hxS : x ∈ S'
          · left
            ext y
            by_cases hy : y = x
            · subst hy; simp [hxS]
            · simp [hA, hy]
          · right
            ext y
            by_cases hy : y = x
            · subst hy; simp [hxS]
            · simp [hA, hy]
        rcases a1 with a1 | a1 <;> rcases a2 with a2 | a2
        · rw [a2, ← a1, sub_self, abs_zero]; exact hL
        · rw [a2]
          conv_lhs => rw [show F A = F (insert x A) from congrArg F a1]
          exact h2
        · rw [a2]
          conv_lhs => rw [show F A = F (A.erase x) from congrArg F a1]
          rw [abs_sub_comm]
          exact h2
        · rw [a2, ← a1, sub_self, abs_zero]; exact hL
      rw [sum_insert hx, add_comm]
      exact (abs_sub_le _ _ _).trans (add_le_add h1 h3)
  have h := key (pairSet n) (Subset.refl _)
  rwa [sdiff_eq_empty_iff_subset.mpr hS, empty_union, inter_eq_left.mpr hS'] at h

section
variable {E : Type} {V : E → Prop} {n : ℕ} {q : Sym2 ℕ → ℚ} {obs : E → Finset (Sym2 ℕ)} {draws : E → Finset (ℕ × ℕ × ℕ)}
  {run : E → ℕ × ℕ × ℕ → Res E}

/-- The mean after one step of a function of the edges. -/
theorem avg_toggle (hdraws : ∀ e, V e → draws e = pairDraws n)
    (hstep : ∀ e, V e → ∀ d ∈ pairDraws n, ∃ e', run e d = .ok e' ∧ V e' ∧ obs e' = toggled q (obs e) d) {F : E → ℚ}
    {G : Finset (Sym2 ℕ) → ℚ} (hG : ∀ e, V e → F e = G (obs e)) {e : E} (he : V e) :
    avg draws (fun e _ => 1 / ((draws e).card : ℚ)) run F e = toggleMean n q G (obs e) := by
  unfold avg toggleMean
  rw [hdraws e he, sum_div]
  refine sum_congr rfl fun d hd => ?_
  obtain ⟨e', h1, h2, h3⟩ := hstep e he d hd
  rw [h1, ← h3]
  show 1 / _ * F e' = _
  rw [hG e' h2, hdraws e he]
  ring

/-- The first state makes less and less of a difference. -/
theorem toggle_forgets (hdraws : ∀ e, V e → draws e = pairDraws n) (hmem : ∀ e, V e → obs e ⊆ pairSet n)
    (hstep : ∀ e, V e → ∀ d ∈ pairDraws n, ∃ e', run e d = .ok e' ∧ V e' ∧ obs e' = toggled q (obs e) d)
    {f : Finset (Sym2 ℕ) → ℚ} {L : Sym2 ℕ → ℚ} (hL : ∀ x ∈ pairSet n, ∀ S ⊆ pairSet n, |f (insert x S) - f (S.erase x)| ≤ L x)
    (k : ℕ) {e e' : E} (he : V e) (he' : V e') :
    |Steady.meanAfter draws (fun e _ => 1 / ((draws e).card : ℚ)) run (fun e => f (obs e)) k e -
      Steady.meanAfter draws (fun e _ => 1 / ((draws e).card : ℚ)) run (fun e => f (obs e)) k e'| ≤
      (∑ x ∈ pairSet n, L x) * (1 - 1 / ((pairSet n).card : ℚ)) ^ k := by
  have key : ∃ G : Finset (Sym2 ℕ) → ℚ,
      (∀ e, V e → Steady.meanAfter draws (fun e _ => 1 / ((draws e).card : ℚ)) run (fun e => f (obs e)) k e = G (obs e)) ∧
      ∀ x ∈ pairSet n, ∀ S ⊆ pairSet n, |G (insert x S) - G (S.erase x)| ≤ (1 - 1 / ((pairSet n).card : ℚ)) ^ k * L x := by
    induction k with
    | zero => exact ⟨f, fun _ _ => rfl, fun x hx S hS => by rw [pow_zero, one_mul]; exact hL x hx S hS⟩
    | succ k ih =>
      obtain ⟨G, g1, g2⟩ := ih
      refine ⟨toggleMean n q G, fun e he => avg_toggle hdraws hstep g1 he, fun x hx S hS => ?_⟩
      rw [pow_succ', mul_assoc]
      exact toggle_contract q hx (g2 x hx) S hS
  obtain ⟨G, g1, g2⟩ := key
  rw [g1 e he, g1 e' he']
  refine (toggle_osc g2 (hmem e he) (hmem e' he')).trans (le_of_eq ?_)
  rw [← mul_sum, mul_comm]

end

/-! ## One pair -/

theorem toggle_pair {n : ℕ} (q : Sym2 ℕ → ℚ) {x : Sym2 ℕ} (hx : x ∈ pairSet n) (S : Finset (Sym2 ℕ)) :
    toggleMean n q (fun S => if x ∈ S then 1 else 0) S =
      headProb (q x) + ((if x ∈ S then 1 else 0) - headProb (q x)) * (1 - 1 / ((pairSet n).card : ℚ)) := by
  have hN : ((pairSet n).card : ℚ) ≠ 0 := by exact_mod_cast (card_pos.mpr ⟨x, hx⟩).ne'
  set H := (pairDraws n).filter (fun d => drawn (d.1, d.2.1) = x) with hH
  have hhit : (H.card : ℚ) * ((pairSet n).card : ℚ) = ((pairDraws n).card : ℚ) := by exact_mod_cast pairDraws_hit hx
  have h2 : ((range n ×ˢ range (n - 1)).filter (fun d => drawn d = x)).card = 2 := by
    obtain ⟨p, hp, rfl⟩ := mem_pairSet.mp hx
    have hp := mem_allPairs.mp hp
    exact drawn_card (n := n) (x := p.1) (y := p.2) (by omega) (by omega) (by omega)
  have hH2 : (H.card : ℚ) = 2 * 2 ^ 53 := by
    rw [hH, pairDraws, hit_all h2, Nat.cast_mul, Nat.cast_pow, Nat.cast_ofNat]
  have hheads : (((pairDraws n).filter (fun d => drawn (d.1, d.2.1) = x ∧ (d.2.2 : ℚ) / 2 ^ 53 ≤ q x)).card : ℚ) =
      H.card * headProb (q x) := by
    have := hit_card (n := n) (K := 2 ^ 53) (fun u : ℕ => (u : ℚ) / 2 ^ 53 ≤ q x) h2
    rw [pairDraws, this, hH2, headProb, Nat.cast_mul, Nat.cast_ofNat]
    show 2 * (heads (q x) : ℚ) = _
    have hM : (2 : ℚ) ^ 53 ≠ 0 := pow_ne_zero _ two_ne_zero
    rw [mul_assoc, mul_div_cancel₀ _ hM]
  have hpos : (0 : ℚ) < H.card := by rw [hH2]; positivity
  have hsum : ∑ d ∈ pairDraws n, (if x ∈ toggled q S d then (1 : ℚ) else 0) =
      ∑ d ∈ pairDraws n, ((if x ∈ S then (1 : ℚ) else 0) - (if drawn (d.1, d.2.1) = x then (if x ∈ S then (1 : ℚ) else 0) else 0) +
        (if drawn (d.1, d.2.1) = x ∧ (d.2.2 : ℚ) / 2 ^ 53 ≤ q x then 1 else 0)) := by
    refine sum_congr rfl fun d _ => ?_
    by_cases hd : drawn (d.1, d.2.1) = x
    · by_cases hu : (d.2.2 : ℚ) / 2 ^ 53 ≤ q x
      · have hc : drawn (d.1, d.2.1) = x ∧ (d.2.2 : ℚ) / 2 ^ 53 ≤ q x := ⟨hd, hu⟩
        rw [if_pos hc, if_pos hd, toggled, hd, if_pos hu, if_pos (mem_insert_self _ _), sub_self, zero_add]
      · have hc : ¬ (drawn (d.1, d.2.1) = x ∧ (d.2.2 : ℚ) / 2 ^ 53 ≤ q x) := fun h => hu h.2
        rw [if_neg hc, if_pos hd, toggled, hd, if_neg hu, if_neg (notMem_erase _ _), sub_self, zero_add]
    · rw [if_neg (fun h : drawn (d.1, d.2.1) = x ∧ _ => hd h.1), if_neg hd, sub_zero, add_zero]
      unfold toggled
      congr 1
      split
      · simp [mem_insert, Ne.symm hd]
      · simp [mem_erase, Ne.symm hd]
  unfold toggleMean
  rw [hsum, sum_add_distrib, sum_sub_distrib, sum_const, nsmul_eq_mul, ← sum_filter, sum_const, nsmul_eq_mul, ← sum_filter, sum_const,
    nsmul_eq_mul, mul_one, hheads, ← hhit]
  field_simp
  ring

section
variable {E : Type} {V : E → Prop} {n : ℕ} {q : Sym2 ℕ → ℚ} {obs : E → Finset (Sym2 ℕ)} {draws : E → Finset (ℕ × ℕ × ℕ)}
  {run : E → ℕ × ℕ × ℕ → Res E}

/-- The probability that the pair `x` is an edge after `k` steps. -/
theorem toggle_pair_mean (h : Steady V draws (fun e _ => 1 / ((draws e).card : ℚ)) run) (hdraws : ∀ e, V e → draws e = pairDraws n)
    (hstep : ∀ e, V e → ∀ d ∈ pairDraws n, ∃ e', run e d = .ok e' ∧ V e' ∧ obs e' = toggled q (obs e) d)
    {x : Sym2 ℕ} (hx : x ∈ pairSet n) (k : ℕ) : ∀ {e : E}, V e →
    Steady.meanAfter draws (fun e _ => 1 / ((draws e).card : ℚ)) run (fun e => if x ∈ obs e then 1 else 0) k e =
      headProb (q x) + ((if x ∈ obs e then 1 else 0) - headProb (q x)) * (1 - 1 / ((pairSet n).card : ℚ)) ^ k := by
  induction k with
  | zero => intro e _; simp [Steady.meanAfter]
  | succ k ih =>
    intro e he
    show avg _ _ _ _ e = _
    set ρ := 1 - 1 / ((pairSet n).card : ℚ) with hρ
    set hp := headProb (q x)
    have h1 : ∀ e, V e → Steady.meanAfter draws (fun e _ => 1 / ((draws e).card : ℚ)) run (fun e => if x ∈ obs e then 1 else 0) k e =
        (hp - hp * ρ ^ k) + ρ ^ k * (if x ∈ obs e then 1 else 0) := fun e he => by rw [ih he]; ring
    rw [h.avg_congr h1 he, Steady.avg_add, h.avg_const _ he, Steady.avg_mul,
      avg_toggle hdraws hstep (G := fun S => if x ∈ S then 1 else 0) (fun _ _ => rfl) he, toggle_pair q hx]
    ring

end

/-! ## Exchanging one edge -/

section
variable {α : Type} [DecidableEq α] {Ω : Finset α} {m : ℕ}

/-- The mean after one step that takes a random element out and a random other one in. -/
def swapMean (Ω : Finset α) (F : Finset α → ℚ) (S : Finset α) : ℚ :=
  (∑ x ∈ S, ∑ y ∈ Ω \ S, F (insert y (S.erase x))) / ((S.card : ℚ) * ((Ω \ S).card : ℚ))

theorem swap_mem {S : Finset α} (hS : S ⊆ Ω) (hm : S.card = m) {a b : α} (ha : a ∈ S) (hb : b ∈ Ω \ S) :
    insert b (S.erase a) ⊆ Ω ∧ (insert b (S.erase a)).card = m := by
  rw [mem_sdiff] at hb
  refine ⟨insert_subset hb.1 ((erase_subset _ _).trans hS), ?_⟩
  rw [card_insert_of_notMem (fun hc => hb.2 (mem_of_mem_erase hc)), card_erase_of_mem ha]
  have := card_pos.mpr ⟨a, ha⟩
  omega

theorem swap_contract {F : Finset α → ℚ} {L : ℚ}
    (hF : ∀ S ⊆ Ω, S.card = m → ∀ a ∈ S, ∀ b ∈ Ω \ S, |F S - F (insert b (S.erase a))| ≤ L) :
    ∀ S ⊆ Ω, S.card = m → ∀ a ∈ S, ∀ b ∈ Ω \ S, |swapMean Ω F S - swapMean Ω F (insert b (S.erase a))| ≤
      (1 - ((Ω.card : ℚ) - 2) / ((m : ℚ) * ((Ω.card : ℚ) - m))) * L := by
  intro S hS hm a ha b hb
  obtain ⟨hbΩ, hbS⟩ := mem_sdiff.mp hb
  have hab : a ≠ b := fun hc => hbS (hc ▸ ha)
  obtain ⟨hS', hm'⟩ := swap_mem hS hm ha hb
  set Z := S.erase a with hZ
  set C := (Ω \ S).erase b with hC
  have haZ : a ∉ Z := notMem_erase _ _
  have hbZ : b ∉ Z := fun hc => hbS (mem_of_mem_erase hc)
  have hbC : b ∉ C := notMem_erase _ _
  have haC : a ∉ C := fun hc => (mem_sdiff.mp (mem_of_mem_erase hc)).2 ha
  have eS : S = insert a Z := (insert_erase ha).symm
  have eCo : Ω \ S = insert b C := (insert_erase hb).symm
  have eCo' : Ω \ insert b Z = insert a C := by
    ext y
    simp only [hZ, hC, mem_sdiff, mem_insert, mem_erase]
    by_cases h1 : y = a
    · subst h1; simp [hS ha, hab]
    · by_cases h2 : y = b
      · subst h2; simp [Ne.symm hab]
      · simp [h1, h2]
  have cZ : (Z.card : ℚ) = m - 1 := by
    have := card_erase_add_one ha
    rw [← hZ, hm] at this
    have : (Z.card : ℚ) + 1 = m := by exact_mod_cast this
    linarith
  have cCo : ((Ω \ S).card : ℚ) = (Ω.card : ℚ) - m := by
    have := card_sdiff_add_card_eq_card hS
    rw [hm] at this
    have : ((Ω \ S).card : ℚ) + m = Ω.card := by exact_mod_cast this
    linarith
  have cCo' : ((Ω \ insert b Z).card : ℚ) = (Ω.card : ℚ) - m := by
    have := card_sdiff_add_card_eq_card hS'
    rw [hm'] at this
    have : ((Ω \ insert b Z).card : ℚ) + m = Ω.card := by exact_mod_cast this
    linarith
  have cC : (C.card : ℚ) = (Ω.card : ℚ) - m - 1 := by
    have := card_erase_add_one hb
    rw [← hC] at this
    have : (C.card : ℚ) + 1 = (Ω \ S).card := by exact_mod_cast this
    linarith
  have hmpos : (0 : ℚ) < m := by
    rw [← hm]; exact_mod_cast card_pos.mpr ⟨a, ha⟩
  have hcpos : (0 : ℚ) < (Ω.card : ℚ) - m := by
    rw [← cCo]; exact_mod_cast card_pos.mpr ⟨b, hb⟩
  -- the two sums
  have s1 : ∑ x ∈ S, ∑ y ∈ Ω \ S, F (insert y (S.erase x)) =
      F (insert b Z) + ∑ y ∈ C, F (insert y Z) + (∑ x ∈ Z, F (insert b (S.erase x)) + ∑ x ∈ Z, ∑ y ∈ C, F (insert y (S.erase x))) := by
    rw [eCo]
    conv_lhs => rw [show ∑ x ∈ S, ∑ y ∈ insert b C, F (insert y (S.erase x)) = ∑ x ∈ insert a Z, ∑ y ∈ insert b C, F (insert y (S.erase x)) by
      rw [← eS]]
    rw [sum_insert haZ, sum_insert hbC, ← sum_add_distrib]
    congr 1
    exact sum_congr rfl fun x _ => sum_insert hbC
  have s2 : ∑ x ∈ insert b Z, ∑ y ∈ Ω \ insert b Z, F (insert y ((insert b Z).erase x)) =
      F S + ∑ y ∈ C, F (insert y Z) +
        (∑ x ∈ Z, F (insert b (S.erase x)) + ∑ x ∈ Z, ∑ y ∈ C, F (insert y ((insert b Z).erase x))) := by
    rw [eCo', sum_insert hbZ, sum_insert haC, erase_insert hbZ, ← eS, ← sum_add_distrib]
    congr 1
    refine sum_congr rfl fun x hx => ?_
    rw [sum_insert haC]
    congr 2
    have hxa : x ≠ a := fun hc => haZ (hc ▸ hx)
    have hxb : x ≠ b := fun hc => hbZ (hc ▸ hx)
    ext y
    simp only [hZ, mem_insert, mem_erase]
    by_cases h1 : y = a
    · subst h1; simp [Ne.symm hxa, ha]
    · by_cases h2 : y = b
      · subst h2; simp [Ne.symm hxb]
      · simp [h1, h2]
  have hL : 0 ≤ L := (abs_nonneg _).trans (hF S hS hm a ha b hb)
  have hterm : ∀ x ∈ Z, ∀ y ∈ C, |F (insert y (S.erase x)) - F (insert y ((insert b Z).erase x))| ≤ L := by
    intro x hx y hy
    have hxa : x ≠ a := fun hc => haZ (hc ▸ hx)
    have hxb : x ≠ b := fun hc => hbZ (hc ▸ hx)
    have hyb : y ≠ b := fun hc => hbC (hc ▸ hy)
    have hya : y ≠ a := fun hc => haC (hc ▸ hy)
    obtain ⟨k1, k2⟩ := swap_mem hS hm (mem_of_mem_erase hx) (mem_of_mem_erase hy)
    have e1 : insert y ((insert b Z).erase x) = insert b ((insert y (S.erase x)).erase a) := by
      ext z
      simp only [hZ, mem_insert, mem_erase]
      by_cases h1 : z = a
      · subst h1; simp [Ne.symm hya, hab]
      · by_cases h2 : z = b
        · subst h2; simp [Ne.symm hxb]
        · by_cases h3 : z = y
          · subst h3; simp [h1]
          · simp [h1, h2, h3]
    rw [e1]
    refine hF _ k1 k2 a ?_ b ?_
    · simp [ha, Ne.symm hxa]
    · simp [hbΩ, Ne.symm hyb, hbS]
  unfold swapMean
  rw [s1, s2, hm, hm', cCo, cCo', ← sub_div, abs_div, abs_of_pos (mul_pos hmpos hcpos), div_le_iff₀ (mul_pos hmpos hcpos)]
  have hd : F (insert b Z) + ∑ y ∈ C, F (insert y Z) + (∑ x ∈ Z, F (insert b (S.erase x)) + ∑ x ∈ Z, ∑ y ∈ C, F (insert y (S.erase x))) -
      (F S + ∑ y ∈ C, F (insert y Z) +
        (∑ x ∈ Z, F (insert b (S.erase x)) + ∑ x ∈ Z, ∑ y ∈ C, F (insert y ((insert b Z).erase x)))) =
      -(F S - F (insert b Z)) + ∑ x ∈ Z, ∑ y ∈ C, (F (insert y (S.erase x)) - F (insert y ((insert b Z).erase x))) := by
    simp only [sum_sub_distrib]
    ring
  rw [hd]
  refine (abs_add_le _ _).trans ?_
  rw [abs_neg]
  have h1 := hF S hS hm a ha b hb
  have h2 : |∑ x ∈ Z, ∑ y ∈ C, (F (insert y (S.erase x)) - F (insert y ((insert b Z).erase x)))| ≤ Z.card * (C.card * L) := by
    refine (abs_sum_le_sum_abs _ _).trans ?_
    rw [← nsmul_eq_mul, ← sum_const]
    refine sum_le_sum fun x hx => (abs_sum_le_sum_abs _ _).trans ?_
    rw [← nsmul_eq_mul, ← sum_const]
    exact sum_le_sum fun y hy => hterm x hx y hy
  refine (add_le_add h1 h2).trans (le_of_eq ?_)
  rw [cZ, cC]
  field_simp
  ring

/-- Exchanging one element after the other. -/
theorem swap_osc {F : Finset α → ℚ} {L : ℚ}
    (hF : ∀ S ⊆ Ω, S.card = m → ∀ a ∈ S, ∀ b ∈ Ω \ S, |F S - F (insert b (S.erase a))| ≤ L) :
    ∀ (k : ℕ) (S S' : Finset α), S ⊆ Ω → S.card = m → S' ⊆ Ω → S'.card = m → (S \ S').card = k → |F S - F S'| ≤ k * L := by
  intro k
  induction k with
  | zero =>
    intro S S' hS hm hS' hm' hk
    have h1 : S ⊆ S' := sdiff_eq_empty_iff_subset.mp (card_eq_zero.mp hk)
    rw [eq_of_subset_of_card_le h1 (by omega)]
    simp
  | succ k ih =>
    intro S S' hS hm hS' hm' hk
    have hk' : (S' \ S).card = k + 1 := by
      have h1 := card_sdiff_add_card_inter S S'
      have h2 := card_sdiff_add_card_inter S' S
      rw [inter_comm] at h2
      omega
    obtain ⟨a, ha⟩ := card_pos.mp (show 0 < (S \ S').card by omega)
    obtain ⟨b, hb⟩ := card_pos.mp (show 0 < (S' \ S).card by omega)
    have ha' := mem_sdiff.mp ha
    have hb' := mem_sdiff.mp hb
    have hbS : b ∈ Ω \ S := mem_sdiff.mpr ⟨hS' hb'.1, hb'.2⟩
    obtain ⟨k1, k2⟩ := swap_mem hS hm ha'.1 hbS
    have h1 := hF S hS hm a ha'.1 b hbS
    have h2 := ih (insert b (S.erase a)) S' k1 k2 hS' hm' (by
      have : insert b (S.erase a) \ S' = (S \ S').erase a := by
        ext y
        simp only [mem_sdiff, mem_insert, mem_erase]
        by_cases hy : y = b
        · subst hy; simp [hb'.1]
        · simp [hy, and_assoc]
      rw [this, card_erase_of_mem ha, hk]
      rfl)
    refine (abs_sub_le _ _ _).trans ((add_le_add h1 h2).trans (le_of_eq ?_))
    push_cast
    ring

end

/-! ## On a random tape -/

section Tape
open MeasureTheory ProbabilityTheory

variable {C F S E D O : Type} [DecidableEq O] {put : C → Stream → F} {step : ℕ → F → Res (S × F)} {V : C → Prop} {o : C → O}
  {core : E → C} {draws : E → Finset D} {wt : E → D → ℚ} {run : E → D → Res E} {obs : E → O} {W : E → Prop} {Ω : Finset O} {π : O → ℚ}

/-- A function of the observable is an observable. -/
theorem StepLaw.comp {O' : Type} [DecidableEq O'] (h : StepLaw put step V o core draws wt run obs) (g : O → O') :
    StepLaw put step V (fun c => g (o c)) core draws wt run (fun e => g (obs e)) :=
  ⟨h.joins, h.adaptive, fun e => congrArg g (h.obs_eq e), h.nonneg, h.run_ok, h.ret, h.chance⟩

namespace Mixing

/-- The probability of an event after `t` steps. -/
theorem event (h : Mixing put step V o core draws wt run obs W Ω π) (A : O → Prop) [DecidablePred A] {P : F → Prop}
    (hP : ∀ c r, P (put c r) ↔ A (o c)) {e : E} (he : W e) (t : ℕ) :
    (uniformTape {ω | ∃ fuel l f, mSteps (step fuel) t (put (core e) ⟨ω, 0⟩) = .ok (l, f) ∧ P f}).toReal =
      ((Steady.meanAfter draws wt run (fun e => if A (obs e) then 1 else 0) t e : ℚ) : ℝ) := by
  have h1 := (h.law.comp (fun y => decide (A y))).law_eq (h.valid e he) true t P (fun c r => by rw [hP]; simp)
  rw [h1]
  congr 1
  have h2 := h.steady.mean_eq_law (obs := fun e => decide (A (obs e))) (Ω := {true, false}) (fun e _ => by
    cases decide (A (obs e)) <;> simp) (fun b => if b then 1 else 0) t he
  rw [Finset.sum_pair (by simp)] at h2
  simp only [if_true, one_mul, Bool.false_eq_true, if_false, zero_mul, add_zero, decide_eq_true_eq] at h2
  exact h2.symm

/-- The mean of a function after `t` steps. -/
theorem mean (h : Mixing put step V o core draws wt run obs W Ω π) (f : O → ℚ) {P : O → F → Prop}
    (hP : ∀ y c r, P y (put c r) ↔ o c = y) {e : E} (he : W e) (t : ℕ) :
    ∑ y ∈ Ω, (f y : ℝ) * (uniformTape {ω | ∃ fuel l f, mSteps (step fuel) t (put (core e) ⟨ω, 0⟩) = .ok (l, f) ∧ P y f}).toReal =
      ((Steady.meanAfter draws wt run (fun e => f (obs e)) t e : ℚ) : ℝ) := by
  rw [h.steady.mean_eq_law h.mem f t he, Rat.cast_sum]
  refine sum_congr rfl fun y _ => ?_
  rw [h.law.law_eq (h.valid e he) y t (P y) (hP y), Rat.cast_mul]

/-- How likely an average over `N` steps is off by `δ` or more. -/
theorem average_error (h : Mixing put step V o core draws wt run obs W Ω π) (f : O → ℚ) {fF : F → ℚ}
    (hf : ∀ c r, fF (put c r) = f (o c)) {B ρ : ℚ} (hρ0 : 0 ≤ ρ) (hρ1 : ρ < 1)
    (hr : ∀ k e, W e → |Steady.meanAfter draws wt run (fun e => f (obs e)) k e - ∑ y ∈ Ω, π y * f y| ≤ B * ρ ^ k)
    {δ : ℚ} (hδ : 0 < δ) {N : ℕ} (hN : 0 < N) {e : E} (he : W e) :
    1 - ((B * B * (1 + 2 / (1 - ρ)) / (N * (δ * δ)) : ℚ) : ℝ) ≤
      (uniformTape {ω | ∃ fuel a f', sumSteps (step fuel) fF N (put (core e) ⟨ω, 0⟩) 0 = .ok (a, f') ∧
        |(a : ℝ) / N - ((∑ y ∈ Ω, π y * f y : ℚ) : ℝ)| < δ}).toReal := by
  set μ := ∑ y ∈ Ω, π y * f y with hμ
  have hNpos : (0 : ℚ) < N := by exact_mod_cast hN
  have hb : ∀ e, W e → |f (obs e) - μ| ≤ B := by
    intro e he
    have := hr 0 e he
    rwa [pow_zero, mul_one] at this
  have hB0 : 0 ≤ B := (abs_nonneg _).trans (hb e he)
  have hρ' : 0 < 1 - ρ := by linarith
  have h1 := h.steady.chebyshev (fun e => f (obs e)) μ (N * μ) (N * δ) (by positivity) N e 0 he
  have h2 := h.steady.law_total (fun e => f (obs e)) (fun x => decide (|x - N * μ| < N * δ)) N e 0 he
  have h3 := h.steady.mom2_le_rate (F := fun e => f (obs e) - μ) hB0 hb hρ0 hρ1
    (fun k e he => by rw [h.steady.mean_sub_const _ _ _ he]; exact hr k e he) N he
  have h5 : lawAfterW (fun e : E × ℚ => draws e.1) (fun e => wt e.1) (runSum run fun e => f (obs e))
        (fun e => decide (|e.2 - N * μ| < N * δ)) N (e, 0) false ≤ B * B * (1 + 2 / (1 - ρ)) / (N * (δ * δ)) := by
    refine h1.trans ?_
    rw [show (0 : ℚ) + N * μ - N * μ = 0 by ring]
    simp only [mul_zero, zero_mul, zero_add]
    refine (div_le_div_of_nonneg_right h3 (by positivity)).trans (le_of_eq ?_)
    field_simp
  have h6 := (h.law.withSum hf (fun x => decide (|x - N * μ| < N * δ))).law_eq (e := (e, 0)) (h.valid e he) true N
    (fun x => |x.2 - N * μ| < N * δ) (fun c r => by simp [putSum])
  have h7 : 1 - ((B * B * (1 + 2 / (1 - ρ)) / (N * (δ * δ)) : ℚ) : ℝ) ≤
      (uniformTape {ω | ∃ fuel l x, mSteps (stepSum (step fuel) fF) N (putSum put (core e, 0) ⟨ω, 0⟩) = .ok (l, x) ∧
      |x.2 - N * μ| < N * δ}).toReal := by
    rw [h6]
    have : 1 - B * B * (1 + 2 / (1 - ρ)) / (N * (δ * δ)) ≤ lawAfterW (fun e : E × ℚ => draws e.1) (fun e => wt e.1)
      (runSum run fun e => f (obs e)) (fun e => decide (|e.2 - N * μ| < N * δ)) N (e, 0) true := by linarith
    exact_mod_cast this
  have hNr : (0 : ℝ) < N := by exact_mod_cast hN
  refine h7.trans (ENNReal.toReal_mono (measure_ne_top _ _) (measure_mono ?_))
  rintro ω ⟨fuel, l, x, k1, k2⟩
  refine ⟨fuel, x.2, x.1, ?_, ?_⟩
  · rw [sumSteps_eq]
    show (mSteps (stepSum (step fuel) fF) N (putSum put (core e, 0) ⟨ω, 0⟩) >>= _) = _
    rw [k1]
    rfl
  · have k3 : |(x.2 : ℝ) - N * (μ : ℝ)| < N * (δ : ℝ) := by exact_mod_cast k2
    have k4 : (x.2 : ℝ) / N - (μ : ℝ) = ((x.2 : ℝ) - N * (μ : ℝ)) / N := by field_simp
    rw [k4, abs_div, abs_of_pos hNr, div_lt_iff₀ hNr, mul_comm (δ : ℝ)]
    exact k3

end Mixing
end Tape

end Verif
