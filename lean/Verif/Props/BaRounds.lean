import Verif.Lemmas.BaChance
import Verif.Lemmas.Rounds
import Verif.Lemmas.AtLeast
import Mathlib.Data.Sym.Card

/-!
# C96: how many draws the Barabási-Albert ensemble needs for one vertex

The `while` loop of `randomize` (src/barabasi_albert.rs:216-221) draws vertices by their weights until the new vertex has `m`
neighbours; a vertex that is a neighbour already is drawn in vain.  `attach` with fuel `N + 1` returns iff `N` draws are enough.
-/

set_option linter.unusedSectionVars false
set_option linter.unusedSimpArgs false

namespace Verif
open AdjContainer GenericGraph MeasureTheory ProbabilityTheory
open Ws (mk3 joins_mk3)

variable {T : Type}

/-! ## Specification -/

/-- The probability that, with the vertices `S` found already, `N` draws are not enough to have `m` different vertices.  Each draw gives
vertex `v` with probability `w v / W`, `W` the sum of the weights of the vertices below `n`. -/
noncomputable def stillSearching (n : ℕ) (w : ℕ → ℕ) (m : ℕ) : ℕ → Finset ℕ → ENNReal
  | 0, S => if S.card < m then 1 else 0
  | N + 1, S => if S.card < m then
      ∑ v ∈ Finset.range n, ((w v : ℕ) : ENNReal) / ((∑ u ∈ Finset.range n, w u : ℕ) : ENNReal) * stillSearching n w m N (insert v S) else 0

/-! ## The draws -/

namespace Ba

/-- The draws from place `k` on, beginning with the vertices `S`: after `N` draws there are less than `m` different vertices. -/
def Late (ws : List ℕ) (m : ℕ) : ℕ → Finset ℕ → (ℕ → ℝ) → ℕ → Prop
  | 0, S, _, _ => S.card < m
  | N + 1, S, ω, k => S.card < m ∧ Late ws m N (insert (weightedPick ws (partOf (ω k) ws.sum)) S) ω (k + 1)

theorem sum_getD (ws : List ℕ) : ∑ u ∈ Finset.range ws.length, ws.getD u 0 = ws.sum := by
  rw [← list_sum_range]
  congr 1
  apply List.ext_getElem
  · simp
  · intro i h1 h2
    simp at h1
    simp [h1]

theorem late_chance {ws : List ℕ} (hpos : 0 < ws.sum) (m : ℕ) : ∀ (N : ℕ) (S : Finset ℕ),
    Chance (Late ws m N S) (stillSearching ws.length (fun v => ws.getD v 0) m N S)
  | 0, S => by
    unfold stillSearching
    by_cases h : S.card < m
    · rw [if_pos h]; exact Chance.true.congr fun _ _ => by simp [Late, h]
    · rw [if_neg h]; exact Chance.false.congr fun _ _ => by simp [Late, h]
  | N + 1, S => by
    unfold stillSearching
    by_cases h : S.card < m
    · rw [if_pos h]
      have h1 : ∀ v ∈ Finset.range ws.length, Chance
          (fun ω k => ∃ t j, (t = partOf (ω k) ws.sum ∧ j = k + 1) ∧ weightedPick ws t = v ∧ Late ws m N (insert v S) ω j)
          (((ws.getD v 0 : ℕ) : ENNReal) / ((∑ u ∈ Finset.range ws.length, ws.getD u 0 : ℕ) : ENNReal) *
            stillSearching ws.length (fun v => ws.getD v 0) m N (insert v S)) := by
        intro v _
        have hd := chance_draw hpos (fun t => weightedPick ws t ∈ ({v} : Finset ℕ))
        rw [card_weightedPick, Finset.sum_singleton, ← div_eq_mul_inv] at hd
        rw [sum_getD]
        refine chance_bind (Sampler.draw ws.sum) (P := fun t => weightedPick ws t = v) (Q := fun _ => Late ws m N (insert v S))
          (hd.congr fun ω k => ?_) (fun _ _ => late_chance hpos m N (insert v S))
        rw [Finset.mem_singleton]
        exact ⟨fun h => ⟨_, _, ⟨rfl, rfl⟩, h⟩, fun ⟨_, _, ⟨h1, _⟩, h2⟩ => h1 ▸ h2⟩
      refine (Chance.sum _ h1 ?_).congr fun ω k => ?_
      · rintro v _ v' _ ω k ⟨t, j, ⟨rfl, _⟩, h2, _⟩ ⟨t', j', ⟨rfl, _⟩, h3, _⟩
        exact h2.symm.trans h3
      · constructor
        · rintro ⟨v, _, t, j, ⟨rfl, rfl⟩, rfl, h3⟩
          exact ⟨h, h3⟩
        · rintro ⟨_, h3⟩
          exact ⟨_, Finset.mem_range.mpr (weightedPick_spec ws _ (partOf_lt _ hpos)).1, _, _, ⟨rfl, rfl⟩, rfl, h3⟩
    · rw [if_neg h]; exact Chance.false.congr fun _ _ => by simp [Late, h]

theorem Late.mono {ws : List ℕ} {m : ℕ} : ∀ {N : ℕ} {S : Finset ℕ} {ω : ℕ → ℝ} {k : ℕ}, Late ws m (N + 1) S ω k → Late ws m N S ω k
  | 0, _, _, _, h => h.1
  | _ + 1, _, _, _, h => ⟨h.1, Late.mono h.2⟩

/-- The mean number of draws, up to a limit. -/
theorem sum_stillSearching_le {n : ℕ} {w : ℕ → ℕ} {m C : ℕ} (hpos : 0 < ∑ u ∈ Finset.range n, w u)
    (hC : ∀ S ⊆ Finset.range n, S.card < m → C + ∑ v ∈ S, w v ≤ ∑ u ∈ Finset.range n, w u) : ∀ (M : ℕ) (S : Finset ℕ), S ⊆ Finset.range n →
    (∑ N ∈ Finset.range M, stillSearching n w m N S) * C ≤ (((m - S.card) * ∑ u ∈ Finset.range n, w u : ℕ) : ENNReal)
  | 0, S, _ => by simp
  | M + 1, S, hS => by
    by_cases h : S.card < m
    · set W := ∑ u ∈ Finset.range n, w u with hW
      have hW0 : (W : ENNReal) ≠ 0 := by exact_mod_cast hpos.ne'
      have hWt : (W : ENNReal) ≠ ⊤ := ENNReal.natCast_ne_top _
      rw [Finset.sum_range_succ']
      have h1 : ∑ N ∈ Finset.range M, stillSearching n w m (N + 1) S =
          ∑ v ∈ Finset.range n, ((w v : ℕ) : ENNReal) / (W : ENNReal) * ∑ N ∈ Finset.range M, stillSearching n w m N (insert v S) := by
        simp only [stillSearching, if_pos h, Finset.mul_sum]
        exact Finset.sum_comm
      have h0 : stillSearching n w m 0 S = 1 := by simp [stillSearching, h]
      rw [h1, h0, add_mul, one_mul, Finset.sum_mul]
      have h2 : ∀ v ∈ Finset.range n, ((w v : ℕ) : ENNReal) / (W : ENNReal) * (∑ N ∈ Finset.range M, stillSearching n w m N (insert v S)) * C ≤
          ((w v * (m - (insert v S).card) : ℕ) : ENNReal) := by
        intro v hv
        have := sum_stillSearching_le hpos hC M (insert v S) (Finset.insert_subset hv hS)
        rw [mul_assoc]
        refine (mul_le_mul_right this _).trans (le_of_eq ?_)
        rw [← hW, Nat.cast_mul, Nat.cast_mul, mul_comm ((m - (insert v S).card : ℕ) : ENNReal), ← mul_assoc, ENNReal.div_mul_cancel hW0 hWt]
      refine (add_le_add_left (Finset.sum_le_sum h2) _).trans ?_
      rw [← Nat.cast_sum, ← Nat.cast_add]
      refine Nat.cast_le.mpr ?_
      have h3 : ∑ v ∈ Finset.range n, w v * (m - (insert v S).card) + ∑ v ∈ Finset.range n \ S, w v = (m - S.card) * W := by
        rw [hW, ← Finset.sum_sdiff hS, ← Finset.sum_sdiff hS, mul_add, Finset.mul_sum, Finset.mul_sum]
        have e1 : ∑ v ∈ S, w v * (m - (insert v S).card) = ∑ v ∈ S, (m - S.card) * w v :=
          Finset.sum_congr rfl fun v hv => by rw [Finset.insert_eq_of_mem hv, mul_comm]
        have e2 : ∑ v ∈ Finset.range n \ S, w v * (m - (insert v S).card) + ∑ v ∈ Finset.range n \ S, w v =
            ∑ v ∈ Finset.range n \ S, (m - S.card) * w v := by
          rw [← Finset.sum_add_distrib]
          refine Finset.sum_congr rfl fun v hv => ?_
          rw [Finset.card_insert_of_notMem (Finset.mem_sdiff.mp hv).2]
          obtain ⟨d, hd⟩ : ∃ d, m - S.card = d + 1 := ⟨m - S.card - 1, by omega⟩
          rw [hd, show m - (S.card + 1) = d by omega]
          ring
        rw [e1, ← e2]
        ring
      have h4 := hC S hS h
      have h5 := Finset.sum_sdiff hS (f := w)
      omega
    · have : ∀ N, stillSearching n w m N S = 0 := fun N => by cases N <;> simp [stillSearching, h]
      simp [this]

end Ba

/-- Few vertices do not have much more than one end of each edge. -/
theorem sum_degree_le {g : Graph T} (h : g.WF) (S : Finset ℕ) : ∑ v ∈ S, (g.nbrs v).length ≤ g.edgeCount + S.card.choose 2 := by
  classical
  have h1 : ∀ v, (g.nbrs v).length = (g.edges.filter (fun e => v ∈ e)).card := fun v => by
    rw [← Ba.degreeVec_getD h, ← Ba.degIn_eq h, degIn]
  have h2 : ∑ v ∈ S, (g.nbrs v).length = ∑ e ∈ g.edges, (S.filter (fun v => v ∈ e)).card := by
    rw [Finset.sum_congr rfl fun v _ => h1 v]
    simp only [Finset.card_filter]
    exact Finset.sum_comm
  have h3 : ∀ e ∈ g.edges, (S.filter (fun v => v ∈ e)).card ≤ 1 + if e ∈ S.offDiag.image Sym2.mk.uncurry then 1 else 0 := by
    intro e he
    induction e with
    | h a b =>
      have hab : a ≠ b := (h.mem_lt he).2.2
      by_cases hc : a ∈ S ∧ b ∈ S
      · rw [if_pos (show s(a, b) ∈ S.offDiag.image Sym2.mk.uncurry from
          Finset.mem_image.mpr ⟨(a, b), Finset.mem_offDiag.mpr ⟨hc.1, hc.2, hab⟩, rfl⟩)]
        refine (Finset.card_le_card (t := {a, b}) ?_).trans Finset.card_le_two
        intro v hv
        have := (Finset.mem_filter.mp hv).2
        rw [Sym2.mem_iff] at this
        simpa using this
      · refine le_trans ?_ (Nat.le_add_right _ _)
        rw [Finset.card_le_one]
        intro x hx y hy
        rw [Finset.mem_filter, Sym2.mem_iff] at hx hy
        rcases hx.2 with rfl | rfl <;> rcases hy.2 with rfl | rfl
        · rfl
        · exact absurd ⟨hx.1, hy.1⟩ hc
        · exact absurd ⟨hy.1, hx.1⟩ hc
        · rfl
  rw [h2, h.edgeCount_eq_card]
  refine (Finset.sum_le_sum h3).trans ?_
  rw [Finset.sum_add_distrib, Finset.sum_const, smul_eq_mul, mul_one, ← Finset.card_filter]
  refine Nat.add_le_add_left ?_ _
  rw [← Sym2.card_image_offDiag]
  exact Finset.card_le_card fun e he => (Finset.mem_filter.mp he).2

namespace Ba
variable {g0 : Graph T} (h0 : g0.WF) {weights : List Nat} {i m : Nat} (hi : i < g0.nextId) (hnil : g0.nbrs i = [])
  (hpos : 0 < weights.sum) (hw : ∀ v, 0 < weights.getD v 0 → v < g0.nextId ∧ v ≠ i) {P : Nat → Prop}
  (hP : ∀ v, 0 < weights.getD v 0 → P v)
include h0 hi hnil hpos hw hP

/-- The loop returns within `N` draws iff these give `m` different vertices. -/
theorem attach_late : ∀ (N : ℕ) {g : Graph T} {S : Finset ℕ}, Att g0 i P g S → ∀ (ω : ℕ → ℝ) (k : ℕ),
    (∃ x, attach weights i m (N + 1) g (⟨ω, k⟩ : Stream) = .ok x) ↔ ¬ Late weights m N S ω k
  | N, g, S, hA, ω, k => by
    by_cases hS : S.card < m
    · rw [attach_succ h0 hi hnil hpos hw hP hA hS]
      match N with
      | 0 =>
        constructor
        · rintro ⟨x, hx⟩
          simp [attach] at hx
        · intro hc
          exact absurd hS hc
      | N + 1 =>
        rw [attach_late N (pick_att h0 hi hnil hpos hw hP hA (ω k)).2.1 ω (k + 1)]
        simp [Late, hS]
    · rw [attach_done h0 hi hnil hpos hw hP hA hS]
      refine ⟨fun _ hc => hS ?_, fun _ => ⟨_, rfl⟩⟩
      cases N with
      | zero => exact hc
      | succ N => exact hc.1

end Ba

/-! ## The property -/

section
variable {g : Graph T} (h : g.WF) {i : ℕ} (hi : i < g.vertexCount) (hnil : g.nbrs i = []) (m : ℕ)
include h hi hnil

theorem Ba.attach_late_start (hE : 1 ≤ g.edgeCount) (N : ℕ) (ω : ℕ → ℝ) (k : ℕ) :
    (∃ x, Ba.attach g.degreeVec i m (N + 1) g (⟨ω, k⟩ : Stream) = .ok x) ↔ ¬ Ba.Late g.degreeVec m N ∅ ω k := by
  obtain ⟨hp, hw⟩ := Ba.weight_pos h hnil
  exact Ba.attach_late h hi hnil (Ba.degreeVec_sum_pos h hE) hw hp N (Ba.Att.start h _ _) ω k

/-- The loop that joins a vertex without edges to `m` vertices, by the degrees: the probability that `N` draws are not enough is that of
`N` draws with the probabilities degree / sum of the degrees giving less than `m` different vertices. -/
theorem C96_ba_within (hE : 1 ≤ g.edgeCount) (N k : ℕ) :
    uniformTape {ω | ∃ x, Ba.attach g.degreeVec i m (N + 1) g (⟨ω, k⟩ : Stream) = .ok x} =
      1 - stillSearching g.vertexCount (fun v => (g.nbrs v).length) m N ∅ := by
  have h1 := Ba.late_chance (Ba.degreeVec_sum_pos h hE) m N ∅
  have h2 : (fun v => g.degreeVec.getD v 0) = fun v => (g.nbrs v).length := funext fun v => Ba.degreeVec_getD h v
  have h3 : g.degreeVec.length = g.vertexCount := by simp [GenericGraph.degreeVec, h.len]; rfl
  rw [h2, h3] at h1
  rw [← h1.not.prob k]
  congr 1
  ext ω
  exact Ba.attach_late_start h hi hnil m hE N ω k

/-- If the network has more than `(m - 1)(m - 2)/2` edges, `m · 2e / (e - (m - 1)(m - 2)/2)` draws are enough on average, `e` the number
of its edges: about two draws for each neighbour, however uneven the degrees are. -/
theorem C96_ba_rounds (hm : (m - 1).choose 2 < g.edgeCount) (k : ℕ) :
    ∫⁻ ω, roundsNeeded (fun N => ∃ x, Ba.attach g.degreeVec i m (N + 1) g (⟨ω, k⟩ : Stream) = .ok x) ∂uniformTape ≤
      ((m * (2 * g.edgeCount) : ℕ) : ENNReal) / ((g.edgeCount - (m - 1).choose 2 : ℕ) : ENNReal) := by
  classical
  have hE : 1 ≤ g.edgeCount := by omega
  have hW := Ba.degreeVec_sum_pos h hE
  have hch := fun N => Ba.late_chance hW m N ∅
  have h1 : ∀ ω, roundsNeeded (fun N => ∃ x, Ba.attach g.degreeVec i m (N + 1) g (⟨ω, k⟩ : Stream) = .ok x) =
      ∑' N, {ω | Ba.Late g.degreeVec m N ∅ ω k}.indicator (fun _ => (1 : ENNReal)) ω := by
    intro ω
    simp only [Ba.attach_late_start h hi hnil m hE]
    rw [roundsNeeded_eq_tsum fun N hN hc => hN hc.mono]
    refine tsum_congr fun N => ?_
    by_cases hl : Ba.Late g.degreeVec m N ∅ ω k
    · rw [if_neg (not_not.mpr hl), Set.indicator_of_mem]
      exact hl
    · rw [if_pos hl, Set.indicator_of_notMem]
      exact hl
  simp only [h1]
  rw [lintegral_tsum fun N => (measurable_const.indicator ((hch N).meas k)).aemeasurable]
  have h2 : ∀ N, ∫⁻ ω, {ω | Ba.Late g.degreeVec m N ∅ ω k}.indicator (fun _ => (1 : ENNReal)) ω ∂uniformTape =
      stillSearching g.degreeVec.length (fun v => g.degreeVec.getD v 0) m N ∅ := by
    intro N
    rw [lintegral_indicator_const ((hch N).meas k), one_mul, (hch N).prob k]
  simp only [h2]
  refine ENNReal.tsum_le_of_sum_range_le fun M => ?_
  have hsum : ∑ u ∈ Finset.range g.degreeVec.length, g.degreeVec.getD u 0 = 2 * g.edgeCount :=
    (Ba.sum_getD _).trans (C26_degrees h).2.2.1
  have h3 := Ba.sum_stillSearching_le (n := g.degreeVec.length) (w := fun v => g.degreeVec.getD v 0) (m := m)
    (C := g.edgeCount - (m - 1).choose 2) (by rw [Ba.sum_getD]; exact hW) (fun S _ hS => by
      rw [hsum, Finset.sum_congr rfl fun v _ => Ba.degreeVec_getD h v]
      have h4 := sum_degree_le h S
      have h5 : S.card.choose 2 ≤ (m - 1).choose 2 := Nat.choose_le_choose 2 (by omega)
      omega) M ∅ (Finset.empty_subset _)
  rw [hsum, Finset.card_empty, Nat.sub_zero] at h3
  rw [ENNReal.le_div_iff_mul_le (Or.inl (by exact_mod_cast (show g.edgeCount - (m - 1).choose 2 ≠ 0 by omega))) (Or.inl (ENNReal.natCast_ne_top _))]
  exact h3

end

/-! ## The whole call -/

namespace Ba

theorem stillSearching_anti {ws : List ℕ} (hpos : 0 < ws.sum) (m N : ℕ) (S : Finset ℕ) :
    stillSearching ws.length (fun v => ws.getD v 0) m (N + 1) S ≤ stillSearching ws.length (fun v => ws.getD v 0) m N S := by
  rw [← (late_chance hpos m (N + 1) S).prob 0, ← (late_chance hpos m N S).prob 0]
  exact measure_mono fun ω h => h.mono

theorem stillSearching_le {g : Graph T} (h : g.WF) {m e0 : ℕ} (hm : (m - 1).choose 2 < e0) (he : e0 ≤ g.edgeCount) (N : ℕ) :
    stillSearching g.degreeVec.length (fun v => g.degreeVec.getD v 0) m N ∅ ≤
      ((m * (2 * e0) : ℕ) : ENNReal) / (((e0 - (m - 1).choose 2) * (N + 1) : ℕ) : ENNReal) := by
  set c := (m - 1).choose 2 with hc
  set s := stillSearching g.degreeVec.length (fun v => g.degreeVec.getD v 0) m N ∅ with hs
  have hW := degreeVec_sum_pos h (show 1 ≤ g.edgeCount by omega)
  have hsum : ∑ u ∈ Finset.range g.degreeVec.length, g.degreeVec.getD u 0 = 2 * g.edgeCount :=
    (sum_getD _).trans (C26_degrees h).2.2.1
  have h3 := sum_stillSearching_le (n := g.degreeVec.length) (w := fun v => g.degreeVec.getD v 0) (m := m)
    (C := g.edgeCount - c) (by rw [sum_getD]; exact hW) (fun S _ hS => by
      rw [hsum, Finset.sum_congr rfl fun v _ => degreeVec_getD h v]
      have h4 := sum_degree_le h S
      have h5 : S.card.choose 2 ≤ (m - 1).choose 2 := Nat.choose_le_choose 2 (by omega)
      omega) (N + 1) ∅ (Finset.empty_subset _)
  rw [hsum, Finset.card_empty, Nat.sub_zero] at h3
  have h4 : ((N + 1 : ℕ) : ENNReal) * s ≤ ∑ M ∈ Finset.range (N + 1), stillSearching g.degreeVec.length (fun v => g.degreeVec.getD v 0) m M ∅ := by
    have := Finset.card_nsmul_le_sum (Finset.range (N + 1))
      (fun M => stillSearching g.degreeVec.length (fun v => g.degreeVec.getD v 0) m M ∅) s (fun M hM => by
        have hMN : M ≤ N := Nat.lt_succ_iff.mp (Finset.mem_range.mp hM)
        exact antitone_nat_of_succ_le (f := fun M => stillSearching g.degreeVec.length (fun v => g.degreeVec.getD v 0) m M ∅)
          (fun M => stillSearching_anti hW m M ∅) hMN)
    rwa [Finset.card_range, nsmul_eq_mul] at this
  have h5 : ((N + 1 : ℕ) : ENNReal) * s * ((g.edgeCount - c : ℕ) : ENNReal) ≤ ((m * (2 * g.edgeCount) : ℕ) : ENNReal) :=
    (mul_le_mul_left h4 _).trans h3
  have h6 : (m * (2 * g.edgeCount)) * (e0 - c) ≤ (m * (2 * e0)) * (g.edgeCount - c) := by
    obtain ⟨a, rfl⟩ : ∃ a, e0 = c + a := ⟨e0 - c, by omega⟩
    obtain ⟨b, hb⟩ : ∃ b, g.edgeCount = c + a + b := ⟨g.edgeCount - (c + a), by omega⟩
    rw [hb, Nat.add_sub_cancel_left, show c + a + b - c = a + b by omega]
    nlinarith [Nat.zero_le (m * c * b)]
  have hp : ((g.edgeCount - c : ℕ) : ENNReal) ≠ 0 := by exact_mod_cast (show g.edgeCount - c ≠ 0 by omega)
  rw [ENNReal.le_div_iff_mul_le
    (Or.inl (by exact_mod_cast (Nat.mul_pos (show 0 < e0 - c by omega) (Nat.succ_pos N)).ne')) (Or.inl (ENNReal.natCast_ne_top _))]
  have h7 : s * (((e0 - c) * (N + 1) : ℕ) : ENNReal) * ((g.edgeCount - c : ℕ) : ENNReal) ≤
      ((m * (2 * e0) : ℕ) : ENNReal) * ((g.edgeCount - c : ℕ) : ENNReal) :=
    calc s * (((e0 - c) * (N + 1) : ℕ) : ENNReal) * ((g.edgeCount - c : ℕ) : ENNReal)
        = ((N + 1 : ℕ) : ENNReal) * s * ((g.edgeCount - c : ℕ) : ENNReal) * ((e0 - c : ℕ) : ENNReal) := by rw [Nat.cast_mul]; ring
      _ ≤ ((m * (2 * g.edgeCount) : ℕ) : ENNReal) * ((e0 - c : ℕ) : ENNReal) := mul_le_mul_left h5 _
      _ = ((m * (2 * g.edgeCount) * (e0 - c) : ℕ) : ENNReal) := by rw [← Nat.cast_mul]
      _ ≤ ((m * (2 * e0) * (g.edgeCount - c) : ℕ) : ENNReal) := by exact_mod_cast h6
      _ = _ := by rw [← Nat.cast_mul]
  exact (ENNReal.mul_le_mul_iff_left hp (ENNReal.natCast_ne_top _)).mp h7

theorem loop_atLeast (m N e0 : ℕ) (hm : (m - 1).choose 2 < e0) : ∀ (order : List ℕ) (g : Graph T), g.WF → e0 ≤ g.edgeCount → order.Nodup →
    (∀ i ∈ order, i < g.nextId ∧ g.nbrs i = []) →
    AtLeast (fun ω k => ∃ a j, order.foldlM (growBody m (N + 1)) (mk3 (g, g.degreeVec) (⟨ω, k⟩ : Stream)) = .ok (mk3 a ⟨ω, j⟩))
      ((1 - ((m * (2 * e0) : ℕ) : ENNReal) / (((e0 - (m - 1).choose 2) * (N + 1) : ℕ) : ENNReal)) ^ order.length) := by
  intro order
  induction order with
  | nil =>
    intro g _ _ _ _
    exact (Chance.true.atLeast (by simp)).congr fun ω k => ⟨fun _ => ⟨(g, g.degreeVec), k, rfl⟩, fun _ => trivial⟩
  | cons i order ih =>
    intro g h hE hnd hord
    have hE1 : 1 ≤ g.edgeCount := by omega
    obtain ⟨hi, hnil⟩ := hord i (by simp)
    obtain ⟨hp, hw⟩ := weight_pos h hnil
    have hsum := degreeVec_sum_pos h hE1
    have hatt : ∀ {r r' : Stream} {g' : Graph T}, attach g.degreeVec i m (N + 1) g r = .ok (g', r') →
        (∃ S, Att g i (fun v => g.nbrs v ≠ []) g' S) ∧ growBody m (N + 1) (g, g.degreeVec, r) i = .ok (g', g'.degreeVec, r') := by
      intro r r' g' ha
      obtain ⟨S, hA, _⟩ := (attach_spec h hi hnil hsum hw hp (N + 1) g r ∅ (m := m) (Att.start h _ _) (by simp)).post ha
      exact ⟨⟨S, hA⟩, growBody_of_attach h hE1 hi hnil ha hA⟩
    have hgrow : ∀ ω k, (∃ a j, growBody m (N + 1) (mk3 (g, g.degreeVec) (⟨ω, k⟩ : Stream)) i = .ok (mk3 a ⟨ω, j⟩) ∧
        ((∃ S, Att g i (fun v => g.nbrs v ≠ []) a.1 S) ∧ a.2 = a.1.degreeVec)) ↔
        ∃ x, attach g.degreeVec i m (N + 1) g (⟨ω, k⟩ : Stream) = .ok x := by
      intro ω k
      constructor
      · rintro ⟨a, j, hx, _⟩
        unfold growBody mk3 at hx
        simp only at hx
        obtain ⟨_, _, hx⟩ := Res.bind_eq_ok.mp hx
        obtain ⟨x, ha, _⟩ := Res.bind_eq_ok.mp hx
        exact ⟨x, ha⟩
      · rintro ⟨⟨g', r'⟩, ha⟩
        obtain ⟨hS, hg⟩ := hatt ha
        obtain ⟨a, bs, h1, _⟩ := growBody_adaptive m (g, g.degreeVec) i (N + 1) ω k _ hg
        obtain ⟨rfl, h2⟩ := joins_mk3 (a := (g', g'.degreeVec)) h1
        refine ⟨(g', g'.degreeVec), _, hg.trans (by rw [h2]; rfl), hS, rfl⟩
    have hone := (late_chance hsum m N ∅).not.atLeast (tsub_le_tsub_left (stillSearching_le h hm hE N) 1)
    have hone' := hone.congr fun ω k => (attach_late_start h hi hnil m hE1 N ω k).symm.trans (hgrow ω k).symm
    have h1 := atLeast_bind ((growBody_adaptive m (g, g.degreeVec) i).samplerAt joins_mk3 (N + 1)) hone'
      (Q := fun a ω k => ∃ b j, order.foldlM (growBody m (N + 1)) (mk3 a (⟨ω, k⟩ : Stream)) = .ok (mk3 b ⟨ω, j⟩)) (by
        rintro ⟨g', w'⟩ ⟨⟨S, hA⟩, hw'⟩
        dsimp only at hA hw' ⊢
        subst hw'
        refine ih g' hA.wf ?_ (List.nodup_cons.mp hnd).2 ?_
        · rw [hA.wf.edgeCount_eq_card, hA.edges]
          rw [h.edgeCount_eq_card] at hE
          exact hE.trans (Finset.card_le_card Finset.subset_union_left)
        · intro u hu
          obtain ⟨hu1, hu2⟩ := hord u (by simp [hu])
          refine ⟨by rw [hA.n]; exact hu1, ?_⟩
          rw [isolated_iff hA.wf, hA.edges]
          intro e he hue
          rcases Finset.mem_union.mp he with he | he
          · exact (isolated_iff h).mp hu2 e he hue
          · obtain ⟨v, hv, rfl⟩ := Finset.mem_image.mp he
            rcases Sym2.mem_iff.mp hue with rfl | rfl
            · exact (List.nodup_cons.mp hnd).1 hu
            · exact hA.mem _ hv hu2)
    rw [List.length_cons, pow_succ']
    refine h1.congr fun ω k => ?_
    simp only [List.foldlM_cons]
    constructor
    · rintro ⟨a, j, h2, _, b, j', h3⟩
      exact ⟨b, j', by rw [h2]; exact h3⟩
    · rintro ⟨b, j', h2⟩
      obtain ⟨x, h3, h4⟩ := Res.bind_eq_ok.mp h2
      obtain ⟨a, bs, rfl, _⟩ := growBody_adaptive m (g, g.degreeVec) i (N + 1) ω k _ h3
      have h5 : ∃ x, attach g.degreeVec i m (N + 1) g (⟨ω, k⟩ : Stream) = .ok x := by
        have hx := h3
        unfold growBody mk3 at hx
        simp only at hx
        obtain ⟨_, _, hx⟩ := Res.bind_eq_ok.mp hx
        obtain ⟨x, ha, _⟩ := Res.bind_eq_ok.mp hx
        exact ⟨x, ha⟩
      obtain ⟨a', j, h6, h7⟩ := (hgrow ω k).mpr h5
      obtain ⟨rfl, h8⟩ := joins_mk3 (Res.ok.inj (h3.symm.trans h6))
      exact ⟨a, _, h3, h7, b, j', h4⟩

end Ba

/-- **C96, `BAensemble::randomize`.**  If the loop of each new vertex is given `F` draws, the whole call returns with probability
`(1 - m · 2e / ((e - (m - 1)(m - 2)/2) (F + 1))) ^ (number of new vertices)` or more, `e` the number of edges of the source graph, whatever
the network was before. -/
theorem C96_ba_randomize {e : Ba T Stream} (hv : e.Valid) (hm : (e.m - 1).choose 2 < e.source.edgeCount) (F k : ℕ) :
    (1 - ((e.m * (2 * e.source.edgeCount) : ℕ) : ENNReal) / (((e.source.edgeCount - (e.m - 1).choose 2) * (F + 1) : ℕ) : ENNReal)) ^
        (e.graph.vertexCount - e.source.vertexCount) ≤
      uniformTape {ω | ∃ e', Ba.randomize (F + 1) ({ e with rng := ⟨ω, k⟩ } : Ba T Stream) = .ok e'} := by
  obtain ⟨g0, h1, h2, h3, h4, h5, h6, h7, h8⟩ := Ba.prepare hv
  set l := List.range' e.source.vertexCount (g0.vertexCount - e.source.vertexCount) with hl
  have hN : 0 < l.permutations.length := by rw [List.length_permutations]; exact Nat.factorial_pos _
  have hb := atLeast_bind (Sampler.draw l.permutations.length) (P := fun b => b < l.permutations.length) (v := 1)
    ((Chance.true.atLeast le_rfl).congr fun ω k => ⟨fun _ => ⟨_, _, ⟨rfl, rfl⟩, partOf_lt _ hN⟩, fun _ => trivial⟩)
    (Q := fun b ω k => ∃ a j, (l.permutations.getD b l).foldlM (Ba.growBody e.m (F + 1)) (mk3 (g0, g0.degreeVec) (⟨ω, k⟩ : Stream)) =
      .ok (mk3 a ⟨ω, j⟩))
    (w := (1 - ((e.m * (2 * e.source.edgeCount) : ℕ) : ENNReal) / (((e.source.edgeCount - (e.m - 1).choose 2) * (F + 1) : ℕ) : ENNReal)) ^
        (e.graph.vertexCount - e.source.vertexCount)) (by
      intro b hbl
      have hperm : (l.permutations.getD b l).Perm l := by
        rw [List.getD_eq_getElem?_getD, List.getElem?_eq_getElem hbl]
        exact List.mem_permutations.mp (List.getElem_mem hbl)
      obtain ⟨o1, o2⟩ := Ba.order_spec hv h3 h7 (order := l.permutations.getD b l) hperm
      have := Ba.loop_atLeast e.m F e.source.edgeCount hm (l.permutations.getD b l) g0 h2 (le_of_eq h6.symm) o1 o2
      have hlen : (l.permutations.getD b l).length = e.graph.vertexCount - e.source.vertexCount := by
        rw [hperm.length_eq, hl, List.length_range', h3]
      rwa [hlen] at this)
  rw [one_mul] at hb
  refine (hb.prob k).trans (measure_mono ?_)
  rintro ω ⟨b, i, ⟨rfl, rfl⟩, _, a, j, h9⟩
  refine ⟨{ e with graph := a.1, weights := a.2, rng := ⟨ω, j⟩ }, ?_⟩
  unfold Ba.randomize
  simp only [h1, Res.ok_bind, h8]
  exact Res.bind_eq_ok.mpr ⟨_, h9, rfl⟩

/-! ## The hypotheses are met -/

/-- A triangle with a tail of one vertex and one vertex without edges, which is to be joined. -/
example : exTail.WF ∧ 4 < exTail.vertexCount ∧ exTail.nbrs 4 = [] ∧ (2 - 1).choose 2 < exTail.edgeCount ∧ (3 - 1).choose 2 < exTail.edgeCount :=
  ⟨exTail_wf, by decide, by decide, by decide, by decide⟩

/-- Two neighbours: `2 · 8 / 4 = 4` draws are enough on average, whatever the tape. -/
example (k : ℕ) : ∫⁻ ω, roundsNeeded (fun N => ∃ x, Ba.attach exTail.degreeVec 4 2 (N + 1) exTail (⟨ω, k⟩ : Stream) = .ok x) ∂uniformTape ≤
    ((2 * (2 * 4) : ℕ) : ENNReal) / ((4 - (2 - 1).choose 2 : ℕ) : ENNReal) :=
  C96_ba_rounds exTail_wf (by decide) (by decide) 2 (by decide) k

end Verif
