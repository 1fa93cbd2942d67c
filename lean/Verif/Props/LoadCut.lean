import Verif.Props.LoadZero

/-!
# C118: the load of a vertex that separates others
-/

set_option linter.unusedSectionVars false
set_option linter.unusedSimpArgs false

namespace Verif
open AdjContainer GenericGraph

variable {T A : Type} [AdjContainer T A] [LawfulAdj T A]

/-- A set of vertices that can only be left through `v`. -/
def Behind (g : GenericGraph T A) (v : ℕ) (B : Finset ℕ) : Prop :=
  v ∉ B ∧ ∀ x ∈ B, ∀ y, g.toSimple.Adj x y → y ∈ B ∨ y = v

/-! ## Proof -/

/-- Seen from outside, everything behind `v` is farther away than `v`. -/
theorem Behind.far {g : GenericGraph T A} (hg : g.WF) {v : ℕ} {B : Finset ℕ} (hB : Behind g v B) {s : ℕ} (hs : s ∉ B) :
    ∀ (k x : ℕ), g.toSimple.dist s x = k → x ∈ B → g.toSimple.Reachable s x → g.toSimple.dist s v < g.toSimple.dist s x := by
  intro k
  induction k with
  | zero =>
    intro x hk hx hr
    have := hr.dist_eq_zero_iff.mp hk
    exact absurd (this ▸ hx) hs
  | succ k ih =>
    intro x hk hx hr
    have hne : x ≠ s := by rintro rfl; exact hs hx
    obtain ⟨u, hu⟩ := closer_nonempty hg hr hne
    obtain ⟨h1, h2⟩ := (mem_closer_iff hg).mp hu
    rcases hB.2 x hx u h1.symm with h | rfl
    · have := ih u (by omega) h (hr.trans h1.symm.reachable)
      omega
    · omega

/-- The flow through `v` carries at least everything behind it. -/
theorem Behind.flow {g : GenericGraph T A} (hg : g.WF) {v : ℕ} {B : Finset ℕ} (hB : Behind g v B) {s : ℕ} (hs : s ∉ B)
    (hsn : s < g.vertexCount) (hr : g.toSimple.Reachable s v) (hBr : ∀ x ∈ B, g.toSimple.Reachable s x) {F : ℕ → ℚ}
    (hF : IsFlow g s F) : 1 + (B.card : ℚ) ≤ F v := by
  classical
  have hfar : ∀ x ∈ B, g.toSimple.dist s v < g.toSimple.dist s x := fun x hx => hB.far hg hs _ x rfl hx (hBr x hx)
  have hlow : ∀ w, g.toSimple.Reachable s w → 0 ≤ F w := fun w h => by
    have := (flow_bounds hg hsn hF w h).1
    linarith
  -- the flow inside `B`
  have h1 : ∑ x ∈ B, F x = (B.card : ℚ) + ∑ w ∈ B, ((closer g s w).filter (· ∈ B)).card * (F w / ((closer g s w).card : ℚ)) := by
    have e1 : ∑ x ∈ B, F x = ∑ x ∈ B, (1 + ∑ w ∈ farther g s x, F w / ((closer g s w).card : ℚ)) :=
      Finset.sum_congr rfl fun x hx => hF x (hBr x hx)
    rw [e1, Finset.sum_add_distrib, Finset.sum_const, nsmul_eq_mul, mul_one]
    congr 1
    have e2 : ∑ x ∈ B, ∑ w ∈ farther g s x, F w / ((closer g s w).card : ℚ) =
        ∑ w ∈ B, ∑ _x ∈ (closer g s w).filter (· ∈ B), F w / ((closer g s w).card : ℚ) := by
      apply Finset.sum_comm'
      intro x w
      rw [Finset.mem_filter, closer_iff_farther hg]
      constructor
      · rintro ⟨hx, hw⟩
        refine ⟨⟨hw, hx⟩, ?_⟩
        obtain ⟨h3, h4⟩ := (mem_farther_iff hg).mp hw
        rcases hB.2 x hx w h3 with h | rfl
        · exact h
        · have := hfar x hx
          omega
      · rintro ⟨⟨hw, hx⟩, -⟩
        exact ⟨hx, hw⟩
    rw [e2]
    exact Finset.sum_congr rfl fun w _ => by rw [Finset.sum_const, nsmul_eq_mul]
  -- what is missing comes from `v`
  have h2 : ∀ w ∈ B, F w = ((closer g s w).filter (· ∈ B)).card * (F w / ((closer g s w).card : ℚ)) +
      (if v ∈ closer g s w then F w / ((closer g s w).card : ℚ) else 0) := by
    intro w hw
    have hne : w ≠ s := by rintro rfl; exact hs hw
    have hc0 : ((closer g s w).card : ℚ) ≠ 0 := by
      exact_mod_cast Finset.card_ne_zero.mpr (closer_nonempty hg (hBr w hw) hne)
    have hnot : (closer g s w).filter (fun x => ¬ x ∈ B) = if v ∈ closer g s w then {v} else ∅ := by
      ext x
      rw [Finset.mem_filter]
      constructor
      · rintro ⟨hx, hxB⟩
        rcases hB.2 w hw x ((mem_closer_iff hg).mp hx).1.symm with h | rfl
        · exact absurd h hxB
        · rw [if_pos hx]; exact Finset.mem_singleton_self _
      · intro hx
        split at hx
        · rw [Finset.mem_singleton] at hx
          subst hx
          exact ⟨by assumption, hB.1⟩
        · simp at hx
    have hcard := Finset.card_filter_add_card_filter_not (s := closer g s w) (fun x => x ∈ B)
    rw [hnot] at hcard
    have hq : ((closer g s w).card : ℚ) = (((closer g s w).filter (· ∈ B)).card : ℚ) + (if v ∈ closer g s w then 1 else 0) := by
      rw [← hcard]
      push_cast
      split <;> simp
    have e : F w = ((closer g s w).card : ℚ) * (F w / ((closer g s w).card : ℚ)) := by field_simp
    conv_lhs => rw [e]
    rw [show ((closer g s w).card : ℚ) * (F w / ((closer g s w).card : ℚ)) =
      ((((closer g s w).filter (· ∈ B)).card : ℚ) + (if v ∈ closer g s w then 1 else 0)) * (F w / ((closer g s w).card : ℚ)) by
        rw [← hq]]
    split <;> ring
  have h3 : ∑ w ∈ B, (if v ∈ closer g s w then F w / ((closer g s w).card : ℚ) else 0) = (B.card : ℚ) := by
    have := Finset.sum_congr (rfl : B = B) h2
    rw [Finset.sum_add_distrib] at this
    linarith
  rw [hF v hr, ← h3, ← Finset.sum_filter]
  apply add_le_add (le_refl _)
  apply Finset.sum_le_sum_of_subset_of_nonneg
  · intro w hw
    exact (closer_iff_farther hg).mp (Finset.mem_filter.mp hw).2
  · intro w hw _
    exact div_nonneg (hlow w (hr.trans ((mem_farther_iff hg).mp hw).1.reachable)) (Nat.cast_nonneg _)

/-! ## Theorem -/

/-- **Separating vertices.** If a set `B` of vertices that reach `v` can only be left through `v`, the load of `v` without end points is at
least twice the number of pairs of a vertex in `B` and another one outside. -/
theorem C118_load_cut {g : GenericGraph T A} (hg : g.WF) {b : List ℚ} (hb : g.vertexLoad false = .ok b) {v : ℕ} {x : ℚ}
    (hx : b[v]? = some x) {B : Finset ℕ} (hB : Behind g v B) (hsub : B ⊆ sources g v) :
    2 * (B.card : ℚ) * (((sources g v).card : ℚ) - (B.card : ℚ)) ≤ x := by
  classical
  choose F hF using fun s => (C22_flow_exists_unique hg s).1
  rw [C22_vertex_load hg hF false, Res.ok.injEq] at hb
  subst hb
  rw [List.getElem?_map, Option.map_eq_some_iff] at hx
  obtain ⟨v', hv', rfl⟩ := hx
  obtain ⟨hv, rfl⟩ : v < g.vertexCount ∧ v' = v := by
    obtain ⟨h1, h2⟩ := List.getElem?_eq_some_iff.mp hv'
    rw [List.length_range] at h1
    rw [List.getElem_range] at h2
    exact ⟨h1, h2.symm⟩
  have hmem : ∀ s ∈ sources g v', s < g.vertexCount ∧ s ≠ v' ∧ g.toSimple.Reachable s v' := fun s hs =>
    ⟨Finset.mem_range.mp (Finset.mem_filter.mp hs).1, (Finset.mem_filter.mp hs).2⟩
  -- the rest can only be left through `v` as well
  have hC : Behind g v' (sources g v' \ B) := by
    refine ⟨fun h => (hmem v' (Finset.mem_sdiff.mp h).1).2.1 rfl, fun z hz y hy => ?_⟩
    obtain ⟨hz1, hz2⟩ := Finset.mem_sdiff.mp hz
    by_cases hyv : y = v'
    · exact .inr hyv
    · refine .inl (Finset.mem_sdiff.mpr ⟨Finset.mem_filter.mpr
        ⟨Finset.mem_range.mpr (hg.lt _ _ (hg.adj_iff.mp hy)), hyv, hy.symm.reachable.trans (hmem z hz1).2.2⟩, fun hyB => ?_⟩)
      rcases hB.2 y hyB z hy.symm with h | h
      · exact hz2 h
      · exact (hmem z hz1).2.1 h
  have hcard : ((sources g v' \ B).card : ℚ) = ((sources g v').card : ℚ) - (B.card : ℚ) := by
    rw [Finset.card_sdiff_of_subset hsub, Nat.cast_sub (Finset.card_le_card hsub)]
  simp only [Bool.false_eq_true, if_false]
  rw [← Finset.sum_sdiff hsub]
  have k1 : (sources g v' \ B).card • (B.card : ℚ) ≤ ∑ s ∈ sources g v' \ B, (F s v' - 1) := by
    apply Finset.card_nsmul_le_sum
    intro s hs
    obtain ⟨hs1, hs2⟩ := Finset.mem_sdiff.mp hs
    obtain ⟨m1, m2, m3⟩ := hmem s hs1
    have := hB.flow hg hs2 m1 m3 (fun z hz => m3.trans (hmem z (hsub hz)).2.2.symm) (hF s)
    linarith
  have k2 : B.card • ((sources g v' \ B).card : ℚ) ≤ ∑ s ∈ B, (F s v' - 1) := by
    apply Finset.card_nsmul_le_sum
    intro s hs
    obtain ⟨m1, m2, m3⟩ := hmem s (hsub hs)
    have := hC.flow hg (fun h => (Finset.mem_sdiff.mp h).2 hs) m1 m3
      (fun z hz => m3.trans (hmem z (Finset.mem_sdiff.mp hz).1).2.2.symm) (hF s)
    linarith
  rw [nsmul_eq_mul, hcard] at k1 k2
  linarith

/-- A vertex without load separates nothing: a set that can only be left through it is empty or contains everything that reaches it. -/
theorem C118_zero_not_cut {g : GenericGraph T A} (hg : g.WF) {b : List ℚ} (hb : g.vertexLoad false = .ok b) {v : ℕ}
    (hx : b[v]? = some 0) {B : Finset ℕ} (hB : Behind g v B) (hsub : B ⊆ sources g v) : B = ∅ ∨ B = sources g v := by
  have h := C118_load_cut hg hb hx hB hsub
  by_cases h0 : B = ∅
  · exact .inl h0
  · refine .inr (Finset.eq_of_subset_of_card_le hsub ?_)
    have hpos : (0 : ℚ) < B.card := by exact_mod_cast Finset.card_pos.mpr (Finset.nonempty_iff_ne_empty.mpr h0)
    have : ((sources g v).card : ℚ) ≤ (B.card : ℚ) := by
      by_contra hlt
      have := mul_pos (mul_pos (by norm_num : (0 : ℚ) < 2) hpos) (sub_pos.mpr (not_le.mp hlt))
      linarith
    exact_mod_cast this

/-- In the triangle with a tail the end of the tail, vertex 3, is behind vertex 2.  Three vertices reach vertex 2, and the bound
`2 * 1 * (3 - 1) = 4` is its load. -/
example : Behind exTail 2 {3} ∧ {3} ⊆ sources exTail 2 ∧ exTail.vertexLoad false = .ok [0, 0, 4, 0, 0] := by
  refine ⟨⟨by decide, fun x hx y hy => .inr ?_⟩, fun x hx => ?_, by decide +kernel⟩
  · rw [Finset.mem_singleton] at hx
    subst hx
    have h := exTail_wf.adj_iff.mp hy
    have e : exTail.nbrs 3 = [2] := by decide
    rw [e, List.mem_singleton] at h
    exact h
  · rw [Finset.mem_singleton] at hx
    subst hx
    classical
    exact Finset.mem_filter.mpr ⟨Finset.mem_range.mpr (by decide), by decide, (exTail_wf.adj_iff.mpr (by decide)).reachable⟩

end Verif
