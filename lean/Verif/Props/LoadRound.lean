import Verif.Lemmas.LoadRound
import Verif.Props.LoadUnique
import Mathlib.Algebra.Order.Ring.Pow
import Mathlib.Data.Int.Log
import Mathlib.Data.Rat.Floor
import Mathlib.Algebra.Order.Round

/-!
# C72: vertex_load with rounding
-/

set_option linter.unusedSectionVars false
set_option linter.unusedSimpArgs false

namespace Verif
open AdjContainer GenericGraph

variable {T A : Type} [AdjContainer T A] [LawfulAdj T A]

/-! ## Relative errors -/

private theorem pow_low {u : ℚ} (h0 : 0 ≤ u) {k : ℕ} (hk : 2 * (k * u) ≤ 1) : 1 - k * u ≤ (1 - u) ^ k := by
  cases k with
  | zero => simp
  | succ k =>
    have h1 : u ≤ 1 := by
      have : u ≤ ((k + 1 : ℕ) : ℚ) * u := by
        push_cast
        have : 0 ≤ (k : ℚ) * u := mul_nonneg (Nat.cast_nonneg _) h0
        linarith
      linarith
    have := one_add_mul_le_pow (a := -u) (by linarith) (k + 1)
    calc 1 - ((k + 1 : ℕ) : ℚ) * u = 1 + ((k + 1 : ℕ) : ℚ) * -u := by ring
      _ ≤ (1 + -u) ^ (k + 1) := this
      _ = _ := by rw [← sub_eq_add_neg]

private theorem pow_high {u : ℚ} (h0 : 0 ≤ u) (h1 : u ≤ 1) {k : ℕ} (hk : 2 * (k * u) ≤ 1) : (1 + u) ^ k ≤ 1 + 2 * (k * u) := by
  have hl := pow_low h0 hk
  have hpos : (0 : ℚ) ≤ (1 + u) ^ k := pow_nonneg (by linarith) k
  have hprod : (1 + u) ^ k * (1 - u) ^ k ≤ 1 := by
    rw [← mul_pow]
    apply pow_le_one₀
    · nlinarith
    · nlinarith
  have hk0 : 0 ≤ (k : ℚ) * u := mul_nonneg (Nat.cast_nonneg _) h0
  have h2 : (1 + u) ^ k * (1 - k * u) ≤ 1 := (mul_le_mul_of_nonneg_left hl hpos).trans hprod
  have h3 : (1 : ℚ) ≤ (1 + 2 * (k * u)) * (1 - k * u) := by nlinarith
  exact le_of_mul_le_mul_right (h2.trans h3) (by linarith)

/-- `x` is `y` up to `k` relative errors `u`. -/
def Close (u : ℚ) (k : ℕ) (x y : ℚ) : Prop := 0 ≤ y ∧ y * (1 - u) ^ k ≤ x ∧ x ≤ y * (1 + u) ^ k

private theorem Close.mono {u : ℚ} (h0 : 0 ≤ u) (h1 : u ≤ 1) {k l : ℕ} (hkl : k ≤ l) {x y : ℚ} (h : Close u k x y) : Close u l x y := by
  refine ⟨h.1, le_trans (mul_le_mul_of_nonneg_left ?_ h.1) h.2.1, h.2.2.trans (mul_le_mul_of_nonneg_left ?_ h.1)⟩
  · exact pow_le_pow_of_le_one (by linarith) (by linarith) hkl
  · exact pow_le_pow_right₀ (by linarith) hkl

private theorem Close.add {u : ℚ} {k : ℕ} {x y x' y' : ℚ} (h : Close u k x y) (h' : Close u k x' y') : Close u k (x + x') (y + y') :=
  ⟨add_nonneg h.1 h'.1, by rw [add_mul]; exact add_le_add h.2.1 h'.2.1, by rw [add_mul]; exact add_le_add h.2.2 h'.2.2⟩

private theorem Close.div {u : ℚ} {k : ℕ} {x y : ℚ} {m : ℕ} (h : Close u k x y) : Close u k (x / m) (y / m) := by
  have hm : (0 : ℚ) ≤ m := Nat.cast_nonneg _
  refine ⟨div_nonneg h.1 hm, ?_, ?_⟩
  · rw [div_mul_eq_mul_div]; exact div_le_div_of_nonneg_right h.2.1 hm
  · rw [div_mul_eq_mul_div]; exact div_le_div_of_nonneg_right h.2.2 hm

/-- Rounding with relative error `u` of the values that can occur in a graph with `n` vertices. -/
def RoundsTo (rnd : ℚ → ℚ) (n : ℕ) (u : ℚ) : Prop :=
  ∀ x : ℚ, 1 / (2 * n) ≤ x → x ≤ 2 * n ^ 2 → |rnd x - x| ≤ u * x

private theorem Close.round {rnd : ℚ → ℚ} {n : ℕ} {u : ℚ} (h0 : 0 ≤ u) (h1 : u ≤ 1) (hn : 6 * n * u ≤ 1) (hr : RoundsTo rnd n u)
    {k : ℕ} (hk : k < 3 * n) {x y : ℚ} (h : Close u k x y) (hy : 1 / (n : ℚ) ≤ y ∧ y ≤ n ^ 2) : Close u (k + 1) (rnd x) y := by
  have hku : 2 * ((k : ℚ) * u) ≤ 1 := by
    have : (k : ℚ) ≤ 3 * n := by exact_mod_cast hk.le
    nlinarith
  have a1 := pow_low h0 hku
  have a2 := pow_high h0 h1 hku
  have hx0 : 1 / (2 * (n : ℚ)) ≤ x := by
    have : y * (1 / 2) ≤ x := le_trans (mul_le_mul_of_nonneg_left (by linarith) h.1) h.2.1
    calc 1 / (2 * (n : ℚ)) = 1 / (n : ℚ) * (1 / 2) := by rw [one_div_mul_one_div, mul_comm]
      _ ≤ y * (1 / 2) := mul_le_mul_of_nonneg_right hy.1 (by norm_num)
      _ ≤ x := this
  have hx1 : x ≤ 2 * (n : ℚ) ^ 2 := by
    have : x ≤ y * 2 := h.2.2.trans (mul_le_mul_of_nonneg_left (by linarith) h.1)
    linarith [hy.2]
  have hxp : 0 ≤ x := le_trans (by positivity) hx0
  obtain ⟨b1, b2⟩ := abs_le.mp (hr x hx0 hx1)
  refine ⟨h.1, ?_, ?_⟩
  · calc y * (1 - u) ^ (k + 1) = y * (1 - u) ^ k * (1 - u) := by rw [pow_succ]; ring
      _ ≤ x * (1 - u) := mul_le_mul_of_nonneg_right h.2.1 (by linarith)
      _ ≤ rnd x := by linarith
  · calc rnd x ≤ x * (1 + u) := by linarith
      _ ≤ y * (1 + u) ^ k * (1 + u) := mul_le_mul_of_nonneg_right h.2.2 (by linarith)
      _ = y * (1 + u) ^ (k + 1) := by rw [pow_succ]; ring

private theorem close_follow {rnd : ℚ → ℚ} {n : ℕ} {u : ℚ} (h0 : 0 ≤ u) (h1 : u ≤ 1) (hn : 6 * n * u ≤ 1) (hr : RoundsTo rnd n u) :
    Follow rnd (3 * n) (fun y => 1 / (n : ℚ) ≤ y ∧ y ≤ n ^ 2) (Close u) where
  mono hkl h := h.mono h0 h1 hkl
  add hk h h' hy := (h.add h').round h0 h1 hn hr hk hy
  div hk _ h hy := h.div.round h0 h1 hn hr hk hy
  one := ⟨by norm_num, by simp, by simp⟩

private theorem Close.abs_le {u : ℚ} (h0 : 0 ≤ u) (h1 : u ≤ 1) {k : ℕ} (hk : 2 * ((k : ℚ) * u) ≤ 1) {x y : ℚ} (h : Close u k x y) :
    |x - y| ≤ 2 * k * u * y := by
  have a1 := mul_le_mul_of_nonneg_left (pow_low h0 hk) h.1
  have a2 := mul_le_mul_of_nonneg_left (pow_high h0 h1 hk) h.1
  have hku : 0 ≤ (k : ℚ) * u * y := mul_nonneg (mul_nonneg (Nat.cast_nonneg _) h0) h.1
  rw [_root_.abs_le]
  constructor
  · have := h.2.1
    nlinarith
  · have := h.2.2
    nlinarith

/-! ## The values that occur -/

private theorem lt_of_reachable {g : GenericGraph T A} (hg : g.WF) {s v : ℕ} (hs : s < g.vertexCount) (hr : g.toSimple.Reachable s v) :
    v < g.vertexCount := hg.reachable_lt hr hs

private theorem card_closer_le (g : GenericGraph T A) (s v : ℕ) : (closer g s v).card ≤ g.vertexCount := by
  classical
  have := Finset.card_le_card (Finset.filter_subset (fun u => g.toSimple.Adj u v ∧ g.toSimple.dist s u + 1 = g.toSimple.dist s v)
    (Finset.range g.vertexCount))
  rw [Finset.card_range] at this
  exact this

private theorem part_bounds {g : GenericGraph T A} (hg : g.WF) {s : ℕ} (hs : s < g.vertexCount) {F : ℕ → ℚ} (hF : IsFlow g s F) {v : ℕ}
    {S : Finset ℕ} (hr : g.toSimple.Reachable s v) (hS : S ⊆ farther g s v) :
    1 ≤ 1 + ∑ w ∈ S, F w / ((closer g s w).card : ℚ) ∧ 1 + ∑ w ∈ S, F w / ((closer g s w).card : ℚ) ≤ g.vertexCount := by
  have hn : ∀ w ∈ farther g s v, 0 ≤ F w / ((closer g s w).card : ℚ) := by
    intro w hw
    have := (flow_bounds hg hs hF w (hr.trans ((mem_farther_iff hg).mp hw).1.reachable)).1
    exact div_nonneg (by linarith) (Nat.cast_nonneg _)
  constructor
  · have : 0 ≤ ∑ w ∈ S, F w / ((closer g s w).card : ℚ) := Finset.sum_nonneg (fun w hw => hn w (hS hw))
    linarith
  · have h1 := Finset.sum_le_sum_of_subset_of_nonneg hS (fun w hw _ => hn w hw)
    have h2 := (flow_bounds hg hs hF v hr).2
    rw [hF v hr] at h2
    linarith

private theorem one_le_of_lt {g : GenericGraph T A} {s : ℕ} (hs : s < g.vertexCount) : (1 : ℚ) ≤ g.vertexCount := by
  have : 1 ≤ g.vertexCount := by omega
  exact_mod_cast this

private theorem range_ok {n : ℚ} (hn : 1 ≤ n) {y : ℚ} (h1 : 1 / n ≤ y) (h2 : y ≤ n) : 1 / n ≤ y ∧ y ≤ n ^ 2 :=
  ⟨h1, by nlinarith⟩

private theorem inv_le_one' {n : ℚ} (hn : 1 ≤ n) : 1 / n ≤ 1 := by
  rw [div_le_one (by linarith)]; exact hn

private theorem share_bounds {g : GenericGraph T A} (hg : g.WF) {s : ℕ} (hs : s < g.vertexCount) {F : ℕ → ℚ} (hF : IsFlow g s F) {v : ℕ}
    (hr : g.toSimple.Reachable s v) (hne : v ≠ s) :
    1 / (g.vertexCount : ℚ) ≤ F v / ((closer g s v).card : ℚ) ∧ F v / ((closer g s v).card : ℚ) ≤ g.vertexCount := by
  obtain ⟨h1, h2⟩ := flow_bounds hg hs hF v hr
  have hc : 1 ≤ (closer g s v).card := Finset.card_pos.mpr (closer_nonempty hg hr hne)
  have hc1 : (1 : ℚ) ≤ (closer g s v).card := by exact_mod_cast hc
  have hc2 : ((closer g s v).card : ℚ) ≤ g.vertexCount := by exact_mod_cast card_closer_le g s v
  constructor
  · rw [div_le_div_iff₀ (by linarith) (by linarith)]
    nlinarith
  · rw [div_le_iff₀ (by linarith)]
    nlinarith

private theorem follow_ok {g : GenericGraph T A} (hg : g.WF) {F : ℕ → ℕ → ℚ} (hF : ∀ s, IsFlow g s (F s)) :
    (∀ s v S, s < g.vertexCount → g.toSimple.Reachable s v → S ⊆ farther g s v →
      1 / (g.vertexCount : ℚ) ≤ 1 + ∑ w ∈ S, F s w / ((closer g s w).card : ℚ) ∧
      1 + ∑ w ∈ S, F s w / ((closer g s w).card : ℚ) ≤ (g.vertexCount : ℚ) ^ 2) ∧
    (∀ s v, s < g.vertexCount → g.toSimple.Reachable s v → v ≠ s → 1 / (g.vertexCount : ℚ) ≤ F s v / ((closer g s v).card : ℚ) ∧
      F s v / ((closer g s v).card : ℚ) ≤ (g.vertexCount : ℚ) ^ 2) := by
  constructor
  · intro s v S hs hr hS
    have hn := one_le_of_lt hs
    obtain ⟨h1, h2⟩ := part_bounds hg hs (hF s) hr hS
    exact range_ok hn ((inv_le_one' hn).trans h1) h2
  · intro s v hs hr hne
    have hn := one_le_of_lt hs
    obtain ⟨h1, h2⟩ := share_bounds hg hs (hF s) hr hne
    exact range_ok hn h1 h2

open Classical in
private theorem sources_sum (g : GenericGraph T A) (v : ℕ) (f : ℕ → ℚ) :
    ∑ s ∈ sources g v, f s = (((List.range g.vertexCount).filter (· ∈ sources g v)).map f).sum := by
  have hnd : ((List.range g.vertexCount).filter (· ∈ sources g v)).Nodup := List.Nodup.filter _ List.nodup_range
  rw [← List.sum_toFinset f hnd]
  congr 1
  ext s
  simp only [List.mem_toFinset, List.mem_filter, List.mem_range, decide_eq_true_eq]
  constructor
  · intro h
    refine ⟨?_, h⟩
    rw [sources, Finset.mem_filter, Finset.mem_range] at h
    exact h.1
  · exact fun h => h.2

private theorem mem_sources {g : GenericGraph T A} {s v : ℕ} :
    s ∈ sources g v ↔ s < g.vertexCount ∧ s ≠ v ∧ g.toSimple.Reachable s v := by
  classical
  rw [sources, Finset.mem_filter, Finset.mem_range]

open Classical in
private theorem sources_length (g : GenericGraph T A) (v : ℕ) :
    ((List.range g.vertexCount).filter (· ∈ sources g v)).length ≤ g.vertexCount := by
  have := List.length_filter_le (fun s => decide (s ∈ sources g v)) (List.range g.vertexCount)
  rwa [List.length_range] at this

/-! ## With end points -/

private theorem fold_close {rnd : ℚ → ℚ} {n : ℕ} {u : ℚ} (h0 : 0 ≤ u) (h1 : u ≤ 1) (hn : 6 * n * u ≤ 1) (hr : RoundsTo rnd n u)
    {F F' : ℕ → ℚ} : ∀ (l : List ℕ) (j : ℕ) (x y : ℚ), j + l.length ≤ n → Close u (2 * n + j) x y → y ≤ j * n →
    (∀ s ∈ l, Close u (2 * n) (F' s) (F s) ∧ 1 ≤ F s ∧ F s ≤ n) →
    Close u (2 * n + j + l.length) (l.foldl (fun x s => addOf rnd true x (F' s)) x) (y + (l.map F).sum)
  | [], j, x, y, _, h, _, _ => by simpa using h
  | s :: l, j, x, y, hj, h, hy, hl => by
    rw [List.length_cons] at hj
    obtain ⟨c1, c2, c3⟩ := hl s List.mem_cons_self
    have hn1 : (1 : ℚ) ≤ n := by
      have : 1 ≤ n := by omega
      exact_mod_cast this
    have hjn : (j : ℚ) + 1 ≤ n := by
      have : j + 1 ≤ n := by omega
      exact_mod_cast this
    have hsum : y + F s ≤ ((j + 1 : ℕ) : ℚ) * n := by push_cast; linarith
    have hstep : Close u (2 * n + (j + 1)) (rnd (x + F' s)) (y + F s) := by
      have := (h.add (c1.mono h0 h1 (by omega))).round h0 h1 hn hr (by omega)
        ⟨by have := inv_le_one' hn1; linarith [h.1], by push_cast at hsum; nlinarith⟩
      rwa [Nat.add_assoc] at this
    have ih := fold_close h0 h1 hn hr l (j + 1) _ _ (by omega) hstep hsum (fun s hs => hl s (List.mem_cons_of_mem _ hs))
    rw [List.foldl_cons, List.map_cons, List.sum_cons, List.length_cons, ← add_assoc y]
    have e : 2 * n + j + (l.length + 1) = 2 * n + (j + 1) + l.length := by omega
    rw [e]
    simpa [addOf] using ih

/-- With rounding of relative error at most `u` in every operation, `vertex_load(true)` still never panics, and every entry has a
relative error of at most `6 n u` for a graph with `n` vertices. -/
theorem C72_load_relative {g : GenericGraph T A} (hg : g.WF) {rnd : ℚ → ℚ} {u : ℚ} (h0 : 0 ≤ u) (hn : 6 * g.vertexCount * u ≤ 1)
    (hr : RoundsTo rnd g.vertexCount u) :
    ∃ b b', g.vertexLoad true = .ok b ∧ g.vertexLoadR rnd true = .ok b' ∧ b.length = g.vertexCount ∧ b'.length = g.vertexCount ∧
      ∀ (v : ℕ) (x x' : ℚ), b[v]? = some x → b'[v]? = some x' → |x' - x| ≤ 6 * g.vertexCount * u * x := by
  classical
  rcases Nat.eq_zero_or_pos g.vertexCount with hz | hz
  · have e1 : g.vertexLoad true = .ok [] := by simp [GenericGraph.vertexLoad, hz]
    have e2 : g.vertexLoadR rnd true = .ok [] := by simp [GenericGraph.vertexLoadR, hz]
    exact ⟨[], [], e1, e2, by simp [hz], by simp [hz], by simp⟩
  have hn1 : (1 : ℚ) ≤ g.vertexCount := by exact_mod_cast hz
  have h1 : u ≤ 1 := by nlinarith
  choose F hF using fun s => (C22_flow_exists_unique hg s).1
  obtain ⟨F', hF', e⟩ := vertexLoadR_spec (incl := true) (close_follow h0 h1 hn hr) hg (by omega) hF (follow_ok hg hF).1 (follow_ok hg hF).2
  refine ⟨_, _, C22_vertex_load hg hF true, e, by simp, by simp, ?_⟩
  intro v x x' hx hx'
  rw [List.getElem?_map, Option.map_eq_some_iff] at hx hx'
  obtain ⟨w, hw, rfl⟩ := hx
  obtain ⟨w', hw', rfl⟩ := hx'
  obtain ⟨_, rfl⟩ := List.getElem?_eq_some_iff.mp hw
  obtain ⟨_, rfl⟩ := List.getElem?_eq_some_iff.mp hw'
  rename_i hv _
  simp only [List.getElem_range, if_true, sub_zero]
  have hc := fold_close h0 h1 hn hr (F := fun s => F s v) (F' := fun s => F' s v)
    ((List.range g.vertexCount).filter (· ∈ sources g v)) 0 0 0 (by simpa using sources_length g v) ⟨by norm_num, by simp, by simp⟩
    (by simp)
    (by
      intro s hs
      have hs' : s ∈ sources g v := by simpa using (List.mem_filter.mp hs).2
      obtain ⟨a1, _, a2⟩ := mem_sources.mp hs'
      exact ⟨hF' s v hs', flow_bounds hg a1 (hF s) v a2⟩)
  rw [zero_add, ← sources_sum g v (fun s => F s v)] at hc
  have hc3 := hc.mono h0 h1 (l := 3 * g.vertexCount) (by have := sources_length g v; omega)
  have hk : 2 * (((3 * g.vertexCount : ℕ) : ℚ) * u) ≤ 1 := by push_cast; linarith
  have := hc3.abs_le h0 h1 hk
  calc _ ≤ _ := this
    _ = _ := by push_cast; ring

/-! ## Without end points -/

private theorem fold_abs {rnd : ℚ → ℚ} {n : ℕ} {u : ℚ} (h0 : 0 ≤ u) (hn : 8 * n ^ 3 * u ≤ 1)
    (hr : ∀ x : ℚ, |x| ≤ 2 * n ^ 2 → |rnd x - x| ≤ u * (2 * n ^ 2))
    {F F' : ℕ → ℚ} : ∀ (l : List ℕ) (j : ℕ) (x y : ℚ), j + l.length ≤ n → |x - y| ≤ j * (8 * n ^ 2 * u) → 0 ≤ y → y ≤ j * (n - 1) →
    (∀ s ∈ l, |F' s - F s| ≤ 4 * n ^ 2 * u ∧ 1 ≤ F s ∧ F s ≤ n) →
    |l.foldl (fun x s => addOf rnd false x (F' s)) x - (y + (l.map (fun s => F s - 1)).sum)| ≤ (j + l.length) * (8 * n ^ 2 * u)
  | [], j, x, y, _, h, _, _, _ => by simpa using h
  | s :: l, j, x, y, hj, h, hy0, hy, hl => by
    rw [List.length_cons] at hj
    obtain ⟨c1, c2, c3⟩ := hl s List.mem_cons_self
    have hn1 : (1 : ℚ) ≤ n := by
      have : 1 ≤ n := by omega
      exact_mod_cast this
    have hjn : (j : ℚ) + 1 ≤ n := by
      have : j + 1 ≤ n := by omega
      exact_mod_cast this
    have hj0 : (0 : ℚ) ≤ j := Nat.cast_nonneg _
    have hnn : (1 : ℚ) ≤ (n : ℚ) ^ 2 := by nlinarith
    have hE : (j + 1) * (8 * (n : ℚ) ^ 2 * u) ≤ 1 := by
      have h8 : 0 ≤ 8 * (n : ℚ) ^ 2 * u := by positivity
      calc ((j : ℚ) + 1) * (8 * (n : ℚ) ^ 2 * u) ≤ n * (8 * (n : ℚ) ^ 2 * u) := mul_le_mul_of_nonneg_right hjn h8
        _ = 8 * n ^ 3 * u := by ring
        _ ≤ 1 := hn
    have hyn : y + F s ≤ (n : ℚ) ^ 2 := by nlinarith
    obtain ⟨p1, p2⟩ := abs_le.mp h
    obtain ⟨q1, q2⟩ := abs_le.mp c1
    have hu2 : 0 ≤ (n : ℚ) ^ 2 * u := by positivity
    have hjE : 0 ≤ (j : ℚ) * (8 * (n : ℚ) ^ 2 * u) := by positivity
    have hz : |x + F' s| ≤ 2 * (n : ℚ) ^ 2 := by
      rw [abs_le]
      constructor <;> nlinarith
    obtain ⟨r1, r2⟩ := abs_le.mp (hr _ hz)
    have hz2 : |rnd (x + F' s) - 1| ≤ 2 * (n : ℚ) ^ 2 := by
      rw [abs_le]
      constructor <;> nlinarith
    obtain ⟨t1, t2⟩ := abs_le.mp (hr _ hz2)
    have hstep : |rnd (rnd (x + F' s) - 1) - (y + (F s - 1))| ≤ ((j + 1 : ℕ) : ℚ) * (8 * n ^ 2 * u) := by
      rw [abs_le]
      push_cast
      constructor <;> nlinarith
    have ih := fold_abs h0 hn hr l (j + 1) _ _ (by omega) hstep (by linarith) (by push_cast; nlinarith)
      (fun s hs => hl s (List.mem_cons_of_mem _ hs))
    rw [List.foldl_cons, List.map_cons, List.sum_cons, List.length_cons, ← add_assoc]
    push_cast at ih ⊢
    have e : (j : ℚ) + (l.length + 1) = j + 1 + l.length := by ring
    rw [e]
    simpa [addOf] using ih

/-- Without end points the subtractions cancel digits, so the error is bounded in absolute terms: every entry of
`vertex_load(false)` is off by at most `8 n³ u`. -/
theorem C72_load_absolute {g : GenericGraph T A} (hg : g.WF) {rnd : ℚ → ℚ} {u : ℚ} (h0 : 0 ≤ u) (hn : 8 * g.vertexCount ^ 3 * u ≤ 1)
    (hr : RoundsTo rnd g.vertexCount u)
    (hr' : ∀ x : ℚ, |x| ≤ 2 * g.vertexCount ^ 2 → |rnd x - x| ≤ u * (2 * g.vertexCount ^ 2)) :
    ∃ b b', g.vertexLoad false = .ok b ∧ g.vertexLoadR rnd false = .ok b' ∧ b.length = g.vertexCount ∧ b'.length = g.vertexCount ∧
      ∀ (v : ℕ) (x x' : ℚ), b[v]? = some x → b'[v]? = some x' → |x' - x| ≤ 8 * g.vertexCount ^ 3 * u := by
  classical
  rcases Nat.eq_zero_or_pos g.vertexCount with hz | hz
  · have e1 : g.vertexLoad false = .ok [] := by simp [GenericGraph.vertexLoad, hz]
    have e2 : g.vertexLoadR rnd false = .ok [] := by simp [GenericGraph.vertexLoadR, hz]
    exact ⟨[], [], e1, e2, by simp [hz], by simp [hz], by simp⟩
  have hn1 : (1 : ℚ) ≤ g.vertexCount := by exact_mod_cast hz
  have hnn : (g.vertexCount : ℚ) ≤ g.vertexCount ^ 3 := by
    calc (g.vertexCount : ℚ) = g.vertexCount ^ 1 := (pow_one _).symm
      _ ≤ g.vertexCount ^ 3 := pow_le_pow_right₀ hn1 (by norm_num)
  have hnu : (g.vertexCount : ℚ) * u ≤ g.vertexCount ^ 3 * u := mul_le_mul_of_nonneg_right hnn h0
  have hnu0 : 0 ≤ (g.vertexCount : ℚ) * u := by positivity
  have hn6 : 6 * (g.vertexCount : ℚ) * u ≤ 1 := by nlinarith
  have h1 : u ≤ 1 := by nlinarith
  choose F hF using fun s => (C22_flow_exists_unique hg s).1
  obtain ⟨F', hF', e⟩ := vertexLoadR_spec (incl := false) (close_follow h0 h1 hn6 hr) hg (by omega) hF (follow_ok hg hF).1 (follow_ok hg hF).2
  refine ⟨_, _, C22_vertex_load hg hF false, e, by simp, by simp, ?_⟩
  intro v x x' hx hx'
  rw [List.getElem?_map, Option.map_eq_some_iff] at hx hx'
  obtain ⟨w, hw, rfl⟩ := hx
  obtain ⟨w', hw', rfl⟩ := hx'
  obtain ⟨_, rfl⟩ := List.getElem?_eq_some_iff.mp hw
  obtain ⟨_, rfl⟩ := List.getElem?_eq_some_iff.mp hw'
  rename_i hv _
  simp only [List.getElem_range, Bool.false_eq_true, if_false]
  have hc := fold_abs h0 hn hr' (F := fun s => F s v) (F' := fun s => F' s v)
    ((List.range g.vertexCount).filter (· ∈ sources g v)) 0 0 0 (by simpa using sources_length g v) (by simp) (le_refl _)
    (by simp)
    (by
      intro s hs
      have hs' : s ∈ sources g v := by simpa using (List.mem_filter.mp hs).2
      obtain ⟨a1, _, a2⟩ := mem_sources.mp hs'
      obtain ⟨f1, f2⟩ := flow_bounds hg a1 (hF s) v a2
      refine ⟨?_, f1, f2⟩
      have hk : 2 * (((2 * g.vertexCount : ℕ) : ℚ) * u) ≤ 1 := by push_cast; linarith
      have := (hF' s v hs').abs_le h0 h1 hk
      push_cast at this
      calc _ ≤ _ := this
        _ ≤ 2 * (2 * g.vertexCount) * u * g.vertexCount := mul_le_mul_of_nonneg_left f2 (by positivity)
        _ = _ := by ring)
  rw [zero_add, ← sources_sum g v (fun s => F s v - 1)] at hc
  have hlen : (((List.range g.vertexCount).filter (· ∈ sources g v)).length : ℚ) ≤ g.vertexCount := by
    exact_mod_cast sources_length g v
  have h8 : 0 ≤ 8 * (g.vertexCount : ℚ) ^ 2 * u := by positivity
  calc _ ≤ _ := hc
    _ ≤ (g.vertexCount : ℚ) * (8 * g.vertexCount ^ 2 * u) := by
        rw [Nat.cast_zero, zero_add]
        exact mul_le_mul_of_nonneg_right hlen h8
    _ = _ := by ring

/-! ## Unique shortest paths: no error at all -/

/-- `y` is a natural number of at most 53 bits. -/
private def Whole (N : ℕ) (y : ℚ) : Prop := ∃ m : ℕ, m ≤ N ∧ y = m

private theorem whole_follow {rnd : ℚ → ℚ} {N : ℕ} (hr : ∀ m : ℕ, m ≤ N → rnd m = m) (K : ℕ) :
    Follow rnd K (Whole N) (fun _ x y => x = y) where
  mono _ h := h
  add := by
    rintro k x y x' y' _ rfl rfl ⟨m, hm, e⟩
    rw [e, hr m hm]
  div := by
    rintro k x y m _ _ rfl ⟨m', hm, e⟩
    rw [e, hr m' hm]
  one := rfl

private theorem closer_card_one {g : GenericGraph T A} (hg : g.WF) (hu : UniqueShortest g.toSimple) {s w : ℕ}
    (hr : g.toSimple.Reachable s w) (hne : w ≠ s) : (closer g s w).card = 1 := by
  obtain ⟨v, hv⟩ := closer_nonempty hg hr hne
  obtain ⟨hadj, hd⟩ := (mem_closer_iff hg).mp hv
  rw [Finset.card_eq_one]
  refine ⟨v, Finset.eq_singleton_iff_unique_mem.mpr ⟨hv, fun u hu' => ?_⟩⟩
  obtain ⟨b1, b2⟩ := (mem_closer_iff hg).mp hu'
  exact hu.prev hr b1 b2 hadj hd

private theorem fold_exact {rnd : ℚ → ℚ} {n N : ℕ} (hN : n * n ≤ N) (hr : ∀ m : ℕ, m ≤ N → rnd m = m) (incl : Bool)
    {F : ℕ → ℚ} : ∀ (l : List ℕ) (j m : ℕ), j + l.length ≤ n → m ≤ j * n → (∀ s ∈ l, ∃ k : ℕ, F s = k ∧ 1 ≤ k ∧ k ≤ n) →
    l.foldl (fun x s => addOf rnd incl x (F s)) (m : ℚ) = m + (l.map (fun s => F s - if incl then 0 else 1)).sum
  | [], _, _, _, _, _ => by simp
  | s :: l, j, m, hj, hm, hl => by
    rw [List.length_cons] at hj
    obtain ⟨k, hk, hk1, hk2⟩ := hl s List.mem_cons_self
    have hle : m + k ≤ (j + 1) * n := by rw [Nat.add_mul]; omega
    have hleN : m + k ≤ N := hle.trans ((Nat.mul_le_mul_right n (by omega)).trans hN)
    have h1 : rnd ((m : ℚ) + k) = ((m + k : ℕ) : ℚ) := by
      rw [← Nat.cast_add]; exact hr _ hleN
    rw [List.foldl_cons, List.map_cons, List.sum_cons, hk]
    cases incl with
    | true =>
      have ih := fold_exact hN hr true l (j + 1) (m + k) (by omega) hle (fun s hs => hl s (List.mem_cons_of_mem _ hs))
      have e : addOf rnd true m k = ((m + k : ℕ) : ℚ) := by simp [addOf, h1]
      rw [e, ih]
      push_cast
      simp [add_assoc]
    | false =>
      have ih := fold_exact hN hr false l (j + 1) (m + k - 1) (by omega) (by omega) (fun s hs => hl s (List.mem_cons_of_mem _ hs))
      have e : addOf rnd false m k = ((m + k - 1 : ℕ) : ℚ) := by
        simp only [addOf, h1, Bool.false_eq_true, if_false]
        rw [← Nat.cast_one, ← Nat.cast_sub (by omega)]
        exact hr _ (by omega)
      rw [e, ih, Nat.cast_sub (by omega)]
      push_cast
      ring

/-- Where shortest paths are unique (in particular in every forest) there is no rounding error at all, as long as the square of the
number of vertices is representable. -/
theorem C72_load_exact {g : GenericGraph T A} (hg : g.WF) (hu : UniqueShortest g.toSimple) {rnd : ℚ → ℚ} {N : ℕ}
    (hN : g.vertexCount * g.vertexCount ≤ N) (hr : ∀ m : ℕ, m ≤ N → rnd m = m) (incl : Bool) :
    g.vertexLoadR rnd incl = g.vertexLoad incl := by
  classical
  choose F hF using fun s => (C22_flow_exists_unique hg s).1
  have hval : ∀ s v, s < g.vertexCount → g.toSimple.Reachable s v → F s v = (beyond g s v).card := fun s v hs hr =>
    (C22_flow_exists_unique hg s).2 _ _ (hF s) (isFlow_beyond hg hu hs) v hr
  have hbn : ∀ s v, s < g.vertexCount → g.toSimple.Reachable s v → (beyond g s v).card ≤ g.vertexCount ∧ 1 ≤ (beyond g s v).card := by
    intro s v hs hr
    obtain ⟨h1, h2⟩ := flow_bounds hg hs (hF s) v hr
    rw [hval s v hs hr] at h1 h2
    exact ⟨by exact_mod_cast h2, by exact_mod_cast h1⟩
  have hle : ∀ s, s < g.vertexCount → g.vertexCount ≤ N := fun s hs =>
    (Nat.le_mul_of_pos_left _ (by omega)).trans hN
  obtain ⟨F', hF', e⟩ := vertexLoadR_spec (incl := incl) (whole_follow hr (2 * g.vertexCount)) hg (le_refl _) hF
    (by
      intro s v S hs hrv hS
      have heq : 1 + ∑ w ∈ S, F s w / ((closer g s w).card : ℚ) = ((1 + ∑ w ∈ S, (beyond g s w).card : ℕ) : ℚ) := by
        push_cast
        congr 1
        refine Finset.sum_congr rfl (fun w hw => ?_)
        obtain ⟨ha, hd⟩ := (mem_farther_iff hg).mp (hS hw)
        have hrw := hrv.trans ha.reachable
        have hne : w ≠ s := by rintro rfl; rw [SimpleGraph.dist_self] at hd; omega
        rw [closer_card_one hg hu hrw hne, hval s w hs hrw]
        simp
      refine ⟨_, ?_, heq⟩
      have := (part_bounds hg hs (hF s) hrv hS).2
      rw [heq] at this
      have : (1 + ∑ w ∈ S, (beyond g s w).card) ≤ g.vertexCount := by exact_mod_cast this
      exact this.trans (hle s hs))
    (by
      intro s v hs hrv hne
      refine ⟨(beyond g s v).card, (hbn s v hs hrv).1.trans (hle s hs), ?_⟩
      rw [closer_card_one hg hu hrv hne, hval s v hs hrv]
      simp)
  rw [e, C22_vertex_load hg hF incl]
  congr 1
  refine List.map_congr_left (fun v _ => ?_)
  rw [sources_sum g v]
  have hcongr : ((List.range g.vertexCount).filter (· ∈ sources g v)).foldl (fun x s => addOf rnd incl x (F' s v)) 0 =
      ((List.range g.vertexCount).filter (· ∈ sources g v)).foldl (fun x s => addOf rnd incl x (F s v)) 0 := by
    apply List.foldl_ext
    intro x s hs
    rw [hF' s v (by simpa using (List.mem_filter.mp hs).2)]
  rw [hcongr]
  have := fold_exact hN hr incl (F := fun s => F s v) ((List.range g.vertexCount).filter (· ∈ sources g v)) 0 0
    (by simpa using sources_length g v) (by simp)
    (by
      intro s hs
      have hs' : s ∈ sources g v := by simpa using (List.mem_filter.mp hs).2
      obtain ⟨a1, _, a2⟩ := mem_sources.mp hs'
      exact ⟨_, hval s v a1 a2, (hbn s v a1 a2).2, (hbn s v a1 a2).1⟩)
  simpa using this

/-! ## Double precision -/

/-- A number with 53 significant bits nearest to `x`.  Of two nearest numbers this takes the larger one, `f64` the even one; the
theorems above hold for either choice.  Overflow and subnormal numbers are left out: the values that occur lie between `1 / (2 n)` and
`2 n²`, or are differences, which are exact where they are subnormal. -/
noncomputable def nearest53 (x : ℚ) : ℚ := round (x / 2 ^ (Int.log 2 |x| - 52)) * 2 ^ (Int.log 2 |x| - 52)

/-- The relative error of rounding to 53 bits is at most `2^-53`. -/
theorem nearest53_error (x : ℚ) : |nearest53 x - x| ≤ 1 / 2 ^ 53 * |x| := by
  by_cases hx : x = 0
  · subst hx; simp [nearest53]
  have hpos : 0 < |x| := abs_pos.mpr hx
  have hs : (0 : ℚ) < 2 ^ (Int.log 2 |x| - 52) := zpow_pos (by norm_num) _
  have hle : (2 : ℚ) ^ Int.log 2 |x| ≤ |x| := by
    have := Int.zpow_log_le_self (b := 2) (by norm_num) hpos
    simpa using this
  have hsplit : (2 : ℚ) ^ (Int.log 2 |x| - 52) = 2 ^ Int.log 2 |x| * (1 / 2 ^ 52) := by
    rw [zpow_sub₀ (by norm_num)]
    norm_num [div_eq_mul_inv]
  have h1 := abs_sub_round (x / 2 ^ (Int.log 2 |x| - 52))
  have h2 : nearest53 x - x = -(x / 2 ^ (Int.log 2 |x| - 52) - round (x / 2 ^ (Int.log 2 |x| - 52))) * 2 ^ (Int.log 2 |x| - 52) := by
    unfold nearest53
    generalize (2 : ℚ) ^ (Int.log 2 |x| - 52) = s at hs
    have : x / s * s = x := div_mul_cancel₀ x hs.ne'
    generalize ((round (x / s) : ℤ) : ℚ) = r
    rw [neg_mul, sub_mul, this]
    ring
  rw [h2, abs_mul, abs_neg, abs_of_pos hs]
  calc _ ≤ 1 / 2 * (2 : ℚ) ^ (Int.log 2 |x| - 52) := mul_le_mul_of_nonneg_right h1 hs.le
    _ = 1 / 2 * (2 ^ Int.log 2 |x| * (1 / 2 ^ 52)) := by rw [hsplit]
    _ ≤ 1 / 2 * (|x| * (1 / 2 ^ 52)) := by
        apply mul_le_mul_of_nonneg_left _ (by norm_num)
        exact mul_le_mul_of_nonneg_right hle (by norm_num)
    _ = 1 / 2 ^ 53 * |x| := by rw [pow_succ]; ring

/-- Natural numbers up to `2^53` are representable. -/
theorem nearest53_nat {m : ℕ} (hm : m ≤ 2 ^ 53) : nearest53 m = m := by
  rcases Nat.eq_zero_or_pos m with rfl | hp
  · simp [nearest53]
  have hmq : (0 : ℚ) < m := by exact_mod_cast hp
  have habs : |(m : ℚ)| = m := abs_of_pos hmq
  have hlog : Int.log 2 (m : ℚ) = (Nat.log 2 m : ℤ) := Int.log_natCast 2 m
  have hs : (0 : ℚ) < 2 ^ (Int.log 2 (m : ℚ) - 52) := zpow_pos (by norm_num) _
  have hint : ∃ k : ℕ, (m : ℚ) / 2 ^ (Int.log 2 (m : ℚ) - 52) = k := by
    rw [hlog]
    rcases Nat.lt_or_ge 52 (Nat.log 2 m) with h | h
    · have h1 : 2 ^ Nat.log 2 m ≤ m := Nat.pow_log_le_self 2 (by omega)
      have h2 : (2 : ℕ) ^ 53 ≤ 2 ^ Nat.log 2 m := Nat.pow_le_pow_right (by norm_num) h
      have h3 : m = 2 ^ 53 := le_antisymm hm (h2.trans h1)
      have h4 : Nat.log 2 m = 53 := by rw [h3]; exact Nat.log_pow (by norm_num) 53
      refine ⟨2 ^ 52, ?_⟩
      rw [h4, h3]
      norm_num
    · refine ⟨m * 2 ^ (52 - Nat.log 2 m), ?_⟩
      have : ((Nat.log 2 m : ℤ) - 52) = -((52 - Nat.log 2 m : ℕ) : ℤ) := by omega
      rw [this, zpow_neg, zpow_natCast, div_inv_eq_mul]
      push_cast
      rfl
  obtain ⟨k, hk⟩ := hint
  unfold nearest53
  rw [habs, hk, round_natCast, Int.cast_natCast, ← hk, div_mul_cancel₀ _ hs.ne']

/-- In double precision: relative error at most `6 n / 2^53` with end points, absolute error at most `8 n³ / 2^53` without, and no
error where shortest paths are unique. -/
theorem C72_load_double {g : GenericGraph T A} (hg : g.WF) (hn : 8 * g.vertexCount ^ 3 ≤ 2 ^ 53) :
    (∃ b b', g.vertexLoad true = .ok b ∧ g.vertexLoadR nearest53 true = .ok b' ∧ b.length = g.vertexCount ∧
      b'.length = g.vertexCount ∧ ∀ (v : ℕ) (x x' : ℚ), b[v]? = some x → b'[v]? = some x' →
        |x' - x| ≤ 6 * g.vertexCount * (1 / 2 ^ 53) * x) ∧
    (∃ b b', g.vertexLoad false = .ok b ∧ g.vertexLoadR nearest53 false = .ok b' ∧ b.length = g.vertexCount ∧
      b'.length = g.vertexCount ∧ ∀ (v : ℕ) (x x' : ℚ), b[v]? = some x → b'[v]? = some x' →
        |x' - x| ≤ 8 * g.vertexCount ^ 3 * (1 / 2 ^ 53)) ∧
    (UniqueShortest g.toSimple → ∀ incl, g.vertexLoadR nearest53 incl = g.vertexLoad incl) := by
  have hp : (0 : ℚ) < 2 ^ 53 := pow_pos (by norm_num) _
  have hu0 : (0 : ℚ) ≤ 1 / 2 ^ 53 := (div_pos one_pos hp).le
  have hq : 8 * (g.vertexCount : ℚ) ^ 3 * (1 / 2 ^ 53) ≤ 1 := by
    rw [mul_one_div, div_le_one hp]
    exact_mod_cast hn
  have hsq : g.vertexCount * g.vertexCount ≤ g.vertexCount ^ 3 := by
    rcases Nat.eq_zero_or_pos g.vertexCount with h | h
    · simp [h]
    · rw [pow_succ, pow_two]; exact Nat.le_mul_of_pos_right _ h
  have hlin : g.vertexCount ≤ g.vertexCount ^ 3 := Nat.le_self_pow (by norm_num) _
  have hr : RoundsTo nearest53 g.vertexCount (1 / 2 ^ 53) := by
    intro x hx _
    have h0 : 0 ≤ x := le_trans (by positivity) hx
    have := nearest53_error x
    rwa [abs_of_nonneg h0] at this
  refine ⟨C72_load_relative hg hu0 ?_ hr, C72_load_absolute hg hu0 hq hr ?_, fun hu incl => ?_⟩
  · rw [mul_one_div, div_le_one hp]
    have : 6 * g.vertexCount ≤ 2 ^ 53 := by omega
    exact_mod_cast this
  · intro x hx
    exact (nearest53_error x).trans (mul_le_mul_of_nonneg_left hx hu0)
  · exact C72_load_exact hg hu (N := 2 ^ 53) (by omega) (fun m hm => nearest53_nat hm) incl

/-- The hypotheses are met by the path `0-1-2-3` and rounding to 53 bits. -/
example : exPath.WF ∧ 8 * exPath.vertexCount ^ 3 ≤ 2 ^ 53 ∧ UniqueShortest exPath.toSimple :=
  ⟨exPath_wf, by decide, uniqueShortest_of_acyclic exPath_acyclic⟩

end Verif
