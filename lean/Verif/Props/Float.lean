import Verif.Lemmas.Float
import Verif.Props.OneEdge
import Verif.Props.ClosedForm

/-!
# C79: the floating point numbers the measures return
-/

set_option linter.unusedSectionVars false
set_option linter.unusedSimpArgs false

namespace Verif
open AdjContainer Classical

variable {T A : Type} [AdjContainer T A] [LawfulAdj T A]

/-- The rounding of the theorems exists, for `f64` as well as for `f32`. -/
example : Nearest 53 (nearestBits 53) ∧ Nearest 24 (nearestBits 24) :=
  ⟨nearestBits_nearest (by norm_num), nearestBits_nearest (by norm_num)⟩

/-! ### transitivity -/

/-- The ordered paths `(a, b, c)` of length two of a graph on `0 .. n-1`. -/
noncomputable def pathsTwo (g : GenericGraph T A) : Finset (ℕ × ℕ × ℕ) :=
  (Finset.range g.vertexCount ×ˢ Finset.range g.vertexCount ×ˢ Finset.range g.vertexCount).filter
    (fun t => g.toSimple.Adj t.1 t.2.1 ∧ g.toSimple.Adj t.2.1 t.2.2 ∧ t.1 ≠ t.2.2)

/-- Those whose end points are adjacent. -/
noncomputable def pathsClosed (g : GenericGraph T A) : Finset (ℕ × ℕ × ℕ) :=
  (pathsTwo g).filter (fun t => g.toSimple.Adj t.1 t.2.2)

private theorem trans_counts {g : GenericGraph T A} (h : g.WF) : g.transitivity = .ok ((pathsClosed g).card, (pathsTwo g).card) := by
  rw [C24_transitivity h]
  congr 3
  unfold pathsClosed pathsTwo
  rw [Finset.filter_filter]
  congr 1
  ext t
  simp only [and_assoc]

private theorem closed_le (g : GenericGraph T A) : (pathsClosed g).card ≤ (pathsTwo g).card := Finset.card_filter_le _ _

private theorem mem_pathsTwo {g : GenericGraph T A} (h : g.WF) {a b c : ℕ} :
    (a, b, c) ∈ pathsTwo g ↔ g.toSimple.Adj a b ∧ g.toSimple.Adj b c ∧ a ≠ c := by
  unfold pathsTwo
  simp only [Finset.mem_filter, Finset.mem_product, Finset.mem_range, and_iff_right_iff_imp]
  rintro ⟨h1, h2, _⟩
  exact ⟨h.lt_left (h.adj_iff.mp h1), h.lt_left (h.adj_iff.mp h2), h.lt_left (h.adj_iff.mp h2.symm)⟩

/-- `transitivity()` is NaN exactly if there is no path of length two.  Otherwise it is a number between 0 and 1, for any size; it is 0
exactly if there is no triangle; its relative error is at most `4 / 2^53`.  For up to `2^53` paths it is the correctly rounded
quotient, and it is 1 exactly if all paths are closed. -/
theorem C79_transitivity {g : GenericGraph T A} (h : g.WF) {fl : ℚ → ℚ} (hfl : Nearest 53 fl) :
    ∃ v, g.transitivityF fl = .ok v ∧
      (v = .nan ↔ ∀ a b c, g.toSimple.Adj a b → g.toSimple.Adj b c → a = c) ∧ v ≠ .inf ∧
      ∀ q, v = .num q → 0 ≤ q ∧ q ≤ 1 ∧
        (q = 0 ↔ ∀ a b c, g.toSimple.Adj a b → g.toSimple.Adj b c → ¬ g.toSimple.Adj a c) ∧
        |q - ((pathsClosed g).card : ℚ) / (pathsTwo g).card| ≤ 4 / 2 ^ 53 * (((pathsClosed g).card : ℚ) / (pathsTwo g).card) ∧
        ((pathsTwo g).card ≤ 2 ^ 53 → q = fl (((pathsClosed g).card : ℚ) / (pathsTwo g).card) ∧
          (q = 1 ↔ ∀ a b c, g.toSimple.Adj a b → g.toSimple.Adj b c → a ≠ c → g.toSimple.Adj a c)) := by
  have hle := closed_le g
  refine ⟨countDiv fl (pathsClosed g).card (pathsTwo g).card, ?_, ?_, ?_, ?_⟩
  · unfold GenericGraph.transitivityF
    rw [trans_counts h]
    rfl
  · rw [hfl.countDiv_nan (by norm_num)]
    constructor
    · rintro ⟨_, h0⟩ a b c h1 h2
      by_contra hne
      have := (mem_pathsTwo h).mpr ⟨h1, h2, hne⟩
      rw [Finset.card_eq_zero.mp h0] at this
      simp at this
    · intro hall
      have h0 : (pathsTwo g).card = 0 := by
        rw [Finset.card_eq_zero, Finset.eq_empty_iff_forall_notMem]
        rintro ⟨a, b, c⟩ hm
        obtain ⟨h1, h2, h3⟩ := (mem_pathsTwo h).mp hm
        exact h3 (hall a b c h1 h2)
      exact ⟨by omega, h0⟩
  · intro hinf
    obtain ⟨h1, h2⟩ := (hfl.countDiv_inf (by norm_num)).mp hinf
    omega
  · intro q hq
    have hp : 0 < (pathsTwo g).card := by
      rcases Nat.eq_zero_or_pos (pathsTwo g).card with h0 | h0
      · have : countDiv fl (pathsClosed g).card (pathsTwo g).card = .nan := (hfl.countDiv_nan (by norm_num)).mpr ⟨by omega, h0⟩
        rw [this] at hq
        cases hq
      · exact h0
    rw [hfl.countDiv_num (by norm_num) hp] at hq
    injection hq with hq
    obtain ⟨b1, b2⟩ := hfl.div_le_one (by norm_num) hle hp
    have hz := hfl.div_eq_zero (a := (pathsClosed g).card) (by norm_num) hp
    have herr := hfl.div_err (a := (pathsClosed g).card) (by norm_num) hp
    rw [hq] at b1 b2 hz herr
    refine ⟨b1, b2, ?_, herr, ?_⟩
    · rw [hz, Finset.card_eq_zero, Finset.eq_empty_iff_forall_notMem]
      constructor
      · intro hall a b c h1 h2 h3
        refine hall (a, b, c) ?_
        unfold pathsClosed
        exact Finset.mem_filter.mpr ⟨(mem_pathsTwo h).mpr ⟨h1, h2, h3.ne⟩, h3⟩
      · rintro hall ⟨a, b, c⟩ hm
        unfold pathsClosed at hm
        obtain ⟨h1, h2⟩ := Finset.mem_filter.mp hm
        obtain ⟨h3, h4, _⟩ := (mem_pathsTwo h).mp h1
        exact hall a b c h3 h4 h2
    · intro hbig
      rw [hfl.nat (hle.trans hbig), hfl.nat hbig] at hq
      refine ⟨hq.symm, ?_⟩
      rw [← hq, hfl.div_eq_one hle hp hbig]
      constructor
      · intro e a b c h1 h2 h3
        have heq : pathsClosed g = pathsTwo g := Finset.eq_of_subset_of_card_le (Finset.filter_subset _ _) e.ge
        have := (mem_pathsTwo h).mpr ⟨h1, h2, h3⟩
        rw [← heq] at this
        exact (Finset.mem_filter.mp this).2
      · intro hall
        congr 1
        unfold pathsClosed
        refine Finset.filter_true_of_mem ?_
        rintro ⟨a, b, c⟩ hm
        obtain ⟨h1, h2, h3⟩ := (mem_pathsTwo h).mp hm
        exact hall a b c h1 h2 h3

/-- The numbers returned for two graphs can be compared: with up to `2^53` paths each they are never in the wrong order, and with up to
`2^26` paths each different transitivities give different numbers. -/
theorem C79_transitivity_order {g : GenericGraph T A} {T' A' : Type} [AdjContainer T' A'] [LawfulAdj T' A'] {g' : GenericGraph T' A'}
    (h : g.WF) (h' : g'.WF) {fl : ℚ → ℚ} (hfl : Nearest 53 fl) {q q' : ℚ}
    (e : g.transitivityF fl = .ok (.num q)) (e' : g'.transitivityF fl = .ok (.num q')) :
    ((pathsTwo g).card ≤ 2 ^ 53 → (pathsTwo g').card ≤ 2 ^ 53 →
      ((pathsClosed g).card : ℚ) / (pathsTwo g).card ≤ ((pathsClosed g').card : ℚ) / (pathsTwo g').card → q ≤ q') ∧
    ((pathsTwo g).card ≤ 2 ^ 26 → (pathsTwo g').card ≤ 2 ^ 26 →
      ((pathsClosed g).card : ℚ) / (pathsTwo g).card < ((pathsClosed g').card : ℚ) / (pathsTwo g').card → q < q') := by
  have key : ∀ {T A : Type} [AdjContainer T A] [LawfulAdj T A] {g : GenericGraph T A} {q : ℚ}, g.WF → g.transitivityF fl = .ok (.num q) →
      0 < (pathsTwo g).card ∧ ((pathsTwo g).card ≤ 2 ^ 53 → q = fl (((pathsClosed g).card : ℚ) / (pathsTwo g).card)) := by
    intro T A _ _ g q h e
    obtain ⟨v, h1, h2, _, h4⟩ := C79_transitivity h hfl
    rw [e, Res.ok.injEq] at h1
    subst h1
    refine ⟨?_, fun hb => ((h4 q rfl).2.2.2.2 hb).1⟩
    by_contra hc
    have h0 : (pathsTwo g).card = 0 := by omega
    have : (FVal.num q) = .nan := by
      apply h2.mpr
      intro a b c ha hb
      by_contra hne
      have := (mem_pathsTwo h).mpr ⟨ha, hb, hne⟩
      rw [Finset.card_eq_zero.mp h0] at this
      simp at this
    cases this
  obtain ⟨p1, k1⟩ := key h e
  obtain ⟨p2, k2⟩ := key h' e'
  refine ⟨fun b1 b2 hlt => ?_, fun b1 b2 hlt => ?_⟩
  · rw [k1 b1, k2 b2]
    exact hfl.mono hlt
  · rw [k1 (b1.trans (by norm_num)), k2 (b2.trans (by norm_num))]
    refine hfl.div_strict p1 p2 (closed_le g') ?_ hlt
    calc (pathsTwo g).card * (pathsTwo g').card * 2 ≤ 2 ^ 26 * 2 ^ 26 * 2 := by gcongr
      _ = 2 ^ 53 := by norm_num

/-- Triangle with a tail: 6 of 10 paths are closed. -/
example : exTail.WF ∧ exTail.transitivityF (fun x => x) = .ok (.num (6 / 10)) := by
  refine ⟨exTail_wf, ?_⟩
  have : exTail.transitivity = .ok (6, 10) := by decide
  unfold GenericGraph.transitivityF
  rw [this]
  show Res.ok (countDiv (fun x => x) 6 10) = _
  unfold countDiv floatDiv
  norm_num

/-- A path of two edges: transitivity 0; one edge: NaN. -/
example : (exGraph 2 [[1], [0, 2], [1]]).transitivity = .ok (0, 2) ∧ (exGraph 1 [[1], [0]]).transitivity = .ok (0, 0) :=
  ⟨by decide, by decide⟩

/-! ### average_degree -/

/-- `average_degree()` (an `f32`) is NaN exactly for the graph without vertices.  Its relative error is at most `4 / 2^24`; if neither
the number of vertices nor twice the number of edges exceeds `2^24` it is the correctly rounded quotient. -/
theorem C79_average_degree (g : GenericGraph T A) {fl : ℚ → ℚ} (hfl : Nearest 24 fl) (hwf : g.WF) :
    (g.averageDegreeF fl = .nan ↔ g.vertexCount = 0) ∧ g.averageDegreeF fl ≠ .inf ∧
    ∀ q, g.averageDegreeF fl = .num q → |q - (2 * g.edgeCount : ℚ) / g.vertexCount| ≤ 4 / 2 ^ 24 * ((2 * g.edgeCount : ℚ) / g.vertexCount) ∧
      (g.vertexCount ≤ 2 ^ 24 → 2 * g.edgeCount ≤ 2 ^ 24 → q = fl ((2 * g.edgeCount : ℚ) / g.vertexCount)) := by
  have hempty : g.vertexCount = 0 → g.edgeCount = 0 := by
    intro h0
    rw [hwf.edgeCount_eq_card, Finset.card_eq_zero, Finset.eq_empty_iff_forall_notMem]
    intro e
    induction e using Sym2.inductionOn with
    | hf a b =>
      intro he
      have := hwf.lt_left ((hwf.mem_edges).mp he)
      change a < g.vertexCount at this
      omega
  have hcast : ((2 * g.edgeCount : ℕ) : ℚ) = 2 * (g.edgeCount : ℚ) := by push_cast; rfl
  unfold GenericGraph.averageDegreeF
  refine ⟨?_, ?_, ?_⟩
  · rw [hfl.countDiv_nan (by norm_num)]
    constructor
    · exact fun h => h.2
    · intro h0
      exact ⟨by rw [hempty h0], h0⟩
  · intro hinf
    obtain ⟨h1, h2⟩ := (hfl.countDiv_inf (by norm_num)).mp hinf
    have := hempty h2
    omega
  · intro q hq
    have hp : 0 < g.vertexCount := by
      rcases Nat.eq_zero_or_pos g.vertexCount with h0 | h0
      · rw [(hfl.countDiv_nan (by norm_num)).mpr ⟨by rw [hempty h0], h0⟩] at hq
        cases hq
      · exact h0
    rw [hfl.countDiv_num (by norm_num) hp] at hq
    injection hq with hq
    have herr := hfl.div_err (a := 2 * g.edgeCount) (by norm_num) hp
    rw [hq, hcast] at herr
    refine ⟨herr, fun h1 h2 => ?_⟩
    rw [hfl.nat h1, hfl.nat h2, hcast] at hq
    exact hq.symm

/-- Adding an edge never lowers `average_degree()`, removing one never raises it, whatever the size. -/
theorem C79_average_degree_edit {g g' : GenericGraph T A} {i j : ℕ} (h : g.WF) {fl : ℚ → ℚ} (hfl : Nearest 24 fl) {q q' : ℚ}
    (e1 : g.averageDegreeF fl = .num q) (e2 : g'.averageDegreeF fl = .num q') :
    (g.addEdge i j = .ok (.ok (), g') → q ≤ q') ∧ (g.removeEdge i j = .ok (.ok (), g') → q' ≤ q) := by
  have key : ∀ {g g' : GenericGraph T A} {q q' : ℚ}, OneMore g g' i j → g.averageDegreeF fl = .num q → g'.averageDegreeF fl = .num q' →
      q ≤ q' := by
    intro g g' q q' o e1 e2
    have hn := o.count
    have hE : g.edgeCount ≤ g'.edgeCount := by
      rw [o.wf.edgeCount_eq_card, o.wf'.edgeCount_eq_card]
      apply Finset.card_le_card
      intro e he
      induction e using Sym2.inductionOn with
      | hf a b =>
        have := o.le (o.wf.adj_iff.mpr ((o.wf.mem_edges).mp he))
        exact (o.wf'.mem_edges).mpr (o.wf'.adj_iff.mp this)
    have hp : 0 < g.vertexCount := lt_of_le_of_lt (Nat.zero_le _) o.lt_i
    unfold GenericGraph.averageDegreeF at e1 e2
    rw [hfl.countDiv_num (by norm_num) hp] at e1
    rw [hfl.countDiv_num (by norm_num) (by rw [hn]; exact hp), hn] at e2
    injection e1 with e1
    injection e2 with e2
    rw [← e1, ← e2]
    apply hfl.mono
    apply div_le_div_of_nonneg_right _ (hfl.nonneg (Nat.cast_nonneg _))
    apply hfl.mono
    exact_mod_cast Nat.mul_le_mul_left 2 hE
  exact ⟨fun e => key (oneMore_of_add h e) e1 e2, fun e => key (oneMore_of_remove h e) e2 e1⟩

/-- On every state of a `SmallWorldWS` with distance `d` the value is exactly `2 d`, on every state of a `SwEnsemble` exactly 4, if twice
the number of edges does not exceed `2^24`. -/
theorem C79_average_degree_small_world {T : Type} {fl : ℚ → ℚ} (hfl : Nearest 24 fl) :
    (∀ {d : ℕ} {g : WSGraph T}, WsValid d g → 0 < g.vertexCount → 0 < d → 2 * (g.vertexCount * d) ≤ 2 ^ 24 →
      g.averageDegreeF fl = .num (2 * d : ℕ)) ∧
    (∀ {g : SwGraph T}, SwValid g → 4 * g.vertexCount ≤ 2 ^ 24 → g.averageDegreeF fl = .num 4) := by
  have key : ∀ {n E k : ℕ}, 0 < n → E = n * k → 0 < k → E ≤ 2 ^ 24 → countDiv fl E n = .num k := by
    intro n E k hn hE hk hb
    have hnq : (n : ℚ) ≠ 0 := by exact_mod_cast hn.ne'
    have hnE : n ≤ E := by rw [hE]; exact Nat.le_mul_of_pos_right _ hk
    have hkE : k ≤ E := by rw [hE]; exact Nat.le_mul_of_pos_left _ hn
    rw [hfl.countDiv_exact (by norm_num) hn hb (hnE.trans hb), hE]
    push_cast
    rw [mul_div_cancel_left₀ _ hnq, hfl.nat (hkE.trans hb)]
  refine ⟨?_, ?_⟩
  · intro d g hv hn hd hb
    refine key hn ?_ (by omega) ?_
    · rw [hv.count]; ring
    · rw [hv.count]; exact hb
  · intro g hv hb
    have hs := hv.size
    have hn : 0 < g.vertexCount := by show 0 < g.nextId; omega
    have := key (k := 4) hn (E := 2 * g.edgeCount) (by rw [hv.count]; show _ = g.nextId * 4; ring) (by norm_num)
      (by rw [hv.count]; change 4 * g.nextId ≤ _ at hb; omega)
    simpa [GenericGraph.averageDegreeF] using this

/-! ### closeness_centrality -/

/-- The sum of the distances from `v` to the vertices that can be reached. -/
noncomputable def distSum (g : GenericGraph T A) (v : ℕ) : ℕ :=
  ∑ w ∈ (Finset.range g.vertexCount).filter (fun w => g.toSimple.Reachable v w), g.toSimple.dist v w

theorem distSum_eq_zero {g : GenericGraph T A} (h : g.WF) {v : ℕ} :
    distSum g v = 0 ↔ ∀ w, ¬ g.toSimple.Adj v w := by
  unfold distSum
  rw [Finset.sum_eq_zero_iff]
  constructor
  · intro hall w ha
    have hw : w < g.vertexCount := h.lt_left (h.adj_iff.mp ha.symm)
    have := hall w (Finset.mem_filter.mpr ⟨Finset.mem_range.mpr hw, ha.reachable⟩)
    rw [ha.reachable.dist_eq_zero_iff] at this
    exact ha.ne this
  · intro hall w hw
    obtain ⟨_, hr⟩ := Finset.mem_filter.mp hw
    obtain ⟨p⟩ := hr
    cases p with
    | nil => exact SimpleGraph.dist_self
    | cons ha _ => exact absurd ha (hall _)

/-- In a connected graph the sum is at least `n - 1`, with equality exactly if the vertex is adjacent to all others. -/
theorem distSum_ge {g : GenericGraph T A} {v : ℕ} (hv : v < g.vertexCount)
    (hc : ∀ w < g.vertexCount, g.toSimple.Reachable v w) :
    g.vertexCount - 1 ≤ distSum g v ∧
      (distSum g v = g.vertexCount - 1 ↔ ∀ w < g.vertexCount, w ≠ v → g.toSimple.Adj v w) := by
  have hset : (Finset.range g.vertexCount).filter (fun w => g.toSimple.Reachable v w) = Finset.range g.vertexCount :=
    Finset.filter_true_of_mem (fun w hw => hc w (Finset.mem_range.mp hw))
  have hsplit : distSum g v = ∑ w ∈ (Finset.range g.vertexCount).erase v, g.toSimple.dist v w := by
    unfold distSum
    rw [hset, ← Finset.add_sum_erase _ _ (Finset.mem_range.mpr hv), SimpleGraph.dist_self, Nat.zero_add]
  have hcard : g.vertexCount - 1 = ∑ w ∈ (Finset.range g.vertexCount).erase v, 1 := by
    rw [Finset.sum_const, smul_eq_mul, mul_one, Finset.card_erase_of_mem (Finset.mem_range.mpr hv), Finset.card_range]
  have hge : ∀ w ∈ (Finset.range g.vertexCount).erase v, 1 ≤ g.toSimple.dist v w := by
    intro w hw
    obtain ⟨h1, h2⟩ := Finset.mem_erase.mp hw
    exact Nat.pos_of_ne_zero (fun h0 => h1 ((hc w (Finset.mem_range.mp h2)).dist_eq_zero_iff.mp h0).symm)
  rw [hsplit, hcard]
  refine ⟨Finset.sum_le_sum hge, ?_⟩
  rw [eq_comm, Finset.sum_eq_sum_iff_of_le hge]
  constructor
  · intro hall w hw hne
    exact SimpleGraph.dist_eq_one_iff_adj.mp (hall w (Finset.mem_erase.mpr ⟨hne, Finset.mem_range.mpr hw⟩)).symm
  · intro hall w hw
    obtain ⟨h1, h2⟩ := Finset.mem_erase.mp hw
    exact (SimpleGraph.dist_eq_one_iff_adj.mpr (hall w (Finset.mem_range.mp h2) h1)).symm

/-- `closeness_centrality()`: for a single vertex the value is NaN; with more vertices it is infinite exactly for isolated vertices and
otherwise a positive number with relative error at most `4 / 2^53`.  In a connected graph it is at most 1, and (while the sum of
distances is at most `2^53`) it is 1 exactly for vertices adjacent to all others. -/
theorem C79_closeness {g : GenericGraph T A} (h : g.WF) (hn : 0 < g.vertexCount) {fl : ℚ → ℚ} (hfl : Nearest 53 fl) :
    ∃ L, g.closenessCentralityF fl = .ok L ∧ L.length = g.vertexCount ∧ ∀ v < g.vertexCount, ∃ x, L[v]? = some x ∧
      (x = .nan ↔ g.vertexCount = 1) ∧ (x = .inf ↔ 2 ≤ g.vertexCount ∧ ∀ w, ¬ g.toSimple.Adj v w) ∧
      ∀ q, x = .num q → 0 < q ∧
        |q - ((g.vertexCount - 1 : ℕ) : ℚ) / distSum g v| ≤ 4 / 2 ^ 53 * (((g.vertexCount - 1 : ℕ) : ℚ) / distSum g v) ∧
        ((∀ w < g.vertexCount, g.toSimple.Reachable v w) → q ≤ 1 ∧
          (distSum g v ≤ 2 ^ 53 → (q = 1 ↔ ∀ w < g.vertexCount, w ≠ v → g.toSimple.Adj v w))) := by
  obtain ⟨L, h1, h2, h3⟩ := C23_closeness h hn
  refine ⟨L.map (fun x => countDiv fl x.1 x.2), ?_, by rw [List.length_map, h2], ?_⟩
  · unfold GenericGraph.closenessCentralityF
    rw [h1]
    rfl
  intro v hv
  have hz := distSum_eq_zero (v := v) h
  refine ⟨countDiv fl (g.vertexCount - 1) (distSum g v), ?_, ?_, ?_, ?_⟩
  · rw [List.getElem?_map, h3 v hv]
    rfl
  · rw [hfl.countDiv_nan (by norm_num), hz]
    constructor
    · rintro ⟨h0, _⟩
      omega
    · intro h0
      refine ⟨by omega, fun w ha => ?_⟩
      have : w < g.vertexCount := h.lt_left (h.adj_iff.mp ha.symm)
      exact ha.ne (by omega)
  · rw [hfl.countDiv_inf (by norm_num), hz]
    constructor
    · rintro ⟨h0, h4⟩
      exact ⟨by omega, h4⟩
    · rintro ⟨h0, h4⟩
      exact ⟨by omega, h4⟩
  · intro q hq
    have hs : 0 < distSum g v := by
      rcases Nat.eq_zero_or_pos (distSum g v) with h0 | h0
      · rw [h0] at hq
        rcases Nat.eq_zero_or_pos (g.vertexCount - 1) with h5 | h5
        · rw [(hfl.countDiv_nan (by norm_num)).mpr ⟨h5, rfl⟩] at hq
          cases hq
        · rw [(hfl.countDiv_inf (by norm_num)).mpr ⟨h5, rfl⟩] at hq
          cases hq
      · exact h0
    have hn2 : 0 < g.vertexCount - 1 := by
      by_contra hc
      have hone : g.vertexCount = 1 := by omega
      refine hs.ne' (hz.mpr (fun w ha => ?_))
      have : w < g.vertexCount := h.lt_left (h.adj_iff.mp ha.symm)
      exact ha.ne (by omega)
    rw [hfl.countDiv_num (by norm_num) hs] at hq
    injection hq with hq
    have herr := hfl.div_err (a := g.vertexCount - 1) (by norm_num) hs
    rw [hq] at herr
    refine ⟨?_, herr, fun hc => ?_⟩
    · rw [← hq]
      exact hfl.pos (by norm_num) (div_pos (hfl.pos (by norm_num) (by exact_mod_cast hn2)) (hfl.pos (by norm_num) (by exact_mod_cast hs)))
    · obtain ⟨g1, g2⟩ := distSum_ge hv hc
      refine ⟨by rw [← hq]; exact (hfl.div_le_one (by norm_num) g1 hs).2, fun hb => ?_⟩
      rw [hfl.nat (g1.trans hb), hfl.nat hb] at hq
      rw [← hq, hfl.div_eq_one g1 hs hb, ← g2, eq_comm]

/-- The last vertex of the example is isolated, the third one is not. -/
example : exTail.WF ∧ 0 < exTail.vertexCount ∧ exTail.closenessCentrality = .ok [(4, 4), (4, 4), (4, 3), (4, 5), (4, 0)] :=
  ⟨exTail_wf, by decide, by decide⟩

/-! ### The fractions of `SwGraph` -/

/-- `frac_nodes_wlre()` and `frac_long_ranging_edges()` are numbers between 0 and 1; both are 0 exactly if there is no long-ranging edge. -/
theorem C79_fractions {T : Type} {g : SwGraph T} (h : SwValid g) {fl : ℚ → ℚ} (hfl : Nearest 53 fl) :
    ∃ q q', SwGraph.fracNodesWlreF fl g = .ok (.num q) ∧ SwGraph.fracLongRangingEdgesF fl g = .num q' ∧
      0 ≤ q ∧ q ≤ 1 ∧ 0 ≤ q' ∧ q' ≤ 1 ∧ (q = 0 ↔ SwGraph.countLongRangingEdges g = 0) ∧
      (q' = 0 ↔ SwGraph.countLongRangingEdges g = 0) := by
  obtain ⟨_, hle, _⟩ := C39_long_ranging_edges h
  obtain ⟨S, h1, h2⟩ := C39_nodes_with_long_ranging_edges h
  obtain ⟨S', _, h4, h5, _, _, h7, h8⟩ := C39_frac_nodes_wlre h
  have hSS : S = S' := by
    ext v
    rw [h2, h4]
  subst hSS
  have hsize := h.size
  have hn : 0 < g.vertexCount := by show 0 < g.nextId; omega
  have hE : 0 < g.edgeCount := by rw [h.count]; omega
  have hS : S.card ≤ g.vertexCount := by simpa using Finset.card_le_card h5
  refine ⟨fl (fl S.card / fl g.vertexCount), fl (fl (SwGraph.countLongRangingEdges g) / fl g.edgeCount), ?_, ?_, ?_⟩
  · unfold SwGraph.fracNodesWlreF
    rw [h1]
    show Res.ok (countDiv fl S.card g.vertexCount) = _
    rw [hfl.countDiv_num (by norm_num) hn]
  · unfold SwGraph.fracLongRangingEdgesF
    rw [hfl.countDiv_num (by norm_num) hE]
  · obtain ⟨a1, a2⟩ := hfl.div_le_one (by norm_num) hS hn
    obtain ⟨b1, b2⟩ := hfl.div_le_one (by norm_num) hle hE
    refine ⟨a1, a2, b1, b2, ?_, hfl.div_eq_zero (by norm_num) hE⟩
    rw [hfl.div_eq_zero (by norm_num) hn]
    omega

/-- A network with one long-ranging edge. -/
example : SwValid exSw ∧ SwGraph.countLongRangingEdges exSw = 1 := ⟨exSw_valid, by decide⟩

end Verif
