import Verif.Lemmas.Gilbert
import Verif.Props.Ba
import Mathlib.Algebra.Polynomial.Coeff

/-!
# C109: how likely a network of the Erdős–Rényi ensembles is connected
-/

set_option linter.unusedSectionVars false
set_option linter.unusedSimpArgs false

namespace Verif
open MeasureTheory ProbabilityTheory AdjContainer GenericGraph Classical

variable {T : Type}

theorem pairsIn_range (n : ℕ) : pairsIn (Finset.range n) = pairSet n := by
  ext e
  induction e with
  | _ x y => rw [mk_mem_pairsIn, mk_mem_pairSet, Finset.mem_range, Finset.mem_range]

theorem pairCount_eq (n : ℕ) : pairCount n = n.choose 2 := (Nat.choose_two_right n).symm

/-! ## The recursions -/

theorem connectRec_gilbert (p : ℚ) (n : ℕ) : connectRec p (1 - p) n = gilbert p n := by
  induction n using Nat.strong_induction_on with
  | _ n ih =>
    rw [connectRec, gilbert, add_sub_cancel, one_pow]
    congr 1
    refine Finset.sum_congr rfl fun k _ => ?_
    rw [ih k k.2, one_pow, mul_one, mul_assoc]

open Polynomial in
/-- The coefficients count the connected graphs by their number of edges. -/
theorem coeff_connectWeight (U : Finset ℕ) (m : ℕ) :
    (connectWeight (X : ℤ[X]) 1 U).coeff m = (((pairsIn U).powersetCard m).filter (Connects U)).card := by
  rw [connectWeight, finsetSum_coeff]
  have h1 : ∀ E ∈ (pairsIn U).powerset.filter (Connects U), (edgeWeight (X : ℤ[X]) 1 U E).coeff m = if E.card = m then 1 else 0 := by
    intro E _
    rw [edgeWeight, one_pow, mul_one, coeff_X_pow]
    exact if_congr eq_comm rfl rfl
  rw [Finset.sum_congr rfl h1, Finset.sum_boole, Finset.filter_filter]
  congr 2
  ext E
  rw [Finset.mem_filter, Finset.mem_filter, Finset.mem_powerset, Finset.mem_powersetCard]
  exact ⟨fun ⟨h1, h2, h3⟩ => ⟨⟨h1, h3⟩, h2⟩, fun ⟨⟨h1, h3⟩, h2⟩ => ⟨h1, h2, h3⟩⟩

open Polynomial in
/-- The coefficients of one term of the sum over the sizes of the component. -/
theorem coeff_term (P : ℤ[X]) (c M m : ℕ) {f : ℕ → ℕ} (hf : ∀ j, P.coeff j = f j) :
    ((c : ℤ[X]) * (P * (X + 1) ^ M)).coeff m = ((c * ∑ j : Fin (m + 1), f j * M.choose (m - j) : ℕ) : ℤ) := by
  rw [← C_eq_natCast, coeff_C_mul, coeff_mul, Finset.Nat.sum_antidiagonal_eq_sum_range_succ_mk, Finset.sum_range]
  push_cast
  congr 1
  refine Finset.sum_congr rfl fun j _ => ?_
  rw [hf, coeff_X_add_one_pow]

open Polynomial in
theorem coeff_connectRec (n : ℕ) : ∀ m, (connectRec (X : ℤ[X]) 1 n).coeff m = (connectedGraphs n m : ℤ) := by
  induction n using Nat.strong_induction_on with
  | _ n ih =>
    intro m
    have h1 : (connectRec (X : ℤ[X]) 1 n).coeff m = ((pairCount (n + 1)).choose m : ℤ) -
        ((∑ k : Fin n, n.choose k * ∑ j : Fin (m + 1), connectedGraphs k j * (pairCount (n - k)).choose (m - j) : ℕ) : ℤ) := by
      rw [connectRec, coeff_sub, coeff_X_add_one_pow, finsetSum_coeff, pairCount_eq, Nat.cast_sum]
      congr 1
      refine Finset.sum_congr rfl fun k _ => ?_
      rw [one_pow, mul_one, coeff_term _ _ _ _ (ih k k.2), pairCount_eq]
    have h2 : 0 ≤ (connectRec (X : ℤ[X]) 1 n).coeff m := by
      rw [← connectWeight_eq X 1 n (Finset.range (n + 1)) (Finset.card_range _), coeff_connectWeight]
      exact Int.natCast_nonneg _
    rw [h1] at h2 ⊢
    rw [connectedGraphs]
    omega

open Polynomial in
/-- `connectedGraphs n m` is the number of connected graphs with the vertices `0 … n` and `m` edges. -/
theorem connectedGraphs_eq (n m : ℕ) : (((pairSet (n + 1)).powersetCard m).filter (Connects (Finset.range (n + 1)))).card = connectedGraphs n m := by
  have h1 := coeff_connectRec n m
  rw [← connectWeight_eq X 1 n (Finset.range (n + 1)) (Finset.card_range _), coeff_connectWeight, pairsIn_range] at h1
  exact_mod_cast h1

open Polynomial in
/-- The number of graphs with `m` edges in which the component of `v` has `s + 1` vertices. -/
theorem componentGraphs_eq {n v : ℕ} (hv : v < n + 1) (m s : ℕ) :
    (((pairSet (n + 1)).powersetCard m).filter (fun E => (compOf (Finset.range (n + 1)) v E).card = s + 1)).card =
      n.choose s * ∑ j : Fin (m + 1), connectedGraphs s j * (pairCount (n - s)).choose (m - j) := by
  have h1 := sum_component_size (X : ℤ[X]) 1 (k := s) (Finset.mem_range.mpr hv) (Finset.card_range (n + 1))
  have h2 := congrArg (fun P : ℤ[X] => P.coeff m) h1
  simp only [one_pow, mul_one] at h2
  rw [coeff_term _ _ _ _ (coeff_connectRec s), finsetSum_coeff] at h2
  have h3 : ∀ E ∈ (pairsIn (Finset.range (n + 1))).powerset.filter (fun E => (compOf (Finset.range (n + 1)) v E).card = s + 1),
      (edgeWeight (X : ℤ[X]) 1 (Finset.range (n + 1)) E).coeff m = if E.card = m then 1 else 0 := by
    intro E _
    rw [edgeWeight, one_pow, mul_one, coeff_X_pow]
    exact if_congr eq_comm rfl rfl
  rw [Finset.sum_congr rfl h3, Finset.sum_boole, Finset.filter_filter, pairsIn_range] at h2
  rw [pairCount_eq]
  rw [← Nat.cast_inj (R := ℤ), ← h2]
  congr 2
  ext E
  rw [Finset.mem_filter, Finset.mem_filter, Finset.mem_powerset, Finset.mem_powersetCard]
  exact ⟨fun ⟨⟨h1, h3⟩, h2⟩ => ⟨h1, h2, h3⟩, fun ⟨h1, h2, h3⟩ => ⟨⟨h1, h3⟩, h2⟩⟩

/-! ## What the methods show -/

/-- `is_connected` in terms of the edges. -/
theorem isConnected_connects {g : Graph T} (h : g.WF) {n : ℕ} (hn : g.vertexCount = n + 1) :
    g.isConnected = .ok (some true) ↔ Connects (Finset.range (n + 1)) g.edges := by
  obtain ⟨r, h1, _, h3, _⟩ := C15_is_connected h
  rw [h1, Res.ok.injEq, h3, hn, toSimple_eq_fromEdgeSet h]
  constructor
  · rintro ⟨_, hr⟩ x hx y hy
    exact hr x y (Finset.mem_range.mp hx) (Finset.mem_range.mp hy)
  · intro hr
    exact ⟨Nat.succ_pos _, fun v w hv hw => hr v (Finset.mem_range.mpr hv) w (Finset.mem_range.mpr hw)⟩

/-- The number of vertices with the label of `v` in `connected_components_ids`. -/
theorem labels_compOf {g : Graph T} (h : g.WF) {n v s : ℕ} (hn : g.vertexCount = n + 1) (hv : v < n + 1) :
    (∃ c ids, g.connectedComponentsIds = .ok (c, ids) ∧ ((Finset.range (n + 1)).filter fun w => ids[w]? = ids[v]?).card = s) ↔
      (compOf (Finset.range (n + 1)) v g.edges).card = s := by
  obtain ⟨c, ids, h1, _, _, _, h5, _⟩ := C16_component_ids h
  have h6 : (Finset.range (n + 1)).filter (fun w => ids[w]? = ids[v]?) = compOf (Finset.range (n + 1)) v g.edges := by
    apply Finset.filter_congr
    intro w hw
    rw [eq_comm, h5 v w (hn ▸ hv) (hn ▸ Finset.mem_range.mp hw), toSimple_eq_fromEdgeSet h]
  constructor
  · rintro ⟨c', ids', e, hs⟩
    rw [h1] at e
    cases e
    rw [← h6]; exact hs
  · intro hs
    exact ⟨c, ids, h1, by rw [h6]; exact hs⟩

/-! ## `ErEnsembleC` -/

theorem ErC.randomized {e e' : ErC T Stream} (h : e.graph.WF) {r : Stream} (hr : ErC.randomize { e with rng := r } = .ok e') :
    e'.graph.WF ∧ e'.graph.vertexCount = e.graph.vertexCount := by
  obtain ⟨e'', a1, a2, a3, _⟩ := ErC.randomize_spec (e := { e with rng := r }) h
  rw [a1] at hr
  cases Res.ok.inj hr
  exact ⟨a2, a3⟩

/-- **C109, `ErEnsembleC`.**  The probability that `is_connected` is true after `randomize` obeys Gilbert's recursion. -/
theorem C109_er_c_connected {e : ErC T Stream} (h : e.graph.WF) {n : ℕ} (hn : e.graph.vertexCount = n + 1) (k : ℕ) :
    uniformTape {ω | ∃ e', ErC.randomize { e with rng := (⟨ω, k⟩ : Stream) } = .ok e' ∧ e'.graph.isConnected = .ok (some true)} =
      ENNReal.ofReal ((gilbert (headProb e.prob) n : ℚ) : ℝ) := by
  have h1 := ErC.event h (Connects (Finset.range (n + 1))) k
  have h2 : ∑ S ∈ (pairSet e.graph.vertexCount).powerset with Connects (Finset.range (n + 1)) S,
      indepProb e.graph.vertexCount (fun _ => headProb e.prob) S = gilbert (headProb e.prob) n := by
    rw [← connectRec_gilbert, ← connectWeight_eq _ _ n (Finset.range (n + 1)) (Finset.card_range _), connectWeight, pairsIn_range, hn]
    refine Finset.sum_congr rfl fun S hS => ?_
    rw [indepProb_const (Finset.mem_powerset.mp (Finset.mem_filter.mp hS).1), edgeWeight, pairsIn_range]
  rw [h2] at h1
  rw [← h1]
  congr 1
  ext ω
  refine exists_congr fun e' => and_congr_right fun hr => ?_
  obtain ⟨a1, a2⟩ := ErC.randomized h hr
  exact isConnected_connects a1 (a2.trans hn)

/-- **C109, `ErEnsembleC`, components.**  The probability that exactly `s + 1` vertices have the label of `v`: choose the others, connect
them, and join none of them to the rest. -/
theorem C109_er_c_component {e : ErC T Stream} (h : e.graph.WF) {n v : ℕ} (hn : e.graph.vertexCount = n + 1) (hv : v < n + 1) (s k : ℕ) :
    uniformTape {ω | ∃ e', ErC.randomize { e with rng := (⟨ω, k⟩ : Stream) } = .ok e' ∧
      ∃ c ids, e'.graph.connectedComponentsIds = .ok (c, ids) ∧ ((Finset.range (n + 1)).filter fun w => ids[w]? = ids[v]?).card = s + 1} =
      ENNReal.ofReal ((n.choose s * gilbert (headProb e.prob) s * (1 - headProb e.prob) ^ ((s + 1) * (n - s)) : ℚ) : ℝ) := by
  have h1 := ErC.event h (fun E => (compOf (Finset.range (n + 1)) v E).card = s + 1) k
  have h2 : ∑ S ∈ (pairSet e.graph.vertexCount).powerset with (compOf (Finset.range (n + 1)) v S).card = s + 1,
      indepProb e.graph.vertexCount (fun _ => headProb e.prob) S =
        n.choose s * gilbert (headProb e.prob) s * (1 - headProb e.prob) ^ ((s + 1) * (n - s)) := by
    have h3 := sum_component_size (headProb e.prob) (1 - headProb e.prob) (k := s) (Finset.mem_range.mpr hv) (Finset.card_range (n + 1))
    rw [connectRec_gilbert, add_sub_cancel, one_pow, mul_one, ← mul_assoc] at h3
    rw [← h3, pairsIn_range, hn]
    refine Finset.sum_congr rfl fun S hS => ?_
    rw [indepProb_const (Finset.mem_powerset.mp (Finset.mem_filter.mp hS).1), edgeWeight, pairsIn_range]
  rw [h2] at h1
  rw [← h1]
  congr 1
  ext ω
  refine exists_congr fun e' => and_congr_right fun hr => ?_
  obtain ⟨a1, a2⟩ := ErC.randomized h hr
  exact labels_compOf a1 (a2.trans hn) hv

/-! ## `ErEnsembleM` -/

/-- **C109, `ErEnsembleM`.**  The probability that `is_connected` is true after `randomize`: the number of connected graphs with `m` edges
over the number of all. -/
theorem C109_er_m_connected {e : ErM T Stream} (h : e.Inv) {n : ℕ} (hn : e.graph.vertexCount = n + 1) (k : ℕ) :
    uniformTape {ω | ∃ e', ErM.randomize { e with rng := (⟨ω, k⟩ : Stream) } = .ok e' ∧ e'.graph.isConnected = .ok (some true)} =
      ((connectedGraphs n e.m : ℕ) : ENNReal) / (((pairCount (n + 1)).choose e.m : ℕ) : ENNReal) := by
  have h1 := ErM.event h (Connects (Finset.range (n + 1))) k
  rw [hn, connectedGraphs_eq] at h1
  rw [pairCount, ← h1]
  congr 1
  ext ω
  refine exists_congr fun e' => and_congr_right fun hr => ?_
  obtain ⟨a1, a2⟩ := h.randomize hr
  exact isConnected_connects a1 (Eq.trans a2 hn)

/-- **C109, `ErEnsembleM`, components.** -/
theorem C109_er_m_component {e : ErM T Stream} (h : e.Inv) {n v : ℕ} (hn : e.graph.vertexCount = n + 1) (hv : v < n + 1) (s k : ℕ) :
    uniformTape {ω | ∃ e', ErM.randomize { e with rng := (⟨ω, k⟩ : Stream) } = .ok e' ∧
      ∃ c ids, e'.graph.connectedComponentsIds = .ok (c, ids) ∧ ((Finset.range (n + 1)).filter fun w => ids[w]? = ids[v]?).card = s + 1} =
      ((n.choose s * ∑ j : Fin (e.m + 1), connectedGraphs s j * (pairCount (n - s)).choose (e.m - j) : ℕ) : ENNReal) /
        (((pairCount (n + 1)).choose e.m : ℕ) : ENNReal) := by
  have h1 := ErM.event h (fun E => (compOf (Finset.range (n + 1)) v E).card = s + 1) k
  rw [hn, componentGraphs_eq hv] at h1
  rw [show pairCount (n + 1) = (n + 1) * (n + 1 - 1) / 2 from rfl, ← h1]
  congr 1
  ext ω
  refine exists_congr fun e' => and_congr_right fun hr => ?_
  obtain ⟨a1, a2⟩ := h.randomize hr
  exact labels_compOf a1 (Eq.trans a2 hn) hv

/-! ## Drawing until the network is connected -/

namespace Sampled
variable {F O : Type} {rnd : ℕ → F → Res F} {look : F → O} {start : Stream → F} {Ω : Finset O} {w : O → ENNReal} {X : ℕ → (ℕ → ℝ) → O}

/-- The first sample in `A` is number `i` and is `y`. -/
theorem first (h : Sampled rnd look start Ω w X) {A : Set O} {y : O} (hy : y ∈ Ω) (i : ℕ) :
    uniformTape {ω | (∀ j < i, X j ω ∉ A) ∧ X i ω = y} = (1 - uniformTape {ω | X 0 ω ∈ A}) ^ i * w y := by
  have h1 := h.indep (Finset.range (i + 1)) (fun j => if j < i then Aᶜ else {y})
  have h2 : {ω | ∀ j ∈ Finset.range (i + 1), X j ω ∈ (if j < i then Aᶜ else {y} : Set O)} = {ω | (∀ j < i, X j ω ∉ A) ∧ X i ω = y} := by
    ext ω
    constructor
    · intro hω
      refine ⟨fun j hj => ?_, ?_⟩
      · have := hω j (Finset.mem_range.mpr (by omega))
        rw [if_pos hj] at this
        exact this
      · have := hω i (Finset.mem_range.mpr (by omega))
        rw [if_neg (lt_irrefl i)] at this
        exact this
    · rintro ⟨ha, hb⟩ j hj
      by_cases hji : j < i
      · rw [if_pos hji]; exact ha j hji
      · have hji' : j = i := by have := Finset.mem_range.mp hj; omega
        subst hji'
        rw [if_neg hji]; exact hb
  rw [h2, Finset.prod_range_succ] at h1
  have h3 : ∀ j ∈ Finset.range i, uniformTape {ω | X j ω ∈ (if j < i then Aᶜ else {y} : Set O)} = 1 - uniformTape {ω | X 0 ω ∈ A} := by
    intro j hj
    rw [if_pos (Finset.mem_range.mp hj)]
    show uniformTape {ω | X j ω ∈ A}ᶜ = _
    rw [prob_compl_eq_one_sub (h.meas j A), h.event j A, h.event 0 A]
  rw [Finset.prod_congr rfl h3, Finset.prod_const, Finset.card_range, if_neg (lt_irrefl i)] at h1
  rw [h1]
  congr 1
  exact h.law i y hy

/-- The first sample in `A` is `y`. -/
theorem first_law (h : Sampled rnd look start Ω w X) {A : Set O} {y : O} (hy : y ∈ Ω) (hA : y ∈ A) :
    uniformTape {ω | ∃ i, (∀ j < i, X j ω ∉ A) ∧ X i ω = y} = w y / uniformTape {ω | X 0 ω ∈ A} := by
  have h1 : {ω | ∃ i, (∀ j < i, X j ω ∉ A) ∧ X i ω = y} = ⋃ i, {ω | (∀ j < i, X j ω ∉ A) ∧ X i ω = y} := by
    ext ω; simp
  rw [h1, measure_iUnion]
  · simp only [h.first hy]
    rw [ENNReal.tsum_mul_right, ENNReal.tsum_geometric, ENNReal.sub_sub_cancel ENNReal.one_ne_top prob_le_one, mul_comm, div_eq_mul_inv]
  · intro i i' hii
    rw [Function.onFun, Set.disjoint_left]
    rintro ω ⟨ha, hb⟩ ⟨ha', hb'⟩
    rcases Nat.lt_or_gt_of_ne hii with hlt | hlt
    · exact ha' i hlt (hb ▸ hA)
    · exact ha i' hlt (hb' ▸ hA)
  · intro i
    have h2 : {ω | (∀ j < i, X j ω ∉ A) ∧ X i ω = y} = (⋂ j ∈ Finset.range i, {ω | X j ω ∈ Aᶜ}) ∩ {ω | X i ω ∈ ({y} : Set O)} := by
      ext ω; simp
    rw [h2]
    exact (Finset.measurableSet_biInter _ fun j _ => h.meas j _).inter (h.meas i _)

end Sampled

/-- The recursion never gives zero, since the complete graph is connected. -/
theorem gilbert_pos {p : ℚ} (h0 : 0 < p) (h1 : p ≤ 1) (n : ℕ) : 0 < gilbert p n := by
  rw [← connectRec_gilbert, ← connectWeight_eq _ _ n (Finset.range (n + 1)) (Finset.card_range _), connectWeight]
  have hnn : ∀ S, 0 ≤ edgeWeight p (1 - p) (Finset.range (n + 1)) S := fun S =>
    mul_nonneg (pow_nonneg h0.le _) (pow_nonneg (sub_nonneg.mpr h1) _)
  have hc : Connects (Finset.range (n + 1)) (pairsIn (Finset.range (n + 1))) := by
    intro x hx y hy
    by_cases hxy : x = y
    · rw [hxy]
    · exact (adj_of_edge (mk_mem_pairsIn.mpr ⟨hx, hy, hxy⟩) hxy).reachable
  refine lt_of_lt_of_le ?_ (Finset.single_le_sum (f := edgeWeight p (1 - p) (Finset.range (n + 1))) (fun S _ => hnn S)
    (Finset.mem_filter.mpr ⟨Finset.mem_powerset_self _, hc⟩))
  rw [edgeWeight, Nat.sub_self, pow_zero, mul_one]
  exact pow_pos h0 _

/-- **C109, `ErEnsembleC`, drawing until connected.**  If `randomize` is called again and again until the network is connected, more than
`i` calls are needed with probability `(1 - g) ^ i`, where `g` is the number of `C109_er_c_connected`, and the network one ends up with has
its probability in the ensemble divided by `g`. -/
theorem C109_er_c_until_connected {e : ErC T Stream} (h : e.graph.WF) {n : ℕ} (hn : e.graph.vertexCount = n + 1)
    (hp : 0 < headProb e.prob) :
    ∃ X, Sampled (fun _ => ErC.randomize) (fun e => e.graph.edges) (fun r => { e with rng := r })
      (pairSet (n + 1)).powerset (edgesLaw (n + 1) (fun _ => headProb e.prob)) X ∧
    (∀ i, uniformTape {ω | ∀ j < i, ¬ Connects (Finset.range (n + 1)) (X j ω)} =
      (1 - ENNReal.ofReal ((gilbert (headProb e.prob) n : ℚ) : ℝ)) ^ i) ∧
    ∀ E ⊆ pairSet (n + 1), Connects (Finset.range (n + 1)) E →
      uniformTape {ω | ∃ i, (∀ j < i, ¬ Connects (Finset.range (n + 1)) (X j ω)) ∧ X i ω = E} =
        ENNReal.ofReal ((headProb e.prob ^ E.card * (1 - headProb e.prob) ^ (pairCount (n + 1) - E.card) / gilbert (headProb e.prob) n : ℚ) : ℝ) := by
  obtain ⟨X, hX⟩ := C94_er_c_independent h
  rw [hn] at hX
  have hg : ∀ j, uniformTape {ω | X j ω ∈ {E | Connects (Finset.range (n + 1)) E}} = ENNReal.ofReal ((gilbert (headProb e.prob) n : ℚ) : ℝ) := by
    intro j
    rw [hX.event j]
    have h1 := edgesLaw_filter (n := n + 1) (pr := fun _ => headProb e.prob) (fun _ => headProb_nonneg _) (fun _ => headProb_le_one _)
      (Connects (Finset.range (n + 1)))
    rw [← connectRec_gilbert, ← connectWeight_eq _ _ n (Finset.range (n + 1)) (Finset.card_range _), connectWeight, pairsIn_range]
    refine Eq.trans ?_ (h1.trans ?_)
    · rfl
    · congr 2
      refine Finset.sum_congr rfl fun S hS => ?_
      rw [indepProb_const (Finset.mem_powerset.mp (Finset.mem_filter.mp hS).1), edgeWeight, pairsIn_range]
  have hgpos : (0 : ℝ) < ((gilbert (headProb e.prob) n : ℚ) : ℝ) := by exact_mod_cast gilbert_pos hp (headProb_le_one _) n
  refine ⟨X, hX, ?_, ?_⟩
  · intro i
    have h1 := hX.indep (Finset.range i) (fun _ => {E | Connects (Finset.range (n + 1)) E}ᶜ)
    have h2 : ∀ j ∈ Finset.range i, uniformTape {ω | X j ω ∈ {E | Connects (Finset.range (n + 1)) E}ᶜ} =
        1 - ENNReal.ofReal ((gilbert (headProb e.prob) n : ℚ) : ℝ) := by
      intro j _
      show uniformTape {ω | X j ω ∈ {E | Connects (Finset.range (n + 1)) E}}ᶜ = _
      rw [prob_compl_eq_one_sub (hX.meas j _), hg j]
    rw [Finset.prod_congr rfl h2, Finset.prod_const, Finset.card_range] at h1
    rw [← h1]
    congr 1
    ext ω
    exact ⟨fun hω j hj => hω j (Finset.mem_range.mp hj), fun hω j hj => hω j (Finset.mem_range.mpr hj)⟩
  · intro E hE hc
    have h1 := hX.first_law (A := {E | Connects (Finset.range (n + 1)) E}) (Finset.mem_powerset.mpr hE) hc
    rw [hg 0] at h1
    refine h1.trans ?_
    rw [edgesLaw, indepProb_const hE, card_pairSet, ← ENNReal.ofReal_div_of_pos hgpos, ← Rat.cast_div]
    rfl

/-- **C109, `ErEnsembleM`, drawing until connected.**  The same: all connected networks with `m` edges are equally likely. -/
theorem C109_er_m_until_connected {e : ErM T Stream} (h : e.Inv) {n : ℕ} (hn : e.graph.vertexCount = n + 1) :
    ∃ X, Sampled (fun _ => ErM.randomize) (fun e => e.graph.edges) (fun r => { e with rng := r })
      ((pairSet (n + 1)).powersetCard e.m) (fun _ => (((pairCount (n + 1)).choose e.m : ℕ) : ENNReal)⁻¹) X ∧
    (∀ i, uniformTape {ω | ∀ j < i, ¬ Connects (Finset.range (n + 1)) (X j ω)} =
      (1 - ((connectedGraphs n e.m : ℕ) : ENNReal) / (((pairCount (n + 1)).choose e.m : ℕ) : ENNReal)) ^ i) ∧
    ∀ E ⊆ pairSet (n + 1), E.card = e.m → Connects (Finset.range (n + 1)) E →
      uniformTape {ω | ∃ i, (∀ j < i, ¬ Connects (Finset.range (n + 1)) (X j ω)) ∧ X i ω = E} = ((connectedGraphs n e.m : ℕ) : ENNReal)⁻¹ := by
  obtain ⟨X, hX⟩ := C94_er_m_independent h
  have hle := h.le
  rw [hn] at hX hle
  have hM : (n + 1) * (n + 1 - 1) / 2 = pairCount (n + 1) := rfl
  rw [hM] at hX hle
  have hg : ∀ j, uniformTape {ω | X j ω ∈ {E | Connects (Finset.range (n + 1)) E}} =
      ((connectedGraphs n e.m : ℕ) : ENNReal) / (((pairCount (n + 1)).choose e.m : ℕ) : ENNReal) := by
    intro j
    rw [hX.event j, Finset.sum_const, nsmul_eq_mul, ← div_eq_mul_inv, ← connectedGraphs_eq]
    rfl
  refine ⟨X, hX, ?_, ?_⟩
  · intro i
    have h1 := hX.indep (Finset.range i) (fun _ => {E | Connects (Finset.range (n + 1)) E}ᶜ)
    have h2 : ∀ j ∈ Finset.range i, uniformTape {ω | X j ω ∈ {E | Connects (Finset.range (n + 1)) E}ᶜ} =
        1 - ((connectedGraphs n e.m : ℕ) : ENNReal) / (((pairCount (n + 1)).choose e.m : ℕ) : ENNReal) := by
      intro j _
      show uniformTape {ω | X j ω ∈ {E | Connects (Finset.range (n + 1)) E}}ᶜ = _
      rw [prob_compl_eq_one_sub (hX.meas j _), hg j]
    rw [Finset.prod_congr rfl h2, Finset.prod_const, Finset.card_range] at h1
    rw [← h1]
    congr 1
    ext ω
    exact ⟨fun hω j hj => hω j (Finset.mem_range.mp hj), fun hω j hj => hω j (Finset.mem_range.mpr hj)⟩
  · intro E hE hm hc
    have h1 := hX.first_law (A := {E | Connects (Finset.range (n + 1)) E}) (Finset.mem_powersetCard.mpr ⟨hE, hm⟩) hc
    rw [hg 0] at h1
    refine h1.trans ?_
    have hC : (((pairCount (n + 1)).choose e.m : ℕ) : ENNReal) ≠ 0 := by exact_mod_cast (Nat.choose_pos hle).ne'
    rw [div_eq_mul_inv, div_eq_mul_inv, ENNReal.mul_inv (Or.inr (ENNReal.inv_ne_top.mpr hC)) (Or.inl (ENNReal.natCast_ne_top _)), inv_inv,
      mul_comm, mul_assoc, ENNReal.mul_inv_cancel hC (ENNReal.natCast_ne_top _), mul_one]

/-! ## Known values -/

example (p : ℚ) : gilbert p 0 = 1 ∧ gilbert p 1 = p ∧ gilbert p 2 = 3 * p ^ 2 - 2 * p ^ 3 := by
  have h0 : gilbert p 0 = 1 := by rw [gilbert]; simp
  have h1 : gilbert p 1 = p := by rw [gilbert]; simp [h0]
  refine ⟨h0, h1, ?_⟩
  rw [gilbert]
  simp [Fin.sum_univ_two, h0, h1]
  ring

/-- There are three trees with three vertices, 16 with four, and 15 connected graphs with four vertices and four edges. -/
example : connectedGraphs 2 2 = 3 ∧ connectedGraphs 3 3 = 16 ∧ connectedGraphs 3 4 = 15 ∧ connectedGraphs 3 2 = 0 := by
  decide +kernel

/-- Cases. -/
example : ∃ e : ErM Nat Stream, e.Inv ∧ e.graph.vertexCount = 4 + 1 ∧ connectedGraphs 4 e.m = 125 := by
  obtain ⟨e, _, h2, h3, h4, _⟩ := ErM.new_spec (T := Nat) (n := 5) (m := 4) (by decide) (by decide) (⟨fun _ => 0, 0⟩ : Stream)
  exact ⟨e, h2, h3, by rw [h4]; decide +kernel⟩

example : ∃ e : ErC Nat Stream, e.graph.WF ∧ e.graph.vertexCount = 3 + 1 := ⟨⟨exPath, 1 / 2, 3 / 2, ⟨fun _ => 0, 0⟩⟩, exPath_wf, rfl⟩

end Verif
