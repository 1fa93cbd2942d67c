import Verif.Lemmas.TapeMean
import Verif.Lemmas.Float
import Verif.Props.Formula

/-!
# C80: mean and spread of the connectivity

With independent uniform draws the number of edges, the degrees and the average degree after `randomize` are random variables.
-/

set_option linter.unusedSectionVars false
set_option linter.unusedSimpArgs false

namespace Verif
open MeasureTheory ProbabilityTheory AdjContainer GenericGraph Classical

variable {T : Type}

/-! ### Edges as events -/

noncomputable instance (n : ℕ) : Fintype (PairOf n) :=
  Fintype.subtype (allPairs n).toFinset (fun q => by rw [List.mem_toFinset, mem_allPairs])

/-- The unordered pair. -/
def PairOf.edge {n : ℕ} (q : PairOf n) : Sym2 ℕ := s(q.1.1, q.1.2)

theorem PairOf.edge_inj {n : ℕ} : Function.Injective (PairOf.edge (n := n)) := by
  rintro ⟨⟨a, b⟩, h1, h2⟩ ⟨⟨c, d⟩, h3, h4⟩ hab
  simp only [PairOf.edge, Sym2.eq_iff] at hab
  apply Subtype.ext
  simp only [Prod.mk.injEq]
  simp only at h1 h3
  omega

theorem card_pairOf (n : ℕ) : (Finset.univ : Finset (PairOf n)).card = n * (n - 1) / 2 := by
  rw [Finset.card_univ, Fintype.card_of_subtype (allPairs n).toFinset (fun q => by rw [List.mem_toFinset, mem_allPairs]), List.toFinset_card_of_nodup (nodup_allPairs n), length_allPairs]

theorem pairOf_cover {n : ℕ} {i j : ℕ} (hi : i < n) (hj : j < n) (hij : i ≠ j) : ∃ q : PairOf n, q.edge = s(i, j) := by
  rcases Nat.lt_or_gt_of_ne hij with h | h
  · exact ⟨⟨(i, j), h, hj⟩, rfl⟩
  · exact ⟨⟨(j, i), h, hi⟩, Sym2.eq_swap⟩

/-- Edges with a property, counted as pairs. -/
theorem card_filter_pairs {n : ℕ} {E : Finset (Sym2 ℕ)} (hE : ∀ e ∈ E, ∃ q : PairOf n, q.edge = e) (P : Sym2 ℕ → Prop) [DecidablePred P] :
    (E.filter P).card = (((Finset.univ : Finset (PairOf n)).filter (fun q => P q.edge)).filter (fun q => q.edge ∈ E)).card := by
  rw [← Finset.card_image_of_injective _ (PairOf.edge_inj (n := n))]
  congr 1
  ext e
  simp only [Finset.mem_filter, Finset.mem_image, Finset.mem_univ, true_and]
  constructor
  · rintro ⟨h1, h2⟩
    obtain ⟨q, rfl⟩ := hE e h1
    exact ⟨q, ⟨h2, h1⟩, rfl⟩
  · rintro ⟨q, ⟨h2, h1⟩, rfl⟩
    exact ⟨h1, h2⟩

/-- A vertex is in `n - 1` pairs. -/
theorem card_incident {n v : ℕ} (hv : v < n) : ((Finset.univ : Finset (PairOf n)).filter (fun q => v ∈ q.edge)).card = n - 1 := by
  have h1 := card_filter_pairs (n := n) (E := (Finset.univ : Finset (PairOf n)).image PairOf.edge)
    (fun e he => by
      obtain ⟨q, _, rfl⟩ := Finset.mem_image.mp he
      exact ⟨q, rfl⟩) (fun e => v ∈ e)
  rw [Finset.filter_true_of_mem (fun q _ => Finset.mem_image_of_mem _ (Finset.mem_univ q))] at h1
  rw [← h1]
  have h2 : ((Finset.univ : Finset (PairOf n)).image PairOf.edge).filter (fun e => v ∈ e) =
      ((Finset.range n).erase v).image (fun w => s(v, w)) := by
    ext e
    simp only [Finset.mem_filter, Finset.mem_image, Finset.mem_univ, true_and, Finset.mem_erase, Finset.mem_range]
    constructor
    · rintro ⟨⟨⟨⟨a, b⟩, ha, hb⟩, rfl⟩, hm⟩
      simp only [PairOf.edge, Sym2.mem_iff] at hm ha hb ⊢
      rcases hm with rfl | rfl
      · exact ⟨b, ⟨by omega, hb⟩, rfl⟩
      · exact ⟨a, ⟨by omega, by omega⟩, Sym2.eq_swap⟩
    · rintro ⟨w, ⟨hw1, hw2⟩, rfl⟩
      exact ⟨pairOf_cover hv hw2 hw1.symm, by simp⟩
  rw [h2, Finset.card_image_of_injective _ (fun a b hab => Sym2.congr_right.mp hab),
    Finset.card_erase_of_mem (Finset.mem_range.mpr hv), Finset.card_range]

/-- Edge sets read off the tape: mean and variance of the number of edges with a property. -/
theorem reads_moments {n : ℕ} {E : (ℕ → ℝ) → Finset (Sym2 ℕ)} (hin : ∀ ω, ∀ e ∈ E ω, ∃ q : PairOf n, q.edge = e)
    {k : PairOf n → ℕ} (hk : Function.Injective k) (Q : PairOf n → ℕ → Prop) [∀ q, DecidablePred (Q q)]
    (hE : ∀ ω q, q.edge ∈ E ω ↔ Q q (partOf (ω (k q)) (2 ^ 53))) {h : PairOf n → ℝ}
    (hh : ∀ q, (((Finset.range (2 ^ 53)).filter (Q q)).card : ℝ) / 2 ^ 53 = h q) (P : Sym2 ℕ → Prop) [DecidablePred P] :
    MemLp (fun ω => (((E ω).filter P).card : ℝ)) 2 uniformTape ∧
    ∫ ω, (((E ω).filter P).card : ℝ) ∂uniformTape = ∑ q ∈ (Finset.univ : Finset (PairOf n)).filter (fun q => P q.edge), h q ∧
    variance (fun ω => (((E ω).filter P).card : ℝ)) uniformTape =
      ∑ q ∈ (Finset.univ : Finset (PairOf n)).filter (fun q => P q.edge), h q * (1 - h q) := by
  set A : PairOf n → Set (ℕ → ℝ) := fun q => {ω | q.edge ∈ E ω} with hA
  obtain ⟨l1, l2⟩ := law_of_reads (E := E) (pair := PairOf.edge) hk Q hE
  have hm : ∀ q, MeasurableSet (A q) := by
    intro q
    have : A q = {ω : ℕ → ℝ | ω (k q) ∈ {x : ℝ | Q q (partOf x (2 ^ 53))}} := by
      ext ω
      exact hE ω q
    rw [this]
    exact measurable_pi_apply (k q) (measurableSet_partOf_pred _ (Q q))
  have hreal : ∀ q, uniformTape.real (A q) = h q := by
    intro q
    rw [Measure.real, l2 q, ENNReal.toReal_div, ENNReal.toReal_natCast, ENNReal.toReal_pow, ← hh q]
    rfl
  have hfun : (fun ω => (((E ω).filter P).card : ℝ)) =
      howMany ((Finset.univ : Finset (PairOf n)).filter (fun q => P q.edge)) A := by
    funext ω
    rw [howMany_eq_card, card_filter_pairs (hin ω) P]
    rfl
  rw [hfun]
  refine ⟨howMany_memLp _ hm, ?_, ?_⟩
  · rw [howMany_mean _ hm]
    exact Finset.sum_congr rfl (fun q _ => hreal q)
  · rw [howMany_variance _ hm l1]
    exact Finset.sum_congr rfl (fun q _ => by rw [hreal q])

theorem wf_edges_pairs {A : Type} [AdjContainer T A] [LawfulAdj T A] {g : GenericGraph T A} (h : g.WF) :
    ∀ e ∈ g.edges, ∃ q : PairOf g.vertexCount, q.edge = e := by
  intro e
  induction e using Sym2.inductionOn with
  | hf a b =>
    intro he
    have hm := h.mem_edges.mp he
    exact pairOf_cover (h.lt_left hm) (h.lt _ _ hm) (h.ne hm)

/-! ### ErEnsembleC -/

/-- The result of `randomize` as a function of the tape. -/
private theorem er_c_run {g : Graph T} (h : g.WF) (p c : ℚ) : ∃ (run : (ℕ → ℝ) → ErC T Stream) (k : PairOf g.vertexCount → ℕ),
    Function.Injective k ∧ ∀ ω, ErC.randomize ⟨g, p, c, ⟨ω, 0⟩⟩ = .ok (run ω) ∧ (run ω).graph.WF ∧
      (run ω).graph.vertexCount = g.vertexCount ∧
      ∀ q, PairOf.edge q ∈ (run ω).graph.edges ↔ (partOf (ω (k q)) (2 ^ 53) : ℚ) / 2 ^ 53 ≤ p := by
  obtain ⟨k, hk, hidx⟩ := idx_allPairs (n := g.vertexCount)
  have hrun : ∀ ω : ℕ → ℝ, ∃ e' : ErC T Stream, ErC.randomize ⟨g, p, c, ⟨ω, 0⟩⟩ = .ok e' ∧ e'.graph.WF ∧
      e'.graph.vertexCount = g.vertexCount ∧ e'.graph.edges =
      chosen (allPairs g.vertexCount) (throws (fun _ => p) (allPairs g.vertexCount) (⟨ω, 0⟩ : Stream)).1 := by
    intro ω
    obtain ⟨e', h1, h2, h3, _, _, _, _, h8⟩ := ErC.randomize_spec (e := (⟨g, p, c, ⟨ω, 0⟩⟩ : ErC T Stream)) h
    refine ⟨e', h1, h2, h3, ?_⟩
    rw [h8, coins_eq_throws]
    rfl
  choose run r1 r2 r3 r4 using hrun
  refine ⟨run, k, hk, fun ω => ⟨r1 ω, r2 ω, r3 ω, fun q => ?_⟩⟩
  unfold PairOf.edge
  rw [r4 ω, mem_chosen_iff (allPairs_edges_nodup _) (hidx q) (throws_stream _ _ _ _ _ (hidx q)), decide_eq_true_iff]
  simp only [Nat.zero_add]

/-- The probability that a coin with parameter `p` shows heads, as a real number. -/
noncomputable def headsReal (p : ℚ) : ℝ := (heads p : ℝ) / 2 ^ 53

/-- `ErEnsembleC::randomize` with `n` vertices and edge probability `p` on independent uniform draws: the number of edges has mean
`n (n - 1) / 2 * p'` and variance `n (n - 1) / 2 * p' (1 - p')`, the degree of every vertex has mean `(n - 1) p'` and variance
`(n - 1) p' (1 - p')`, where `p'` is the probability of heads, which differs from `p` (as a probability) by at most `2^-53`. -/
theorem C80_er_c_moments {g : Graph T} (h : g.WF) (p c : ℚ) :
    ∃ run : (ℕ → ℝ) → ErC T Stream, (∀ ω, ErC.randomize ⟨g, p, c, ⟨ω, 0⟩⟩ = .ok (run ω)) ∧
      |headsReal p - clamp01 (p : ℝ)| ≤ 1 / 2 ^ 53 ∧
      MemLp (fun ω => ((run ω).graph.edgeCount : ℝ)) 2 uniformTape ∧
      ∫ ω, ((run ω).graph.edgeCount : ℝ) ∂uniformTape = ((g.vertexCount * (g.vertexCount - 1) / 2 : ℕ) : ℝ) * headsReal p ∧
      variance (fun ω => ((run ω).graph.edgeCount : ℝ)) uniformTape =
        ((g.vertexCount * (g.vertexCount - 1) / 2 : ℕ) : ℝ) * (headsReal p * (1 - headsReal p)) ∧
      ∀ v < g.vertexCount, ∃ D : (ℕ → ℝ) → ℕ, (∀ ω, (run ω).graph.degree v = some (D ω)) ∧
        ∫ ω, (D ω : ℝ) ∂uniformTape = ((g.vertexCount - 1 : ℕ) : ℝ) * headsReal p ∧
        variance (fun ω => (D ω : ℝ)) uniformTape = ((g.vertexCount - 1 : ℕ) : ℝ) * (headsReal p * (1 - headsReal p)) := by
  obtain ⟨run, k, hk, hr⟩ := er_c_run (T := T) h p c
  have hin : ∀ ω, ∀ e ∈ (run ω).graph.edges, ∃ q : PairOf g.vertexCount, q.edge = e := by
    intro ω
    obtain ⟨_, h2, h3, _⟩ := hr ω
    have := wf_edges_pairs h2
    rwa [h3] at this
  have mom := reads_moments (E := fun ω => (run ω).graph.edges) hin hk (fun _ u => (u : ℚ) / 2 ^ 53 ≤ p) (fun ω q => (hr ω).2.2.2 q)
    (h := fun _ => headsReal p) (fun q => by unfold headsReal heads; rfl)
  have hclose : |headsReal p - clamp01 (p : ℝ)| ≤ 1 / 2 ^ 53 := by
    have := (Rat.cast_le (K := ℝ)).mpr (C71_throw_close p).1
    push_cast at this
    rw [← cast_clamp01]
    exact this
  refine ⟨run, fun ω => (hr ω).1, hclose, ?_⟩
  have hall : (fun ω => ((((run ω).graph.edges).filter (fun _ => True)).card : ℝ)) = fun ω => ((run ω).graph.edgeCount : ℝ) := by
    funext ω
    rw [Finset.filter_true_of_mem (fun _ _ => trivial), (hr ω).2.1.edgeCount_eq_card]
  obtain ⟨m1, m2, m3⟩ := mom (fun _ => True)
  rw [hall] at m1 m3
  rw [show (∫ ω, ((((run ω).graph.edges).filter (fun _ => True)).card : ℝ) ∂uniformTape) =
    ∫ ω, ((run ω).graph.edgeCount : ℝ) ∂uniformTape from by rw [hall]] at m2
  rw [Finset.filter_true_of_mem (fun _ _ => trivial), Finset.sum_const, card_pairOf, nsmul_eq_mul] at m2 m3
  refine ⟨m1, m2, m3, fun v hv => ⟨fun ω => ((run ω).graph.nbrs v).length, fun ω => ?_, ?_⟩⟩
  · obtain ⟨_, h2, h3, _⟩ := hr ω
    have hl : v < (run ω).graph.vertices.length := h2.lt_length (by change v < (run ω).graph.vertexCount; rw [h3]; exact hv)
    show (run ω).graph.degree v = some ((run ω).graph.nbrs v).length
    unfold GenericGraph.degree
    rw [List.getElem?_eq_getElem hl, nbrs_getElem hl]
    simp only [Option.map_some, LawfulAdj.degree_eq]
  · obtain ⟨_, d2, d3⟩ := mom (fun e => v ∈ e)
    have hdeg : (fun ω => ((((run ω).graph.edges).filter (fun e => v ∈ e)).card : ℝ)) = fun ω => (((run ω).graph.nbrs v).length : ℝ) := by
      funext ω
      rw [(hr ω).2.1.degree_eq_card]
    rw [Finset.sum_const, card_incident hv, nsmul_eq_mul] at d2 d3
    rw [hdeg] at d3
    rw [show (∫ ω, ((((run ω).graph.edges).filter (fun e => v ∈ e)).card : ℝ) ∂uniformTape) =
      ∫ ω, (((run ω).graph.nbrs v).length : ℝ) ∂uniformTape from by rw [hdeg]] at d2
    exact ⟨d2, d3⟩

theorem headsReal_bounds (p : ℚ) : 0 ≤ headsReal p ∧ headsReal p ≤ 1 := by
  unfold headsReal
  refine ⟨by positivity, ?_⟩
  rw [div_le_one (by positivity)]
  have : heads p ≤ 2 ^ 53 := by
    have := Finset.card_filter_le (Finset.range (2 ^ 53)) (fun u : ℕ => (u : ℚ) / 2 ^ 53 ≤ p)
    rwa [Finset.card_range] at this
  exact_mod_cast this

/-- The average degree after `randomize`: its mean is `(n - 1) p'`, and it differs from it by `δ` or more with probability at most
`2 (n - 1) p' (1 - p') / (n δ²)` (Chebyshev). -/
theorem C80_er_c_average_degree {g : Graph T} (h : g.WF) (hn : 0 < g.vertexCount) (p c : ℚ) {run : (ℕ → ℝ) → ErC T Stream}
    (hrun : ∀ ω, ErC.randomize ⟨g, p, c, ⟨ω, 0⟩⟩ = .ok (run ω)) :
    (∀ ω, ∃ a : ℚ, (run ω).graph.averageDegree = some a ∧ (a : ℝ) = 2 * ((run ω).graph.edgeCount : ℝ) / g.vertexCount) ∧
    ∫ ω, 2 * ((run ω).graph.edgeCount : ℝ) / g.vertexCount ∂uniformTape = ((g.vertexCount - 1 : ℕ) : ℝ) * headsReal p ∧
    ∀ δ : ℝ, 0 < δ →
      uniformTape {ω | δ ≤ |2 * ((run ω).graph.edgeCount : ℝ) / g.vertexCount - ((g.vertexCount - 1 : ℕ) : ℝ) * headsReal p|} ≤
        ENNReal.ofReal (2 * (((g.vertexCount - 1 : ℕ) : ℝ) * (headsReal p * (1 - headsReal p))) / (g.vertexCount * δ ^ 2)) := by
  obtain ⟨run', hr', _, m1, m2, m3, _⟩ := C80_er_c_moments (T := T) h p c
  have hrr : run' = run := by
    funext ω
    have := (hr' ω).symm.trans (hrun ω)
    simpa using this
  subst hrr
  have hnq : (0 : ℝ) < g.vertexCount := by exact_mod_cast hn
  have heven : ((g.vertexCount * (g.vertexCount - 1) / 2 : ℕ) : ℝ) * 2 = g.vertexCount * ((g.vertexCount - 1 : ℕ) : ℝ) := by
    have : g.vertexCount * (g.vertexCount - 1) / 2 * 2 = g.vertexCount * (g.vertexCount - 1) :=
      Nat.div_mul_cancel (even_iff_two_dvd.mp (Nat.even_mul_pred_self _))
    exact_mod_cast this
  have hmean : ∫ ω, 2 * ((run' ω).graph.edgeCount : ℝ) / g.vertexCount ∂uniformTape =
      ((g.vertexCount - 1 : ℕ) : ℝ) * headsReal p := by
    rw [integral_div, integral_const_mul, m2, div_eq_iff hnq.ne']
    linear_combination heven * headsReal p
  refine ⟨fun ω => ?_, hmean, fun δ hδ => ?_⟩
  · obtain ⟨e', h1, _, h3, _⟩ := ErC.randomize_spec (e := (⟨g, p, c, ⟨ω, 0⟩⟩ : ErC T Stream)) h
    rw [hrun ω, Res.ok.injEq] at h1
    subst h1
    change (run' ω).graph.vertexCount = g.vertexCount at h3
    refine ⟨_, by unfold GenericGraph.averageDegree; rw [h3, if_neg hn.ne'], ?_⟩
    push_cast
    rfl
  · have hmem : MemLp (fun ω => 2 * ((run' ω).graph.edgeCount : ℝ) / g.vertexCount) 2 uniformTape := by
      have := m1.const_mul (2 / (g.vertexCount : ℝ))
      have e : (fun ω => 2 * ((run' ω).graph.edgeCount : ℝ) / g.vertexCount) =
          fun ω => 2 / (g.vertexCount : ℝ) * ((run' ω).graph.edgeCount : ℝ) := by
        funext ω
        ring
      rw [e]
      exact this
    have key := meas_ge_le_variance_div_sq hmem hδ
    rw [hmean] at key
    refine key.trans (ENNReal.ofReal_le_ofReal (le_of_eq ?_))
    have hv : variance (fun ω => 2 * ((run' ω).graph.edgeCount : ℝ) / g.vertexCount) uniformTape =
        (2 / (g.vertexCount : ℝ)) ^ 2 * (((g.vertexCount * (g.vertexCount - 1) / 2 : ℕ) : ℝ) * (headsReal p * (1 - headsReal p))) := by
      rw [← m3, ← variance_const_mul]
      congr 1
      funext ω
      ring
    rw [hv, show ((g.vertexCount * (g.vertexCount - 1) / 2 : ℕ) : ℝ) = g.vertexCount * ((g.vertexCount - 1 : ℕ) : ℝ) / 2 by linarith]
    field_simp

/-- **The target connectivity.** Let the edge probability differ from `c / (n - 1)` by at most `ε`.  Then the mean of the average
degree differs from `c` by at most `(n - 1) (ε + 2^-53)`, and the average degree of a sample differs from `c` by this and `δ` more
with probability at most `2 (c + (n - 1) (ε + 2^-53)) / (n δ²)`. -/
theorem C80_er_c_target {g : Graph T} (h : g.WF) (hn : 2 ≤ g.vertexCount) {p c : ℚ} (hc0 : 0 ≤ c) (hc1 : c ≤ (g.vertexCount - 1 : ℕ))
    {ε : ℝ} (hp : |(p : ℝ) - (c : ℝ) / ((g.vertexCount - 1 : ℕ) : ℝ)| ≤ ε) {run : (ℕ → ℝ) → ErC T Stream}
    (hrun : ∀ ω, ErC.randomize ⟨g, p, c, ⟨ω, 0⟩⟩ = .ok (run ω)) :
    |∫ ω, 2 * ((run ω).graph.edgeCount : ℝ) / g.vertexCount ∂uniformTape - c| ≤ ((g.vertexCount - 1 : ℕ) : ℝ) * (ε + 1 / 2 ^ 53) ∧
    ∀ δ : ℝ, 0 < δ →
      uniformTape {ω | δ + ((g.vertexCount - 1 : ℕ) : ℝ) * (ε + 1 / 2 ^ 53) ≤ |2 * ((run ω).graph.edgeCount : ℝ) / g.vertexCount - c|} ≤
        ENNReal.ofReal (2 * (c + ((g.vertexCount - 1 : ℕ) : ℝ) * (ε + 1 / 2 ^ 53)) / (g.vertexCount * δ ^ 2)) := by
  obtain ⟨_, hmean, hcheb⟩ := C80_er_c_average_degree h (by omega) p c hrun
  obtain ⟨_, _, hclose, _⟩ := C80_er_c_moments (T := T) h p c
  obtain ⟨b0, b1⟩ := headsReal_bounds p
  have hm : (0 : ℝ) < ((g.vertexCount - 1 : ℕ) : ℝ) := by exact_mod_cast (by omega : 0 < g.vertexCount - 1)
  have hnq : (0 : ℝ) < g.vertexCount := by exact_mod_cast (by omega : 0 < g.vertexCount)
  have hc0' : (0 : ℝ) ≤ c := by exact_mod_cast hc0
  have hc1' : (c : ℝ) ≤ ((g.vertexCount - 1 : ℕ) : ℝ) := by exact_mod_cast hc1
  have hε : 0 ≤ ε := (abs_nonneg _).trans hp
  generalize hM : ((g.vertexCount - 1 : ℕ) : ℝ) = M at *
  have hy : clamp01 ((c : ℝ) / M) = (c : ℝ) / M := by
    unfold clamp01
    rw [min_eq_right ((div_le_one hm).mpr hc1'), max_eq_right (div_nonneg hc0' hm.le)]
  have hdist : |headsReal p - (c : ℝ) / M| ≤ ε + 1 / 2 ^ 53 := by
    have h2 := clamp01_close hp
    rw [hy] at h2
    calc |headsReal p - (c : ℝ) / M| = |(headsReal p - clamp01 (p : ℝ)) + (clamp01 (p : ℝ) - (c : ℝ) / M)| := by ring_nf
      _ ≤ _ := abs_add_le _ _
      _ ≤ _ := by linarith
  have hdist' : |M * headsReal p - c| ≤ M * (ε + 1 / 2 ^ 53) := by
    have : M * headsReal p - c = M * (headsReal p - (c : ℝ) / M) := by field_simp
    rw [this, abs_mul, abs_of_pos hm]
    exact mul_le_mul_of_nonneg_left hdist hm.le
  refine ⟨by rw [hmean]; exact hdist', fun δ hδ => ?_⟩
  refine le_trans (measure_mono ?_) ((hcheb δ hδ).trans (ENNReal.ofReal_le_ofReal ?_))
  · intro ω hω
    simp only [Set.mem_ofPred_eq] at hω ⊢
    have := abs_sub_le (2 * ((run ω).graph.edgeCount : ℝ) / g.vertexCount) (M * headsReal p) c
    linarith
  · apply div_le_div_of_nonneg_right _ (by positivity)
    have := (abs_le.mp hdist').2
    have : M * (headsReal p * (1 - headsReal p)) ≤ M * headsReal p := by
      apply mul_le_mul_of_nonneg_left _ hm.le
      nlinarith
    linarith

/-- `ErEnsembleC::new(n, c, rng)` and `set_target_connectivity` compute `c / (n - 1) as f64` with one rounding.  Then the mean of the
average degree after `randomize` is `c` up to `2 n / 2^53`. -/
theorem C80_er_c_target_rounded {g : Graph T} (h : g.WF) (hn : 2 ≤ g.vertexCount) (hbig : g.vertexCount ≤ 2 ^ 53) {c : ℚ} (hc0 : 0 ≤ c)
    (hc1 : c ≤ (g.vertexCount - 1 : ℕ)) {fl : ℚ → ℚ} (hfl : Nearest 53 fl) {run : (ℕ → ℝ) → ErC T Stream}
    (hrun : ∀ ω, ErC.randomize ⟨g, fl (c / fl (g.vertexCount - 1 : ℕ)), c, ⟨ω, 0⟩⟩ = .ok (run ω)) :
    |∫ ω, 2 * ((run ω).graph.edgeCount : ℝ) / g.vertexCount ∂uniformTape - c| ≤ 2 * g.vertexCount / 2 ^ 53 := by
  have hmq : (0 : ℚ) < ((g.vertexCount - 1 : ℕ) : ℚ) := by exact_mod_cast (by omega : 0 < g.vertexCount - 1)
  have hle : ((g.vertexCount - 1 : ℕ) : ℝ) ≤ g.vertexCount := by exact_mod_cast Nat.sub_le _ _
  rw [hfl.nat (by omega)] at hrun
  have herr := hfl.err (c / ((g.vertexCount - 1 : ℕ) : ℚ))
  have hq0 : 0 ≤ c / ((g.vertexCount - 1 : ℕ) : ℚ) := div_nonneg hc0 hmq.le
  have hq1 : c / ((g.vertexCount - 1 : ℕ) : ℚ) ≤ 1 := (div_le_one hmq).mpr hc1
  rw [abs_of_nonneg hq0] at herr
  have herr' : |fl (c / ((g.vertexCount - 1 : ℕ) : ℚ)) - c / ((g.vertexCount - 1 : ℕ) : ℚ)| ≤ 1 / 2 ^ 53 :=
    herr.trans (div_le_div_of_nonneg_right hq1 (by positivity))
  have hreal : |((fl (c / ((g.vertexCount - 1 : ℕ) : ℚ)) : ℚ) : ℝ) - (c : ℝ) / ((g.vertexCount - 1 : ℕ) : ℝ)| ≤ 1 / 2 ^ 53 := by
    have := (Rat.cast_le (K := ℝ)).mpr herr'
    push_cast at this
    exact this
  refine (C80_er_c_target h hn hc0 hc1 hreal hrun).1.trans ?_
  have : (0 : ℝ) < 1 / 2 ^ 53 := by positivity
  calc ((g.vertexCount - 1 : ℕ) : ℝ) * (1 / 2 ^ 53 + 1 / 2 ^ 53) ≤ g.vertexCount * (1 / 2 ^ 53 + 1 / 2 ^ 53) :=
        mul_le_mul_of_nonneg_right hle (by linarith)
    _ = _ := by ring

/-- The constructor, computed without rounding. -/
theorem C80_er_c_new [Node T] {n : ℕ} (hn : 2 ≤ n) {c : ℚ} (hc0 : 0 ≤ c) (hc1 : c ≤ (n - 1 : ℕ)) :
    ∃ run : (ℕ → ℝ) → ErC T Stream, (∀ ω, ErC.new n c ⟨ω, 0⟩ = .ok (run ω)) ∧
      |∫ ω, 2 * ((run ω).graph.edgeCount : ℝ) / n ∂uniformTape - c| ≤ n / 2 ^ 53 ∧
      ∀ δ : ℝ, 0 < δ → uniformTape {ω | δ + n / 2 ^ 53 ≤ |2 * ((run ω).graph.edgeCount : ℝ) / n - c|} ≤
        ENNReal.ofReal (2 * (c + n / 2 ^ 53) / (n * δ ^ 2)) := by
  set g : Graph T := GenericGraph.new n with hg
  have hw : g.WF := new_wf n
  have hv : g.vertexCount = n := rfl
  have hsub : Res.sub n 1 = .ok (n - 1) := by simp [Res.sub]; omega
  have hnew : ∀ ω : ℕ → ℝ, (ErC.new n c ⟨ω, 0⟩ : Res (ErC T Stream)) = ErC.randomize ⟨g, c / ((n - 1 : ℕ) : ℚ), c, ⟨ω, 0⟩⟩ := by
    intro ω
    unfold ErC.new
    rw [hsub]
    rfl
  obtain ⟨run, hr, _⟩ := C80_er_c_moments (T := T) hw (c / ((n - 1 : ℕ) : ℚ)) c
  obtain ⟨t1, t2⟩ := C80_er_c_target (ε := 0) hw (by rw [hv]; exact hn) hc0 (by rw [hv]; exact hc1) (by rw [hv]; push_cast; simp) hr
  rw [hv, zero_add] at t1 t2
  have hle : ((n - 1 : ℕ) : ℝ) * (1 / 2 ^ 53) ≤ n / 2 ^ 53 := by
    rw [mul_one_div]
    apply div_le_div_of_nonneg_right _ (by positivity)
    exact_mod_cast Nat.sub_le _ _
  have hnq : (0 : ℝ) < n := by exact_mod_cast (by omega : 0 < n)
  refine ⟨run, fun ω => (hnew ω).trans (hr ω), t1.trans hle, fun δ hδ => ?_⟩
  refine le_trans (measure_mono ?_) ((t2 δ hδ).trans (ENNReal.ofReal_le_ofReal ?_))
  · intro ω hω
    simp only [Set.mem_ofPred_eq] at hω ⊢
    linarith
  · apply div_le_div_of_nonneg_right _ (by positivity)
    linarith

example : (2 : ℕ) ≤ 100 ∧ (0 : ℚ) ≤ 3 / 2 ∧ (3 / 2 : ℚ) ≤ (100 - 1 : ℕ) := ⟨by norm_num, by norm_num, by norm_num⟩

/-! ### Spacial ensemble -/

/-- `SpacialEnsemble::randomize`: the mean number of edges is the sum over all pairs of the probability that the throw succeeds, the
variance is the sum of `p' (1 - p')`. -/
theorem C80_spacial_moments {g : SpacialGraph T} (h : g.WF) (law : Pos → Pos → ℚ) :
    ∃ run : (ℕ → ℝ) → Spacial T Stream, (∀ ω, Spacial.randomize ⟨g, ⟨ω, 0⟩, law⟩ = .ok (run ω)) ∧
      ∫ ω, ((run ω).graph.edgeCount : ℝ) ∂uniformTape =
        ∑ q : PairOf g.vertexCount, headsReal (law (posAt (coords g) q.1.1) (posAt (coords g) q.1.2)) ∧
      variance (fun ω => ((run ω).graph.edgeCount : ℝ)) uniformTape =
        ∑ q : PairOf g.vertexCount, headsReal (law (posAt (coords g) q.1.1) (posAt (coords g) q.1.2)) *
          (1 - headsReal (law (posAt (coords g) q.1.1) (posAt (coords g) q.1.2))) := by
  obtain ⟨k, hk, hidx⟩ := idx_allPairs (n := g.vertexCount)
  have hrun : ∀ ω : ℕ → ℝ, ∃ e' : Spacial T Stream, Spacial.randomize ⟨g, ⟨ω, 0⟩, law⟩ = .ok e' ∧ e'.graph.WF ∧
      e'.graph.vertexCount = g.vertexCount ∧ e'.graph.edges =
      chosen (allPairs g.vertexCount) (throws (fun p => law (posAt (coords g) p.1) (posAt (coords g) p.2)) (allPairs g.vertexCount)
        (⟨ω, 0⟩ : Stream)).1 := by
    intro ω
    obtain ⟨e', h1, h2, h3, _, _, _, _, h8⟩ := Spacial.randomize_spec (e := (⟨g, ⟨ω, 0⟩, law⟩ : Spacial T Stream)) h
    exact ⟨e', h1, h2, h3, h8⟩
  choose run r1 r2 r3 r4 using hrun
  have hin : ∀ ω, ∀ e ∈ (run ω).graph.edges, ∃ q : PairOf g.vertexCount, q.edge = e := by
    intro ω
    have := wf_edges_pairs (r2 ω)
    rwa [r3 ω] at this
  have hread : ∀ ω q, PairOf.edge q ∈ (run ω).graph.edges ↔
      (partOf (ω (k q)) (2 ^ 53) : ℚ) / 2 ^ 53 ≤ law (posAt (coords g) q.1.1) (posAt (coords g) q.1.2) := by
    intro ω q
    unfold PairOf.edge
    rw [r4 ω, mem_chosen_iff (allPairs_edges_nodup _) (hidx q) (throws_stream _ _ _ _ _ (hidx q)), decide_eq_true_iff]
    simp only [Nat.zero_add]
  obtain ⟨_, m2, m3⟩ := reads_moments (E := fun ω => (run ω).graph.edges) hin hk
    (fun q u => (u : ℚ) / 2 ^ 53 ≤ law (posAt (coords g) q.1.1) (posAt (coords g) q.1.2)) hread
    (h := fun q => headsReal (law (posAt (coords g) q.1.1) (posAt (coords g) q.1.2))) (fun q => by unfold headsReal heads; rfl)
    (fun _ => True)
  have hall : (fun ω => ((((run ω).graph.edges).filter (fun _ => True)).card : ℝ)) = fun ω => ((run ω).graph.edgeCount : ℝ) := by
    funext ω
    rw [Finset.filter_true_of_mem (fun _ _ => trivial), (r2 ω).edgeCount_eq_card]
  rw [hall] at m3
  rw [show (∫ ω, ((((run ω).graph.edges).filter (fun _ => True)).card : ℝ) ∂uniformTape) =
    ∫ ω, ((run ω).graph.edgeCount : ℝ) ∂uniformTape from by rw [hall]] at m2
  rw [Finset.filter_true_of_mem (fun _ _ => trivial)] at m2 m3
  exact ⟨run, r1, m2, m3⟩

example : exTail.WF ∧ 2 ≤ exTail.vertexCount ∧ exSpacial.graph.WF := ⟨exTail_wf, by decide, exSpacial_wf⟩

end Verif
