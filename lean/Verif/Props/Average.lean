import Verif.Lemmas.ChainStrong
import Verif.Props.ChainLaw

/-!
# C90: averages along a Markov chain are averages over the ensemble

What a simulation does: make one step after the other, measure a quantity `f` of the network after every step (`sumSteps` adds the
values up) and divide by the number of steps.  On a tape of independent uniform numbers the result is close to the mean of `f` over the
ensemble, with a probability as close to one as one likes if the number of steps is large enough, and uniformly in the first state
(`_average`).  With probability one the averages over the first `N` steps of one and the same run converge to that mean
(`_almost_surely`).
-/

set_option linter.unusedSectionVars false
set_option linter.unusedSimpArgs false

namespace Verif
open AdjContainer GenericGraph MeasureTheory ProbabilityTheory Filter Topology

variable {T : Type}

/-- The chain of `ErC` converges. -/
theorem ErC.mixing {n : ℕ} (hn : 2 ≤ n) (p : ℚ) :
    Mixing (ErC.put : ErC T Unit → Stream → ErC T Stream) (fun _ => ErC.mStep) (fun c => c.graph.WF ∧ 2 ≤ c.graph.nextId)
    (fun c => c.graph.edges) (ErC.core : ErC T Script → ErC T Unit) ErC.stepDraws (fun e _ => 1 / ((ErC.stepDraws e).card : ℚ)) ErC.stepWith
    (fun e => e.graph.edges)
      (fun e : ErC T Script => e.graph.WF ∧ e.graph.nextId = n ∧ e.prob = p)
      ((pairSet n).powerset)
      (fun S => headProb p ^ S.card * (1 - headProb p) ^ (n * (n - 1) / 2 - S.card)) := by
  exact ⟨ErC.stepLaw,
    (fun e he => ⟨he.1, by show 2 ≤ e.graph.nextId; rw [he.2.1]; exact hn⟩),
    (Steady.uniform
      (fun e he => ⟨(0, 0, 0), by
        unfold ErC.stepDraws
        simp only [Finset.mem_product, Finset.mem_range]
        rw [show e.graph.vertexCount = n from he.2.1]
        exact ⟨by omega, by omega, by norm_num⟩⟩)
      (by
        rintro e ⟨h1, h2, h3⟩ d hd
        have hd' : d ∈ pairDraws n := by rw [← h2]; exact hd
        obtain ⟨e', k1, k2, _⟩ := ErC.stepWith_spec h1 h2 hd'
        rw [h3] at k2
        exact ⟨e', k1, k2⟩)),
    (by rintro e ⟨h1, h2, _⟩; rw [Finset.mem_powerset, ← h2]; exact edges_sub_pairSet h1),
    (by
      intro ε hε
      obtain ⟨t₀, ht⟩ := C66_er_c_converges (T := T) hn p hε
      refine ⟨t₀, ?_⟩
      rintro t hle e ⟨h1, h2, h3⟩ S hS
      obtain ⟨g, g1, g2, rfl, _⟩ := exists_edges h1 (P := fun _ => True) trivial (fun _ _ _ _ _ _ _ _ => trivial) S
        (by rw [h2]; exact Finset.mem_powerset.mp hS)
      rw [← lawAfter_eq, ← g1.edgeCount_eq_card]
      exact ht t hle e h1 h2 h3 g g1 (g2.trans h2))⟩

/-- `ErEnsembleC`: the average over a long run is close to the mean over G(n, p), the distribution with independent edges. -/
theorem C90_er_c_average {n : ℕ} (hn : 2 ≤ n) (p : ℚ) (f : Finset (Sym2 ℕ) → ℚ) {δ η : ℝ} (hδ : 0 < δ) (hη : 0 < η) :
    ∃ N₀ : ℕ, ∀ N : ℕ, N₀ ≤ N → ∀ e : ErC T Stream, e.graph.WF → e.graph.vertexCount = n → e.prob = p →
      1 - η < (uniformTape {ω | ∃ a e', sumSteps ErC.mStep (fun e => f e.graph.edges) N ({ e with rng := ⟨ω, 0⟩ } : ErC T Stream) 0 =
          .ok (a, e') ∧
        |(a : ℝ) / N - ((∑ S ∈ (pairSet n).powerset,
          headProb p ^ S.card * (1 - headProb p) ^ (n * (n - 1) / 2 - S.card) * f S : ℚ) : ℝ)| < δ}).toReal := by
  obtain ⟨N₀, hN⟩ := (ErC.mixing (T := T) hn p).weak_law f (fF := fun e => f e.graph.edges) (fun _ _ => rfl) hδ hη
  refine ⟨N₀, fun N hle e h1 h2 h3 => ?_⟩
  have := hN N hle (⟨e.graph, e.prob, e.cTarget, ⟨[]⟩⟩ : ErC T Script) ⟨h1, h2, h3⟩
  refine this.trans_eq ?_
  congr 2
  ext ω
  exact ⟨fun ⟨_, h⟩ => h, fun h => ⟨0, h⟩⟩

/-- The chain of `Spacial` converges. -/
theorem Spacial.mixing {e₀ : Spacial T Script} (h₀ : e₀.graph.WF) (hn : 2 ≤ e₀.graph.vertexCount)
    (hsym : ∀ p q, e₀.law p q = e₀.law q p) :
    Mixing (Spacial.put : Spacial T Unit → Stream → Spacial T Stream) (fun _ => Spacial.mStep)
    (fun c => c.graph.WF ∧ 2 ≤ c.graph.nextId) (fun c => c.graph.edges) (Spacial.core : Spacial T Script → Spacial T Unit)
    Spacial.stepDraws (fun e _ => 1 / ((Spacial.stepDraws e).card : ℚ)) Spacial.stepWith (fun e => e.graph.edges)
      (fun e : Spacial T Script => e.graph.WF ∧
      e.graph.nextId = e₀.graph.nextId ∧ e.law = e₀.law ∧ coords e.graph = coords e₀.graph)
      ((pairSet e₀.graph.nextId).powerset)
      (fun S => (e₀.weight S : ℚ) / (2 ^ 53) ^ (e₀.graph.nextId * (e₀.graph.nextId - 1) / 2)) := by
  exact ⟨Spacial.stepLaw,
    (fun e he => ⟨he.1, by show 2 ≤ e.graph.nextId; rw [he.2.1]; exact hn⟩),
    (Steady.uniform
      (fun e he => ⟨(0, 0, 0), by
        have hn' : 2 ≤ e₀.graph.nextId := hn
        unfold Spacial.stepDraws
        simp only [Finset.mem_product, Finset.mem_range]
        rw [show e.graph.vertexCount = e₀.graph.nextId from he.2.1]
        exact ⟨by omega, by omega, by norm_num⟩⟩)
      (by
        rintro e ⟨h1, h2, h3, h4⟩ ⟨a, b, u⟩ hd
        have hd' := Spacial.mem_stepDraws.mp hd
        have hdr := drawTwo_script (l := [u]) hd'.1 hd'.2.1
        have hy : (if b < a then b else b + 1) < e.graph.nextId := by
          have : b < e.graph.nextId - 1 := hd'.2.1
          split <;> omega
        obtain ⟨s, e', m1, m2, m3, _, m5, m6, _⟩ := Spacial.mStep_cases
          (e := { e with rng := (⟨[a, b, u]⟩ : Script) }) h1 hdr hd'.1 hy (by split <;> omega)
        exact ⟨e', by unfold Spacial.stepWith; rw [m1]; rfl, m2, m3.trans h2, m6.trans h3, m5.trans h4⟩)),
    (by rintro e ⟨h1, h2, _⟩; rw [Finset.mem_powerset, ← h2]; exact edges_sub_pairSet h1),
    (by
      intro ε hε
      obtain ⟨t₀, ht⟩ := C66_spacial_converges (T := T) h₀ hn hsym hε
      refine ⟨t₀, ?_⟩
      rintro t hle e ⟨h1, h2, h3, h4⟩ S hS
      obtain ⟨g, g1, g2, rfl, _⟩ := exists_edges h1 (P := fun _ => True) trivial (fun _ _ _ _ _ _ _ _ => trivial) S
        (by rw [h2]; exact Finset.mem_powerset.mp hS)
      rw [← lawAfter_eq]
      exact ht t hle e h1 h2 h3 h4 g g1 (g2.trans h2))⟩

/-- `SpacialEnsemble`: the mean over independent edges with the probabilities that the law gives to the distances. -/
theorem C90_spacial_average {e₀ : Spacial T Script} (h₀ : e₀.graph.WF) (hn : 2 ≤ e₀.graph.vertexCount)
    (hsym : ∀ p q, e₀.law p q = e₀.law q p) (f : Finset (Sym2 ℕ) → ℚ) {δ η : ℝ} (hδ : 0 < δ) (hη : 0 < η) :
    ∃ N₀ : ℕ, ∀ N : ℕ, N₀ ≤ N → ∀ e : Spacial T Stream, e.graph.WF → e.graph.vertexCount = e₀.graph.vertexCount → e.law = e₀.law →
      coords e.graph = coords e₀.graph →
      1 - η < (uniformTape {ω | ∃ a e', sumSteps Spacial.mStep (fun e => f e.graph.edges) N
          ({ e with rng := ⟨ω, 0⟩ } : Spacial T Stream) 0 = .ok (a, e') ∧
        |(a : ℝ) / N - ((∑ S ∈ (pairSet e₀.graph.vertexCount).powerset,
          (e₀.weight S : ℚ) / (2 ^ 53) ^ (e₀.graph.vertexCount * (e₀.graph.vertexCount - 1) / 2) * f S : ℚ) : ℝ)| < δ}).toReal := by
  obtain ⟨N₀, hN⟩ := (Spacial.mixing (T := T) h₀ hn hsym).weak_law f (fF := fun e => f e.graph.edges) (fun _ _ => rfl) hδ hη
  refine ⟨N₀, fun N hle e h1 h2 h3 h4 => ?_⟩
  have := hN N hle (⟨e.graph, ⟨[]⟩, e.law⟩ : Spacial T Script) ⟨h1, h2, h3, h4⟩
  refine this.trans_eq ?_
  congr 2
  ext ω
  exact ⟨fun ⟨_, h⟩ => h, fun h => ⟨0, h⟩⟩

/-- The chain of `ErM` converges. -/
theorem ErM.mixing {n m : ℕ} (hm0 : 0 < m) (hm : m < n * (n - 1) / 2) :
    Mixing (ErM.put : ErM T Unit → Stream → ErM T Stream) (fun _ => ErM.mStep)
    (fun c => (ErM.put c (⟨[]⟩ : Script)).Inv ∧ 0 < c.m ∧ c.m < c.graph.nextId * (c.graph.nextId - 1) / 2)
    (fun c => c.graph.edges) (ErM.core : ErM T Script → ErM T Unit) ErM.stepDraws
    (fun e _ => 1 / ((ErM.stepDraws e).card : ℚ)) ErM.stepWith (fun e => e.graph.edges)
      (fun e : ErM T Script => e.Inv ∧ e.graph.nextId = n ∧ e.m = m)
      ((pairSet n).powersetCard m)
      (fun _ => 1 / ((n * (n - 1) / 2).choose m : ℚ)) := by
  have hlen : ∀ e : ErM T Script, e.Inv → e.graph.nextId = n → e.m = m →
      e.currentEdges.length = m ∧ e.possibleEdges.length = n * (n - 1) / 2 - m := by
    intro e h1 h2 h3
    have := h1.possible_len
    rw [length_allPairs, h2, h3] at this
    exact ⟨h1.len.trans h3, by omega⟩
  exact ⟨ErM.stepLaw,
    (by
      rintro e ⟨h1, h2, h3⟩
      refine ⟨⟨h1.wf, h1.len, h1.cur, h1.split, h1.all⟩, ?_, ?_⟩
      · show 0 < e.m; rw [h3]; exact hm0
      · show e.m < e.graph.nextId * (e.graph.nextId - 1) / 2; rw [h2, h3]; exact hm),
    (Steady.uniform
      (fun e he => ⟨(0, 0), by
        obtain ⟨k1, k2⟩ := hlen e he.1 he.2.1 he.2.2
        simp only [ErM.stepDraws, Finset.mem_product, Finset.mem_range]
        omega⟩)
      (by
        rintro e ⟨h1, h2, h3⟩ ⟨i, j⟩ hd
        simp only [ErM.stepDraws, Finset.mem_product, Finset.mem_range] at hd
        obtain ⟨e', k1, k2, k3, k4, _⟩ := ErM.stepWith_spec h1 hd.1 hd.2
        exact ⟨e', k1, k2, k3.trans h2, k4.trans h3⟩)),
    (by
      rintro e ⟨h1, h2, h3⟩
      rw [Finset.mem_powersetCard, ← h1.wf.edgeCount_eq_card, h1.edgeCount, ← h2]
      exact ⟨edges_sub_pairSet h1.wf, h3⟩),
    (by
      intro ε hε
      obtain ⟨t₀, ht⟩ := C66_er_m_converges (T := T) hm0 hm hε
      refine ⟨t₀, ?_⟩
      rintro t hle e ⟨h1, h2, h3⟩ S hS
      rw [Finset.mem_powersetCard] at hS
      obtain ⟨x, k1, k2, k3, rfl⟩ := ErM.exists_state h1 (S := S) (by rw [h2]; exact hS.1) (hS.2.trans h3.symm)
      rw [← lawAfter_eq]
      exact ht t hle e h1 h2 h3 x.graph k1.wf (k2.trans h2) (k1.edgeCount.trans (k3.trans h3)))⟩

/-- `ErEnsembleM`: the mean over all graphs with `m` edges. -/
theorem C90_er_m_average {n m : ℕ} (hm0 : 0 < m) (hm : m < n * (n - 1) / 2) (f : Finset (Sym2 ℕ) → ℚ) {δ η : ℝ} (hδ : 0 < δ)
    (hη : 0 < η) :
    ∃ N₀ : ℕ, ∀ N : ℕ, N₀ ≤ N → ∀ e : ErM T Stream, e.Inv → e.graph.vertexCount = n → e.m = m →
      1 - η < (uniformTape {ω | ∃ a e', sumSteps ErM.mStep (fun e => f e.graph.edges) N ({ e with rng := ⟨ω, 0⟩ } : ErM T Stream) 0 =
          .ok (a, e') ∧
        |(a : ℝ) / N - (((∑ S ∈ (pairSet n).powersetCard m, f S) / ((n * (n - 1) / 2).choose m : ℚ) : ℚ) : ℝ)| < δ}).toReal := by
  obtain ⟨N₀, hN⟩ := (ErM.mixing (T := T) hm0 hm).weak_law f (fF := fun e => f e.graph.edges) (fun _ _ => rfl) hδ hη
  refine ⟨N₀, fun N hle e h1 h2 h3 => ?_⟩
  have := hN N hle (ErM.put e.core (⟨[]⟩ : Script)) ⟨⟨h1.wf, h1.len, h1.cur, h1.split, h1.all⟩, h2, h3⟩
  refine this.trans_eq ?_
  rw [← Finset.mul_sum, one_div_mul_eq_div]
  congr 2
  ext ω
  exact ⟨fun ⟨_, h⟩ => h, fun h => ⟨0, h⟩⟩

/-- The chain of `SwEns` converges. -/
theorem SwEns.mixing {n : ℕ} (h6 : 6 ≤ n) {p : ℚ} (hp : 0 ≤ p) :
    ∃ Ω : Finset (Finset (ℕ × ℕ × ℕ)), (∀ S, S ∈ Ω ↔ ∃ g : SwGraph T, SwValid g ∧ g.vertexCount = n ∧ SwGraph.rooted g = S) ∧
    Mixing (SwEns.put : SwEns T Unit → Stream → SwEns T Stream) (fun _ => SwEns.mStep)
    (fun c => SwValid c.graph ∧ 2 ≤ c.graph.nextId) (fun c => SwGraph.rooted c.graph) (SwEns.core : SwEns T Script → SwEns T Unit)
    SwEns.stepDraws (fun e _ => 1 / ((SwEns.stepDraws e).card : ℚ)) SwEns.stepWith (fun e => SwGraph.rooted e.graph)
      (fun e : SwEns T Script => SwValid e.graph ∧ e.graph.nextId = n ∧ e.rProb = p)
      (Ω)
      (fun S => (swWeight n p S : ℚ) / ∑ S ∈ Ω, (swWeight n p S : ℚ)) := by
  obtain ⟨Ω, hΩ, hc⟩ := C66_sw_converges (T := T) h6 hp
  refine ⟨Ω, hΩ, ?_⟩
  have hdraw : ∀ e : SwEns T Script, SwValid e.graph → e.graph.nextId = n →
      ∀ d, d ∈ SwEns.stepDraws e ↔ d.1 < 2 * n ∧ d.2.1 < 2 ^ 53 ∧ d.2.2 < n - 1 := by
    intro e h1 h2 d
    unfold SwEns.stepDraws
    rw [Finset.mem_product, Finset.mem_product, Finset.mem_range, Finset.mem_range, Finset.mem_range, h1.count,
      show e.graph.vertexCount = e.graph.nextId from rfl, h2]
  exact ⟨SwEns.stepLaw,
    (fun e he => ⟨he.1, by show 2 ≤ e.graph.nextId; rw [he.2.1]; omega⟩),
    (Steady.uniform
      (fun e he => ⟨(0, 0, 0), by
        rw [hdraw e he.1 he.2.1]
        exact ⟨by show 0 < 2 * n; omega, by norm_num, by show 0 < n - 1; omega⟩⟩)
      (by
        rintro e ⟨h1, h2, h3⟩ ⟨num, u, x⟩ hd
        rw [hdraw e h1 h2] at hd
        obtain ⟨f, _, hstep⟩ := SwEns.mStep_script h1
        obtain ⟨s, g', b1, b2⟩ := hstep num (by rw [h2]; exact hd.1) u hd.2.1 x (by rw [h2]; exact hd.2.2)
        refine ⟨_, SwEns.stepWith_eq_ok.mpr ⟨s, b1 []⟩, ?_⟩
        rcases b2 with ⟨_, rfl⟩ | ⟨_, _, m⟩
        · exact ⟨h1, h2, h3⟩
        · exact ⟨m.valid h1, m.n.trans h2, h3⟩)),
    (by rintro e ⟨h1, h2, _⟩; exact (hΩ _).mpr ⟨e.graph, h1, h2, rfl⟩),
    (by
      intro ε hε
      obtain ⟨t₀, ht⟩ := hc ε hε
      refine ⟨t₀, ?_⟩
      rintro t hle e ⟨h1, h2, h3⟩ S hS
      obtain ⟨g, g1, g2, rfl⟩ := (hΩ S).mp hS
      rw [← lawAfter_eq]
      exact ht t hle e h1 h2 h3 g g1 g2)⟩

/-- `SwEnsemble`: the mean over all networks, each with the number of outcomes of one coin and one target per edge that give it. -/
theorem C90_sw_average {n : ℕ} (h6 : 6 ≤ n) {p : ℚ} (hp : 0 ≤ p) (f : Finset (ℕ × ℕ × ℕ) → ℚ) :
    ∃ Ω : Finset (Finset (ℕ × ℕ × ℕ)),
      (∀ S, S ∈ Ω ↔ ∃ g : SwGraph T, SwValid g ∧ g.vertexCount = n ∧ SwGraph.rooted g = S) ∧
      ∀ δ η : ℝ, 0 < δ → 0 < η → ∃ N₀ : ℕ, ∀ N : ℕ, N₀ ≤ N →
        ∀ e : SwEns T Stream, SwValid e.graph → e.graph.vertexCount = n → e.rProb = p →
        1 - η < (uniformTape {ω | ∃ a e', sumSteps SwEns.mStep (fun e => f (SwGraph.rooted e.graph)) N
            ({ e with rng := ⟨ω, 0⟩ } : SwEns T Stream) 0 = .ok (a, e') ∧
          |(a : ℝ) / N - (((∑ S ∈ Ω, swWeight n p S * f S) / ∑ S ∈ Ω, (swWeight n p S : ℚ) : ℚ) : ℝ)| < δ}).toReal := by
  obtain ⟨Ω, hΩ, hmix⟩ := SwEns.mixing (T := T) h6 hp
  refine ⟨Ω, hΩ, fun δ η hδ hη => ?_⟩
  obtain ⟨N₀, hN⟩ := hmix.weak_law f (fF := fun e => f (SwGraph.rooted e.graph)) (fun _ _ => rfl) hδ hη
  refine ⟨N₀, fun N hle e h1 h2 h3 => ?_⟩
  have := hN N hle (⟨e.graph, e.rProb, ⟨[]⟩⟩ : SwEns T Script) ⟨h1, h2, h3⟩
  refine this.trans_eq ?_
  simp only [div_mul_eq_mul_div]
  rw [← Finset.sum_div]
  congr 2
  ext ω
  exact ⟨fun ⟨_, h⟩ => h, fun h => ⟨0, h⟩⟩

/-- The probabilities of the draws of `ConfigurationModel` add up to one, and all of them lead to graphs with the same degrees. -/
theorem Config.steady {ds : List ℕ} (hpos : ∃ d ∈ ds, 0 < d) :
    Steady (fun e : Config T Script => e.Inv ∧ e.degreeVec = ds) Config.stepDraws Config.stepProb Config.stepWith := by
  have hedge : ∀ e : Config T Script, (e.Inv ∧ e.degreeVec = ds) → 0 < e.graph.edgeCount := by
    rintro e ⟨h1, h2⟩
    obtain ⟨d, hd, hd0⟩ := hpos
    rw [← h2] at hd
    obtain ⟨v, hv, rfl⟩ := List.getElem_of_mem hd
    have : 0 < (e.graph.nbrs v).length := by
      rw [h1.nbrs_length]
      simpa [List.getD, hv] using hd0
    obtain ⟨w, hw⟩ := List.exists_mem_of_length_pos this
    rw [h1.wf.edgeCount_eq_card]
    exact Finset.card_pos.mpr ⟨s(v, w), h1.wf.mem_edges.mpr hw⟩
  refine ⟨?_, ?_, ?_⟩
  · intro e he
    have hr : (e.rounds : ℚ) ≠ 0 := by exact_mod_cast (Config.rounds_pos he.1 (hedge e he)).1.ne'
    unfold Config.stepDraws
    rw [Finset.sum_sigma]
    have : ∀ d ∈ (Finset.range e.backup.length ×ˢ Finset.range (e.backup.length - 1)).filter (fun d =>
        e.backup.getD d.1 0 ≠ e.backup.getD (secondPos d) 0),
        ∑ c ∈ Finset.range (e.degAt d.1) ×ˢ Finset.range (e.degAt (secondPos d)), e.stepProb ⟨d, c⟩ = 1 / (e.rounds : ℚ) := by
      intro d hd
      rw [Finset.mem_filter, Finset.mem_product, Finset.mem_range, Finset.mem_range] at hd
      simp only [Config.stepProb]
      rw [Finset.sum_const, nsmul_eq_mul, Finset.card_product, Finset.card_range, Finset.card_range]
      have p1 : (e.degAt d.1 : ℚ) ≠ 0 := by exact_mod_cast (Config.degAt_pos he.1.toBase hd.1.1).ne'
      have p2 : (e.degAt (secondPos d) : ℚ) ≠ 0 := by
        exact_mod_cast (Config.degAt_pos he.1.toBase (secondPos_lt hd.1.1 hd.1.2)).ne'
      push_cast
      field_simp
    rw [Finset.sum_congr rfl this, Finset.sum_const, nsmul_eq_mul, mul_one_div]
    exact div_self hr
  · rintro e _ ⟨⟨i, j⟩, u, v⟩ _
    show 0 ≤ 1 / (e.rounds : ℚ) * (1 / e.degAt i) * (1 / e.degAt (secondPos (i, j)))
    positivity
  · rintro e ⟨h1, h2⟩ ⟨⟨i, j⟩, u, v⟩ hd
    rw [Config.mem_stepDraws] at hd
    obtain ⟨q1, q2, q3, q4, q5⟩ := hd
    obtain ⟨s, g, a1, a2, _⟩ := Config.mStep_script h1 0 q1 q2 q3 (u := u) (v := v)
      (by rw [h1.nbrs_length]; exact q4) (by rw [h1.nbrs_length]; exact q5)
    exact ⟨_, Config.stepWith_eq_ok.mpr ⟨s, a1 []⟩, a2 _, h2⟩

/-- The chain of `Config` converges. -/
theorem Config.mixing {ds : List ℕ} (hpos : ∃ d ∈ ds, 0 < d) :
    ∃ Ω : Finset (Finset (Sym2 ℕ)), (∀ S, S ∈ Ω ↔ ∃ g : Graph T, Realises g ds ∧ g.edges = S) ∧
    Mixing (Config.put : Config T Unit → Stream → Config T Stream) Config.mStep Config.Moves
    (fun c => c.graph.edges) (Config.core : Config T Script → Config T Unit) Config.stepDraws Config.stepProb Config.stepWith
    (fun e => e.graph.edges)
      (fun e : Config T Script => e.Inv ∧ e.degreeVec = ds)
      (Ω)
      (fun _ => 1 / (Ω.card : ℚ)) := by
  obtain ⟨Ω, hΩ, hc⟩ := C66_config_converges (T := T) hpos
  refine ⟨Ω, hΩ, ?_⟩
  exact ⟨Config.stepLaw,
    (by
      rintro e ⟨h1, h2⟩
      exact ⟨⟨⟨h1.wf, h1.n, h1.halves⟩, h1.deg⟩, by show ∃ d ∈ e.degreeVec, 0 < d; rw [h2]; exact hpos⟩),
    (Config.steady hpos),
    (by
      rintro e ⟨h1, h2⟩
      exact (hΩ _).mpr ⟨e.graph, realises_iff.mpr ⟨h1.wf, h1.deg.trans h2⟩, rfl⟩),
    (by
      intro ε hε
      obtain ⟨t₀, ht⟩ := hc ε hε
      refine ⟨t₀, ?_⟩
      rintro t hle e ⟨h1, h2⟩ S hS
      obtain ⟨g, g1, rfl⟩ := (hΩ S).mp hS
      exact ht t hle e h1 h2 g g1)⟩

/-- `ConfigurationModel`: the mean over all simple graphs with the given degrees. -/
theorem C90_config_average {ds : List ℕ} (hpos : ∃ d ∈ ds, 0 < d) (f : Finset (Sym2 ℕ) → ℚ) :
    ∃ Ω : Finset (Finset (Sym2 ℕ)), (∀ S, S ∈ Ω ↔ ∃ g : Graph T, Realises g ds ∧ g.edges = S) ∧
      ∀ δ η : ℝ, 0 < δ → 0 < η → ∃ N₀ : ℕ, ∀ N : ℕ, N₀ ≤ N → ∀ e : Config T Stream, e.Inv → e.degreeVec = ds →
        1 - η < (uniformTape {ω | ∃ fuel a e', sumSteps (Config.mStep fuel) (fun e => f e.graph.edges) N
            ({ e with rng := ⟨ω, 0⟩ } : Config T Stream) 0 = .ok (a, e') ∧
          |(a : ℝ) / N - (((∑ S ∈ Ω, f S) / (Ω.card : ℚ) : ℚ) : ℝ)| < δ}).toReal := by
  obtain ⟨Ω, hΩ, hmix⟩ := Config.mixing (T := T) hpos
  refine ⟨Ω, hΩ, fun δ η hδ hη => ?_⟩
  obtain ⟨N₀, hN⟩ := hmix.weak_law f (fF := fun e => f e.graph.edges) (fun _ _ => rfl) hδ hη
  refine ⟨N₀, fun N hle e h1 h2 => ?_⟩
  have := hN N hle (Config.put e.core (⟨[]⟩ : Script)) ⟨⟨⟨h1.wf, h1.n, h1.halves⟩, h1.deg⟩, h2⟩
  rw [← Finset.mul_sum, one_div_mul_eq_div] at this
  exact this

/-! ## With probability one -/

/-- `ErEnsembleC`: with probability one the averages over longer and longer runs converge to the mean over G(n, p). -/
theorem C90_er_c_almost_surely {e : ErC T Stream} (h1 : e.graph.WF) (hn : 2 ≤ e.graph.vertexCount) (f : Finset (Sym2 ℕ) → ℚ) :
    ∀ᵐ ω ∂uniformTape, ∃ A : ℕ → ℚ,
      (∀ N, ∃ e', sumSteps ErC.mStep (fun e => f e.graph.edges) N ({ e with rng := ⟨ω, 0⟩ } : ErC T Stream) 0 = .ok (A N, e')) ∧
      Tendsto (fun N : ℕ => (A N : ℝ) / N) atTop (𝓝 ((∑ S ∈ (pairSet e.graph.vertexCount).powerset, headProb e.prob ^ S.card *
        (1 - headProb e.prob) ^ (e.graph.vertexCount * (e.graph.vertexCount - 1) / 2 - S.card) * f S : ℚ) : ℝ)) := by
  have := (ErC.mixing (T := T) hn e.prob).strong_law f (fF := fun e => f e.graph.edges) (fun _ _ => rfl)
    (e := (⟨e.graph, e.prob, e.cTarget, ⟨[]⟩⟩ : ErC T Script)) ⟨h1, rfl, rfl⟩
  filter_upwards [this] with ω hω
  obtain ⟨A, hA, hl⟩ := hω
  exact ⟨A, fun N => (hA N).elim fun _ h => h, hl⟩

/-- `SpacialEnsemble`: the same for the mean over independent edges with the probabilities that the law gives to the distances. -/
theorem C90_spacial_almost_surely {e : Spacial T Stream} (h1 : e.graph.WF) (hn : 2 ≤ e.graph.vertexCount)
    (hsym : ∀ p q, e.law p q = e.law q p) (f : Finset (Sym2 ℕ) → ℚ) :
    ∀ᵐ ω ∂uniformTape, ∃ A : ℕ → ℚ,
      (∀ N, ∃ e', sumSteps Spacial.mStep (fun e => f e.graph.edges) N ({ e with rng := ⟨ω, 0⟩ } : Spacial T Stream) 0 = .ok (A N, e')) ∧
      Tendsto (fun N : ℕ => (A N : ℝ) / N) atTop (𝓝 ((∑ S ∈ (pairSet e.graph.vertexCount).powerset,
        (({ e with rng := ⟨[]⟩ } : Spacial T Script).weight S : ℚ) /
          (2 ^ 53) ^ (e.graph.vertexCount * (e.graph.vertexCount - 1) / 2) * f S : ℚ) : ℝ)) := by
  have := (Spacial.mixing (T := T) (e₀ := { e with rng := ⟨[]⟩ }) h1 hn hsym).strong_law f (fF := fun e => f e.graph.edges)
    (fun _ _ => rfl) (e := (⟨e.graph, ⟨[]⟩, e.law⟩ : Spacial T Script)) ⟨h1, rfl, rfl, rfl⟩
  filter_upwards [this] with ω hω
  obtain ⟨A, hA, hl⟩ := hω
  exact ⟨A, fun N => (hA N).elim fun _ h => h, hl⟩

/-- `ErEnsembleM`: the mean over all graphs with `m` edges. -/
theorem C90_er_m_almost_surely {e : ErM T Stream} (h1 : e.Inv) (hm0 : 0 < e.m)
    (hm : e.m < e.graph.vertexCount * (e.graph.vertexCount - 1) / 2) (f : Finset (Sym2 ℕ) → ℚ) :
    ∀ᵐ ω ∂uniformTape, ∃ A : ℕ → ℚ,
      (∀ N, ∃ e', sumSteps ErM.mStep (fun e => f e.graph.edges) N ({ e with rng := ⟨ω, 0⟩ } : ErM T Stream) 0 = .ok (A N, e')) ∧
      Tendsto (fun N : ℕ => (A N : ℝ) / N) atTop (𝓝 (((∑ S ∈ (pairSet e.graph.vertexCount).powersetCard e.m, f S) /
        ((e.graph.vertexCount * (e.graph.vertexCount - 1) / 2).choose e.m : ℚ) : ℚ) : ℝ)) := by
  have := (ErM.mixing (T := T) hm0 hm).strong_law f (fF := fun e => f e.graph.edges) (fun _ _ => rfl)
    (e := ErM.put e.core (⟨[]⟩ : Script)) ⟨⟨h1.wf, h1.len, h1.cur, h1.split, h1.all⟩, rfl, rfl⟩
  filter_upwards [this] with ω hω
  obtain ⟨A, hA, hl⟩ := hω
  rw [← Finset.mul_sum, one_div_mul_eq_div] at hl
  exact ⟨A, fun N => (hA N).elim fun _ h => h, hl⟩

/-- `SwEnsemble`: the weighted mean over all networks. -/
theorem C90_sw_almost_surely {n : ℕ} (h6 : 6 ≤ n) {p : ℚ} (hp : 0 ≤ p) (f : Finset (ℕ × ℕ × ℕ) → ℚ) :
    ∃ Ω : Finset (Finset (ℕ × ℕ × ℕ)),
      (∀ S, S ∈ Ω ↔ ∃ g : SwGraph T, SwValid g ∧ g.vertexCount = n ∧ SwGraph.rooted g = S) ∧
      ∀ e : SwEns T Stream, SwValid e.graph → e.graph.vertexCount = n → e.rProb = p → ∀ᵐ ω ∂uniformTape, ∃ A : ℕ → ℚ,
        (∀ N, ∃ e', sumSteps SwEns.mStep (fun e => f (SwGraph.rooted e.graph)) N ({ e with rng := ⟨ω, 0⟩ } : SwEns T Stream) 0 =
          .ok (A N, e')) ∧
        Tendsto (fun N : ℕ => (A N : ℝ) / N) atTop
          (𝓝 (((∑ S ∈ Ω, swWeight n p S * f S) / ∑ S ∈ Ω, (swWeight n p S : ℚ) : ℚ) : ℝ)) := by
  obtain ⟨Ω, hΩ, hmix⟩ := SwEns.mixing (T := T) h6 hp
  refine ⟨Ω, hΩ, fun e h1 h2 h3 => ?_⟩
  have := hmix.strong_law f (fF := fun e => f (SwGraph.rooted e.graph)) (fun _ _ => rfl)
    (e := (⟨e.graph, e.rProb, ⟨[]⟩⟩ : SwEns T Script)) ⟨h1, h2, h3⟩
  filter_upwards [this] with ω hω
  obtain ⟨A, hA, hl⟩ := hω
  simp only [div_mul_eq_mul_div] at hl
  rw [← Finset.sum_div] at hl
  exact ⟨A, fun N => (hA N).elim fun _ h => h, hl⟩

/-- `ConfigurationModel`: the mean over all simple graphs with the given degrees. -/
theorem C90_config_almost_surely {ds : List ℕ} (hpos : ∃ d ∈ ds, 0 < d) (f : Finset (Sym2 ℕ) → ℚ) :
    ∃ Ω : Finset (Finset (Sym2 ℕ)), (∀ S, S ∈ Ω ↔ ∃ g : Graph T, Realises g ds ∧ g.edges = S) ∧
      ∀ e : Config T Stream, e.Inv → e.degreeVec = ds → ∀ᵐ ω ∂uniformTape, ∃ A : ℕ → ℚ,
        (∀ N, ∃ fuel e', sumSteps (Config.mStep fuel) (fun e => f e.graph.edges) N ({ e with rng := ⟨ω, 0⟩ } : Config T Stream) 0 =
          .ok (A N, e')) ∧
        Tendsto (fun N : ℕ => (A N : ℝ) / N) atTop (𝓝 (((∑ S ∈ Ω, f S) / (Ω.card : ℚ) : ℚ) : ℝ)) := by
  obtain ⟨Ω, hΩ, hmix⟩ := Config.mixing (T := T) hpos
  refine ⟨Ω, hΩ, fun e h1 h2 => ?_⟩
  have := hmix.strong_law f (fF := fun e => f e.graph.edges) (fun _ _ => rfl)
    (e := Config.put e.core (⟨[]⟩ : Script)) ⟨⟨⟨h1.wf, h1.n, h1.halves⟩, h1.deg⟩, h2⟩
  rw [← Finset.mul_sum, one_div_mul_eq_div] at this
  exact this

/-- The hypotheses are met by small states, and the mean is not trivial: with one coin of probability one half per pair the mean number
of edges of a network with two vertices is one half. -/
example : (exTail.WF ∧ exTail.vertexCount = 5) ∧
    (exSpacial.graph.WF ∧ 2 ≤ exSpacial.graph.vertexCount ∧ ∀ p q, exSpacial.law p q = exSpacial.law q p) ∧
    ((0 < 4 ∧ 4 < 5 * (5 - 1) / 2) ∧ ∃ e : ErM Nat Stream, e.Inv ∧ e.graph.vertexCount = 5 ∧ e.m = 4) ∧
    (SwValid exSw ∧ exSw.vertexCount = 7) ∧ (exConfigStream.Inv ∧ ∃ d ∈ exConfigStream.degreeVec, 0 < d) ∧
    (∑ S ∈ (pairSet 2).powerset, (1 / 2 : ℚ) ^ S.card * (1 - 1 / 2) ^ (2 * (2 - 1) / 2 - S.card) * (S.card : ℚ)) = 1 / 2 := by
  refine ⟨⟨exTail_wf, by decide⟩, ⟨exSpacial_wf, by decide, fun p q => by simp only [exSpacial, eq_comm]⟩, ⟨by decide, ?_⟩,
    ⟨exSw_valid, by decide⟩, ⟨⟨exConfigStream_base, by decide⟩, ⟨2, by simp [exConfigStream], by decide⟩⟩, ?_⟩
  · obtain ⟨e, _, h2, h3, h4, _⟩ := ErM.new_spec (T := Nat) (n := 5) (m := 4) (by decide) (by decide) (⟨fun _ => 0, 0⟩ : Stream)
    exact ⟨e, h2, h3, h4⟩
  · decide +kernel

end Verif
