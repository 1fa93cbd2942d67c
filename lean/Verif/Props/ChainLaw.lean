import Verif.Lemmas.ChainSteps
import Verif.Lemmas.ChainConfig
import Verif.Props.ConfigChance

/-!
# C89: many Markov steps on random numbers sample the distribution of the ensemble

The runs of `m_steps` on a tape of independent uniform numbers (`uniformTape`): the edges after `t` steps have exactly the law that
C66 builds up from single steps, so from every state they tend to the distribution of the ensemble.
-/

set_option linter.unusedSectionVars false
set_option linter.unusedSimpArgs false

namespace Verif
open AdjContainer GenericGraph MeasureTheory ProbabilityTheory

variable {T : Type}

theorem close_of_rat {x : ℝ} {l w ε : ℚ} (hx : x = (l : ℝ)) (h : |l - w| < ε) {δ : ℝ} (hδ : (ε : ℝ) < δ) : |x - (w : ℝ)| < δ := by
  rw [hx]
  have : ((|l - w| : ℚ) : ℝ) < (ε : ℝ) := by exact_mod_cast h
  rw [Rat.cast_abs, Rat.cast_sub] at this
  linarith

theorem exists_rat_below {δ : ℝ} (hδ : 0 < δ) : ∃ ε : ℚ, 0 < ε ∧ (ε : ℝ) < δ := by
  obtain ⟨ε, h1, h2⟩ := exists_rat_btwn hδ
  exact ⟨ε, by exact_mod_cast h1, h2⟩

/-! ## The exact laws -/

/-- `ErEnsembleC`: the edges after `t` steps on the tape have the law `lawAfter`. -/
theorem C89_er_c_law {e : ErC T Stream} (h : e.graph.WF) (hn : 2 ≤ e.graph.vertexCount) (t : ℕ) (S : Finset (Sym2 ℕ)) :
    (uniformTape {ω | ∃ ss e', mSteps ErC.mStep t ({ e with rng := ⟨ω, 0⟩ } : ErC T Stream) = .ok (ss, e') ∧ e'.graph.edges = S}).toReal =
      (lawAfter ErC.stepDraws ErC.stepWith (fun e => e.graph.edges) t (⟨e.graph, e.prob, e.cTarget, ⟨[]⟩⟩ : ErC T Script) S : ℝ) := by
  have h1 := ErC.stepLaw.law_eq (e := (⟨e.graph, e.prob, e.cTarget, ⟨[]⟩⟩ : ErC T Script)) ⟨h, hn⟩ S t
    (fun f => f.graph.edges = S) (fun _ _ => Iff.rfl)
  rw [← lawAfter_eq] at h1
  rw [← h1]
  congr 2
  ext ω
  exact ⟨fun h => ⟨0, h⟩, fun ⟨_, h⟩ => h⟩

/-- `SpacialEnsemble`. -/
theorem C89_spacial_law {e : Spacial T Stream} (h : e.graph.WF) (hn : 2 ≤ e.graph.vertexCount) (t : ℕ) (S : Finset (Sym2 ℕ)) :
    (uniformTape {ω | ∃ ss e', mSteps Spacial.mStep t ({ e with rng := ⟨ω, 0⟩ } : Spacial T Stream) = .ok (ss, e') ∧
      e'.graph.edges = S}).toReal =
      (lawAfter Spacial.stepDraws Spacial.stepWith (fun e => e.graph.edges) t (⟨e.graph, ⟨[]⟩, e.law⟩ : Spacial T Script) S : ℝ) := by
  have h1 := Spacial.stepLaw.law_eq (e := (⟨e.graph, ⟨[]⟩, e.law⟩ : Spacial T Script)) ⟨h, hn⟩ S t
    (fun f => f.graph.edges = S) (fun _ _ => Iff.rfl)
  rw [← lawAfter_eq] at h1
  rw [← h1]
  congr 2
  ext ω
  exact ⟨fun h => ⟨0, h⟩, fun ⟨_, h⟩ => h⟩

/-- `ErEnsembleM`. -/
theorem C89_er_m_law {e : ErM T Stream} (h : e.Inv) (h0 : 0 < e.m) (hm : e.m < e.graph.vertexCount * (e.graph.vertexCount - 1) / 2)
    (t : ℕ) (S : Finset (Sym2 ℕ)) :
    (uniformTape {ω | ∃ ss e', mSteps ErM.mStep t ({ e with rng := ⟨ω, 0⟩ } : ErM T Stream) = .ok (ss, e') ∧ e'.graph.edges = S}).toReal =
      (lawAfter ErM.stepDraws ErM.stepWith (fun e => e.graph.edges) t (ErM.put e.core (⟨[]⟩ : Script)) S : ℝ) := by
  have h1 := ErM.stepLaw.law_eq (e := ErM.put e.core (⟨[]⟩ : Script)) ⟨⟨h.wf, h.len, h.cur, h.split, h.all⟩, h0, hm⟩ S t
    (fun f => f.graph.edges = S) (fun _ _ => Iff.rfl)
  rw [← lawAfter_eq] at h1
  rw [← h1]
  congr 2
  ext ω
  exact ⟨fun h => ⟨0, h⟩, fun ⟨_, h⟩ => h⟩

/-- `SwEnsemble`, with the roots and original targets of the edges. -/
theorem C89_sw_law {e : SwEns T Stream} (h : SwValid e.graph) (hn : 2 ≤ e.graph.vertexCount) (t : ℕ) (S : Finset (ℕ × ℕ × ℕ)) :
    (uniformTape {ω | ∃ ss e', mSteps SwEns.mStep t ({ e with rng := ⟨ω, 0⟩ } : SwEns T Stream) = .ok (ss, e') ∧
      SwGraph.rooted e'.graph = S}).toReal =
      (lawAfter SwEns.stepDraws SwEns.stepWith (fun e => SwGraph.rooted e.graph) t (⟨e.graph, e.rProb, ⟨[]⟩⟩ : SwEns T Script) S : ℝ) := by
  have h1 := SwEns.stepLaw.law_eq (e := (⟨e.graph, e.rProb, ⟨[]⟩⟩ : SwEns T Script)) ⟨h, hn⟩ S t
    (fun f => SwGraph.rooted f.graph = S) (fun _ _ => Iff.rfl)
  rw [← lawAfter_eq] at h1
  rw [← h1]
  congr 2
  ext ω
  exact ⟨fun h => ⟨0, h⟩, fun ⟨_, h⟩ => h⟩

/-- `ConfigurationModel`; the steps repeat their first draws until two different vertices are drawn. -/
theorem C89_config_law {e : Config T Stream} (h : e.Inv) (hpos : ∃ d ∈ e.degreeVec, 0 < d) (t : ℕ) (S : Finset (Sym2 ℕ)) :
    (uniformTape {ω | ∃ fuel ss e', mSteps (Config.mStep fuel) t ({ e with rng := ⟨ω, 0⟩ } : Config T Stream) = .ok (ss, e') ∧
      e'.graph.edges = S}).toReal =
      (lawAfterW Config.stepDraws Config.stepProb Config.stepWith (fun e => e.graph.edges) t (Config.put e.core (⟨[]⟩ : Script)) S : ℝ) :=
  Config.stepLaw.law_eq (e := Config.put e.core (⟨[]⟩ : Script)) ⟨⟨⟨h.wf, h.n, h.halves⟩, h.deg⟩, hpos⟩ S t
    (fun f => f.graph.edges = S) (fun _ _ => Iff.rfl)

/-! ## Convergence -/

/-- From every valid state the probability that `t` steps of `ErEnsembleC` lead to the graph `g` tends to the probability of `g` if every
pair is an edge with the probability of one coin, independent of the others. -/
theorem C89_er_c_samples {n : ℕ} (hn : 2 ≤ n) (p : ℚ) {δ : ℝ} (hδ : 0 < δ) :
    ∃ t₀, ∀ t, t₀ ≤ t → ∀ e : ErC T Stream, e.graph.WF → e.graph.vertexCount = n → e.prob = p →
      ∀ g : Graph T, g.WF → g.vertexCount = n →
        |(uniformTape {ω | ∃ ss e', mSteps ErC.mStep t ({ e with rng := ⟨ω, 0⟩ } : ErC T Stream) = .ok (ss, e') ∧
            e'.graph.edges = g.edges}).toReal -
          (headProb p : ℝ) ^ g.edgeCount * (1 - (headProb p : ℝ)) ^ (n * (n - 1) / 2 - g.edgeCount)| < δ := by
  obtain ⟨ε, h1, h2⟩ := exists_rat_below hδ
  obtain ⟨t₀, ht⟩ := C66_er_c_converges (T := T) hn p h1
  refine ⟨t₀, fun t hle e e1 e2 e3 g g1 g2 => ?_⟩
  have := close_of_rat (C89_er_c_law e1 (by rw [e2]; exact hn) t g.edges)
    (ht t hle (⟨e.graph, e.prob, e.cTarget, ⟨[]⟩⟩ : ErC T Script) e1 e2 e3 g g1 g2) h2
  push_cast at this
  exact this

/-- `SpacialEnsemble`: every pair is an edge with the probability that the law gives to the distance of its vertices. -/
theorem C89_spacial_samples {e₀ : Spacial T Script} (h₀ : e₀.graph.WF) (hn : 2 ≤ e₀.graph.vertexCount)
    (hsym : ∀ p q, e₀.law p q = e₀.law q p) {δ : ℝ} (hδ : 0 < δ) :
    ∃ t₀, ∀ t, t₀ ≤ t → ∀ e : Spacial T Stream, e.graph.WF → e.graph.vertexCount = e₀.graph.vertexCount → e.law = e₀.law →
      coords e.graph = coords e₀.graph → ∀ g : SpacialGraph T, g.WF → g.vertexCount = e₀.graph.vertexCount →
        |(uniformTape {ω | ∃ ss e', mSteps Spacial.mStep t ({ e with rng := ⟨ω, 0⟩ } : Spacial T Stream) = .ok (ss, e') ∧
            e'.graph.edges = g.edges}).toReal -
          (e₀.weight g.edges : ℝ) / (2 ^ 53) ^ (e₀.graph.vertexCount * (e₀.graph.vertexCount - 1) / 2)| < δ := by
  obtain ⟨ε, h1, h2⟩ := exists_rat_below hδ
  obtain ⟨t₀, ht⟩ := C66_spacial_converges (T := T) h₀ hn hsym h1
  refine ⟨t₀, fun t hle e e1 e2 e3 e4 g g1 g2 => ?_⟩
  have := close_of_rat (C89_spacial_law e1 (by rw [e2]; exact hn) t g.edges)
    (ht t hle (⟨e.graph, ⟨[]⟩, e.law⟩ : Spacial T Script) e1 e2 e3 e4 g g1 g2) h2
  push_cast at this
  exact this

/-- `ErEnsembleM`: all graphs with `m` edges are equally likely. -/
theorem C89_er_m_samples {n m : ℕ} (hm0 : 0 < m) (hm : m < n * (n - 1) / 2) {δ : ℝ} (hδ : 0 < δ) :
    ∃ t₀, ∀ t, t₀ ≤ t → ∀ e : ErM T Stream, e.Inv → e.graph.vertexCount = n → e.m = m →
      ∀ g : Graph T, g.WF → g.vertexCount = n → g.edgeCount = m →
        |(uniformTape {ω | ∃ ss e', mSteps ErM.mStep t ({ e with rng := ⟨ω, 0⟩ } : ErM T Stream) = .ok (ss, e') ∧
            e'.graph.edges = g.edges}).toReal - 1 / ((n * (n - 1) / 2).choose m : ℝ)| < δ := by
  obtain ⟨ε, h1, h2⟩ := exists_rat_below hδ
  obtain ⟨t₀, ht⟩ := C66_er_m_converges (T := T) hm0 hm h1
  refine ⟨t₀, fun t hle e e1 e2 e3 g g1 g2 g3 => ?_⟩
  have := close_of_rat (C89_er_m_law e1 (by rw [e3]; exact hm0) (by rw [e3, e2]; exact hm) t g.edges)
    (ht t hle (ErM.put e.core (⟨[]⟩ : Script)) ⟨e1.wf, e1.len, e1.cur, e1.split, e1.all⟩ e2 e3 g g1 g2 g3) h2
  push_cast at this
  exact this

/-- `SwEnsemble`: every edge is rewired by one coin and one uniform target, independent of the others, given that no two edges
coincide. -/
theorem C89_sw_samples {n : ℕ} (h6 : 6 ≤ n) {p : ℚ} (hp : 0 ≤ p) :
    ∃ Ω : Finset (Finset (ℕ × ℕ × ℕ)),
      (∀ S, S ∈ Ω ↔ ∃ g : SwGraph T, SwValid g ∧ g.vertexCount = n ∧ SwGraph.rooted g = S) ∧
      ∀ δ : ℝ, 0 < δ → ∃ t₀, ∀ t, t₀ ≤ t → ∀ e : SwEns T Stream, SwValid e.graph → e.graph.vertexCount = n → e.rProb = p →
        ∀ g : SwGraph T, SwValid g → g.vertexCount = n →
          |(uniformTape {ω | ∃ ss e', mSteps SwEns.mStep t ({ e with rng := ⟨ω, 0⟩ } : SwEns T Stream) = .ok (ss, e') ∧
              SwGraph.rooted e'.graph = SwGraph.rooted g}).toReal -
            (swWeight n p (SwGraph.rooted g) : ℝ) / ∑ S ∈ Ω, (swWeight n p S : ℝ)| < δ := by
  obtain ⟨Ω, hΩ, hc⟩ := C66_sw_converges (T := T) h6 hp
  refine ⟨Ω, hΩ, fun δ hδ => ?_⟩
  obtain ⟨ε, h1, h2⟩ := exists_rat_below hδ
  obtain ⟨t₀, ht⟩ := hc ε h1
  refine ⟨t₀, fun t hle e e1 e2 e3 g g1 g2 => ?_⟩
  have := close_of_rat (C89_sw_law e1 (by rw [e2]; omega) t (SwGraph.rooted g))
    (ht t hle (⟨e.graph, e.rProb, ⟨[]⟩⟩ : SwEns T Script) e1 e2 e3 g g1 g2) h2
  push_cast at this
  exact this

/-- `ConfigurationModel`: all simple graphs with the given degrees are equally likely. -/
theorem C89_config_samples {ds : List ℕ} (hpos : ∃ d ∈ ds, 0 < d) :
    ∃ Ω : Finset (Finset (Sym2 ℕ)), (∀ S, S ∈ Ω ↔ ∃ g : Graph T, Realises g ds ∧ g.edges = S) ∧
      ∀ δ : ℝ, 0 < δ → ∃ t₀, ∀ t, t₀ ≤ t → ∀ e : Config T Stream, e.Inv → e.degreeVec = ds →
        ∀ g : Graph T, Realises g ds →
          |(uniformTape {ω | ∃ fuel ss e', mSteps (Config.mStep fuel) t ({ e with rng := ⟨ω, 0⟩ } : Config T Stream) = .ok (ss, e') ∧
              e'.graph.edges = g.edges}).toReal - 1 / (Ω.card : ℝ)| < δ := by
  obtain ⟨Ω, hΩ, hc⟩ := C66_config_converges (T := T) hpos
  refine ⟨Ω, hΩ, fun δ hδ => ?_⟩
  obtain ⟨ε, h1, h2⟩ := exists_rat_below hδ
  obtain ⟨t₀, ht⟩ := hc ε h1
  refine ⟨t₀, fun t hle e e1 e2 g g1 => ?_⟩
  have := close_of_rat (C89_config_law e1 (by rw [e2]; exact hpos) t g.edges)
    (ht t hle (Config.put e.core (⟨[]⟩ : Script)) ⟨⟨e1.wf, e1.n, e1.halves⟩, e1.deg⟩ e2 g g1) h2
  push_cast at this
  exact this

/-- The hypotheses are met by small states. -/
example : (exTail.WF ∧ exTail.vertexCount = 5) ∧
    (exSpacial.graph.WF ∧ 2 ≤ exSpacial.graph.vertexCount ∧ ∀ p q, exSpacial.law p q = exSpacial.law q p) ∧
    ((0 < 4 ∧ 4 < 5 * (5 - 1) / 2) ∧ ∃ e : ErM Nat Stream, e.Inv ∧ e.graph.vertexCount = 5 ∧ e.m = 4) ∧
    (SwValid exSw ∧ exSw.vertexCount = 7) ∧ (exConfigStream.Inv ∧ ∃ d ∈ exConfigStream.degreeVec, 0 < d) := by
  refine ⟨⟨exTail_wf, by decide⟩, ⟨exSpacial_wf, by decide, fun p q => by simp only [exSpacial, eq_comm]⟩, ⟨by decide, ?_⟩,
    ⟨exSw_valid, by decide⟩, ?_, ⟨2, by simp [exConfigStream], by decide⟩⟩
  · obtain ⟨e, _, h2, h3, h4, _⟩ := ErM.new_spec (T := Nat) (n := 5) (m := 4) (by decide) (by decide) (⟨fun _ => 0, 0⟩ : Stream)
    exact ⟨e, h2, h3, h4⟩
  · exact ⟨exConfigStream_base, by decide⟩

end Verif
