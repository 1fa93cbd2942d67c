import Verif.Lemmas.SwitchConnected
import Verif.Props.ConnectedSw

/-!
# C98, continued: simulations of `ConfigurationModel` restricted to connected networks
-/

set_option linter.unusedSectionVars false
set_option linter.unusedSimpArgs false

namespace Verif
open AdjContainer GenericGraph Relation

variable {T : Type}

/-- Two connected graphs with the same degrees are joined by switches between connected graphs. -/
theorem switch_reach_connected {g g' : Graph T} {ds : List ℕ} (h : Realises g ds) (h' : Realises g' ds)
    (hc : ConnectedOn ds.length g.edges) (hc' : ConnectedOn ds.length g'.edges) :
    Switch.CReach (Finset.range ds.length) g.edges g'.edges := by
  obtain ⟨hw, hd⟩ := realises_iff.mp h
  obtain ⟨hw', hd'⟩ := realises_iff.mp h'
  obtain ⟨l1, d1⟩ := (degreeVec_eq_iff hw ds).mp hd
  obtain ⟨l2, d2⟩ := (degreeVec_eq_iff hw' ds).mp hd'
  refine Switch.connected_conn _ rfl ?_ ?_ (WF.loopless hw) (WF.loopless hw') ?_ ?_ ?_
  · intro a b hab
    have := hw.mem_lt hab
    rw [Finset.mem_range, Finset.mem_range]
    exact ⟨l1 ▸ this.1, l1 ▸ this.2.1⟩
  · intro a b hab
    have := hw'.mem_lt hab
    rw [Finset.mem_range, Finset.mem_range]
    exact ⟨l2 ▸ this.1, l2 ▸ this.2.1⟩
  · intro w
    rw [nb_edges hw, nb_edges hw']
    by_cases hlt : w < ds.length
    · rw [d1 w (by rw [l1]; exact hlt), d2 w (by rw [l2]; exact hlt)]
    · rw [nbrs_of_ge (by rw [hw.len, l1]; omega), nbrs_of_ge (by rw [hw'.len, l2]; omega)]
  · exact fun a ha b hb => hc a (Finset.mem_range.mp ha) b (Finset.mem_range.mp hb)
  · exact fun a ha b hb => hc' a (Finset.mem_range.mp ha) b (Finset.mem_range.mp hb)

/-- The same for `ConfigurationModel` with degrees that are not all zero. -/
theorem C98_config_connected {ds : List ℕ} (hpos : ∃ d ∈ ds, 0 < d) {w : Finset (Sym2 ℕ) → ℚ}
    (hw : ∀ g : Graph T, Realises g ds → 0 < w g.edges) {k : ℕ} (hk : 0 < k) :
    (∀ (t : ℕ) (e : Config T Script), e.Inv → e.degreeVec = ds → e.graph.isConnected = .ok (some true) →
      ∀ g : Graph T, g.WF → g.vertexCount = ds.length → g.isConnected = .ok (some false) →
        lawAfterTrials Config.stepDraws Config.stepProb Config.stepOf Config.undoStepQuiet (fun e => e.graph.edges)
          (connectedWeight ds.length w) k t e g.edges = 0) ∧
    ∃ Ω : Finset (Finset (Sym2 ℕ)),
      (∀ S, S ∈ Ω ↔ ∃ g : Graph T, Realises g ds ∧ g.isConnected = .ok (some true) ∧ g.edges = S) ∧
      ∀ ε : ℚ, 0 < ε → ∃ t₀, ∀ t, t₀ ≤ t → ∀ e : Config T Script, e.Inv → e.degreeVec = ds →
        e.graph.isConnected = .ok (some true) →
        ∀ g : Graph T, Realises g ds → g.isConnected = .ok (some true) →
          |lawAfterTrials Config.stepDraws Config.stepProb Config.stepOf Config.undoStepQuiet (fun e => e.graph.edges)
              (connectedWeight ds.length w) k t e g.edges -
            w g.edges / ∑ S ∈ Ω, w S| < ε := by
  classical
  have hn0 : 0 < ds.length := by
    obtain ⟨d, hd, _⟩ := hpos
    exact List.length_pos_of_mem hd
  have hreal : ∀ e : Config T Script, e.Inv → e.degreeVec = ds → Realises e.graph ds := fun e h1 h2 =>
    realises_iff.mpr ⟨h1.wf, h1.deg.trans h2⟩
  have hcon : ∀ g : Graph T, Realises g ds → (g.isConnected = .ok (some true) ↔ ConnectedOn ds.length g.edges) := by
    intro g hg
    have hgn : g.vertexCount = ds.length := hg.2.1
    rw [isConnected_iff_on hg.1 (by rw [hgn]; exact hn0), hgn]
  have hw' : ∀ S ∈ configStates T ds, 0 < w S := by
    intro S hS
    obtain ⟨g, g1, rfl⟩ := mem_configStates.mp hS
    exact hw g g1
  have hnn : ∀ S ∈ configStates T ds, 0 ≤ connectedWeight ds.length w S := fun S hS => connectedWeight_nonneg (hw' S hS)
  have hwpos : ∀ g : Graph T, Realises g ds → g.isConnected = .ok (some true) → 0 < connectedWeight ds.length w g.edges :=
    fun g g1 g2 => (connectedWeight_pos (hw g g1)).mpr ((hcon g g1).mp g2)
  refine ⟨?_, (configStates T ds).filter (fun S => ConnectedOn ds.length S), ?_, ?_⟩
  · intro t e w1 n1 c1 g hg hgn hgc
    refine (Config.ergodic hpos w1 n1).trials_zero (Config.undo hpos) k hnn t ⟨w1, n1⟩ (hwpos _ (hreal e w1 n1) c1) ?_
    rw [← hgn]
    exact isConnected_false hg hgc w
  · intro S
    rw [Finset.mem_filter, mem_configStates]
    constructor
    · rintro ⟨⟨g, g1, rfl⟩, hc⟩
      exact ⟨g, g1, (hcon g g1).mpr hc, rfl⟩
    · rintro ⟨g, g1, g2, rfl⟩
      exact ⟨⟨g, g1, rfl⟩, (hcon g g1).mp g2⟩
  · intro ε hε
    by_cases hex : ∃ e : Config T Script, e.Inv ∧ e.degreeVec = ds ∧ e.graph.isConnected = .ok (some true)
    swap
    · exact ⟨0, fun t _ e h1 h2 h3 => absurd ⟨e, h1, h2, h3⟩ hex⟩
    obtain ⟨e₀, w₀, d₀, c₀⟩ := hex
    have herg := Config.ergodic hpos w₀ d₀
    have hr₀ := hreal e₀ w₀ d₀
    have ho : e₀.graph.edges ∈ configStates T ds := mem_configStates.mpr ⟨_, hr₀, rfl⟩
    have hwo := hwpos _ hr₀ c₀
    have hstate : ∀ g : Graph T, Realises g ds →
        ({ e₀ with graph := g } : Config T Script).Inv ∧ ({ e₀ with graph := g } : Config T Script).degreeVec = ds := by
      intro g hg
      obtain ⟨g1, g2⟩ := realises_iff.mp hg
      refine ⟨⟨⟨g1, ?_, w₀.halves⟩, g2.trans d₀.symm⟩, d₀⟩
      show g.nextId = e₀.degreeVec.length
      rw [d₀]
      exact hg.2.1
    -- an edge
    obtain ⟨v, hvu⟩ : ∃ v, ∀ g : Graph T, Realises g ds → ∃ u, s(v, u) ∈ g.edges := by
      obtain ⟨d, hd, hd0⟩ := hpos
      obtain ⟨v, hv, rfl⟩ := List.getElem_of_mem hd
      refine ⟨v, fun g hg => ?_⟩
      obtain ⟨g1, g2⟩ := realises_iff.mp hg
      obtain ⟨l1, d1⟩ := (degreeVec_eq_iff g1 ds).mp g2
      have : 0 < (g.nbrs v).length := by
        rw [d1 v (by rw [l1]; exact hv)]
        simpa [List.getD, hv] using hd0
      obtain ⟨x, hx⟩ := List.exists_mem_of_length_pos this
      exact ⟨x, g1.mem_edges.mpr hx⟩
    obtain ⟨t₁, hreach⟩ := Markov.loop_reach herg.lumped.kernel (fun S hS => by
        obtain ⟨g, g1, rfl⟩ := mem_configStates.mp hS
        obtain ⟨x, hx⟩ := hvu g g1
        have hp := Config.possible_exchange (V := fun e : Config T Script => e.Inv ∧ e.degreeVec = ds) (hstate g g1) (hstate g g1).1
          (show s(v, x) ∈ ({ e₀ with graph := g } : Config T Script).graph.edges from hx)
          (show s(x, v) ∈ ({ e₀ with graph := g } : Config T Script).graph.edges from Sym2.eq_swap ▸ hx) (g1.1.mem_lt hx).2.2
        have hx' : exchanged g.edges v x x v = g.edges := by
          unfold exchanged
          rw [if_pos (.inr (.inr (.inl hx)))]
        rw [show exchanged ({ e₀ with graph := g } : Config T Script).graph.edges v x x v = g.edges from hx'] at hp
        exact (herg.lumped.P_pos hp).2.2) hnn ho hwo (fun S hS hwS => by
        have hreach : Switch.CReach (Finset.range ds.length) S e₀.graph.edges := by
          obtain ⟨g, g1, rfl⟩ := mem_configStates.mp hS
          exact switch_reach_connected g1 hr₀ ((connectedWeight_pos (hw g g1)).mp hwS) ((hcon _ hr₀).mp c₀)
        clear hwS
        induction hreach using ReflTransGen.head_induction_on with
        | refl => exact .refl
        | head h1 _ ih =>
          obtain ⟨g, g1, rfl⟩ := mem_configStates.mp hS
          obtain ⟨⟨n, j, k, l, h1⟩, c1, c2⟩ := h1
          rename_i F _
          have hne : g.edges ≠ F := by
            intro hc
            have : s(n, k) ∈ F := by rw [h1.mem]; simp
            exact h1.nk (hc ▸ this)
          have hp := Config.possible_exchange (V := fun e : Config T Script => e.Inv ∧ e.degreeVec = ds) (hstate g g1) (hstate g g1).1
            h1.nj h1.kl h1.d2
          have hx := (exchanged_of (WF.loopless g1.1) h1.nj h1.kl hne).mpr h1
          rw [show exchanged ({ e₀ with graph := g } : Config T Script).graph.edges n j k l = F from hx] at hp
          obtain ⟨m1, m2, m3⟩ := herg.lumped.P_pos hp
          refine .head ⟨m1, m2, (connectedWeight_pos (hw' _ m1)).mpr ?_, (connectedWeight_pos (hw' _ m2)).mpr ?_, m3⟩ (ih m2)
          · exact fun a ha b hb => c1 a (Finset.mem_range.mpr ha) b (Finset.mem_range.mpr hb)
          · exact fun a ha b hb => c2 a (Finset.mem_range.mpr ha) b (Finset.mem_range.mpr hb)) hk
    obtain ⟨t₀, ht⟩ := herg.trials_nonneg (Config.undo hpos) hnn ho one_pos hwo hreach hε
    refine ⟨t₀, fun t hle e h1 h2 h3 g g1 g3 => ?_⟩
    have := ht t hle e ⟨h1, h2⟩ (hwpos _ (hreal e h1 h2) h3) g.edges (mem_configStates.mpr ⟨g, g1, rfl⟩)
    rw [sum_connectedWeight (π := fun _ => 1)] at this
    simp only [one_mul] at this
    rw [show connectedWeight ds.length w g.edges = w g.edges from if_pos ((hcon g g1).mp g3)] at this
    convert this using 5

/-- A hexagon; two triangles (`exTwoTriangles`) have the same degrees. -/
def exHexagon : Graph Nat := exGraph 6 [[1, 5], [0, 2], [1, 3], [2, 4], [3, 5], [4, 0]]

/-- The state with the hexagon. -/
def exConfigHexagon : Config Nat Script :=
  { graph := exHexagon, degreeVec := [2, 2, 2, 2, 2, 2], rng := ⟨[]⟩, halfs := [], backup := [0, 0, 1, 1, 2, 2, 3, 3, 4, 4, 5, 5] }

theorem exHexagon_wf : exHexagon.WF := GenericGraph.wf_of_check _ (fun _ _ => trivial) (by decide)

/-- The hypotheses are met: a connected start, and a network with the same degrees that is not connected. -/
example : (∃ d ∈ [2, 2, 2, 2, 2, 2], 0 < d) ∧ exConfigHexagon.Inv ∧ exConfigHexagon.degreeVec = [2, 2, 2, 2, 2, 2] ∧
    exConfigHexagon.graph.isConnected = .ok (some true) ∧ Realises exTwoTriangles [2, 2, 2, 2, 2, 2] ∧
    exTwoTriangles.isConnected = .ok (some false) := by
  have hh : IsHalves [2, 2, 2, 2, 2, 2] [0, 0, 1, 1, 2, 2, 3, 3, 4, 4, 5, 5] := halves_init [2, 2, 2, 2, 2, 2]
  refine ⟨⟨2, by simp, by decide⟩, ⟨⟨exHexagon_wf, rfl, hh⟩, show exHexagon.degreeVec = [2, 2, 2, 2, 2, 2] by decide⟩, rfl, by decide,
    realises_iff.mpr ⟨GenericGraph.wf_of_check _ (fun _ _ => trivial) (by decide), by decide⟩, by decide⟩

end Verif
