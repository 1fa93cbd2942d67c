import Verif.Lemmas.Exchange
import Verif.Props.Metropolis
import Verif.Props.Connect

/-!
# C98: simulations restricted to connected networks
-/

set_option linter.unusedSectionVars false
set_option linter.unusedSimpArgs false

namespace Verif
open AdjContainer GenericGraph

variable {T : Type}

open Classical in
/-- The weights of a simulation that rejects networks which are not connected. -/
noncomputable def connectedWeight (n : ℕ) (w : Finset (Sym2 ℕ) → ℚ) (S : Finset (Sym2 ℕ)) : ℚ := if ConnectedOn n S then w S else 0

theorem isConnected_iff_on {A : Type} [AdjContainer T A] [LawfulAdj T A] {g : GenericGraph T A} (h : g.WF) (hn : 0 < g.vertexCount) :
    g.isConnected = .ok (some true) ↔ ConnectedOn g.vertexCount g.edges := by
  obtain ⟨r, h1, _, h3, _⟩ := C15_is_connected h
  rw [h1, Res.ok.injEq, h3]
  have hadj : g.toSimple.Adj = fun x y => s(x, y) ∈ g.edges := by
    funext x y
    exact propext (by rw [h.mem_edges]; exact h.adj_iff)
  constructor
  · intro hr a ha b hb
    have := (SimpleGraph.reachable_iff_reflTransGen a b).mp (hr.2 a b ha hb)
    rwa [hadj] at this
  · intro hr
    refine ⟨hn, fun v w hv hw => (SimpleGraph.reachable_iff_reflTransGen v w).mpr ?_⟩
    rw [hadj]
    exact hr v hv w hw

theorem connectedWeight_nonneg {n : ℕ} {w : Finset (Sym2 ℕ) → ℚ} {S : Finset (Sym2 ℕ)} (hw : 0 < w S) : 0 ≤ connectedWeight n w S := by
  unfold connectedWeight
  split
  · exact hw.le
  · exact le_rfl

theorem connectedWeight_pos {n : ℕ} {w : Finset (Sym2 ℕ) → ℚ} {S : Finset (Sym2 ℕ)} (hw : 0 < w S) :
    0 < connectedWeight n w S ↔ ConnectedOn n S := by
  unfold connectedWeight
  split
  · rename_i h; exact ⟨fun _ => h, fun _ => hw⟩
  · rename_i h; exact ⟨fun hc => absurd hc (lt_irrefl _), fun hc => absurd hc h⟩

open Classical in
theorem sum_connectedWeight {n : ℕ} {w π : Finset (Sym2 ℕ) → ℚ} {Ω : Finset (Finset (Sym2 ℕ))} :
    ∑ S ∈ Ω, π S * connectedWeight n w S = ∑ S ∈ Ω with ConnectedOn n S, π S * w S := by
  rw [Finset.sum_filter]
  refine Finset.sum_congr rfl (fun S _ => ?_)
  unfold connectedWeight
  split <;> simp

theorem isConnected_false {A : Type} [AdjContainer T A] [LawfulAdj T A] {g : GenericGraph T A} (h : g.WF)
    (hf : g.isConnected = .ok (some false)) (w : Finset (Sym2 ℕ) → ℚ) : connectedWeight g.vertexCount w g.edges = 0 := by
  unfold connectedWeight
  rw [if_neg]
  intro hc
  rcases Nat.eq_zero_or_pos g.vertexCount with h0 | h0
  · obtain ⟨r, h1, h2, _⟩ := C15_is_connected h
    rw [h1, Res.ok.injEq] at hf
    have := h2.mpr h0
    rw [hf] at this
    cases this
  · rw [(isConnected_iff_on h h0).mpr hc] at hf
    cases hf

open Classical in
/-- `ErEnsembleC`, restricted to connected networks: for every number `k` of steps in a trial and all weights, a simulation that starts
with a connected network never meets one that is not connected, and the connected ones get their probability in the ensemble times
their weight, normalised over the connected networks. -/
theorem C98_er_c_connected {n : ℕ} (hn : 2 ≤ n) {p : ℚ} (hp : 0 < headProb p) {w : Finset (Sym2 ℕ) → ℚ} (hw : ∀ S ⊆ pairSet n, 0 < w S)
    {k : ℕ} (hk : 0 < k) :
    (∀ (t : ℕ) (e : ErC T Script), e.graph.WF → e.graph.vertexCount = n → e.prob = p → e.graph.isConnected = .ok (some true) →
      ∀ g : Graph T, g.WF → g.vertexCount = n → g.isConnected = .ok (some false) →
        lawAfterTrials ErC.stepDraws (fun e _ => 1 / (e.stepDraws.card : ℚ)) ErC.stepOf ErC.undoStepQuiet (fun e => e.graph.edges)
          (connectedWeight n w) k t e g.edges = 0) ∧
    ∀ ε : ℚ, 0 < ε → ∃ t₀, ∀ t, t₀ ≤ t → ∀ e : ErC T Script, e.graph.WF → e.graph.vertexCount = n → e.prob = p →
      e.graph.isConnected = .ok (some true) → ∀ g : Graph T, g.WF → g.vertexCount = n → g.isConnected = .ok (some true) →
        |lawAfterTrials ErC.stepDraws (fun e _ => 1 / (e.stepDraws.card : ℚ)) ErC.stepOf ErC.undoStepQuiet (fun e => e.graph.edges)
            (connectedWeight n w) k t e g.edges -
          gnpProb n p g.edges * w g.edges / ∑ S ∈ (pairSet n).powerset with ConnectedOn n S, gnpProb n p S * w S| < ε := by
  have hsub : ∀ g : Graph T, g.WF → g.vertexCount = n → g.edges ⊆ pairSet n := fun g hg hgn => by rw [← hgn]; exact edges_sub_pairSet hg
  have hcon : ∀ g : Graph T, g.WF → g.vertexCount = n → g.isConnected = .ok (some true) → ConnectedOn n g.edges := fun g hg hgn hc => by
    rw [← hgn]; exact (isConnected_iff_on hg (by omega)).mp hc
  have hnn : ∀ S ⊆ pairSet n, 0 ≤ connectedWeight n w S := fun S hS => connectedWeight_nonneg (hw S hS)
  constructor
  · intro t e w1 n1 p1 c1 g hg hgn hgc
    refine (ErC.ergodic hn w1 n1 p1).trials_zero (ErC.undo hn) k (fun S hS => hnn S (Finset.mem_powerset.mp hS)) t ⟨w1, n1, p1⟩
      ((connectedWeight_pos (hw _ (hsub _ w1 n1))).mpr (hcon _ w1 n1 c1)) ?_
    rw [← hgn]
    exact isConnected_false hg hgc w
  · intro ε hε
    obtain ⟨t₀, ht⟩ := C97_er_c_monotone (T := T) hn hp hnn (fun S S' h hS' hS =>
      (connectedWeight_pos (hw S' hS')).mpr (((connectedWeight_pos (hw S (h.trans hS'))).mp hS).mono h)) hk hε
    refine ⟨t₀, fun t hle e w1 n1 p1 c1 g hg hgn hgc => ?_⟩
    have := ht t hle e w1 n1 p1 ((connectedWeight_pos (hw _ (hsub _ w1 n1))).mpr (hcon _ w1 n1 c1)) g hg hgn
    rw [sum_connectedWeight] at this
    rwa [show connectedWeight n w g.edges = w g.edges from if_pos (hcon g hg hgn hgc)] at this

open Classical in
/-- The same for `SpacialEnsemble`, where all pairs have a positive probability. -/
theorem C98_spacial_connected {e₀ : Spacial T Script} (h₀ : e₀.graph.WF) (hn : 2 ≤ e₀.graph.vertexCount)
    (hsym : ∀ p q, e₀.law p q = e₀.law q p) (hpos : ∀ i j, 0 < headProb (e₀.prob i j)) (c₀ : e₀.graph.isConnected = .ok (some true))
    {w : Finset (Sym2 ℕ) → ℚ} (hw : ∀ S ⊆ pairSet e₀.graph.vertexCount, 0 < w S) {k : ℕ} (hk : 0 < k) :
    (∀ (t : ℕ) (g : SpacialGraph T), g.WF → g.vertexCount = e₀.graph.vertexCount → g.isConnected = .ok (some false) →
      lawAfterTrials Spacial.stepDraws (fun e _ => 1 / (e.stepDraws.card : ℚ)) Spacial.stepOf Spacial.undoStepQuiet
        (fun e => e.graph.edges) (connectedWeight e₀.graph.vertexCount w) k t e₀ g.edges = 0) ∧
    ∀ ε : ℚ, 0 < ε → ∃ t₀, ∀ t, t₀ ≤ t → ∀ g : SpacialGraph T, g.WF → g.vertexCount = e₀.graph.vertexCount →
      g.isConnected = .ok (some true) →
        |lawAfterTrials Spacial.stepDraws (fun e _ => 1 / (e.stepDraws.card : ℚ)) Spacial.stepOf Spacial.undoStepQuiet
            (fun e => e.graph.edges) (connectedWeight e₀.graph.vertexCount w) k t e₀ g.edges -
          e₀.setProb g.edges * w g.edges /
            ∑ S ∈ (pairSet e₀.graph.vertexCount).powerset with ConnectedOn e₀.graph.vertexCount S, e₀.setProb S * w S| < ε := by
  have hsub : ∀ g : SpacialGraph T, g.WF → g.vertexCount = e₀.graph.vertexCount → g.edges ⊆ pairSet e₀.graph.vertexCount :=
    fun g hg hgn => by rw [← hgn]; exact edges_sub_pairSet hg
  have hcon : ∀ g : SpacialGraph T, g.WF → g.vertexCount = e₀.graph.vertexCount → g.isConnected = .ok (some true) →
      ConnectedOn e₀.graph.vertexCount g.edges := fun g hg hgn hc => by
    rw [← hgn]; exact (isConnected_iff_on hg (by omega)).mp hc
  have hnn : ∀ S ⊆ pairSet e₀.graph.vertexCount, 0 ≤ connectedWeight e₀.graph.vertexCount w S := fun S hS =>
    connectedWeight_nonneg (hw S hS)
  have hw0 := (connectedWeight_pos (n := e₀.graph.vertexCount) (hw _ (hsub _ h₀ rfl))).mpr (hcon _ h₀ rfl c₀)
  constructor
  · intro t g hg hgn hgc
    refine (Spacial.ergodic h₀ hn rfl hsym).trials_zero (Spacial.undo hn) k (fun S hS => hnn S (Finset.mem_powerset.mp hS)) t
      ⟨h₀, rfl, rfl, rfl⟩ hw0 ?_
    rw [← hgn]
    exact isConnected_false hg hgc w
  · intro ε hε
    obtain ⟨t₀, ht⟩ := C97_spacial_monotone h₀ hn hsym hpos hnn (fun S S' h hS' hS =>
      (connectedWeight_pos (hw S' hS')).mpr (((connectedWeight_pos (hw S (h.trans hS'))).mp hS).mono h)) hk hε
    refine ⟨t₀, fun t hle g hg hgn hgc => ?_⟩
    have := ht t hle e₀ h₀ rfl rfl rfl hw0 g hg hgn
    rw [sum_connectedWeight] at this
    rwa [show connectedWeight e₀.graph.vertexCount w g.edges = w g.edges from if_pos (hcon g hg hgn hgc)] at this

open Classical in
/-- The same for `ErEnsembleM`. -/
theorem C98_er_m_connected {n m : ℕ} (hm0 : 0 < m) (hm : m < n * (n - 1) / 2) {w : Finset (Sym2 ℕ) → ℚ}
    (hw : ∀ S ⊆ pairSet n, S.card = m → 0 < w S) {k : ℕ} (hk : 0 < k) :
    (∀ (t : ℕ) (e : ErM T Script), e.Inv → e.graph.vertexCount = n → e.m = m → e.graph.isConnected = .ok (some true) →
      ∀ g : Graph T, g.WF → g.vertexCount = n → g.isConnected = .ok (some false) →
        lawAfterTrials ErM.stepDraws (fun e _ => 1 / (e.stepDraws.card : ℚ)) ErM.stepOf ErM.undoStepQuiet (fun e => e.graph.edges)
          (connectedWeight n w) k t e g.edges = 0) ∧
    ∀ ε : ℚ, 0 < ε → ∃ t₀, ∀ t, t₀ ≤ t → ∀ e : ErM T Script, e.Inv → e.graph.vertexCount = n → e.m = m →
      e.graph.isConnected = .ok (some true) →
      ∀ g : Graph T, g.WF → g.vertexCount = n → g.edgeCount = m → g.isConnected = .ok (some true) →
        |lawAfterTrials ErM.stepDraws (fun e _ => 1 / (e.stepDraws.card : ℚ)) ErM.stepOf ErM.undoStepQuiet (fun e => e.graph.edges)
            (connectedWeight n w) k t e g.edges -
          w g.edges / ∑ S ∈ (pairSet n).powersetCard m with ConnectedOn n S, w S| < ε := by
  have hn : 3 ≤ n := by
    by_contra hcon
    rcases (by omega : n = 0 ∨ n = 1 ∨ n = 2) with rfl | rfl | rfl <;> omega
  have hN : 3 ≤ (pairSet n).card := by
    rw [card_pairSet]
    have : 3 * 2 ≤ n * (n - 1) := Nat.mul_le_mul hn (by omega)
    omega
  have hmem : ∀ g : Graph T, g.WF → g.vertexCount = n → g.edgeCount = m → g.edges ∈ (pairSet n).powersetCard m := fun g hg hgn hgm => by
    refine Finset.mem_powersetCard.mpr ⟨by rw [← hgn]; exact edges_sub_pairSet hg, by rw [← hg.edgeCount_eq_card, hgm]⟩
  have hcon : ∀ g : Graph T, g.WF → g.vertexCount = n → g.isConnected = .ok (some true) → ConnectedOn n g.edges := fun g hg hgn hc => by
    rw [← hgn]; exact (isConnected_iff_on hg (by omega)).mp hc
  have hw' : ∀ S ∈ (pairSet n).powersetCard m, 0 < w S := fun S hS =>
    hw S (Finset.mem_powersetCard.mp hS).1 (Finset.mem_powersetCard.mp hS).2
  have hnn : ∀ S ∈ (pairSet n).powersetCard m, 0 ≤ connectedWeight n w S := fun S hS => connectedWeight_nonneg (hw' S hS)
  have hstart : ∀ e : ErM T Script, e.Inv → e.graph.vertexCount = n → e.m = m → e.graph.isConnected = .ok (some true) →
      e.graph.edges ∈ (pairSet n).powersetCard m ∧ 0 < connectedWeight n w e.graph.edges := by
    intro e w1 n1 p1 c1
    have := hmem e.graph w1.wf n1 (w1.edgeCount.trans p1)
    exact ⟨this, (connectedWeight_pos (hw' _ this)).mpr (hcon _ w1.wf n1 c1)⟩
  constructor
  · intro t e w1 n1 p1 c1 g hg hgn hgc
    refine (ErM.ergodic hm0 hm w1 n1 p1).trials_zero ErM.undo k hnn t ⟨w1, n1, p1⟩ (hstart e w1 n1 p1 c1).2 ?_
    rw [← hgn]
    exact isConnected_false hg hgc w
  · intro ε hε
    by_cases hex : ∃ e : ErM T Script, e.Inv ∧ e.graph.vertexCount = n ∧ e.m = m ∧ e.graph.isConnected = .ok (some true)
    swap
    · exact ⟨0, fun t _ e w1 n1 p1 c1 => absurd ⟨e, w1, n1, p1, c1⟩ hex⟩
    obtain ⟨e0, w0, n0, p0, c0⟩ := hex
    have herg := ErM.ergodic hm0 hm w0 n0 p0
    obtain ⟨m0, wo⟩ := hstart e0 w0 n0 p0 c0
    obtain ⟨t₁, hreach⟩ := exch_reach hN hm0 (by rw [card_pairSet]; exact hm) herg.lumped.kernel (fun S hS S' h => by
      obtain ⟨x, hx, y, hy, hyS, rfl⟩ := h
      rw [Finset.mem_powersetCard] at hS
      exact (herg.lumped.P_pos (ErM.possible_exch w0 n0 p0 S hS.1 hS.2 x hx y hy hyS)).2.2) hnn
      (fun S hS => connectedWeight_pos (hw' S hS)) hk m0 (hcon _ w0.wf n0 c0)
    obtain ⟨t₀, ht⟩ := herg.trials_nonneg ErM.undo hnn m0 one_pos wo hreach hε
    refine ⟨t₀, fun t hle e w1 n1 p1 c1 g hg hgn hgm hgc => ?_⟩
    have := ht t hle e ⟨w1, n1, p1⟩ (hstart e w1 n1 p1 c1).2 g.edges (hmem g hg hgn hgm)
    rw [sum_connectedWeight (π := fun _ => 1)] at this
    simp only [one_mul] at this
    rwa [show connectedWeight n w g.edges = w g.edges from if_pos (hcon g hg hgn hgc)] at this

/-- A path of four vertices with a chord, and its ensemble. -/
def exChord : Graph Nat := exGraph 4 [[1, 2], [0, 2], [1, 0, 3], [2]]

theorem exChord_wf : exChord.WF := GenericGraph.wf_of_check _ (fun _ _ => trivial) (by decide)

/-- Three vertices in space, joined to a path. -/
def exSpacialPath : Spacial Nat Script where
  graph := ⟨3, 2, [⟨[1], 0, some 0, some 0, 7⟩, ⟨[0, 2], 1, some (1/2), some (1/2), 8⟩, ⟨[1], 2, some (1/4), some 0, 9⟩]⟩
  rng := ⟨[2, 0, 5]⟩
  law p q := if p.1 = q.1 then 1 / 3 else 1 / 2

theorem headProb_pos_of {p : ℚ} (hp : 0 ≤ p) : 0 < headProb p := by
  refine div_pos (Nat.cast_pos.mpr (Finset.card_pos.mpr ⟨0, ?_⟩)) (by norm_num)
  simp [hp]

/-- The state of `ErEnsembleM` with the network `exChord`. -/
def exErM : ErM Nat Script where
  graph := exChord
  m := 4
  rng := ⟨[]⟩
  allEdges := allPairs 4
  possibleEdges := [(0, 3), (1, 3)]
  currentEdges := [(0, 1), (0, 2), (1, 2), (2, 3)]

theorem exErM_inv : exErM.Inv := by
  exact ⟨exChord_wf, rfl, by decide, by decide, List.Perm.refl _⟩

/-- The hypotheses are met: connected networks and networks that are not; a connected spatial ensemble with positive probabilities; a
valid state of `ErEnsembleM` with a connected network. -/
example : (exChord.WF ∧ exChord.vertexCount = 4 ∧ exChord.isConnected = .ok (some true)) ∧
    (exTail.WF ∧ exTail.vertexCount = 5 ∧ exTail.isConnected = .ok (some false)) ∧ 0 < headProb (1 / 2) ∧
    (exSpacialPath.graph.WF ∧ 2 ≤ exSpacialPath.graph.vertexCount ∧ (∀ p q, exSpacialPath.law p q = exSpacialPath.law q p) ∧
      (∀ i j, 0 < headProb (exSpacialPath.prob i j)) ∧ exSpacialPath.graph.isConnected = .ok (some true)) ∧
    exErM.Inv ∧ exErM.graph.vertexCount = 4 ∧ exErM.m = 4 ∧ 4 < 4 * (4 - 1) / 2 ∧ exErM.graph.isConnected = .ok (some true) := by
  refine ⟨⟨exChord_wf, by decide, by decide⟩, ⟨exTail_wf, by decide, by decide⟩, headProb_pos_of (by norm_num),
    ⟨GenericGraph.wf_of_check _ (fun _ _ => trivial) (by decide), by decide, fun p q => by simp only [exSpacialPath, eq_comm],
      fun i j => headProb_pos_of ?_, by decide⟩, exErM_inv, by decide, rfl, by decide, by decide⟩
  simp only [Spacial.prob, exSpacialPath]
  split <;> norm_num

end Verif
