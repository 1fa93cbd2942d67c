import Verif.Lemmas.TrialMean
import Verif.Props.ConnectedConfig

/-!
# C99: averages over the trials of a simulation with rejection

What a simulation reports are averages (or histograms, that is averages of indicators) over the networks after its trials.
-/

set_option linter.unusedSectionVars false
set_option linter.unusedSimpArgs false

namespace Verif
open AdjContainer GenericGraph

variable {T : Type}

namespace Markov
variable {E D S O : Type} [DecidableEq O] {V : E → Prop} {draws : E → Finset D} {wt : E → D → ℚ} {run : E → D → Res E} {obs : E → O}
  {Ω Ω' : Finset O} {step : E → D → Res (S × E)} {undo : E → S → Res E} {Sim : E → E → Prop} {w w' π : O → ℚ}

/-- `LumpedW.trials_average` with the limit written as a quotient of sums over the part `Ω'` of the states on which the weights `w'` of
the simulation are those of `w`. -/
theorem LumpedW.trials_quotient (hl : LumpedW V draws wt run obs Ω) (hu : Undo V draws run obs step undo Sim) {k : ℕ}
    (hw : ∀ x ∈ Ω, 0 ≤ w' x) (hsub : Ω' ⊆ Ω) (h0 : ∀ y ∈ Ω, y ∈ Ω' → w' y ≠ 0)
    (hc : ∀ ε : ℚ, 0 < ε → ∃ t₀, ∀ t, t₀ ≤ t → ∀ e, V e → 0 < w' (obs e) → ∀ y ∈ Ω',
      |lawAfterTrials draws wt step undo obs w' k t e y - π y * w y / ∑ z ∈ Ω', π z * w z| < ε)
    (hc0 : ∀ (t : ℕ) (e : E), V e → 0 < w' (obs e) → ∀ y ∈ Ω, y ∉ Ω' → lawAfterTrials draws wt step undo obs w' k t e y = 0)
    (f : O → ℚ) {δ η : ℚ} (hδ : 0 < δ) (hη : 0 < η) :
    ∃ N₀ : ℕ, ∀ N : ℕ, N₀ ≤ N → ∀ e, V e → 0 < w' (obs e) →
      1 - η < meanTrials draws wt step undo obs w' k N e
        (fun os => if |(os.map f).sum / N - (∑ y ∈ Ω', π y * w y * f y) / ∑ y ∈ Ω', π y * w y| < δ then 1 else 0) := by
  obtain ⟨N₀, hN⟩ := hl.trials_average hu k hw (π := fun y => if y ∈ Ω' then π y * w y / ∑ z ∈ Ω', π z * w z else 0)
    (fun y hy h1 => if_neg (fun h2 => h0 y hy h2 h1)) (fun ε hε => by
      obtain ⟨t₀, ht⟩ := hc ε hε
      refine ⟨t₀, fun t hle e h1 h2 y hy => ?_⟩
      by_cases hy' : y ∈ Ω'
      · simp only [if_pos hy']
        exact ht t hle e h1 h2 y hy'
      · simp only [if_neg hy']
        rw [hc0 t e h1 h2 y hy hy', sub_zero, abs_zero]
        exact hε) f hδ hη
  refine ⟨N₀, fun N hle e h1 h2 => ?_⟩
  have h3 : ∑ y ∈ Ω, (if y ∈ Ω' then π y * w y / ∑ z ∈ Ω', π z * w z else 0) * f y =
      (∑ y ∈ Ω', π y * w y * f y) / ∑ y ∈ Ω', π y * w y := by
    rw [Finset.sum_div, ← Finset.sum_subset hsub (fun y _ hy => by rw [if_neg hy, zero_mul])]
    refine Finset.sum_congr rfl (fun y hy => ?_)
    rw [if_pos hy]
    ring
  have := hN N hle e h1 h2
  rwa [h3] at this

end Markov

/-- The other answer of `is_connected`. -/
theorem isConnected_not_on {A : Type} [AdjContainer T A] [LawfulAdj T A] {g : GenericGraph T A} (h : g.WF) (hn : 0 < g.vertexCount)
    (hc : ¬ ConnectedOn g.vertexCount g.edges) : g.isConnected = .ok (some false) := by
  obtain ⟨r, h1, h2, _⟩ := C15_is_connected h
  have h3 := (isConnected_iff_on h hn).not.mpr hc
  rw [h1] at h3 ⊢
  match r with
  | none => exact absurd (h2.mp rfl) hn.ne'
  | some true => exact absurd rfl h3
  | some false => rfl

/-- `ErEnsembleC`: with a probability as close to one as wanted, the average of `f` over the networks after the trials of a long
simulation is as close as wanted to the mean of `f` over the ensemble with the weights of the simulation. -/
theorem C99_er_c_average {n : ℕ} (hn : 2 ≤ n) (p : ℚ) {w : Finset (Sym2 ℕ) → ℚ} (hw : ∀ S ⊆ pairSet n, 0 < w S) {k : ℕ} (hk : 0 < k)
    (f : Finset (Sym2 ℕ) → ℚ) :
    (∀ (N : ℕ) (e : ErC T Script), e.graph.WF → e.graph.vertexCount = n → e.prob = p →
      meanTrials ErC.stepDraws (fun e _ => 1 / (e.stepDraws.card : ℚ)) ErC.stepOf ErC.undoStepQuiet (fun e => e.graph.edges) w k N e
        (fun _ => 1) = 1) ∧
    ∀ δ η : ℚ, 0 < δ → 0 < η → ∃ N₀ : ℕ, ∀ N : ℕ, N₀ ≤ N → ∀ e : ErC T Script, e.graph.WF → e.graph.vertexCount = n → e.prob = p →
      1 - η < meanTrials ErC.stepDraws (fun e _ => 1 / (e.stepDraws.card : ℚ)) ErC.stepOf ErC.undoStepQuiet (fun e => e.graph.edges) w k N e
        (fun os => if |(os.map f).sum / N -
            (∑ S ∈ (pairSet n).powerset, gnpProb n p S * w S * f S) / ∑ S ∈ (pairSet n).powerset, gnpProb n p S * w S| < δ then 1 else 0) := by
  have hw' : ∀ S ∈ (pairSet n).powerset, 0 < w S := fun S hS => hw S (Finset.mem_powerset.mp hS)
  refine ⟨fun N e w1 n1 p1 => (ErC.ergodic hn w1 n1 p1).lumped.trials_one (ErC.undo hn) k (fun S hS => (hw' S hS).le) N ⟨w1, n1, p1⟩,
    fun δ η hδ hη => ?_⟩
  by_cases hex : ∃ e : ErC T Script, e.graph.WF ∧ e.graph.nextId = n ∧ e.prob = p
  swap
  · exact ⟨0, fun N _ e w1 n1 p1 => absurd ⟨e, w1, n1, p1⟩ hex⟩
  obtain ⟨e0, w0, n0, p0⟩ := hex
  have hl := (ErC.ergodic hn w0 n0 p0).lumped
  obtain ⟨N₀, hN⟩ := hl.trials_quotient (ErC.undo hn) (k := k) (π := gnpProb n p) (w := w) (fun S hS => (hw' S hS).le)
    (Finset.Subset.refl _) (fun S hS _ => (hw' S hS).ne') (fun ε hε => by
      obtain ⟨t₀, ht⟩ := (C97_er_c_metropolis (T := T) hn p hw hk).1 ε hε
      refine ⟨t₀, fun t hle e ⟨w1, n1, p1⟩ _ y hy => ?_⟩
      obtain ⟨e', ⟨v1, v2, _⟩, rfl⟩ := hl.ex y hy
      exact ht t hle e w1 n1 p1 e'.graph v1 v2) (fun _ _ _ _ y hy hy' => absurd hy hy') f hδ hη
  exact ⟨N₀, fun N hle e w1 n1 p1 => hN N hle e ⟨w1, n1, p1⟩ (hw' _ (hl.mem e ⟨w1, n1, p1⟩))⟩

open Classical in
/-- The same with rejection of all networks that are not connected: the mean is over the connected networks. -/
theorem C99_er_c_connected_average {n : ℕ} (hn : 2 ≤ n) {p : ℚ} (hp : 0 < headProb p) {w : Finset (Sym2 ℕ) → ℚ}
    (hw : ∀ S ⊆ pairSet n, 0 < w S) {k : ℕ} (hk : 0 < k) (f : Finset (Sym2 ℕ) → ℚ) :
    (∀ (N : ℕ) (e : ErC T Script), e.graph.WF → e.graph.vertexCount = n → e.prob = p → e.graph.isConnected = .ok (some true) →
      meanTrials ErC.stepDraws (fun e _ => 1 / (e.stepDraws.card : ℚ)) ErC.stepOf ErC.undoStepQuiet (fun e => e.graph.edges)
        (connectedWeight n w) k N e (fun _ => 1) = 1) ∧
    ∀ δ η : ℚ, 0 < δ → 0 < η → ∃ N₀ : ℕ, ∀ N : ℕ, N₀ ≤ N → ∀ e : ErC T Script, e.graph.WF → e.graph.vertexCount = n → e.prob = p →
      e.graph.isConnected = .ok (some true) →
      1 - η < meanTrials ErC.stepDraws (fun e _ => 1 / (e.stepDraws.card : ℚ)) ErC.stepOf ErC.undoStepQuiet (fun e => e.graph.edges)
        (connectedWeight n w) k N e
        (fun os => if |(os.map f).sum / N -
            (∑ S ∈ (pairSet n).powerset with ConnectedOn n S, gnpProb n p S * w S * f S) /
              ∑ S ∈ (pairSet n).powerset with ConnectedOn n S, gnpProb n p S * w S| < δ then 1 else 0) := by
  have hw' : ∀ S ∈ (pairSet n).powerset, 0 < w S := fun S hS => hw S (Finset.mem_powerset.mp hS)
  have hnn : ∀ S ∈ (pairSet n).powerset, 0 ≤ connectedWeight n w S := fun S hS => connectedWeight_nonneg (hw' S hS)
  have hcon : ∀ g : Graph T, g.WF → g.vertexCount = n → (g.isConnected = .ok (some true) ↔ ConnectedOn n g.edges) := fun g hg hgn => by
    rw [isConnected_iff_on hg (by omega), hgn]
  refine ⟨fun N e w1 n1 p1 _ => (ErC.ergodic hn w1 n1 p1).lumped.trials_one (ErC.undo hn) k hnn N ⟨w1, n1, p1⟩, fun δ η hδ hη => ?_⟩
  by_cases hex : ∃ e : ErC T Script, e.graph.WF ∧ e.graph.nextId = n ∧ e.prob = p
  swap
  · exact ⟨0, fun N _ e w1 n1 p1 => absurd ⟨e, w1, n1, p1⟩ hex⟩
  obtain ⟨e0, w0, n0, p0⟩ := hex
  have hl := (ErC.ergodic hn w0 n0 p0).lumped
  have hstart : ∀ e : ErC T Script, e.graph.WF → e.graph.nextId = n → e.prob = p → 0 < connectedWeight n w e.graph.edges →
      e.graph.isConnected = .ok (some true) := fun e w1 n1 p1 h =>
    (hcon _ w1 n1).mpr ((connectedWeight_pos (hw' _ (hl.mem e ⟨w1, n1, p1⟩))).mp h)
  obtain ⟨N₀, hN⟩ := hl.trials_quotient (ErC.undo hn) (k := k) (π := gnpProb n p) (w := w)
    (Ω' := (pairSet n).powerset.filter (fun S => ConnectedOn n S)) hnn
    (Finset.filter_subset _ _) (fun S hS hS' => ((connectedWeight_pos (hw' S hS)).mpr (Finset.mem_filter.mp hS').2).ne') (fun ε hε => by
      obtain ⟨t₀, ht⟩ := (C98_er_c_connected (T := T) hn hp hw hk).2 ε hε
      refine ⟨t₀, fun t hle e ⟨w1, n1, p1⟩ hwe y hy => ?_⟩
      obtain ⟨hy1, hy2⟩ := Finset.mem_filter.mp hy
      obtain ⟨e', ⟨v1, v2, _⟩, rfl⟩ := hl.ex y hy1
      exact ht t hle e w1 n1 p1 (hstart e w1 n1 p1 hwe) e'.graph v1 v2 ((hcon _ v1 v2).mpr hy2)) (fun t e ⟨w1, n1, p1⟩ hwe y hy hy' => by
      obtain ⟨e', ⟨v1, v2, _⟩, rfl⟩ := hl.ex y hy
      refine (C98_er_c_connected (T := T) hn hp hw hk).1 t e w1 n1 p1 (hstart e w1 n1 p1 hwe) e'.graph v1 v2
        (isConnected_not_on v1 (show 0 < e'.graph.nextId by omega) (fun hc => hy' (Finset.mem_filter.mpr ⟨hy, ?_⟩)))
      rw [show e'.graph.vertexCount = n from v2] at hc
      exact hc) f hδ hη
  exact ⟨N₀, fun N hle e w1 n1 p1 c1 => hN N hle e ⟨w1, n1, p1⟩
    ((connectedWeight_pos (hw' _ (hl.mem e ⟨w1, n1, p1⟩))).mpr ((hcon _ w1 n1).mp c1))⟩

/-- The same for `SpacialEnsemble`. -/
theorem C99_spacial_average {e₀ : Spacial T Script} (h₀ : e₀.graph.WF) (hn : 2 ≤ e₀.graph.vertexCount)
    (hsym : ∀ p q, e₀.law p q = e₀.law q p) {w : Finset (Sym2 ℕ) → ℚ} (hw : ∀ S ⊆ pairSet e₀.graph.vertexCount, 0 < w S) {k : ℕ}
    (hk : 0 < k) (f : Finset (Sym2 ℕ) → ℚ) :
    (∀ (N : ℕ), meanTrials Spacial.stepDraws (fun e _ => 1 / (e.stepDraws.card : ℚ)) Spacial.stepOf Spacial.undoStepQuiet
      (fun e => e.graph.edges) w k N e₀ (fun _ => 1) = 1) ∧
    ∀ δ η : ℚ, 0 < δ → 0 < η → ∃ N₀ : ℕ, ∀ N : ℕ, N₀ ≤ N → ∀ e : Spacial T Script, e.graph.WF →
      e.graph.vertexCount = e₀.graph.vertexCount → e.law = e₀.law → coords e.graph = coords e₀.graph →
      1 - η < meanTrials Spacial.stepDraws (fun e _ => 1 / (e.stepDraws.card : ℚ)) Spacial.stepOf Spacial.undoStepQuiet
        (fun e => e.graph.edges) w k N e
        (fun os => if |(os.map f).sum / N -
            (∑ S ∈ (pairSet e₀.graph.vertexCount).powerset, e₀.setProb S * w S * f S) /
              ∑ S ∈ (pairSet e₀.graph.vertexCount).powerset, e₀.setProb S * w S| < δ then 1 else 0) := by
  have hw' : ∀ S ∈ (pairSet e₀.graph.vertexCount).powerset, 0 < w S := fun S hS => hw S (Finset.mem_powerset.mp hS)
  have hl := (Spacial.ergodic h₀ hn rfl hsym).lumped
  refine ⟨fun N => hl.trials_one (Spacial.undo hn) k (fun S hS => (hw' S hS).le) N ⟨h₀, rfl, rfl, rfl⟩, fun δ η hδ hη => ?_⟩
  obtain ⟨N₀, hN⟩ := hl.trials_quotient (Spacial.undo hn) (k := k) (π := e₀.setProb) (w := w) (fun S hS => (hw' S hS).le)
    (Finset.Subset.refl _) (fun S hS _ => (hw' S hS).ne') (fun ε hε => by
      obtain ⟨t₀, ht⟩ := (C97_spacial_metropolis h₀ hn hsym hw hk).1 ε hε
      refine ⟨t₀, fun t hle e ⟨w1, n1, p1, q1⟩ _ y hy => ?_⟩
      obtain ⟨e', ⟨v1, v2, _⟩, rfl⟩ := hl.ex y hy
      exact ht t hle e w1 n1 p1 q1 e'.graph v1 v2) (fun _ _ _ _ y hy hy' => absurd hy hy') f hδ hη
  exact ⟨N₀, fun N hle e w1 n1 p1 q1 => hN N hle e ⟨w1, n1, p1, q1⟩ (hw' _ (hl.mem e ⟨w1, n1, p1, q1⟩))⟩

open Classical in
/-- The same with rejection of all networks that are not connected. -/
theorem C99_spacial_connected_average {e₀ : Spacial T Script} (h₀ : e₀.graph.WF) (hn : 2 ≤ e₀.graph.vertexCount)
    (hsym : ∀ p q, e₀.law p q = e₀.law q p) (hpos : ∀ i j, 0 < headProb (e₀.prob i j)) {w : Finset (Sym2 ℕ) → ℚ}
    (hw : ∀ S ⊆ pairSet e₀.graph.vertexCount, 0 < w S) {k : ℕ} (hk : 0 < k) (f : Finset (Sym2 ℕ) → ℚ) :
    (∀ (N : ℕ), meanTrials Spacial.stepDraws (fun e _ => 1 / (e.stepDraws.card : ℚ)) Spacial.stepOf Spacial.undoStepQuiet
      (fun e => e.graph.edges) (connectedWeight e₀.graph.vertexCount w) k N e₀ (fun _ => 1) = 1) ∧
    ∀ δ η : ℚ, 0 < δ → 0 < η → ∃ N₀ : ℕ, ∀ N : ℕ, N₀ ≤ N → ∀ e : Spacial T Script, e.graph.WF →
      e.graph.vertexCount = e₀.graph.vertexCount → e.law = e₀.law → coords e.graph = coords e₀.graph →
      e.graph.isConnected = .ok (some true) →
      1 - η < meanTrials Spacial.stepDraws (fun e _ => 1 / (e.stepDraws.card : ℚ)) Spacial.stepOf Spacial.undoStepQuiet
        (fun e => e.graph.edges) (connectedWeight e₀.graph.vertexCount w) k N e
        (fun os => if |(os.map f).sum / N -
            (∑ S ∈ (pairSet e₀.graph.vertexCount).powerset with ConnectedOn e₀.graph.vertexCount S, e₀.setProb S * w S * f S) /
              ∑ S ∈ (pairSet e₀.graph.vertexCount).powerset with ConnectedOn e₀.graph.vertexCount S, e₀.setProb S * w S| < δ
          then 1 else 0) := by
  have hw' : ∀ S ∈ (pairSet e₀.graph.vertexCount).powerset, 0 < w S := fun S hS => hw S (Finset.mem_powerset.mp hS)
  have hnn : ∀ S ∈ (pairSet e₀.graph.vertexCount).powerset, 0 ≤ connectedWeight e₀.graph.vertexCount w S := fun S hS =>
    connectedWeight_nonneg (hw' S hS)
  have hl := (Spacial.ergodic h₀ hn rfl hsym).lumped
  have herg := Spacial.ergodic h₀ hn rfl hsym
  refine ⟨fun N => hl.trials_one (Spacial.undo hn) k hnn N ⟨h₀, rfl, rfl, rfl⟩, fun δ η hδ hη => ?_⟩
  obtain ⟨N₀, hN⟩ := hl.trials_quotient (Spacial.undo hn) (k := k) (π := e₀.setProb) (w := w)
    (Ω' := (pairSet e₀.graph.vertexCount).powerset.filter (fun S => ConnectedOn e₀.graph.vertexCount S)) hnn
    (Finset.filter_subset _ _) (fun S hS hS' => ((connectedWeight_pos (hw' S hS)).mpr (Finset.mem_filter.mp hS').2).ne') (fun ε hε => by
      obtain ⟨t₀, ht⟩ := C97_spacial_monotone h₀ hn hsym hpos (fun S hS => hnn S (Finset.mem_powerset.mpr hS)) (fun S S' h hS' hS =>
        (connectedWeight_pos (hw S' hS')).mpr (((connectedWeight_pos (hw S (h.trans hS'))).mp hS).mono h)) hk hε
      refine ⟨t₀, fun t hle e ⟨w1, n1, p1, q1⟩ hwe y hy => ?_⟩
      obtain ⟨hy1, hy2⟩ := Finset.mem_filter.mp hy
      obtain ⟨e', ⟨v1, v2, _⟩, rfl⟩ := hl.ex y hy1
      have := ht t hle e w1 n1 p1 q1 hwe e'.graph v1 v2
      rw [sum_connectedWeight] at this
      rwa [show connectedWeight e₀.graph.vertexCount w e'.graph.edges = w e'.graph.edges from if_pos hy2] at this)
    (fun t e he hwe y hy hy' => by
      refine herg.trials_zero (Spacial.undo hn) k hnn t he hwe ?_
      exact if_neg (fun hc => hy' (Finset.mem_filter.mpr ⟨hy, hc⟩))) f hδ hη
  refine ⟨N₀, fun N hle e w1 n1 p1 q1 c1 => hN N hle e ⟨w1, n1, p1, q1⟩
    ((connectedWeight_pos (hw' _ (hl.mem e ⟨w1, n1, p1, q1⟩))).mpr ?_)⟩
  have := (isConnected_iff_on w1 (by rw [n1]; omega)).mp c1
  rwa [n1] at this

/-- The same for `ErEnsembleM`. -/
theorem C99_er_m_average {n m : ℕ} (hm0 : 0 < m) (hm : m < n * (n - 1) / 2) {w : Finset (Sym2 ℕ) → ℚ}
    (hw : ∀ S ⊆ pairSet n, S.card = m → 0 < w S) {k : ℕ} (hk : 0 < k) (f : Finset (Sym2 ℕ) → ℚ) :
    (∀ (N : ℕ) (e : ErM T Script), e.Inv → e.graph.vertexCount = n → e.m = m →
      meanTrials ErM.stepDraws (fun e _ => 1 / (e.stepDraws.card : ℚ)) ErM.stepOf ErM.undoStepQuiet (fun e => e.graph.edges) w k N e
        (fun _ => 1) = 1) ∧
    ∀ δ η : ℚ, 0 < δ → 0 < η → ∃ N₀ : ℕ, ∀ N : ℕ, N₀ ≤ N → ∀ e : ErM T Script, e.Inv → e.graph.vertexCount = n → e.m = m →
      1 - η < meanTrials ErM.stepDraws (fun e _ => 1 / (e.stepDraws.card : ℚ)) ErM.stepOf ErM.undoStepQuiet (fun e => e.graph.edges) w k N e
        (fun os => if |(os.map f).sum / N -
            (∑ S ∈ (pairSet n).powersetCard m, w S * f S) / ∑ S ∈ (pairSet n).powersetCard m, w S| < δ then 1 else 0) := by
  have hw' : ∀ S ∈ (pairSet n).powersetCard m, 0 < w S := fun S hS =>
    hw S (Finset.mem_powersetCard.mp hS).1 (Finset.mem_powersetCard.mp hS).2
  refine ⟨fun N e w1 n1 p1 => (ErM.ergodic hm0 hm w1 n1 p1).lumped.trials_one ErM.undo k (fun S hS => (hw' S hS).le) N ⟨w1, n1, p1⟩,
    fun δ η hδ hη => ?_⟩
  by_cases hex : ∃ e : ErM T Script, e.Inv ∧ e.graph.nextId = n ∧ e.m = m
  swap
  · exact ⟨0, fun N _ e w1 n1 p1 => absurd ⟨e, w1, n1, p1⟩ hex⟩
  obtain ⟨e0, w0, n0, p0⟩ := hex
  have hl := (ErM.ergodic hm0 hm w0 n0 p0).lumped
  obtain ⟨N₀, hN⟩ := hl.trials_quotient ErM.undo (k := k) (π := fun _ => 1) (w := w) (fun S hS => (hw' S hS).le)
    (Finset.Subset.refl _) (fun S hS _ => (hw' S hS).ne') (fun ε hε => by
      obtain ⟨t₀, ht⟩ := (C97_er_m_metropolis (T := T) hm0 hm hw hk).1 ε hε
      refine ⟨t₀, fun t hle e ⟨w1, n1, p1⟩ _ y hy => ?_⟩
      obtain ⟨e', ⟨v1, v2, v3⟩, rfl⟩ := hl.ex y hy
      simp only [one_mul]
      exact ht t hle e w1 n1 p1 e'.graph v1.wf v2 (v1.edgeCount.trans v3)) (fun _ _ _ _ y hy hy' => absurd hy hy') f hδ hη
  refine ⟨N₀, fun N hle e w1 n1 p1 => ?_⟩
  have := hN N hle e ⟨w1, n1, p1⟩ (hw' _ (hl.mem e ⟨w1, n1, p1⟩))
  simp only [one_mul] at this
  exact this

open Classical in
/-- The same with rejection of all networks that are not connected. -/
theorem C99_er_m_connected_average {n m : ℕ} (hm0 : 0 < m) (hm : m < n * (n - 1) / 2) {w : Finset (Sym2 ℕ) → ℚ}
    (hw : ∀ S ⊆ pairSet n, S.card = m → 0 < w S) {k : ℕ} (hk : 0 < k) (f : Finset (Sym2 ℕ) → ℚ) :
    (∀ (N : ℕ) (e : ErM T Script), e.Inv → e.graph.vertexCount = n → e.m = m → e.graph.isConnected = .ok (some true) →
      meanTrials ErM.stepDraws (fun e _ => 1 / (e.stepDraws.card : ℚ)) ErM.stepOf ErM.undoStepQuiet (fun e => e.graph.edges)
        (connectedWeight n w) k N e (fun _ => 1) = 1) ∧
    ∀ δ η : ℚ, 0 < δ → 0 < η → ∃ N₀ : ℕ, ∀ N : ℕ, N₀ ≤ N → ∀ e : ErM T Script, e.Inv → e.graph.vertexCount = n → e.m = m →
      e.graph.isConnected = .ok (some true) →
      1 - η < meanTrials ErM.stepDraws (fun e _ => 1 / (e.stepDraws.card : ℚ)) ErM.stepOf ErM.undoStepQuiet (fun e => e.graph.edges)
        (connectedWeight n w) k N e
        (fun os => if |(os.map f).sum / N -
            (∑ S ∈ (pairSet n).powersetCard m with ConnectedOn n S, w S * f S) /
              ∑ S ∈ (pairSet n).powersetCard m with ConnectedOn n S, w S| < δ then 1 else 0) := by
  have hn : 3 ≤ n := by
    by_contra hcon
    rcases (by omega : n = 0 ∨ n = 1 ∨ n = 2) with rfl | rfl | rfl <;> omega
  have hw' : ∀ S ∈ (pairSet n).powersetCard m, 0 < w S := fun S hS =>
    hw S (Finset.mem_powersetCard.mp hS).1 (Finset.mem_powersetCard.mp hS).2
  have hnn : ∀ S ∈ (pairSet n).powersetCard m, 0 ≤ connectedWeight n w S := fun S hS => connectedWeight_nonneg (hw' S hS)
  have hcon : ∀ g : Graph T, g.WF → g.vertexCount = n → (g.isConnected = .ok (some true) ↔ ConnectedOn n g.edges) := fun g hg hgn => by
    rw [isConnected_iff_on hg (by omega), hgn]
  refine ⟨fun N e w1 n1 p1 _ => (ErM.ergodic hm0 hm w1 n1 p1).lumped.trials_one ErM.undo k hnn N ⟨w1, n1, p1⟩, fun δ η hδ hη => ?_⟩
  by_cases hex : ∃ e : ErM T Script, e.Inv ∧ e.graph.nextId = n ∧ e.m = m
  swap
  · exact ⟨0, fun N _ e w1 n1 p1 => absurd ⟨e, w1, n1, p1⟩ hex⟩
  obtain ⟨e0, w0, n0, p0⟩ := hex
  have herg := ErM.ergodic hm0 hm w0 n0 p0
  have hl := herg.lumped
  obtain ⟨N₀, hN⟩ := hl.trials_quotient ErM.undo (k := k) (π := fun _ => 1) (w := w)
    (Ω' := ((pairSet n).powersetCard m).filter (fun S => ConnectedOn n S)) hnn
    (Finset.filter_subset _ _) (fun S hS hS' => ((connectedWeight_pos (hw' S hS)).mpr (Finset.mem_filter.mp hS').2).ne') (fun ε hε => by
      obtain ⟨t₀, ht⟩ := (C98_er_m_connected (T := T) hm0 hm hw hk).2 ε hε
      refine ⟨t₀, fun t hle e ⟨w1, n1, p1⟩ hwe y hy => ?_⟩
      obtain ⟨hy1, hy2⟩ := Finset.mem_filter.mp hy
      obtain ⟨e', ⟨v1, v2, v3⟩, rfl⟩ := hl.ex y hy1
      simp only [one_mul]
      exact ht t hle e w1 n1 p1 ((hcon _ w1.wf n1).mpr ((connectedWeight_pos (hw' _ (hl.mem e ⟨w1, n1, p1⟩))).mp hwe)) e'.graph v1.wf v2
        (v1.edgeCount.trans v3) ((hcon _ v1.wf v2).mpr hy2))
    (fun t e he hwe y hy hy' => by
      refine herg.trials_zero ErM.undo k hnn t he hwe ?_
      exact if_neg (fun hc => hy' (Finset.mem_filter.mpr ⟨hy, hc⟩))) f hδ hη
  refine ⟨N₀, fun N hle e w1 n1 p1 c1 => ?_⟩
  have := hN N hle e ⟨w1, n1, p1⟩ ((connectedWeight_pos (hw' _ (hl.mem e ⟨w1, n1, p1⟩))).mpr ((hcon _ w1.wf n1).mp c1))
  simp only [one_mul] at this
  exact this

/-- The same for `SwEnsemble`, where `f` may depend on the roots of the edges. -/
theorem C99_sw_average {n : ℕ} (h6 : 6 ≤ n) {p : ℚ} (hp : 0 ≤ p) (f : Finset (ℕ × ℕ × ℕ) → ℚ) :
    ∃ Ω : Finset (Finset (ℕ × ℕ × ℕ)),
      (∀ S, S ∈ Ω ↔ ∃ g : SwGraph T, SwValid g ∧ g.vertexCount = n ∧ SwGraph.rooted g = S) ∧
      ∀ w : Finset (ℕ × ℕ × ℕ) → ℚ, (∀ S ∈ Ω, 0 < w S) → ∀ k : ℕ, 0 < k →
        (∀ (N : ℕ) (e : SwEns T Script), SwValid e.graph → e.graph.vertexCount = n → e.rProb = p →
          meanTrials SwEns.stepDraws (fun e _ => 1 / (e.stepDraws.card : ℚ)) SwEns.stepOf SwEns.undoStepQuiet
            (fun e => SwGraph.rooted e.graph) w k N e (fun _ => 1) = 1) ∧
        ∀ δ η : ℚ, 0 < δ → 0 < η → ∃ N₀ : ℕ, ∀ N : ℕ, N₀ ≤ N → ∀ e : SwEns T Script, SwValid e.graph → e.graph.vertexCount = n →
          e.rProb = p →
          1 - η < meanTrials SwEns.stepDraws (fun e _ => 1 / (e.stepDraws.card : ℚ)) SwEns.stepOf SwEns.undoStepQuiet
            (fun e => SwGraph.rooted e.graph) w k N e
            (fun os => if |(os.map f).sum / N - (∑ S ∈ Ω, swWeight n p S * w S * f S) / ∑ S ∈ Ω, swWeight n p S * w S| < δ
              then 1 else 0) := by
  obtain ⟨Ω, hΩ, hmain⟩ := C97_sw_metropolis (T := T) h6 hp
  have hΩ' : Ω = swStates T n := by
    ext S
    rw [hΩ, mem_swStates]
    rfl
  refine ⟨Ω, hΩ, fun w hw k hk => ⟨fun N e w1 n1 p1 => ?_, fun δ η hδ hη => ?_⟩⟩
  · rw [hΩ'] at hw
    exact (SwEns.ergodic h6 hp w1 n1).lumped.trials_one SwEns.undo k (fun S hS => (hw S hS).le) N ⟨w1, n1, p1⟩
  by_cases hex : ∃ g : SwGraph T, SwValid g ∧ g.nextId = n
  swap
  · exact ⟨0, fun N _ e w1 n1 _ => absurd ⟨e.graph, w1, n1⟩ hex⟩
  obtain ⟨g0, w0, n0⟩ := hex
  have hl := (SwEns.ergodic h6 hp w0 n0).lumped
  rw [← hΩ'] at hl
  obtain ⟨N₀, hN⟩ := hl.trials_quotient SwEns.undo (k := k) (π := fun S => (swWeight n p S : ℚ)) (w := w) (fun S hS => (hw S hS).le)
    (Finset.Subset.refl _) (fun S hS _ => (hw S hS).ne') (fun ε hε => by
      obtain ⟨t₀, ht⟩ := (hmain w hw k hk).1 ε hε
      refine ⟨t₀, fun t hle e ⟨w1, n1, p1⟩ _ y hy => ?_⟩
      obtain ⟨e', ⟨v1, v2, _⟩, rfl⟩ := hl.ex y hy
      exact ht t hle e w1 n1 p1 e'.graph v1 v2) (fun _ _ _ _ y hy hy' => absurd hy hy') f hδ hη
  exact ⟨N₀, fun N hle e w1 n1 p1 => hN N hle e ⟨w1, n1, p1⟩ (hw _ (hl.mem e ⟨w1, n1, p1⟩))⟩

/-- The same with rejection of all networks that are not connected. -/
theorem C99_sw_connected_average {n : ℕ} (h6 : 6 ≤ n) {p : ℚ} (hp : 0 ≤ p) {w : Finset (ℕ × ℕ × ℕ) → ℚ}
    (hw : ∀ g : SwGraph T, SwValid g → g.vertexCount = n → 0 < w (SwGraph.rooted g)) {k : ℕ} (hk : 0 < k)
    (f : Finset (ℕ × ℕ × ℕ) → ℚ) :
    ∃ Ω : Finset (Finset (ℕ × ℕ × ℕ)),
      (∀ S, S ∈ Ω ↔ ∃ g : SwGraph T, SwValid g ∧ g.vertexCount = n ∧ g.isConnected = .ok (some true) ∧ SwGraph.rooted g = S) ∧
      (∀ (N : ℕ) (e : SwEns T Script), SwValid e.graph → e.graph.vertexCount = n → e.rProb = p →
        e.graph.isConnected = .ok (some true) →
        meanTrials SwEns.stepDraws (fun e _ => 1 / (e.stepDraws.card : ℚ)) SwEns.stepOf SwEns.undoStepQuiet
          (fun e => SwGraph.rooted e.graph) (swConnectedWeight n w) k N e (fun _ => 1) = 1) ∧
      ∀ δ η : ℚ, 0 < δ → 0 < η → ∃ N₀ : ℕ, ∀ N : ℕ, N₀ ≤ N → ∀ e : SwEns T Script, SwValid e.graph → e.graph.vertexCount = n →
        e.rProb = p → e.graph.isConnected = .ok (some true) →
        1 - η < meanTrials SwEns.stepDraws (fun e _ => 1 / (e.stepDraws.card : ℚ)) SwEns.stepOf SwEns.undoStepQuiet
          (fun e => SwGraph.rooted e.graph) (swConnectedWeight n w) k N e
          (fun os => if |(os.map f).sum / N - (∑ S ∈ Ω, swWeight n p S * w S * f S) / ∑ S ∈ Ω, swWeight n p S * w S| < δ
            then 1 else 0) := by
  obtain ⟨_, Ω, hΩ, hlim⟩ := C98_sw_connected (T := T) h6 hp hw hk
  have hw' : ∀ S ∈ swStates T n, 0 < w S := by
    intro S hS
    obtain ⟨g, g1, g2, rfl⟩ := mem_swStates.mp hS
    exact hw g g1 g2
  have hnn : ∀ S ∈ swStates T n, 0 ≤ swConnectedWeight n w S := fun S hS => swConnectedWeight_nonneg (hw' S hS)
  refine ⟨Ω, hΩ, fun N e w1 n1 p1 _ => (SwEns.ergodic h6 hp w1 n1).lumped.trials_one SwEns.undo k hnn N ⟨w1, n1, p1⟩,
    fun δ η hδ hη => ?_⟩
  by_cases hex : ∃ g : SwGraph T, SwValid g ∧ g.nextId = n
  swap
  · exact ⟨0, fun N _ e w1 n1 _ => absurd ⟨e.graph, w1, n1⟩ hex⟩
  obtain ⟨g0, w0, n0⟩ := hex
  have herg := SwEns.ergodic h6 hp w0 n0
  have hl := herg.lumped
  have hsub : Ω ⊆ swStates T n := by
    intro S hS
    obtain ⟨g, g1, g2, _, rfl⟩ := (hΩ S).mp hS
    exact mem_swStates.mpr ⟨g, g1, g2, rfl⟩
  have hpos : ∀ g : SwGraph T, SwValid g → g.vertexCount = n →
      (0 < swConnectedWeight n w (SwGraph.rooted g) ↔ g.isConnected = .ok (some true)) := fun g g1 g2 =>
    (swConnectedWeight_pos (hw g g1 g2)).trans (g1.isConnected_iff g2).symm
  obtain ⟨N₀, hN⟩ := hl.trials_quotient SwEns.undo (k := k) (π := fun S => (swWeight n p S : ℚ)) (w := w) hnn hsub
    (fun S _ hS => by
      obtain ⟨g, g1, g2, g3, rfl⟩ := (hΩ S).mp hS
      exact ((hpos g g1 g2).mpr g3).ne') (fun ε hε => by
      obtain ⟨t₀, ht⟩ := hlim ε hε
      refine ⟨t₀, fun t hle e ⟨w1, n1, p1⟩ hwe y hy => ?_⟩
      obtain ⟨g, g1, g2, g3, rfl⟩ := (hΩ y).mp hy
      exact ht t hle e w1 n1 p1 ((hpos _ w1 n1).mp hwe) g g1 g2 g3)
    (fun t e he hwe y hy hy' => by
      refine herg.trials_zero SwEns.undo k hnn t he hwe ?_
      obtain ⟨g, g1, g2, rfl⟩ := mem_swStates.mp hy
      exact if_neg (fun hc => hy' ((hΩ _).mpr ⟨g, g1, g2, (g1.isConnected_iff g2).mpr hc, rfl⟩))) f hδ hη
  exact ⟨N₀, fun N hle e w1 n1 p1 c1 => hN N hle e ⟨w1, n1, p1⟩ ((hpos _ w1 n1).mpr c1)⟩

/-- The same for `ConfigurationModel`. -/
theorem C99_config_average {ds : List ℕ} (hpos : ∃ d ∈ ds, 0 < d) (f : Finset (Sym2 ℕ) → ℚ) :
    ∃ Ω : Finset (Finset (Sym2 ℕ)), (∀ S, S ∈ Ω ↔ ∃ g : Graph T, Realises g ds ∧ g.edges = S) ∧
      ∀ w : Finset (Sym2 ℕ) → ℚ, (∀ S ∈ Ω, 0 < w S) → ∀ k : ℕ, 0 < k →
        (∀ (N : ℕ) (e : Config T Script), e.Inv → e.degreeVec = ds →
          meanTrials Config.stepDraws Config.stepProb Config.stepOf Config.undoStepQuiet (fun e => e.graph.edges) w k N e
            (fun _ => 1) = 1) ∧
        ∀ δ η : ℚ, 0 < δ → 0 < η → ∃ N₀ : ℕ, ∀ N : ℕ, N₀ ≤ N → ∀ e : Config T Script, e.Inv → e.degreeVec = ds →
          1 - η < meanTrials Config.stepDraws Config.stepProb Config.stepOf Config.undoStepQuiet (fun e => e.graph.edges) w k N e
            (fun os => if |(os.map f).sum / N - (∑ S ∈ Ω, w S * f S) / ∑ S ∈ Ω, w S| < δ then 1 else 0) := by
  obtain ⟨Ω, hΩ, hmain⟩ := C97_config_metropolis (T := T) hpos
  have hΩ' : Ω = configStates T ds := by
    ext S
    rw [hΩ, mem_configStates]
  refine ⟨Ω, hΩ, fun w hw k hk => ⟨fun N e w1 n1 => ?_, fun δ η hδ hη => ?_⟩⟩
  · rw [hΩ'] at hw
    exact (Config.ergodic hpos w1 n1).lumped.trials_one (Config.undo hpos) k (fun S hS => (hw S hS).le) N ⟨w1, n1⟩
  by_cases hex : ∃ e : Config T Script, e.Inv ∧ e.degreeVec = ds
  swap
  · exact ⟨0, fun N _ e w1 n1 => absurd ⟨e, w1, n1⟩ hex⟩
  obtain ⟨e0, w0, n0⟩ := hex
  have hl := (Config.ergodic hpos w0 n0).lumped
  rw [← hΩ'] at hl
  obtain ⟨N₀, hN⟩ := hl.trials_quotient (Config.undo hpos) (k := k) (π := fun _ => 1) (w := w) (fun S hS => (hw S hS).le)
    (Finset.Subset.refl _) (fun S hS _ => (hw S hS).ne') (fun ε hε => by
      obtain ⟨t₀, ht⟩ := (hmain w hw k hk).1 ε hε
      refine ⟨t₀, fun t hle e ⟨w1, n1⟩ _ y hy => ?_⟩
      obtain ⟨g, g1, rfl⟩ := (hΩ y).mp hy
      simp only [one_mul]
      exact ht t hle e w1 n1 g g1) (fun _ _ _ _ y hy hy' => absurd hy hy') f hδ hη
  refine ⟨N₀, fun N hle e w1 n1 => ?_⟩
  have := hN N hle e ⟨w1, n1⟩ (hw _ (hl.mem e ⟨w1, n1⟩))
  simp only [one_mul] at this
  exact this

/-- The same with rejection of all networks that are not connected. -/
theorem C99_config_connected_average {ds : List ℕ} (hpos : ∃ d ∈ ds, 0 < d) {w : Finset (Sym2 ℕ) → ℚ}
    (hw : ∀ g : Graph T, Realises g ds → 0 < w g.edges) {k : ℕ} (hk : 0 < k) (f : Finset (Sym2 ℕ) → ℚ) :
    ∃ Ω : Finset (Finset (Sym2 ℕ)),
      (∀ S, S ∈ Ω ↔ ∃ g : Graph T, Realises g ds ∧ g.isConnected = .ok (some true) ∧ g.edges = S) ∧
      (∀ (N : ℕ) (e : Config T Script), e.Inv → e.degreeVec = ds → e.graph.isConnected = .ok (some true) →
        meanTrials Config.stepDraws Config.stepProb Config.stepOf Config.undoStepQuiet (fun e => e.graph.edges)
          (connectedWeight ds.length w) k N e (fun _ => 1) = 1) ∧
      ∀ δ η : ℚ, 0 < δ → 0 < η → ∃ N₀ : ℕ, ∀ N : ℕ, N₀ ≤ N → ∀ e : Config T Script, e.Inv → e.degreeVec = ds →
        e.graph.isConnected = .ok (some true) →
        1 - η < meanTrials Config.stepDraws Config.stepProb Config.stepOf Config.undoStepQuiet (fun e => e.graph.edges)
          (connectedWeight ds.length w) k N e
          (fun os => if |(os.map f).sum / N - (∑ S ∈ Ω, w S * f S) / ∑ S ∈ Ω, w S| < δ then 1 else 0) := by
  obtain ⟨_, Ω, hΩ, hlim⟩ := C98_config_connected (T := T) hpos hw hk
  have hn0 : 0 < ds.length := by
    obtain ⟨d, hd, _⟩ := hpos
    exact List.length_pos_of_mem hd
  have hw' : ∀ S ∈ configStates T ds, 0 < w S := by
    intro S hS
    obtain ⟨g, g1, rfl⟩ := mem_configStates.mp hS
    exact hw g g1
  have hnn : ∀ S ∈ configStates T ds, 0 ≤ connectedWeight ds.length w S := fun S hS => connectedWeight_nonneg (hw' S hS)
  refine ⟨Ω, hΩ, fun N e w1 n1 _ => (Config.ergodic hpos w1 n1).lumped.trials_one (Config.undo hpos) k hnn N ⟨w1, n1⟩,
    fun δ η hδ hη => ?_⟩
  by_cases hex : ∃ e : Config T Script, e.Inv ∧ e.degreeVec = ds
  swap
  · exact ⟨0, fun N _ e w1 n1 => absurd ⟨e, w1, n1⟩ hex⟩
  obtain ⟨e0, w0, n0⟩ := hex
  have herg := Config.ergodic hpos w0 n0
  have hl := herg.lumped
  have hsub : Ω ⊆ configStates T ds := by
    intro S hS
    obtain ⟨g, g1, _, rfl⟩ := (hΩ S).mp hS
    exact mem_configStates.mpr ⟨g, g1, rfl⟩
  have hcon : ∀ g : Graph T, Realises g ds → (g.isConnected = .ok (some true) ↔ ConnectedOn ds.length g.edges) := by
    intro g hg
    have hgn : g.vertexCount = ds.length := hg.2.1
    rw [isConnected_iff_on hg.1 (by rw [hgn]; exact hn0), hgn]
  have hcw : ∀ g : Graph T, Realises g ds → (0 < connectedWeight ds.length w g.edges ↔ g.isConnected = .ok (some true)) :=
    fun g hg => (connectedWeight_pos (hw g hg)).trans (hcon g hg).symm
  have hreal : ∀ e : Config T Script, e.Inv → e.degreeVec = ds → Realises e.graph ds := fun e h1 h2 =>
    realises_iff.mpr ⟨h1.wf, h1.deg.trans h2⟩
  obtain ⟨N₀, hN⟩ := hl.trials_quotient (Config.undo hpos) (k := k) (π := fun _ => 1) (w := w) hnn hsub
    (fun S _ hS => by
      obtain ⟨g, g1, g2, rfl⟩ := (hΩ S).mp hS
      exact ((hcw g g1).mpr g2).ne') (fun ε hε => by
      obtain ⟨t₀, ht⟩ := hlim ε hε
      refine ⟨t₀, fun t hle e ⟨w1, n1⟩ hwe y hy => ?_⟩
      obtain ⟨g, g1, g2, rfl⟩ := (hΩ y).mp hy
      simp only [one_mul]
      exact ht t hle e w1 n1 ((hcw _ (hreal e w1 n1)).mp hwe) g g1 g2)
    (fun t e he hwe y hy hy' => by
      refine herg.trials_zero (Config.undo hpos) k hnn t he hwe ?_
      obtain ⟨g, g1, rfl⟩ := mem_configStates.mp hy
      exact if_neg (fun hc => hy' ((hΩ _).mpr ⟨g, g1, (hcon g g1).mpr hc, rfl⟩))) f hδ hη
  refine ⟨N₀, fun N hle e w1 n1 c1 => ?_⟩
  have := hN N hle e ⟨w1, n1⟩ ((hcw _ (hreal e w1 n1)).mpr c1)
  simp only [one_mul] at this
  exact this

/-! ## Flat histograms -/

/-- Weights inverse to the number of elements with the same value: the share of every value that occurs is the same. -/
theorem flat_share {O U : Type} [DecidableEq O] [DecidableEq U] (Ω : Finset O) (v : O → U) {u : U} (hu : u ∈ Ω.image v) :
    (∑ S ∈ Ω, 1 / ((Ω.filter (fun S' => v S' = v S)).card : ℚ) * (if v S = u then 1 else 0)) /
      ∑ S ∈ Ω, 1 / ((Ω.filter (fun S' => v S' = v S)).card : ℚ) = 1 / ((Ω.image v).card : ℚ) := by
  have hgroup : ∀ u ∈ Ω.image v, ∑ y ∈ Ω with v y = u, 1 / ((Ω.filter (fun S' => v S' = v y)).card : ℚ) = 1 := by
    intro u hu
    obtain ⟨x, hx, rfl⟩ := Finset.mem_image.mp hu
    rw [Finset.sum_congr rfl (g := fun _ => 1 / ((Ω.filter (fun S' => v S' = v x)).card : ℚ)) (fun y hy => by
      rw [(Finset.mem_filter.mp hy).2]), Finset.sum_const, nsmul_eq_mul]
    refine mul_one_div_cancel (Nat.cast_ne_zero.mpr (Finset.card_ne_zero.mpr ⟨x, Finset.mem_filter.mpr ⟨hx, rfl⟩⟩))
  rw [← Finset.sum_fiberwise_of_maps_to (s := Ω) (t := Ω.image v) (g := v) (fun x hx => Finset.mem_image_of_mem v hx)
    (fun S => 1 / ((Ω.filter (fun S' => v S' = v S)).card : ℚ)), Finset.sum_congr rfl hgroup, Finset.sum_const, nsmul_eq_mul, mul_one]
  congr 1
  refine Eq.trans ?_ (hgroup u hu)
  rw [Finset.sum_filter]
  refine Finset.sum_congr rfl (fun y _ => ?_)
  split <;> simp

/-- The sum of an indicator over a list is the number of its entries with the property. -/
theorem sum_indicator {O : Type} (q : O → Prop) [DecidablePred q] (l : List O) :
    (l.map (fun x => if q x then (1 : ℚ) else 0)).sum = (l.countP (fun x => q x) : ℕ) := by
  induction l with
  | nil => simp
  | cons x l ih =>
    rw [List.map_cons, List.sum_cons, ih, List.countP_cons]
    by_cases h : q x <;> simp [h]
    ring

/-- Entropic sampling of `ErEnsembleM`: with weights inverse to the number of networks with the same value of a quantity `v`, the
histogram of the values after the trials becomes flat: the share of the trials with the value `u` is as close as wanted to one over the
number of the values that occur. -/
theorem C99_er_m_histogram {U : Type} [DecidableEq U] (v : Finset (Sym2 ℕ) → U) {n m : ℕ} (hm0 : 0 < m) (hm : m < n * (n - 1) / 2) {k : ℕ}
    (hk : 0 < k) {u : U} (hu : u ∈ ((pairSet n).powersetCard m).image v) {δ η : ℚ} (hδ : 0 < δ) (hη : 0 < η) :
    ∃ N₀ : ℕ, ∀ N : ℕ, N₀ ≤ N → ∀ e : ErM T Script, e.Inv → e.graph.vertexCount = n → e.m = m →
      1 - η < meanTrials ErM.stepDraws (fun e _ => 1 / (e.stepDraws.card : ℚ)) ErM.stepOf ErM.undoStepQuiet (fun e => e.graph.edges)
        (fun S => 1 / (((pairSet n).powersetCard m).filter (fun S' => v S' = v S)).card) k N e
        (fun os => if |(os.countP (fun S => v S = u) : ℚ) / N - 1 / ((((pairSet n).powersetCard m).image v).card : ℚ)| < δ
          then 1 else 0) := by
  obtain ⟨N₀, hN⟩ := (C99_er_m_average (T := T) hm0 hm (w := fun S => 1 / (((pairSet n).powersetCard m).filter (fun S' => v S' = v S)).card)
    (fun S h1 h2 => one_div_pos.mpr (Nat.cast_pos.mpr (Finset.card_pos.mpr ⟨S, Finset.mem_filter.mpr
      ⟨Finset.mem_powersetCard.mpr ⟨h1, h2⟩, rfl⟩⟩))) hk (fun S => if v S = u then 1 else 0)).2 δ η hδ hη
  refine ⟨N₀, fun N hle e w1 n1 p1 => ?_⟩
  have := hN N hle e w1 n1 p1
  rw [flat_share _ v hu] at this
  simp only [sum_indicator] at this
  exact this

/-- The same for `ConfigurationModel`. -/
theorem C99_config_histogram {U : Type} [DecidableEq U] (v : Finset (Sym2 ℕ) → U) {ds : List ℕ} (hpos : ∃ d ∈ ds, 0 < d) :
    ∃ Ω : Finset (Finset (Sym2 ℕ)), (∀ S, S ∈ Ω ↔ ∃ g : Graph T, Realises g ds ∧ g.edges = S) ∧
      ∀ k : ℕ, 0 < k → ∀ u ∈ Ω.image v, ∀ δ η : ℚ, 0 < δ → 0 < η →
        ∃ N₀ : ℕ, ∀ N : ℕ, N₀ ≤ N → ∀ e : Config T Script, e.Inv → e.degreeVec = ds →
          1 - η < meanTrials Config.stepDraws Config.stepProb Config.stepOf Config.undoStepQuiet (fun e => e.graph.edges)
            (fun S => 1 / (Ω.filter (fun S' => v S' = v S)).card) k N e
            (fun os => if |(os.countP (fun S => v S = u) : ℚ) / N - 1 / ((Ω.image v).card : ℚ)| < δ then 1 else 0) := by
  refine ⟨configStates T ds, fun S => mem_configStates, fun k hk u hu δ η hδ hη => ?_⟩
  obtain ⟨Ω, hΩ, hmain⟩ := C99_config_average (T := T) hpos (fun S => if v S = u then 1 else 0)
  have hΩ' : Ω = configStates T ds := by
    ext S
    rw [hΩ, mem_configStates]
  subst hΩ'
  obtain ⟨N₀, hN⟩ := (hmain (fun S => 1 / ((configStates T ds).filter (fun S' => v S' = v S)).card) (fun S hS =>
    one_div_pos.mpr (Nat.cast_pos.mpr (Finset.card_pos.mpr ⟨S, Finset.mem_filter.mpr ⟨hS, rfl⟩⟩))) k hk).2 δ η hδ hη
  refine ⟨N₀, fun N hle e w1 n1 => ?_⟩
  have := hN N hle e w1 n1
  rw [flat_share _ v hu] at this
  simp only [sum_indicator] at this
  exact this

/-- The hypotheses are met: states of the five ensembles with connected networks, in ensembles that also have networks that are not
connected; weights that prefer networks with many edges; a quantity with more than one value. -/
example : (exChord.WF ∧ exChord.vertexCount = 4 ∧ exChord.isConnected = .ok (some true) ∧ 0 < headProb (1 / 2) ∧
      ∀ S ⊆ pairSet 4, (0 : ℚ) < S.card + 1) ∧
    (exSpacialPath.graph.WF ∧ 2 ≤ exSpacialPath.graph.vertexCount ∧ (∀ p q, exSpacialPath.law p q = exSpacialPath.law q p) ∧
      exSpacialPath.graph.isConnected = .ok (some true)) ∧
    (exErM.Inv ∧ exErM.graph.vertexCount = 4 ∧ exErM.m = 4 ∧ 4 < 4 * (4 - 1) / 2 ∧ exErM.graph.isConnected = .ok (some true)) ∧
    (SwValid exSw ∧ exSw.vertexCount = 7 ∧ exSw.isConnected = .ok (some true)) ∧
    ((∃ d ∈ [1, 2, 2, 1], 0 < d) ∧ (exConfigPath []).Inv ∧ (exConfigPath []).degreeVec = [1, 2, 2, 1] ∧
      (exConfigPath []).graph.isConnected = .ok (some true)) ∧
    {true, false} ⊆ ((pairSet 4).powersetCard 4).image (fun S => decide (s(0, 1) ∈ S)) := by
  refine ⟨⟨exChord_wf, by decide, by decide, headProb_pos_of (by norm_num), fun S _ => by positivity⟩,
    ⟨GenericGraph.wf_of_check _ (fun _ _ => trivial) (by decide), by decide, fun p q => by simp only [exSpacialPath, eq_comm], by decide⟩,
    ⟨exErM_inv, by decide, rfl, by decide, by decide⟩, ⟨exSw_valid, by decide, by decide⟩,
    ⟨⟨1, by simp, by decide⟩, exConfigPath_inv [], rfl, by decide⟩, by decide +kernel⟩

end Verif
