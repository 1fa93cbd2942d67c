import Verif.Lemmas.Metropolis
import Verif.Props.Converge
import Verif.Props.ConvergeSw
import Verif.Props.ConvergeConfig

/-!
# C97: simulations with rejection sample the ensemble times the weights of the simulation
-/

set_option linter.unusedSectionVars false
set_option linter.unusedSimpArgs false

namespace Verif
open AdjContainer GenericGraph

variable {T : Type}

/-! ## The steps with their values -/

/-- One `m_step` with the given draws. -/
def ErC.stepOf (e : ErC T Script) (d : ℕ × ℕ × ℕ) : Res (ErStepC × ErC T Script) :=
  ({ e with rng := ⟨[d.1, d.2.1, d.2.2]⟩ } : ErC T Script).mStep

/-- One `m_step` with the given draws. -/
def Spacial.stepOf (e : Spacial T Script) (d : ℕ × ℕ × ℕ) : Res (SpacialStep × Spacial T Script) :=
  ({ e with rng := ⟨[d.1, d.2.1, d.2.2]⟩ } : Spacial T Script).mStep

/-- One `m_step` with the given draws. -/
def ErM.stepOf (e : ErM T Script) (d : ℕ × ℕ) : Res (ErStepM × ErM T Script) :=
  ({ e with rng := ⟨[d.1, d.2]⟩ } : ErM T Script).mStep

/-- One `m_step` with the given draws. -/
def SwEns.stepOf (e : SwEns T Script) (d : ℕ × ℕ × ℕ) : Res (SwChange × SwEns T Script) :=
  ({ e with rng := ⟨[d.1, d.2.1, d.2.2]⟩ } : SwEns T Script).mStep

/-- One `m_step` with the given draws (of the round that is not repeated). -/
def Config.stepOf (e : Config T Script) (d : Σ _ : ℕ × ℕ, ℕ × ℕ) : Res (ConfigStep × Config T Script) :=
  Config.mStep 1 ({ e with rng := ⟨[d.1.1, d.1.2, d.2.1, d.2.2]⟩ } : Config T Script)

/-! ## They can be undone -/

theorem ErC.undo {n : ℕ} (hn : 2 ≤ n) {p : ℚ} :
    Markov.Undo (fun e : ErC T Script => e.graph.WF ∧ e.graph.nextId = n ∧ e.prob = p) ErC.stepDraws ErC.stepWith
      (fun e => e.graph.edges) ErC.stepOf ErC.undoStepQuiet ErC.Sim := by
  refine ⟨fun _ _ => rfl, ?_, fun _ => ⟨rfl, rfl, rfl, rfl, rfl⟩, fun _ _ _ _ h => h.edges⟩
  rintro e d s e' x ⟨h1, h2, h3⟩ _ hs _ ⟨x1, _, _⟩ hsim
  obtain ⟨u, x', _, c2, c3, c4, _⟩ := ErC.back (e := { e with rng := (⟨[d.1, d.2.1, d.2.2]⟩ : Script) }) h1 (by rw [← h2] at hn; exact hn)
    hs x1 hsim
  exact ⟨x', c2, ⟨c3, c4.n.trans h2, c4.prob.trans h3⟩, ⟨c4.n, c4.data, c4.edges, c4.prob, c4.cTarget⟩⟩

theorem Spacial.undo {e₀ : Spacial T Script} {n : ℕ} (hn : 2 ≤ n) :
    Markov.Undo (fun e : Spacial T Script => e.graph.WF ∧ e.graph.nextId = n ∧ e.law = e₀.law ∧ coords e.graph = coords e₀.graph)
      Spacial.stepDraws Spacial.stepWith (fun e => e.graph.edges) Spacial.stepOf Spacial.undoStepQuiet Spacial.Sim := by
  refine ⟨fun _ _ => rfl, ?_, fun _ => .rfl, fun _ _ _ _ h => h.edges⟩
  rintro e d s e' x ⟨h1, h2, h3, h4⟩ _ hs _ ⟨x1, _⟩ hsim
  obtain ⟨u, x', _, c2, c3, c4, _⟩ := Spacial.back (e := { e with rng := (⟨[d.1, d.2.1, d.2.2]⟩ : Script) }) h1 (by rw [← h2] at hn; exact hn)
    hs x1 hsim
  exact ⟨x', c2, ⟨c3, c4.n.trans h2, c4.law.trans h3, c4.coords.trans h4⟩, ⟨c4.n, c4.data, c4.edges, c4.coords, c4.law⟩⟩

theorem ErM.undo {n m : ℕ} :
    Markov.Undo (fun e : ErM T Script => e.Inv ∧ e.graph.nextId = n ∧ e.m = m) ErM.stepDraws ErM.stepWith
      (fun e => e.graph.edges) ErM.stepOf ErM.undoStepQuiet ErM.Sim := by
  refine ⟨fun _ _ => rfl, ?_, fun _ => ⟨rfl, rfl, rfl, rfl, rfl, rfl, rfl⟩, fun _ _ _ _ h => h.edges⟩
  rintro e d s e' x ⟨h1, h2, h3⟩ _ hs _ ⟨x1, _, _⟩ hsim
  obtain ⟨x', _, c2, c3, c4, _⟩ := ErM.back (h1.withRng ⟨[d.1, d.2]⟩) hs x1 hsim
  exact ⟨x', c2, ⟨c3, c4.n.trans h2, c4.m.trans h3⟩, ⟨c4.n, c4.data, c4.edges, c4.m, c4.cur, c4.pos, c4.all⟩⟩

theorem SwSame.rooted {g x : SwGraph T} (h : SwValid g) (hx : SwValid x) (t : SwSame g x) :
    SwGraph.rooted x = SwGraph.rooted g := by
  ext ⟨i, o, j⟩
  rw [h.mem_rooted, hx.mem_rooted, t.mem]

theorem SwEns.undo {n : ℕ} {p : ℚ} :
    Markov.Undo (fun e : SwEns T Script => SwValid e.graph ∧ e.graph.nextId = n ∧ e.rProb = p) SwEns.stepDraws SwEns.stepWith
      (fun e => SwGraph.rooted e.graph) SwEns.stepOf SwEns.undoStepQuiet SwEns.Sim := by
  refine ⟨fun _ _ => rfl, ?_, fun _ => ⟨SwSame.refl _, rfl⟩, fun _ _ he hx h => h.same.rooted he.1 hx.1⟩
  rintro e d s e' x ⟨h1, h2, h3⟩ _ hs _ ⟨x1, x2, x3⟩ hsim
  obtain ⟨s', e'', a1, a2, a3⟩ := SwEns.mStep_spec (e := { e with rng := (⟨[d.1, d.2.1, d.2.2]⟩ : Script) }) h1
  have hs' : ({ e with rng := (⟨[d.1, d.2.1, d.2.2]⟩ : Script) } : SwEns T Script).mStep = .ok (s, e') := hs
  rw [hs'] at a1
  simp only [Res.ok.injEq, Prod.mk.injEq] at a1
  obtain ⟨rfl, rfl⟩ := a1
  obtain ⟨u, x', _, c2, c3, c4, c5, _⟩ := SwEns.back (e := { e with rng := (⟨[d.1, d.2.1, d.2.2]⟩ : Script) }) h1 a2 x1 hsim.same
  exact ⟨x', c2, ⟨c3, c4.n.trans h2, c5.trans x3⟩, ⟨c4, (c5.trans x3).trans h3.symm⟩⟩

theorem Config.edge_pos {ds : List ℕ} (hpos : ∃ d ∈ ds, 0 < d) {e : Config T Script} (h1 : e.Inv) (h2 : e.degreeVec = ds) :
    1 ≤ e.graph.edgeCount := by
  obtain ⟨d, hd, hd0⟩ := hpos
  rw [← h2] at hd
  obtain ⟨v, hv, rfl⟩ := List.getElem_of_mem hd
  have : 0 < (e.graph.nbrs v).length := by
    rw [h1.nbrs_length]
    simpa [List.getD, hv] using hd0
  obtain ⟨w, hw⟩ := List.exists_mem_of_length_pos this
  rw [h1.wf.edgeCount_eq_card]
  exact Finset.card_pos.mpr ⟨s(v, w), h1.wf.mem_edges.mpr hw⟩

theorem Config.undo {ds : List ℕ} (hpos : ∃ d ∈ ds, 0 < d) :
    Markov.Undo (fun e : Config T Script => e.Inv ∧ e.degreeVec = ds) Config.stepDraws Config.stepWith (fun e => e.graph.edges)
      Config.stepOf Config.undoStepQuiet Config.Sim := by
  refine ⟨fun _ _ => rfl, ?_, fun _ => ⟨rfl, rfl, rfl, rfl⟩, fun _ _ _ _ h => h.edges⟩
  rintro e d s e' x ⟨h1, h2⟩ _ hs _ ⟨x1, _⟩ hsim
  obtain ⟨x', _, c2, c3, c4⟩ := Config.back (e := { e with rng := (⟨[d.1.1, d.1.2, d.2.1, d.2.2]⟩ : Script) })
    ⟨⟨h1.wf, h1.n, h1.halves⟩, h1.deg⟩ (show 1 ≤ e.graph.edgeCount from Config.edge_pos hpos h1 h2) hs x1 hsim
  exact ⟨x', c2, ⟨c3, c4.deg.trans h2⟩, ⟨c4.n, c4.edges, c4.data, c4.deg⟩⟩

/-! ## The stationary law of the random graph ensemble -/

theorem indepProb_gnp {n : ℕ} {q : ℚ} {S : Finset (Sym2 ℕ)} (hS : S ⊆ pairSet n) :
    indepProb n (fun _ => q) S = q ^ S.card * (1 - q) ^ (n * (n - 1) / 2 - S.card) := by
  unfold indepProb
  rw [Finset.prod_ite, Finset.prod_const, Finset.prod_const]
  have c1 : (pairSet n).filter (fun x => x ∈ S) = S := by
    ext x
    rw [Finset.mem_filter]
    exact ⟨fun h => h.2, fun h => ⟨hS h, h⟩⟩
  have c2 := Finset.card_filter_add_card_filter_not (s := pairSet n) (fun x => x ∈ S)
  rw [c1, card_pairSet] at c2
  rw [c1, ← c2, Nat.add_sub_cancel_left]

/-! ## The theorems -/

/-- The probability of the edge set `S` in the ensemble of random graphs with `n` vertices, where every pair is an edge with the
probability of the coin, independently of the others. -/
def gnpProb (n : ℕ) (p : ℚ) (S : Finset (Sym2 ℕ)) : ℚ := headProb p ^ S.card * (1 - headProb p) ^ (n * (n - 1) / 2 - S.card)

/-- A simulation of `ErEnsembleC` with `k` steps in a trial and the weights `w`: the probability of a network converges to its
probability in the ensemble times its weight, normalised; and the law is in detailed balance with it after any number of trials. -/
theorem C97_er_c_metropolis {n : ℕ} (hn : 2 ≤ n) (p : ℚ) {w : Finset (Sym2 ℕ) → ℚ} (hw : ∀ S ⊆ pairSet n, 0 < w S) {k : ℕ} (hk : 0 < k) :
    (∀ ε : ℚ, 0 < ε → ∃ t₀, ∀ t, t₀ ≤ t → ∀ e : ErC T Script, e.graph.WF → e.graph.vertexCount = n → e.prob = p →
      ∀ g : Graph T, g.WF → g.vertexCount = n →
        |lawAfterTrials ErC.stepDraws (fun e _ => 1 / (e.stepDraws.card : ℚ)) ErC.stepOf ErC.undoStepQuiet (fun e => e.graph.edges) w k t e
            g.edges -
          gnpProb n p g.edges * w g.edges / ∑ S ∈ (pairSet n).powerset, gnpProb n p S * w S| < ε) ∧
    ∀ (t : ℕ) (e e' : ErC T Script), e.graph.WF → e.graph.vertexCount = n → e.prob = p → e'.graph.WF → e'.graph.vertexCount = n →
      e'.prob = p →
      gnpProb n p e.graph.edges * w e.graph.edges *
        lawAfterTrials ErC.stepDraws (fun e _ => 1 / (e.stepDraws.card : ℚ)) ErC.stepOf ErC.undoStepQuiet (fun e => e.graph.edges) w k t e
          e'.graph.edges =
      gnpProb n p e'.graph.edges * w e'.graph.edges *
        lawAfterTrials ErC.stepDraws (fun e _ => 1 / (e.stepDraws.card : ℚ)) ErC.stepOf ErC.undoStepQuiet (fun e => e.graph.edges) w k t e'
          e.graph.edges := by
  have hw' : ∀ S ∈ (pairSet n).powerset, 0 < w S := fun S hS => hw S (Finset.mem_powerset.mp hS)
  have hsub : ∀ g : Graph T, g.WF → g.nextId = n → g.edges ⊆ pairSet n := fun g hg hgn => by rw [← hgn]; exact edges_sub_pairSet hg
  constructor
  · intro ε hε
    by_cases hex : ∃ e : ErC T Script, e.graph.WF ∧ e.graph.nextId = n ∧ e.prob = p
    swap
    · exact ⟨0, fun t _ e w1 n1 p1 => absurd ⟨e, w1, n1, p1⟩ hex⟩
    obtain ⟨e0, w0, n0, p0⟩ := hex
    obtain ⟨t₀, ht⟩ := (ErC.ergodic hn w0 n0 p0).trials (ErC.undo hn) hk hw' hε
    refine ⟨t₀, fun t hle e w1 n1 p1 g hg hgn => ?_⟩
    have := ht t hle e ⟨w1, n1, p1⟩ g.edges (Finset.mem_powerset.mpr (hsub g hg hgn))
    rw [indepProb_gnp (hsub g hg hgn), Finset.sum_congr rfl (g := fun S => gnpProb n p S * w S) (fun S hS => by
      rw [indepProb_gnp (Finset.mem_powerset.mp hS)]; rfl)] at this
    exact this
  · intro t e e' w1 n1 p1 w2 n2 p2
    have := (ErC.ergodic hn w1 n1 p1).trials_balance (ErC.undo hn) k hw' t ⟨w1, n1, p1⟩ ⟨w2, n2, p2⟩
    rw [indepProb_gnp (hsub _ w1 n1), indepProb_gnp (hsub _ w2 n2)] at this
    exact this

/-- The probability of the edge set `S` in the spatial ensemble: the product over all pairs of the probability that the coin of the
pair gives what `S` says. -/
def Spacial.setProb {R : Type} (e : Spacial T R) (S : Finset (Sym2 ℕ)) : ℚ :=
  (e.weight S : ℚ) / (2 ^ 53) ^ (e.graph.vertexCount * (e.graph.vertexCount - 1) / 2)

theorem Spacial.indepProb_eq {e : Spacial T Script} (hsym : ∀ p q, e.law p q = e.law q p) (S : Finset (Sym2 ℕ)) :
    indepProb e.graph.vertexCount (fun x => headProb (e.pairProb hsym x)) S = e.setProb S := by
  unfold indepProb Spacial.setProb Spacial.weight
  rw [← length_allPairs, ← List.toFinset_card_of_nodup (nodup_allPairs _), ← Finset.prod_const, Nat.cast_prod,
    ← Finset.prod_div_distrib]
  have himg : pairSet e.graph.vertexCount = (allPairs e.graph.vertexCount).toFinset.image toEdge := by
    ext x; simp [pairSet]
  rw [himg, Finset.prod_image (by
    intro p hp p' hp' hpp
    exact toEdge_injOn (List.mem_toFinset.mp hp) (List.mem_toFinset.mp hp') hpp)]
  refine Finset.prod_congr rfl (fun p _ => ?_)
  have hqp : e.pairProb hsym (toEdge p) = e.prob p.1 p.2 := rfl
  simp only [hqp]
  split
  · rfl
  · rw [Nat.cast_sub (heads_le _), Nat.cast_pow, Nat.cast_ofNat, headProb]
    field_simp

/-- The same for `SpacialEnsemble`. -/
theorem C97_spacial_metropolis {e₀ : Spacial T Script} (h₀ : e₀.graph.WF) (hn : 2 ≤ e₀.graph.vertexCount)
    (hsym : ∀ p q, e₀.law p q = e₀.law q p) {w : Finset (Sym2 ℕ) → ℚ} (hw : ∀ S ⊆ pairSet e₀.graph.vertexCount, 0 < w S) {k : ℕ}
    (hk : 0 < k) :
    (∀ ε : ℚ, 0 < ε → ∃ t₀, ∀ t, t₀ ≤ t → ∀ e : Spacial T Script, e.graph.WF → e.graph.vertexCount = e₀.graph.vertexCount →
      e.law = e₀.law → coords e.graph = coords e₀.graph → ∀ g : SpacialGraph T, g.WF → g.vertexCount = e₀.graph.vertexCount →
        |lawAfterTrials Spacial.stepDraws (fun e _ => 1 / (e.stepDraws.card : ℚ)) Spacial.stepOf Spacial.undoStepQuiet
            (fun e => e.graph.edges) w k t e g.edges -
          e₀.setProb g.edges * w g.edges / ∑ S ∈ (pairSet e₀.graph.vertexCount).powerset, e₀.setProb S * w S| < ε) ∧
    ∀ (t : ℕ) (e : Spacial T Script), e.graph.WF → e.graph.vertexCount = e₀.graph.vertexCount → e.law = e₀.law →
      coords e.graph = coords e₀.graph →
      e₀.setProb e₀.graph.edges * w e₀.graph.edges *
        lawAfterTrials Spacial.stepDraws (fun e _ => 1 / (e.stepDraws.card : ℚ)) Spacial.stepOf Spacial.undoStepQuiet
          (fun e => e.graph.edges) w k t e₀ e.graph.edges =
      e₀.setProb e.graph.edges * w e.graph.edges *
        lawAfterTrials Spacial.stepDraws (fun e _ => 1 / (e.stepDraws.card : ℚ)) Spacial.stepOf Spacial.undoStepQuiet
          (fun e => e.graph.edges) w k t e e₀.graph.edges := by
  have hw' : ∀ S ∈ (pairSet e₀.graph.vertexCount).powerset, 0 < w S := fun S hS => hw S (Finset.mem_powerset.mp hS)
  have hsub : ∀ g : SpacialGraph T, g.WF → g.vertexCount = e₀.graph.vertexCount → g.edges ⊆ pairSet e₀.graph.vertexCount :=
    fun g hg hgn => by rw [← hgn]; exact edges_sub_pairSet hg
  have hp : ∀ S, indepProb e₀.graph.vertexCount (fun x => headProb (e₀.pairProb hsym x)) S = e₀.setProb S :=
    fun S => Spacial.indepProb_eq hsym S
  constructor
  · intro ε hε
    obtain ⟨t₀, ht⟩ := (Spacial.ergodic h₀ hn rfl hsym).trials (Spacial.undo hn) hk hw' hε
    refine ⟨t₀, fun t hle e w1 n1 l1 c1 g hg hgn => ?_⟩
    have := ht t hle e ⟨w1, n1, l1, c1⟩ g.edges (Finset.mem_powerset.mpr (hsub g hg hgn))
    simp only [hp] at this
    exact this
  · intro t e w1 n1 l1 c1
    have := (Spacial.ergodic h₀ hn rfl hsym).trials_balance (Spacial.undo hn) k hw' t ⟨h₀, rfl, rfl, rfl⟩ ⟨w1, n1, l1, c1⟩
    simp only [hp] at this
    exact this

/-- The same for `ErEnsembleM`; the networks of the ensemble all have the same probability. -/
theorem C97_er_m_metropolis {n m : ℕ} (hm0 : 0 < m) (hm : m < n * (n - 1) / 2) {w : Finset (Sym2 ℕ) → ℚ}
    (hw : ∀ S ⊆ pairSet n, S.card = m → 0 < w S) {k : ℕ} (hk : 0 < k) :
    (∀ ε : ℚ, 0 < ε → ∃ t₀, ∀ t, t₀ ≤ t → ∀ e : ErM T Script, e.Inv → e.graph.vertexCount = n → e.m = m →
      ∀ g : Graph T, g.WF → g.vertexCount = n → g.edgeCount = m →
        |lawAfterTrials ErM.stepDraws (fun e _ => 1 / (e.stepDraws.card : ℚ)) ErM.stepOf ErM.undoStepQuiet (fun e => e.graph.edges) w k t e
            g.edges -
          w g.edges / ∑ S ∈ (pairSet n).powersetCard m, w S| < ε) ∧
    ∀ (t : ℕ) (e e' : ErM T Script), e.Inv → e.graph.vertexCount = n → e.m = m → e'.Inv → e'.graph.vertexCount = n → e'.m = m →
      w e.graph.edges *
        lawAfterTrials ErM.stepDraws (fun e _ => 1 / (e.stepDraws.card : ℚ)) ErM.stepOf ErM.undoStepQuiet (fun e => e.graph.edges) w k t e
          e'.graph.edges =
      w e'.graph.edges *
        lawAfterTrials ErM.stepDraws (fun e _ => 1 / (e.stepDraws.card : ℚ)) ErM.stepOf ErM.undoStepQuiet (fun e => e.graph.edges) w k t e'
          e.graph.edges := by
  have hw' : ∀ S ∈ (pairSet n).powersetCard m, 0 < w S := fun S hS =>
    hw S (Finset.mem_powersetCard.mp hS).1 (Finset.mem_powersetCard.mp hS).2
  constructor
  · intro ε hε
    by_cases hex : ∃ e : ErM T Script, e.Inv ∧ e.graph.nextId = n ∧ e.m = m
    swap
    · exact ⟨0, fun t _ e w1 n1 p1 => absurd ⟨e, w1, n1, p1⟩ hex⟩
    obtain ⟨e0, w0, n0, p0⟩ := hex
    obtain ⟨t₀, ht⟩ := (ErM.ergodic hm0 hm w0 n0 p0).trials ErM.undo hk hw' hε
    refine ⟨t₀, fun t hle e w1 n1 p1 g hg hgn hgm => ?_⟩
    have hsub : g.edges ⊆ pairSet n := by rw [← hgn]; exact edges_sub_pairSet hg
    have := ht t hle e ⟨w1, n1, p1⟩ g.edges (Finset.mem_powersetCard.mpr ⟨hsub, by rw [← hg.edgeCount_eq_card, hgm]⟩)
    simp only [one_mul] at this
    exact this
  · intro t e e' w1 n1 p1 w2 n2 p2
    have := (ErM.ergodic hm0 hm w1 n1 p1).trials_balance ErM.undo k hw' t ⟨w1, n1, p1⟩ ⟨w2, n2, p2⟩
    simp only [one_mul] at this
    exact this

/-- The same for `SwEnsemble`; the weights are on the networks with the roots of their edges. -/
theorem C97_sw_metropolis {n : ℕ} (h6 : 6 ≤ n) {p : ℚ} (hp : 0 ≤ p) :
    ∃ Ω : Finset (Finset (ℕ × ℕ × ℕ)),
      (∀ S, S ∈ Ω ↔ ∃ g : SwGraph T, SwValid g ∧ g.vertexCount = n ∧ SwGraph.rooted g = S) ∧
      ∀ w : Finset (ℕ × ℕ × ℕ) → ℚ, (∀ S ∈ Ω, 0 < w S) → ∀ k : ℕ, 0 < k →
        (∀ ε : ℚ, 0 < ε → ∃ t₀, ∀ t, t₀ ≤ t → ∀ e : SwEns T Script, SwValid e.graph → e.graph.vertexCount = n → e.rProb = p →
          ∀ g : SwGraph T, SwValid g → g.vertexCount = n →
            |lawAfterTrials SwEns.stepDraws (fun e _ => 1 / (e.stepDraws.card : ℚ)) SwEns.stepOf SwEns.undoStepQuiet
                (fun e => SwGraph.rooted e.graph) w k t e (SwGraph.rooted g) -
              swWeight n p (SwGraph.rooted g) * w (SwGraph.rooted g) / ∑ S ∈ Ω, swWeight n p S * w S| < ε) ∧
        ∀ (t : ℕ) (e e' : SwEns T Script), SwValid e.graph → e.graph.vertexCount = n → e.rProb = p → SwValid e'.graph →
          e'.graph.vertexCount = n → e'.rProb = p →
          swWeight n p (SwGraph.rooted e.graph) * w (SwGraph.rooted e.graph) *
            lawAfterTrials SwEns.stepDraws (fun e _ => 1 / (e.stepDraws.card : ℚ)) SwEns.stepOf SwEns.undoStepQuiet
              (fun e => SwGraph.rooted e.graph) w k t e (SwGraph.rooted e'.graph) =
          swWeight n p (SwGraph.rooted e'.graph) * w (SwGraph.rooted e'.graph) *
            lawAfterTrials SwEns.stepDraws (fun e _ => 1 / (e.stepDraws.card : ℚ)) SwEns.stepOf SwEns.undoStepQuiet
              (fun e => SwGraph.rooted e.graph) w k t e' (SwGraph.rooted e.graph) := by
  refine ⟨swStates T n, fun S => mem_swStates, fun w hw k hk => ⟨fun ε hε => ?_, ?_⟩⟩
  · by_cases hex : ∃ g : SwGraph T, SwValid g ∧ g.nextId = n
    swap
    · exact ⟨0, fun t _ e h1 h2 => absurd ⟨e.graph, h1, h2⟩ hex⟩
    obtain ⟨g₀, w₀, n₀⟩ := hex
    obtain ⟨t₀, ht⟩ := (SwEns.ergodic h6 hp w₀ n₀).trials SwEns.undo hk hw hε
    exact ⟨t₀, fun t hle e h1 h2 h3 g g1 g2 => ht t hle e ⟨h1, h2, h3⟩ _ (mem_swStates.mpr ⟨g, g1, g2, rfl⟩)⟩
  · intro t e e' w1 n1 p1 w2 n2 p2
    exact (SwEns.ergodic h6 hp w1 n1).trials_balance SwEns.undo k hw t ⟨w1, n1, p1⟩ ⟨w2, n2, p2⟩

/-- The same for `ConfigurationModel`; the networks with the given degrees all have the same probability. -/
theorem C97_config_metropolis {ds : List ℕ} (hpos : ∃ d ∈ ds, 0 < d) :
    ∃ Ω : Finset (Finset (Sym2 ℕ)), (∀ S, S ∈ Ω ↔ ∃ g : Graph T, Realises g ds ∧ g.edges = S) ∧
      ∀ w : Finset (Sym2 ℕ) → ℚ, (∀ S ∈ Ω, 0 < w S) → ∀ k : ℕ, 0 < k →
        (∀ ε : ℚ, 0 < ε → ∃ t₀, ∀ t, t₀ ≤ t → ∀ e : Config T Script, e.Inv → e.degreeVec = ds → ∀ g : Graph T, Realises g ds →
          |lawAfterTrials Config.stepDraws Config.stepProb Config.stepOf Config.undoStepQuiet (fun e => e.graph.edges) w k t e g.edges -
            w g.edges / ∑ S ∈ Ω, w S| < ε) ∧
        ∀ (t : ℕ) (e e' : Config T Script), e.Inv → e.degreeVec = ds → e'.Inv → e'.degreeVec = ds →
          w e.graph.edges *
            lawAfterTrials Config.stepDraws Config.stepProb Config.stepOf Config.undoStepQuiet (fun e => e.graph.edges) w k t e
              e'.graph.edges =
          w e'.graph.edges *
            lawAfterTrials Config.stepDraws Config.stepProb Config.stepOf Config.undoStepQuiet (fun e => e.graph.edges) w k t e'
              e.graph.edges := by
  refine ⟨configStates T ds, fun S => mem_configStates, fun w hw k hk => ⟨fun ε hε => ?_, ?_⟩⟩
  · by_cases hex : ∃ e : Config T Script, e.Inv ∧ e.degreeVec = ds
    swap
    · exact ⟨0, fun t _ e h1 h2 => absurd ⟨e, h1, h2⟩ hex⟩
    obtain ⟨e₀, w₀, d₀⟩ := hex
    obtain ⟨t₀, ht⟩ := (Config.ergodic hpos w₀ d₀).trials (Config.undo hpos) hk hw hε
    refine ⟨t₀, fun t hle e h1 h2 g g1 => ?_⟩
    have := ht t hle e ⟨h1, h2⟩ g.edges (mem_configStates.mpr ⟨g, g1, rfl⟩)
    simp only [one_mul] at this
    exact this
  · intro t e e' w1 n1 w2 n2
    have := (Config.ergodic hpos w1 n1).trials_balance (Config.undo hpos) k hw t ⟨w1, n1⟩ ⟨w2, n2⟩
    simp only [one_mul] at this
    exact this

/-- Entropic sampling of `ErEnsembleM`: with weights inverse to the number of networks that have the same value of a quantity `f`,
every value that occurs has the same probability in the end. -/
theorem C97_er_m_flat {U : Type} [DecidableEq U] (f : Finset (Sym2 ℕ) → U) {n m : ℕ} (hm0 : 0 < m) (hm : m < n * (n - 1) / 2) {k : ℕ}
    (hk : 0 < k) {ε : ℚ} (hε : 0 < ε) :
    ∃ t₀, ∀ t, t₀ ≤ t → ∀ e : ErM T Script, e.Inv → e.graph.vertexCount = n → e.m = m → ∀ u ∈ ((pairSet n).powersetCard m).image f,
      |(∑ S ∈ (pairSet n).powersetCard m with f S = u,
          lawAfterTrials ErM.stepDraws (fun e _ => 1 / (e.stepDraws.card : ℚ)) ErM.stepOf ErM.undoStepQuiet (fun e => e.graph.edges)
            (fun S => 1 / (((pairSet n).powersetCard m).filter (fun S' => f S' = f S)).card) k t e S) -
        1 / ((((pairSet n).powersetCard m).image f).card : ℚ)| < ε := by
  by_cases hex : ∃ e : ErM T Script, e.Inv ∧ e.graph.nextId = n ∧ e.m = m
  swap
  · exact ⟨0, fun t _ e w1 n1 p1 => absurd ⟨e, w1, n1, p1⟩ hex⟩
  obtain ⟨e0, w0, n0, p0⟩ := hex
  obtain ⟨t₀, ht⟩ := (ErM.ergodic hm0 hm w0 n0 p0).trials_flat ErM.undo hk (fun _ _ => one_pos) f hε
  refine ⟨t₀, fun t hle e w1 n1 p1 u hu => ?_⟩
  have := ht t hle e ⟨w1, n1, p1⟩ u hu
  simp only [Finset.sum_const, nsmul_eq_mul, mul_one] at this
  exact this

/-- The same for `ConfigurationModel`. -/
theorem C97_config_flat {U : Type} [DecidableEq U] (f : Finset (Sym2 ℕ) → U) {ds : List ℕ} (hpos : ∃ d ∈ ds, 0 < d) :
    ∃ Ω : Finset (Finset (Sym2 ℕ)), (∀ S, S ∈ Ω ↔ ∃ g : Graph T, Realises g ds ∧ g.edges = S) ∧
      ∀ k : ℕ, 0 < k → ∀ ε : ℚ, 0 < ε → ∃ t₀, ∀ t, t₀ ≤ t → ∀ e : Config T Script, e.Inv → e.degreeVec = ds → ∀ u ∈ Ω.image f,
        |(∑ S ∈ Ω with f S = u,
            lawAfterTrials Config.stepDraws Config.stepProb Config.stepOf Config.undoStepQuiet (fun e => e.graph.edges)
              (fun S => 1 / (Ω.filter (fun S' => f S' = f S)).card) k t e S) -
          1 / ((Ω.image f).card : ℚ)| < ε := by
  refine ⟨configStates T ds, fun S => mem_configStates, fun k hk ε hε => ?_⟩
  by_cases hex : ∃ e : Config T Script, e.Inv ∧ e.degreeVec = ds
  swap
  · exact ⟨0, fun t _ e h1 h2 => absurd ⟨e, h1, h2⟩ hex⟩
  obtain ⟨e₀, w₀, d₀⟩ := hex
  obtain ⟨t₀, ht⟩ := (Config.ergodic hpos w₀ d₀).trials_flat (Config.undo hpos) hk (fun _ _ => one_pos) f hε
  refine ⟨t₀, fun t hle e h1 h2 u hu => ?_⟩
  have := ht t hle e ⟨h1, h2⟩ u hu
  simp only [Finset.sum_const, nsmul_eq_mul, mul_one] at this
  exact this

/-! ## Weights that may vanish

A trial is also rejected if the quantity of interest is not defined for the network, as `diameter` for networks that are not connected;
and entropic sampling is restricted to an interval of values.  Such networks have the weight zero. -/

/-- `ErEnsembleC`, with weights whose support is closed under adding edges (as the connected networks are): any number of steps in a
trial is possible. -/
theorem C97_er_c_monotone {n : ℕ} (hn : 2 ≤ n) {p : ℚ} (hp : 0 < headProb p) {w : Finset (Sym2 ℕ) → ℚ} (hw : ∀ S ⊆ pairSet n, 0 ≤ w S)
    (hup : ∀ S S', S ⊆ S' → S' ⊆ pairSet n → 0 < w S → 0 < w S') {k : ℕ} (hk : 0 < k) {ε : ℚ} (hε : 0 < ε) :
    ∃ t₀, ∀ t, t₀ ≤ t → ∀ e : ErC T Script, e.graph.WF → e.graph.vertexCount = n → e.prob = p → 0 < w e.graph.edges →
      ∀ g : Graph T, g.WF → g.vertexCount = n →
        |lawAfterTrials ErC.stepDraws (fun e _ => 1 / (e.stepDraws.card : ℚ)) ErC.stepOf ErC.undoStepQuiet (fun e => e.graph.edges) w k t e
            g.edges -
          gnpProb n p g.edges * w g.edges / ∑ S ∈ (pairSet n).powerset, gnpProb n p S * w S| < ε := by
  by_cases hex : ∃ e : ErC T Script, e.graph.WF ∧ e.graph.nextId = n ∧ e.prob = p
  swap
  · exact ⟨0, fun t _ e w1 n1 p1 => absurd ⟨e, w1, n1, p1⟩ hex⟩
  obtain ⟨e0, w0, n0, p0⟩ := hex
  obtain ⟨t₀, ht⟩ := (ErC.toggles w0 n0 p0).trials_up hn (fun _ _ => hp) (ErC.undo hn) hk hw hup hε
  refine ⟨t₀, fun t hle e w1 n1 p1 hwe g hg hgn => ?_⟩
  have hsub : g.edges ⊆ pairSet n := by rw [← hgn]; exact edges_sub_pairSet hg
  have := ht t hle e ⟨w1, n1, p1⟩ hwe g.edges hsub
  rw [indepProb_gnp hsub, Finset.sum_congr rfl (g := fun S => gnpProb n p S * w S) (fun S hS => by
    rw [indepProb_gnp (Finset.mem_powerset.mp hS)]; rfl)] at this
  exact this

/-- The same for `SpacialEnsemble`. -/
theorem C97_spacial_monotone {e₀ : Spacial T Script} (h₀ : e₀.graph.WF) (hn : 2 ≤ e₀.graph.vertexCount)
    (hsym : ∀ p q, e₀.law p q = e₀.law q p) (hpos : ∀ i j, 0 < headProb (e₀.prob i j)) {w : Finset (Sym2 ℕ) → ℚ}
    (hw : ∀ S ⊆ pairSet e₀.graph.vertexCount, 0 ≤ w S)
    (hup : ∀ S S', S ⊆ S' → S' ⊆ pairSet e₀.graph.vertexCount → 0 < w S → 0 < w S') {k : ℕ} (hk : 0 < k) {ε : ℚ} (hε : 0 < ε) :
    ∃ t₀, ∀ t, t₀ ≤ t → ∀ e : Spacial T Script, e.graph.WF → e.graph.vertexCount = e₀.graph.vertexCount →
      e.law = e₀.law → coords e.graph = coords e₀.graph → 0 < w e.graph.edges →
      ∀ g : SpacialGraph T, g.WF → g.vertexCount = e₀.graph.vertexCount →
        |lawAfterTrials Spacial.stepDraws (fun e _ => 1 / (e.stepDraws.card : ℚ)) Spacial.stepOf Spacial.undoStepQuiet
            (fun e => e.graph.edges) w k t e g.edges -
          e₀.setProb g.edges * w g.edges / ∑ S ∈ (pairSet e₀.graph.vertexCount).powerset, e₀.setProb S * w S| < ε := by
  obtain ⟨t₀, ht⟩ := (Spacial.toggles h₀ rfl hsym).trials_up hn (fun x _ => by
    induction x using Sym2.ind with | _ i j => exact hpos i j) (Spacial.undo hn) hk hw hup hε
  refine ⟨t₀, fun t hle e w1 n1 l1 c1 hwe g hg hgn => ?_⟩
  have hsub : g.edges ⊆ pairSet e₀.graph.vertexCount := by rw [← hgn]; exact edges_sub_pairSet hg
  have := ht t hle e ⟨w1, n1, l1, c1⟩ hwe g.edges hsub
  have hp : ∀ S, indepProb e₀.graph.nextId (fun x => headProb (e₀.pairProb hsym x)) S = e₀.setProb S :=
    fun S => Spacial.indepProb_eq hsym S
  simp only [hp] at this
  exact this

/-- `ErEnsembleC`, with any weights: a trial has to have sufficiently many steps. -/
theorem C97_er_c_forbidden {n : ℕ} (hn : 2 ≤ n) (p : ℚ) :
    ∃ k₀, ∀ k, k₀ ≤ k → ∀ w : Finset (Sym2 ℕ) → ℚ, (∀ S ⊆ pairSet n, 0 ≤ w S) → (∃ S ⊆ pairSet n, 0 < gnpProb n p S ∧ 0 < w S) →
      ∀ ε : ℚ, 0 < ε → ∃ t₀, ∀ t, t₀ ≤ t → ∀ e : ErC T Script, e.graph.WF → e.graph.vertexCount = n → e.prob = p →
        0 < w e.graph.edges → ∀ g : Graph T, g.WF → g.vertexCount = n →
          |lawAfterTrials ErC.stepDraws (fun e _ => 1 / (e.stepDraws.card : ℚ)) ErC.stepOf ErC.undoStepQuiet (fun e => e.graph.edges) w k t
              e g.edges -
            gnpProb n p g.edges * w g.edges / ∑ S ∈ (pairSet n).powerset, gnpProb n p S * w S| < ε := by
  by_cases hex : ∃ e : ErC T Script, e.graph.WF ∧ e.graph.nextId = n ∧ e.prob = p
  swap
  · exact ⟨0, fun _ _ _ _ _ _ _ => ⟨0, fun t _ e w1 n1 p1 => absurd ⟨e, w1, n1, p1⟩ hex⟩⟩
  obtain ⟨e0, w0, n0, p0⟩ := hex
  obtain ⟨k₀, hk⟩ := (ErC.ergodic hn w0 n0 p0).trials_large (ErC.undo hn)
  refine ⟨k₀, fun k hle w hw hS ε hε => ?_⟩
  obtain ⟨S, hS, hπ, hwS⟩ := hS
  obtain ⟨t₀, ht⟩ := hk k hle w (fun S hS => hw S (Finset.mem_powerset.mp hS))
    ⟨S, Finset.mem_powerset.mpr hS, by rw [indepProb_gnp hS]; exact hπ, hwS⟩ ε hε
  refine ⟨t₀, fun t hle e w1 n1 p1 hwe g hg hgn => ?_⟩
  have hsub : g.edges ⊆ pairSet n := by rw [← hgn]; exact edges_sub_pairSet hg
  have := ht t hle e ⟨w1, n1, p1⟩ hwe g.edges (Finset.mem_powerset.mpr hsub)
  rw [indepProb_gnp hsub, Finset.sum_congr rfl (g := fun S => gnpProb n p S * w S) (fun S hS => by
    rw [indepProb_gnp (Finset.mem_powerset.mp hS)]; rfl)] at this
  exact this

/-- The same for `ErEnsembleM`. -/
theorem C97_er_m_forbidden {n m : ℕ} (hm0 : 0 < m) (hm : m < n * (n - 1) / 2) :
    ∃ k₀, ∀ k, k₀ ≤ k → ∀ w : Finset (Sym2 ℕ) → ℚ, (∀ S ∈ (pairSet n).powersetCard m, 0 ≤ w S) → ∀ ε : ℚ, 0 < ε →
      ∃ t₀, ∀ t, t₀ ≤ t → ∀ e : ErM T Script, e.Inv → e.graph.vertexCount = n → e.m = m → 0 < w e.graph.edges →
        ∀ g : Graph T, g.WF → g.vertexCount = n → g.edgeCount = m →
          |lawAfterTrials ErM.stepDraws (fun e _ => 1 / (e.stepDraws.card : ℚ)) ErM.stepOf ErM.undoStepQuiet (fun e => e.graph.edges) w k t
              e g.edges -
            w g.edges / ∑ S ∈ (pairSet n).powersetCard m, w S| < ε := by
  by_cases hex : ∃ e : ErM T Script, e.Inv ∧ e.graph.nextId = n ∧ e.m = m
  swap
  · exact ⟨0, fun _ _ _ _ _ _ => ⟨0, fun t _ e w1 n1 p1 => absurd ⟨e, w1, n1, p1⟩ hex⟩⟩
  obtain ⟨e0, w0, n0, p0⟩ := hex
  obtain ⟨k₀, hk⟩ := (ErM.ergodic hm0 hm w0 n0 p0).trials_large ErM.undo
  refine ⟨k₀, fun k hle w hw ε hε => ?_⟩
  by_cases hS : ∃ S ∈ (pairSet n).powersetCard m, 0 < w S
  swap
  · refine ⟨0, fun t _ e w1 n1 p1 hwe => absurd ⟨_, ?_, hwe⟩ hS⟩
    exact (ErM.ergodic hm0 hm w1 n1 p1).lumped.mem e ⟨w1, n1, p1⟩
  obtain ⟨S, hS, hwS⟩ := hS
  obtain ⟨t₀, ht⟩ := hk k hle w hw ⟨S, hS, one_pos, hwS⟩ ε hε
  refine ⟨t₀, fun t hle e w1 n1 p1 hwe g hg hgn hgm => ?_⟩
  have hsub : g.edges ⊆ pairSet n := by rw [← hgn]; exact edges_sub_pairSet hg
  have := ht t hle e ⟨w1, n1, p1⟩ hwe g.edges (Finset.mem_powersetCard.mpr ⟨hsub, by rw [← hg.edgeCount_eq_card, hgm]⟩)
  simp only [one_mul] at this
  exact this

/-- The same for `ConfigurationModel`. -/
theorem C97_config_forbidden {ds : List ℕ} (hpos : ∃ d ∈ ds, 0 < d) :
    ∃ Ω : Finset (Finset (Sym2 ℕ)), (∀ S, S ∈ Ω ↔ ∃ g : Graph T, Realises g ds ∧ g.edges = S) ∧
      ∃ k₀, ∀ k, k₀ ≤ k → ∀ w : Finset (Sym2 ℕ) → ℚ, (∀ S ∈ Ω, 0 ≤ w S) → ∀ ε : ℚ, 0 < ε →
        ∃ t₀, ∀ t, t₀ ≤ t → ∀ e : Config T Script, e.Inv → e.degreeVec = ds → 0 < w e.graph.edges → ∀ g : Graph T, Realises g ds →
          |lawAfterTrials Config.stepDraws Config.stepProb Config.stepOf Config.undoStepQuiet (fun e => e.graph.edges) w k t e g.edges -
            w g.edges / ∑ S ∈ Ω, w S| < ε := by
  refine ⟨configStates T ds, fun S => mem_configStates, ?_⟩
  by_cases hex : ∃ e : Config T Script, e.Inv ∧ e.degreeVec = ds
  swap
  · exact ⟨0, fun _ _ _ _ _ _ => ⟨0, fun t _ e h1 h2 => absurd ⟨e, h1, h2⟩ hex⟩⟩
  obtain ⟨e₀, w₀, d₀⟩ := hex
  obtain ⟨k₀, hk⟩ := (Config.ergodic hpos w₀ d₀).trials_large (Config.undo hpos)
  refine ⟨k₀, fun k hle w hw ε hε => ?_⟩
  by_cases hS : ∃ S ∈ configStates T ds, 0 < w S
  swap
  · exact ⟨0, fun t _ e w1 n1 hwe => absurd ⟨_, (Config.ergodic hpos w1 n1).lumped.mem e ⟨w1, n1⟩, hwe⟩ hS⟩
  obtain ⟨S, hS, hwS⟩ := hS
  obtain ⟨t₀, ht⟩ := hk k hle w hw ⟨S, hS, one_pos, hwS⟩ ε hε
  refine ⟨t₀, fun t hle e h1 h2 hwe g g1 => ?_⟩
  have := ht t hle e ⟨h1, h2⟩ hwe g.edges (mem_configStates.mpr ⟨g, g1, rfl⟩)
  simp only [one_mul] at this
  exact this

/-- The same for `SwEnsemble`. -/
theorem C97_sw_forbidden {n : ℕ} (h6 : 6 ≤ n) {p : ℚ} (hp : 0 ≤ p) :
    ∃ Ω : Finset (Finset (ℕ × ℕ × ℕ)),
      (∀ S, S ∈ Ω ↔ ∃ g : SwGraph T, SwValid g ∧ g.vertexCount = n ∧ SwGraph.rooted g = S) ∧
      ∃ k₀, ∀ k, k₀ ≤ k → ∀ w : Finset (ℕ × ℕ × ℕ) → ℚ, (∀ S ∈ Ω, 0 ≤ w S) → (∃ S ∈ Ω, 0 < swWeight n p S ∧ 0 < w S) →
        ∀ ε : ℚ, 0 < ε → ∃ t₀, ∀ t, t₀ ≤ t → ∀ e : SwEns T Script, SwValid e.graph → e.graph.vertexCount = n → e.rProb = p →
          0 < w (SwGraph.rooted e.graph) → ∀ g : SwGraph T, SwValid g → g.vertexCount = n →
            |lawAfterTrials SwEns.stepDraws (fun e _ => 1 / (e.stepDraws.card : ℚ)) SwEns.stepOf SwEns.undoStepQuiet
                (fun e => SwGraph.rooted e.graph) w k t e (SwGraph.rooted g) -
              swWeight n p (SwGraph.rooted g) * w (SwGraph.rooted g) / ∑ S ∈ Ω, swWeight n p S * w S| < ε := by
  refine ⟨swStates T n, fun S => mem_swStates, ?_⟩
  by_cases hex : ∃ g : SwGraph T, SwValid g ∧ g.nextId = n
  swap
  · exact ⟨0, fun _ _ _ _ _ _ _ => ⟨0, fun t _ e h1 h2 => absurd ⟨e.graph, h1, h2⟩ hex⟩⟩
  obtain ⟨g₀, w₀, n₀⟩ := hex
  obtain ⟨k₀, hk⟩ := (SwEns.ergodic h6 hp w₀ n₀).trials_large SwEns.undo
  refine ⟨k₀, fun k hle w hw ⟨S, hS, hπ, hwS⟩ ε hε => ?_⟩
  obtain ⟨t₀, ht⟩ := hk k hle w hw ⟨S, hS, by exact_mod_cast hπ, hwS⟩ ε hε
  exact ⟨t₀, fun t hle e h1 h2 h3 hwe g g1 g2 => ht t hle e ⟨h1, h2, h3⟩ hwe _ (mem_swStates.mpr ⟨g, g1, g2, rfl⟩)⟩

open Classical in
/-- The support of these weights is the set of connected networks on `n` vertices, and it is closed under adding edges. -/
example (n : ℕ) : let w : Finset (Sym2 ℕ) → ℚ := fun S => if ∀ a < n, ∀ b < n, Relation.ReflTransGen (fun x y => s(x, y) ∈ S) a b then
      (S.card + 1 : ℚ) else 0
    (∀ S ⊆ pairSet n, 0 ≤ w S) ∧ ∀ S S', S ⊆ S' → S' ⊆ pairSet n → 0 < w S → 0 < w S' := by
  refine ⟨fun S _ => ?_, fun S S' h _ hS => ?_⟩
  · dsimp only; split <;> positivity
  · dsimp only at hS ⊢
    split at hS
    · rename_i hc
      rw [if_pos (fun a ha b hb => Relation.ReflTransGen.mono (fun x y hxy => h hxy) _ _ (hc a ha b hb))]
      positivity
    · exact absurd hS (lt_irrefl _)

/-- The hypotheses are met: states of all five ensembles, and weights that prefer networks with many edges. -/
example : (exTail.WF ∧ exTail.vertexCount = 5 ∧ ∀ S ⊆ pairSet 5, (0 : ℚ) < S.card + 1) ∧
    (exSpacial.graph.WF ∧ 2 ≤ exSpacial.graph.vertexCount ∧ ∀ p q, exSpacial.law p q = exSpacial.law q p) ∧
    ((0 < 4 ∧ 4 < 5 * (5 - 1) / 2) ∧ ∃ e : ErM Nat Script, e.Inv ∧ e.graph.vertexCount = 5 ∧ e.m = 4) ∧
    (∃ e : SwEns Nat Script, SwValid e.graph ∧ e.graph.vertexCount = 7 ∧ e.rProb = 1 / 2) ∧
    (∃ d ∈ [1, 2, 2, 1], 0 < d) ∧ (exConfigPath []).Inv ∧ (exConfigPath []).degreeVec = [1, 2, 2, 1] := by
  refine ⟨⟨exTail_wf, by decide, fun S _ => by positivity⟩,
    ⟨exSpacial_wf, by decide, fun p q => by simp only [exSpacial, eq_comm]⟩, ⟨by decide, ?_⟩,
    ⟨⟨exSw, 1 / 2, ⟨[]⟩⟩, exSw_valid, by decide, rfl⟩, ⟨1, by simp, by decide⟩, exConfigPath_inv [], rfl⟩
  obtain ⟨e, _, h2, h3, h4, _⟩ := ErM.new_spec (T := Nat) (n := 5) (m := 4) (by decide) (by decide) (⟨[]⟩ : Script)
  exact ⟨e, h2, h3, h4⟩

end Verif
