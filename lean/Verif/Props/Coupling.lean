import Verif.Lemmas.Coupling
import Verif.Props.OneEdge
import Verif.Props.Er
import Verif.Props.Spacial
import Verif.Model.Serde
import Verif.Spec.Stream

/-!
# C104: the same random numbers for two simulations

`ErEnsembleC` and `SpacialEnsemble` draw one number for every pair (`randomize`), or a pair and one number (`m_step`), whatever the
present network and the parameters are.  So two ensembles with equal generators stay in step.
-/

set_option linter.unusedSectionVars false
set_option linter.unusedSimpArgs false

namespace Verif
open AdjContainer GenericGraph

section measures
variable {T A : Type} [AdjContainer T A] [LawfulAdj T A]

/-- What nested networks have in common: more edges mean larger degrees, components and cores, fewer components, smaller diameter. -/
theorem C104_nested_measures {g g' : GenericGraph T A} (h : g.WF) (h' : g'.WF) (hn : g'.vertexCount = g.vertexCount) (hs : g.edges ⊆ g'.edges) :
    g.edgeCount ≤ g'.edgeCount ∧
    (∀ v, ∀ d, g.degree v = some d → ∃ d', g'.degree v = some d' ∧ d ≤ d') ∧
    (g.isConnected = .ok (some true) → g'.isConnected = .ok (some true)) ∧
    (∃ L L', g.connectedComponents = .ok L ∧ g'.connectedComponents = .ok L' ∧ L'.length ≤ L.length ∧ L.headD 0 ≤ L'.headD 0) ∧
    (∀ d, g.diameter = .ok (some d) → ∃ d', g'.diameter = .ok (some d') ∧ d' ≤ d) ∧
    (∀ q r, g.qCore q = .ok (some r) → ∃ r', g'.qCore q = .ok (some r') ∧ r ≤ r') := by
  classical
  have hle : g.toSimple ≤ g'.toSimple := by
    intro a b hab
    rw [h.adj_iff, ← h.mem_edges] at hab
    rw [h'.adj_iff, ← h'.mem_edges]
    exact hs hab
  refine ⟨?_, ?_, ?_, ?_, ?_, ?_⟩
  · rw [h.edgeCount_eq_card, h'.edgeCount_eq_card]
    exact Finset.card_le_card hs
  · intro v d hd
    rw [(C26_degrees h).1] at hd
    rw [(C26_degrees h').1, hn]
    split at hd
    · rw [if_pos ‹_›]
      refine ⟨_, rfl, ?_⟩
      rw [← Option.some.inj hd]
      refine Set.ncard_le_ncard (fun w hw => hle hw) ?_
      refine (Set.finite_Iio g'.vertexCount).subset fun w hw => ?_
      exact h'.lt_left (h'.adj_iff.mp (SimpleGraph.Adj.symm hw))
    · cases hd
  · intro hc
    obtain ⟨r, a1, _, a3, _⟩ := C15_is_connected h
    obtain ⟨r', b1, _, b3, _⟩ := C15_is_connected h'
    rw [hc] at a1
    cases a1
    obtain ⟨k1, k2⟩ := a3.mp rfl
    rw [b1]
    congr 1
    refine b3.mpr ⟨by rw [hn]; exact k1, fun v w hv hw => ?_⟩
    rw [hn] at hv hw
    exact (k2 v w hv hw).mono hle
  · obtain ⟨L, hL, hs1, hm⟩ := connectedComponents_spec h
    obtain ⟨L', hL', _, _⟩ := connectedComponents_spec h'
    have hl := cc_length h hL
    have hl' := cc_length h' hL'
    rw [hn] at hl'
    refine ⟨L, L', hL, hL', ?_, ?_⟩
    · rw [hl, hl']
      exact compCount_anti hle _
    · cases L with
      | nil => exact Nat.zero_le _
      | cons a l =>
        rw [List.headD_cons]
        have ha : a ∈ (componentSet g).val.map (componentSize g) := by rw [← hm]; simp
        rw [Multiset.mem_map] at ha
        obtain ⟨c, hc, rfl⟩ := ha
        have hc' : c ∈ componentSet g := hc
        rw [componentSet, Finset.mem_image] at hc'
        obtain ⟨v, hv, rfl⟩ := hc'
        rw [Finset.mem_range] at hv
        refine le_trans ?_ (cc_le_head h' hL' (cc_mem h' hL' (v := v) (by rw [hn]; exact hv)))
        rw [componentSize, componentSize, hn]
        apply Finset.card_le_card
        intro x hx
        rw [Finset.mem_filter] at hx ⊢
        refine ⟨hx.1, SimpleGraph.ConnectedComponent.sound ?_⟩
        have hr : g.toSimple.Reachable x v := SimpleGraph.ConnectedComponent.exact hx.2
        exact hr.mono hle
  · intro d hd
    by_cases hc : g.vertexCount = 0 ∨ ∃ v w, v < g.vertexCount ∧ w < g.vertexCount ∧ ¬ g.toSimple.Reachable v w
    · rw [C18_diameter_none h hc] at hd
      cases hd
    · push Not at hc
      obtain ⟨d1, a1, a2, _⟩ := C18_diameter h (by omega) hc.2
      rw [hd] at a1
      cases a1
      obtain ⟨d', b1, _, x, y, b3, b4, b5⟩ := C18_diameter h' (by rw [hn]; omega) (by
        intro v w hv hw
        rw [hn] at hv hw
        exact (hc.2 v w hv hw).mono hle)
      rw [hn] at b3 b4
      refine ⟨d', b1, ?_⟩
      rw [← b5]
      refine le_trans ?_ (a2 x y b3 b4)
      obtain ⟨p, hp⟩ := (hc.2 x y b3 b4).exists_walk_length_eq_dist
      rw [← hp, ← SimpleGraph.Walk.length_map (SimpleGraph.Hom.ofLE hle) p]
      exact SimpleGraph.dist_le _
  · intro q r hr
    by_cases hq : q < 2 ∨ g.vertexCount = 0
    · rw [C20_q_core_none q hq] at hr
      cases hr
    · push Not at hq
      obtain ⟨r0, K, q1, q2, q3, q4, q5, q6⟩ := C20_q_core h hq.1 (by omega)
      obtain ⟨r', K', p1, p2, p3, p4, p5, p6⟩ := C20_q_core h' hq.1 (by rw [hn]; omega)
      rw [hr] at q1
      cases q1
      refine ⟨r', p1, ?_⟩
      by_cases hK : K = ∅
      · rw [q5 hK]
        exact Nat.zero_le _
      · obtain ⟨v, hv, hr⟩ := q6 hK
        have hsub : K ⊆ K' := by
          refine p3 K (fun v hv => ⟨by rw [hn]; exact (q2 v hv).1, le_trans (q2 v hv).2 (Finset.card_le_card ?_)⟩)
          intro w hw
          rw [Finset.mem_filter] at hw ⊢
          exact ⟨hw.1, hle hw.2⟩
        rw [← hr]
        exact (sizeWithin_mono hle hsub v).trans (p4 v (hsub hv))

end measures

section er
variable {T R : Type} [Rng R]

/-- **C104.** `ErEnsembleC::randomize` of two ensembles with equal generators: the one with the larger probability gets all edges of
the other one (and maybe more), and afterwards the generators are equal again. -/
theorem C104_er_c_randomize {e e' : ErC T R} (h : e.graph.WF) (h' : e'.graph.WF) (hn : e'.graph.vertexCount = e.graph.vertexCount)
    (hr : e'.rng = e.rng) (hp : e.prob ≤ e'.prob) :
    ∃ x x', e.randomize = .ok x ∧ e'.randomize = .ok x' ∧ x.graph.WF ∧ x'.graph.WF ∧ x.graph.vertexCount = e.graph.vertexCount ∧
      x'.graph.vertexCount = e.graph.vertexCount ∧ x'.rng = x.rng ∧ x.graph.edges ⊆ x'.graph.edges := by
  obtain ⟨x, a1, a2, a3, _, _, a6, a7⟩ := C32_er_c_randomize h
  obtain ⟨x', b1, b2, b3, _, _, b6, b7⟩ := C32_er_c_randomize h'
  refine ⟨x, x', a1, b1, a2, b2, a3, b3.trans hn, ?_, ?_⟩
  · rw [a7, b7, hn, hr, coins_throws, coins_throws]
    exact throws_rng _ _ _ _
  · rw [a6, b6, hn, hr, coins_throws, coins_throws]
    exact throws_mono _ _ (fun _ _ => hp)

/-- **C104.** `new(n, c, rng)`: with the same generator the networks are nested as the target connectivities are ordered. -/
theorem C104_er_c_new [Node T] {n : ℕ} (hn : 0 < n) {c c' : ℚ} (hc : c ≤ c') (r : R) :
    ∃ e e' : ErC T R, ErC.new n c r = .ok e ∧ ErC.new n c' r = .ok e' ∧ e.graph.WF ∧ e'.graph.WF ∧ e.graph.vertexCount = n ∧
      e'.graph.vertexCount = n ∧ e.graph.edges ⊆ e'.graph.edges := by
  obtain ⟨e, a1, a2, a3, _, _, _, a6⟩ := (C32_er_c_new (T := T) n c r).2 hn
  obtain ⟨e', b1, b2, b3, _, _, _, b6⟩ := (C32_er_c_new (T := T) n c' r).2 hn
  refine ⟨e, e', a1, b1, a2, b2, a3, b3, ?_⟩
  rw [a6, b6, coins_throws, coins_throws]
  refine throws_mono _ _ (fun _ _ => ?_)
  have h1 : (0 : ℚ) ≤ (n : ℚ) - 1 := by
    have : (1 : ℚ) ≤ n := by exact_mod_cast hn
    linarith
  exact div_le_div_of_nonneg_right hc h1

theorem er_c_pairSteps {n : ℕ} (hn : 2 ≤ n) : PairSteps (E := ErC T R) ErC.mStep n (fun e => e.graph.WF ∧ e.graph.vertexCount = n)
    (fun e => e.graph.edges) (fun e => e.rng) (fun e _ _ => e.prob) := by
  refine ⟨hn, fun e he x y r hd hx hy hxy => ?_⟩
  obtain ⟨h, rfl⟩ := he
  obtain ⟨s, e', m1, m2, m3, _, m5, _, m7, _, m9⟩ := ErC.mStep_cases h hd hx hy hxy
  exact ⟨s, e', m1, ⟨m2, m3⟩, m7, by rw [m5], m9⟩

/-- **C104.** Markov steps of two `ErEnsembleC` with equal generators, the second with the larger probability (or the same): if the
first network is contained in the second, this remains so after any number of steps. -/
theorem C104_er_c_steps {e e' : ErC T R} (h : e.graph.WF) (h' : e'.graph.WF) (h2 : 2 ≤ e.graph.vertexCount)
    (hn : e'.graph.vertexCount = e.graph.vertexCount) (hr : e'.rng = e.rng) (hp : e.prob ≤ e'.prob) (hs : e.graph.edges ⊆ e'.graph.edges) (k : ℕ) :
    ∃ s s' x x', mSteps ErC.mStep k e = .ok (s, x) ∧ mSteps ErC.mStep k e' = .ok (s', x') ∧ x.graph.WF ∧ x'.graph.WF ∧
      x.graph.vertexCount = e.graph.vertexCount ∧ x'.graph.vertexCount = e.graph.vertexCount ∧ x'.rng = x.rng ∧
      x.graph.edges ⊆ x'.graph.edges := by
  obtain ⟨s, s', x, x', a1, a2, ⟨a3, a3'⟩, ⟨a4, a4'⟩, a5, _, _, a8⟩ := (er_c_pairSteps h2).nested k (e := e) (e' := e') ⟨h, rfl⟩ ⟨h', hn⟩ hr
    (fun _ _ => hp) hs
  exact ⟨s, s', x, x', a1, a2, a3, a4, a3', a4', a5, a8⟩

/-- **C104.** Two `ErEnsembleC` with equal generators and probabilities that start from any two networks: after `k` steps they agree in
every pair that was drawn, and no other pair has been changed.  So they are equal when all pairs in which they differed have been drawn,
and remain equal. -/
theorem C104_er_c_meet {e e' : ErC T R} (h : e.graph.WF) (h' : e'.graph.WF) (h2 : 2 ≤ e.graph.vertexCount)
    (hn : e'.graph.vertexCount = e.graph.vertexCount) (hr : e'.rng = e.rng) (hp : e'.prob = e.prob) (k : ℕ) :
    ∃ s s' x x', mSteps ErC.mStep k e = .ok (s, x) ∧ mSteps ErC.mStep k e' = .ok (s', x') ∧ x.graph.WF ∧ x'.graph.WF ∧ x'.rng = x.rng ∧
      (∀ q, (q ∈ drawnPairs e.graph.vertexCount k e.rng → (q ∈ x'.graph.edges ↔ q ∈ x.graph.edges)) ∧
        (q ∉ drawnPairs e.graph.vertexCount k e.rng →
          (q ∈ x.graph.edges ↔ q ∈ e.graph.edges) ∧ (q ∈ x'.graph.edges ↔ q ∈ e'.graph.edges))) ∧
      ((∀ q, ¬ (q ∈ e'.graph.edges ↔ q ∈ e.graph.edges) → q ∈ drawnPairs e.graph.vertexCount k e.rng) → x'.graph.edges = x.graph.edges) := by
  obtain ⟨s, s', x, x', a1, a2, ⟨a3, _⟩, ⟨a4, _⟩, a5, a6⟩ := (er_c_pairSteps h2).meet k (e := e) (e' := e') ⟨h, rfl⟩ ⟨h', hn⟩ hr
    (by rw [hp])
  refine ⟨s, s', x, x', a1, a2, a3, a4, a5, a6, fun hall => ?_⟩
  ext q
  by_cases hq : q ∈ drawnPairs e.graph.vertexCount k e.rng
  · exact (a6 q).1 hq
  · obtain ⟨b1, b2⟩ := (a6 q).2 hq
    rw [b1, b2]
    by_contra hc
    exact hq (hall q hc)

/-- **C104.** The test for equilibration with two extreme starts: if a chain from a network and one from a network containing it have met, so
have all chains from the networks in between (with the same random numbers and probability).  In particular the chains from the
empty and from the complete graph decide for all. -/
theorem C104_er_c_sandwich {a b e : ErC T R} (ha : a.graph.WF) (hb : b.graph.WF) (he : e.graph.WF) (h2 : 2 ≤ e.graph.vertexCount)
    (hna : a.graph.vertexCount = e.graph.vertexCount) (hnb : b.graph.vertexCount = e.graph.vertexCount) (hra : a.rng = e.rng) (hrb : b.rng = e.rng)
    (hpa : a.prob = e.prob) (hpb : b.prob = e.prob) (hae : a.graph.edges ⊆ e.graph.edges) (heb : e.graph.edges ⊆ b.graph.edges) (k : ℕ) :
    ∃ sa sb s xa xb x, mSteps ErC.mStep k a = .ok (sa, xa) ∧ mSteps ErC.mStep k b = .ok (sb, xb) ∧ mSteps ErC.mStep k e = .ok (s, x) ∧
      (xa.graph.edges = xb.graph.edges → x.graph.edges = xa.graph.edges) := by
  obtain ⟨sa, s, xa, x, a1, a2, _, _, _, _, _, a8⟩ := C104_er_c_steps ha he (by rw [hna]; exact h2) hna.symm hra.symm hpa.le hae k
  obtain ⟨s', sb, x', xb, b1, b2, _, _, _, _, _, b8⟩ := C104_er_c_steps he hb h2 hnb hrb hpb.ge heb k
  rw [a2] at b1
  cases b1
  exact ⟨sa, sb, s, xa, xb, x, a1, b2, a2, fun heq => Finset.Subset.antisymm (by rw [heq]; exact b8) a8⟩

end er

section spacial
variable {T R : Type} [Rng R]

/-- **C104.** `SpacialEnsemble::randomize`: equal positions and generators, and a law that is larger for all pairs of points. -/
theorem C104_spacial_randomize {e e' : Spacial T R} (h : e.graph.WF) (h' : e'.graph.WF) (hn : e'.graph.vertexCount = e.graph.vertexCount)
    (hc : coords e'.graph = coords e.graph) (hr : e'.rng = e.rng) (hl : ∀ p q, e.law p q ≤ e'.law p q) :
    ∃ x x', e.randomize = .ok x ∧ e'.randomize = .ok x' ∧ x.graph.WF ∧ x'.graph.WF ∧ x.graph.vertexCount = e.graph.vertexCount ∧
      x'.graph.vertexCount = e.graph.vertexCount ∧ x'.rng = x.rng ∧ x.graph.edges ⊆ x'.graph.edges := by
  obtain ⟨x, a1, a2, a3, _, _, _, a6, a7⟩ := C47_spacial_randomize h
  obtain ⟨x', b1, b2, b3, _, _, _, b6, b7⟩ := C47_spacial_randomize h'
  refine ⟨x, x', a1, b1, a2, b2, a3, b3.trans hn, ?_, ?_⟩
  · rw [a7, b7, hn, hr]
    exact throws_rng _ _ _ _
  · rw [a6, b6, hn, hr]
    refine throws_mono _ _ (fun _ _ => ?_)
    unfold Spacial.prob
    rw [hc]
    exact hl _ _

/-- **C104.** The parameter `f` of a `SpacialEnsemble`: if the computed probability does not decrease with `f` (without rounding this is
`C71`), a larger `f` gives a network that contains the other. -/
theorem C104_spacial_scale {law : ℚ → ℚ → ℚ → Pos → Pos → ℚ} {s : SpacialFields T R} (h : s.graph.WF) {f' : ℚ}
    (hl : ∀ α c p q, law s.f α c p q ≤ law f' α c p q) :
    ∃ x x', (s.toEnsemble law).randomize = .ok x ∧ (SpacialFields.toEnsemble law { s with f := f' }).randomize = .ok x' ∧ x.graph.WF ∧
      x'.graph.WF ∧ x'.rng = x.rng ∧ x.graph.edges ⊆ x'.graph.edges := by
  obtain ⟨x, x', a1, a2, a3, a4, _, _, a5, a6⟩ := C104_spacial_randomize (e := s.toEnsemble law)
    (e' := SpacialFields.toEnsemble law { s with f := f' }) h h rfl rfl rfl (hl _ _)
  exact ⟨x, x', a1, a2, a3, a4, a5, a6⟩

theorem spacial_pairSteps {n : ℕ} (hn : 2 ≤ n) : PairSteps (E := Spacial T R) Spacial.mStep n (fun e => e.graph.WF ∧ e.graph.vertexCount = n)
    (fun e => e.graph.edges) (fun e => e.rng) (fun e => e.prob) := by
  refine ⟨hn, fun e he x y r hd hx hy hxy => ?_⟩
  obtain ⟨h, rfl⟩ := he
  obtain ⟨s, e', m1, m2, m3, _, m5, m6, m7, _, m9⟩ := Spacial.mStep_cases h hd hx hy hxy
  exact ⟨s, e', m1, ⟨m2, m3⟩, m7, by unfold Spacial.prob; rw [m5, m6], m9⟩

/-- **C104.** Markov steps of two `SpacialEnsemble` with equal positions and generators: nested networks stay nested. -/
theorem C104_spacial_steps {e e' : Spacial T R} (h : e.graph.WF) (h' : e'.graph.WF) (h2 : 2 ≤ e.graph.vertexCount)
    (hn : e'.graph.vertexCount = e.graph.vertexCount) (hc : coords e'.graph = coords e.graph) (hr : e'.rng = e.rng)
    (hl : ∀ p q, e.law p q ≤ e'.law p q) (hs : e.graph.edges ⊆ e'.graph.edges) (k : ℕ) :
    ∃ s s' x x', mSteps Spacial.mStep k e = .ok (s, x) ∧ mSteps Spacial.mStep k e' = .ok (s', x') ∧ x.graph.WF ∧ x'.graph.WF ∧
      x.graph.vertexCount = e.graph.vertexCount ∧ x'.graph.vertexCount = e.graph.vertexCount ∧ x'.rng = x.rng ∧
      x.graph.edges ⊆ x'.graph.edges := by
  obtain ⟨s, s', x, x', a1, a2, ⟨a3, a3'⟩, ⟨a4, a4'⟩, a5, _, _, a8⟩ := (spacial_pairSteps h2).nested k (e := e) (e' := e') ⟨h, rfl⟩ ⟨h', hn⟩ hr
    (fun i j => by unfold Spacial.prob; rw [hc]; exact hl _ _) hs
  exact ⟨s, s', x, x', a1, a2, a3, a4, a3', a4', a5, a8⟩

/-- **C104.** Two `SpacialEnsemble` with equal positions, laws and generators that start from any two networks. -/
theorem C104_spacial_meet {e e' : Spacial T R} (h : e.graph.WF) (h' : e'.graph.WF) (h2 : 2 ≤ e.graph.vertexCount)
    (hn : e'.graph.vertexCount = e.graph.vertexCount) (hc : coords e'.graph = coords e.graph) (hr : e'.rng = e.rng) (hl : e'.law = e.law) (k : ℕ) :
    ∃ s s' x x', mSteps Spacial.mStep k e = .ok (s, x) ∧ mSteps Spacial.mStep k e' = .ok (s', x') ∧ x.graph.WF ∧ x'.graph.WF ∧ x'.rng = x.rng ∧
      (∀ q, (q ∈ drawnPairs e.graph.vertexCount k e.rng → (q ∈ x'.graph.edges ↔ q ∈ x.graph.edges)) ∧
        (q ∉ drawnPairs e.graph.vertexCount k e.rng →
          (q ∈ x.graph.edges ↔ q ∈ e.graph.edges) ∧ (q ∈ x'.graph.edges ↔ q ∈ e'.graph.edges))) ∧
      ((∀ q, ¬ (q ∈ e'.graph.edges ↔ q ∈ e.graph.edges) → q ∈ drawnPairs e.graph.vertexCount k e.rng) → x'.graph.edges = x.graph.edges) := by
  obtain ⟨s, s', x, x', a1, a2, ⟨a3, _⟩, ⟨a4, _⟩, a5, a6⟩ := (spacial_pairSteps h2).meet k (e := e) (e' := e') ⟨h, rfl⟩ ⟨h', hn⟩ hr
    (by unfold Spacial.prob; rw [hc, hl])
  refine ⟨s, s', x, x', a1, a2, a3, a4, a5, a6, fun hall => ?_⟩
  ext q
  by_cases hq : q ∈ drawnPairs e.graph.vertexCount k e.rng
  · exact (a6 q).1 hq
  · obtain ⟨b1, b2⟩ := (a6 q).2 hq
    rw [b1, b2]
    by_contra hc
    exact hq (hall q hc)

end spacial

section chance
variable {T : Type}

/-- A property that more edges cannot destroy. -/
def Increasing {A : Type} [AdjContainer T A] [LawfulAdj T A] (P : GenericGraph T A → Prop) : Prop :=
  ∀ g g', g.WF → g'.WF → g'.vertexCount = g.vertexCount → g.edges ⊆ g'.edges → P g → P g'

/-- Such properties: connected; diameter at most `d`; a component, or a connected part of the `q`-core, with at least `k` vertices. -/
theorem C104_increasing {A : Type} [AdjContainer T A] [LawfulAdj T A] :
    Increasing (fun g : GenericGraph T A => g.isConnected = .ok (some true)) ∧
    (∀ d, Increasing (fun g : GenericGraph T A => ∃ d', g.diameter = .ok (some d') ∧ d' ≤ d)) ∧
    (∀ k, Increasing (fun g : GenericGraph T A => ∃ L, g.connectedComponents = .ok L ∧ k ≤ L.headD 0)) ∧
    (∀ q k, Increasing (fun g : GenericGraph T A => ∃ r, g.qCore q = .ok (some r) ∧ k ≤ r)) := by
  refine ⟨fun g g' h h' hn hs => (C104_nested_measures h h' hn hs).2.2.1, fun d g g' h h' hn hs => ?_, fun k g g' h h' hn hs => ?_,
    fun q k g g' h h' hn hs => ?_⟩
  · rintro ⟨d1, h1, h2⟩
    obtain ⟨d', h3, h4⟩ := (C104_nested_measures h h' hn hs).2.2.2.2.1 d1 h1
    exact ⟨d', h3, h4.trans h2⟩
  · rintro ⟨L, h1, h2⟩
    obtain ⟨L1, L', h3, h4, _, h5⟩ := (C104_nested_measures h h' hn hs).2.2.2.1
    rw [h1] at h3
    cases h3
    exact ⟨L', h4, h2.trans h5⟩
  · rintro ⟨r, h1, h2⟩
    obtain ⟨r', h3, h4⟩ := (C104_nested_measures h h' hn hs).2.2.2.2.2 q r h1
    exact ⟨r', h3, h2.trans h4⟩

/-- **C104.** The probability that `ErEnsembleC::randomize` gives a network with an increasing property does not decrease with the
probability of the edges. -/
theorem C104_er_c_chance {e e' : ErC T Stream} (h : e.graph.WF) (h' : e'.graph.WF) (hn : e'.graph.vertexCount = e.graph.vertexCount)
    (hp : e.prob ≤ e'.prob) {P : Graph T → Prop} (hP : Increasing P) :
    uniformTape {ω | ∃ x, ErC.randomize ({ e with rng := ⟨ω, 0⟩ } : ErC T Stream) = .ok x ∧ P x.graph} ≤
      uniformTape {ω | ∃ x, ErC.randomize ({ e' with rng := ⟨ω, 0⟩ } : ErC T Stream) = .ok x ∧ P x.graph} := by
  refine MeasureTheory.measure_mono fun ω hω => ?_
  obtain ⟨y, hy, hPy⟩ := hω
  obtain ⟨x, x', a1, a2, a3, a4, a5, a6, _, a8⟩ := C104_er_c_randomize (e := ({ e with rng := ⟨ω, 0⟩ } : ErC T Stream))
    (e' := ({ e' with rng := ⟨ω, 0⟩ } : ErC T Stream)) h h' hn rfl hp
  rw [hy] at a1
  cases a1
  exact ⟨x', a2, hP _ _ a3 a4 (a6.trans a5.symm) a8 hPy⟩

/-- **C104.** The same after any number of Markov steps, if the first network is contained in the second at the start. -/
theorem C104_er_c_chance_steps {e e' : ErC T Stream} (h : e.graph.WF) (h' : e'.graph.WF) (h2 : 2 ≤ e.graph.vertexCount)
    (hn : e'.graph.vertexCount = e.graph.vertexCount) (hp : e.prob ≤ e'.prob) (hs : e.graph.edges ⊆ e'.graph.edges) {P : Graph T → Prop}
    (hP : Increasing P) (k : ℕ) :
    uniformTape {ω | ∃ s x, mSteps ErC.mStep k ({ e with rng := ⟨ω, 0⟩ } : ErC T Stream) = .ok (s, x) ∧ P x.graph} ≤
      uniformTape {ω | ∃ s x, mSteps ErC.mStep k ({ e' with rng := ⟨ω, 0⟩ } : ErC T Stream) = .ok (s, x) ∧ P x.graph} := by
  refine MeasureTheory.measure_mono fun ω hω => ?_
  obtain ⟨t, y, hy, hPy⟩ := hω
  obtain ⟨s, s', x, x', a1, a2, a3, a4, a5, a6, _, a8⟩ := C104_er_c_steps (e := ({ e with rng := ⟨ω, 0⟩ } : ErC T Stream))
    (e' := ({ e' with rng := ⟨ω, 0⟩ } : ErC T Stream)) h h' h2 hn rfl hp hs k
  rw [hy] at a1
  cases a1
  exact ⟨s', x', a2, hP _ _ a3 a4 (a6.trans a5.symm) a8 hPy⟩

/-- **C104.** `SpacialEnsemble::randomize`. -/
theorem C104_spacial_chance {e e' : Spacial T Stream} (h : e.graph.WF) (h' : e'.graph.WF) (hn : e'.graph.vertexCount = e.graph.vertexCount)
    (hc : coords e'.graph = coords e.graph) (hl : ∀ p q, e.law p q ≤ e'.law p q) {P : SpacialGraph T → Prop} (hP : Increasing P) :
    uniformTape {ω | ∃ x, Spacial.randomize ({ e with rng := ⟨ω, 0⟩ } : Spacial T Stream) = .ok x ∧ P x.graph} ≤
      uniformTape {ω | ∃ x, Spacial.randomize ({ e' with rng := ⟨ω, 0⟩ } : Spacial T Stream) = .ok x ∧ P x.graph} := by
  refine MeasureTheory.measure_mono fun ω hω => ?_
  obtain ⟨y, hy, hPy⟩ := hω
  obtain ⟨x, x', a1, a2, a3, a4, a5, a6, _, a8⟩ := C104_spacial_randomize (e := ({ e with rng := ⟨ω, 0⟩ } : Spacial T Stream))
    (e' := ({ e' with rng := ⟨ω, 0⟩ } : Spacial T Stream)) h h' hn hc rfl hl
  rw [hy] at a1
  cases a1
  exact ⟨x', a2, hP _ _ a3 a4 (a6.trans a5.symm) a8 hPy⟩

end chance

/-- Two different networks on 5 vertices, one contained in the other; draws that hit the pair `0 4`, in which they differ. -/
example : exTail.WF ∧ (exGraph 5 [[1, 2, 4], [0, 2], [1, 0, 3], [2], [0]]).WF ∧
    exTail.edges ⊆ (exGraph 5 [[1, 2, 4], [0, 2], [1, 0, 3], [2], [0]]).edges ∧
    drawnPairs 5 2 (⟨[0, 3, 7, 2, 1, 9]⟩ : Script) = {s(0, 4), s(2, 1)} :=
  ⟨exTail_wf, GenericGraph.wf_of_check _ (fun _ _ => trivial) (by decide), by decide, by decide⟩

/-- A law that grows with `f`. -/
example : ∀ α c : ℚ, ∀ p q : Pos, (1 / 4 : ℚ) * (if p = q then α else c) ^ 2 ≤ (1 / 2) * (if p = q then α else c) ^ 2 := fun α c p q => by
  nlinarith [sq_nonneg (if p = q then α else c)]

/-- The spatial example, with the law 1/2 for every pair instead of 1/3 or 1/2. -/
example : exSpacial.graph.WF ∧ ∀ p q, exSpacial.law p q ≤ (1 / 2 : ℚ) := by
  refine ⟨exSpacial_wf, fun p q => ?_⟩
  simp only [exSpacial]
  split <;> norm_num

end Verif
