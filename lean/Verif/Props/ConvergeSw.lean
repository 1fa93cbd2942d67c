import Verif.Lemmas.Lump
import Verif.Props.SwBalance
import Mathlib.Data.Finset.Powerset

/-!
# C66, continued: the chain of the small-world ensemble converges
-/

set_option linter.unusedSectionVars false
set_option linter.unusedSimpArgs false

namespace Verif
open AdjContainer GenericGraph

variable {T : Type}

/-- The equally likely draws of one step: the number of the edge, the coin and the target. -/
def SwEns.stepDraws (e : SwEns T Script) : Finset (ℕ × ℕ × ℕ) :=
  Finset.range e.graph.edgeCount ×ˢ Finset.range (2 ^ 53) ×ˢ Finset.range (e.graph.vertexCount - 1)

/-- The state after one `m_step` with the given draws (if the coin decides against a new target the last draw is not used). -/
def SwEns.stepWith (e : SwEns T Script) (d : ℕ × ℕ × ℕ) : Res (SwEns T Script) := do
  let (_, e') ← ({ e with rng := ⟨[d.1, d.2.1, d.2.2]⟩ } : SwEns T Script).mStep
  return e'

theorem SwEns.stepWith_eq_ok {e e' : SwEns T Script} {d : ℕ × ℕ × ℕ} : e.stepWith d = .ok e' ↔
    ∃ s, ({ e with rng := ⟨[d.1, d.2.1, d.2.2]⟩ } : SwEns T Script).mStep = .ok (s, e') := by
  unfold SwEns.stepWith
  constructor
  · intro h
    simp only [Res.bind_eq_ok, Prod.exists, Res.pure_eq, Res.ok.injEq] at h
    obtain ⟨s, e'', k1, rfl⟩ := h
    exact ⟨s, k1⟩
  · rintro ⟨s, h⟩
    rw [h]; rfl

theorem SwEns.cnt_eq (e : SwEns T Script) (S : Finset (ℕ × ℕ × ℕ)) :
    Markov.cnt SwEns.stepDraws SwEns.stepWith (fun e => SwGraph.rooted e.graph) e S = (SwEns.ways e S).card := by
  classical
  unfold Markov.cnt SwEns.ways
  congr 1
  refine Finset.filter_congr (fun d hd => ?_)
  constructor
  · rintro ⟨e', k1, k2⟩
    obtain ⟨s, k⟩ := SwEns.stepWith_eq_ok.mp k1
    exact ⟨s, e', k, k2⟩
  · rintro ⟨s, e', k1, k2⟩
    exact ⟨e', SwEns.stepWith_eq_ok.mpr ⟨s, k1⟩, k2⟩

theorem SwValid.rooted_lt {g : SwGraph T} (h : SwValid g) {t : ℕ × ℕ × ℕ} (ht : t ∈ SwGraph.rooted g) :
    t.1 < g.nextId ∧ t.2.1 < g.nextId ∧ t.2.2 < g.nextId ∧ t.2.2 ≠ t.1 := by
  obtain ⟨i, o, j⟩ := t
  have he := h.mem_rooted.mp ht
  have hm : j ∈ g.nbrs i := sw_mem_nbrs.mpr ⟨_, he, rfl⟩
  exact ⟨(h.orig_mem he).1, (h.orig_lt he).1, h.wf.lt _ _ hm, Ne.symm (h.wf.ne hm)⟩

/-- Every network has positive weight if rewiring is possible at all. -/
theorem SwValid.weight_pos {g : SwGraph T} (h : SwValid g) {p : ℚ} (hp : 0 ≤ p) : 0 < swWeight g.nextId p (SwGraph.rooted g) := by
  unfold swWeight
  refine Finset.prod_pos (fun t ht => ?_)
  obtain ⟨h1, _, h3, h4⟩ := h.rooted_lt ht
  have := placings_eq (n := g.nextId) p (o := t.2.1) h1 h3 h4
  have hh : 0 < heads p := by
    unfold heads
    refine Finset.card_pos.mpr ⟨0, Finset.mem_filter.mpr ⟨Finset.mem_range.mpr (Nat.pow_pos (by decide)), ?_⟩⟩
    simpa using hp
  show 0 < placings g.nextId p (t.1, t.2.1, t.2.2)
  rw [this]
  omega

open Classical in
/-- The networks on `n` vertices, described by the roots, original targets and targets of their edges. -/
noncomputable def swStates (T : Type) (n : ℕ) : Finset (Finset (ℕ × ℕ × ℕ)) :=
  ((Finset.range n ×ˢ Finset.range n ×ˢ Finset.range n).powerset).filter
    (fun S => ∃ g : SwGraph T, SwValid g ∧ g.nextId = n ∧ SwGraph.rooted g = S)

theorem mem_swStates {n : ℕ} {S : Finset (ℕ × ℕ × ℕ)} :
    S ∈ swStates T n ↔ ∃ g : SwGraph T, SwValid g ∧ g.nextId = n ∧ SwGraph.rooted g = S := by
  classical
  unfold swStates
  rw [Finset.mem_filter, Finset.mem_powerset, and_iff_right_iff_imp]
  rintro ⟨g, g1, g2, rfl⟩ t ht
  obtain ⟨h1, h2, h3, _⟩ := g1.rooted_lt ht
  simp only [Finset.mem_product, Finset.mem_range]
  rw [← g2]
  exact ⟨h1, h2, h3⟩

theorem SwEns.ergodic {n : ℕ} (h6 : 6 ≤ n) {p : ℚ} (hp : 0 ≤ p) {g₀ : SwGraph T} (w₀ : SwValid g₀) (n₀ : g₀.nextId = n) :
    Markov.Ergodic (fun e : SwEns T Script => SwValid e.graph ∧ e.graph.nextId = n ∧ e.rProb = p) SwEns.stepDraws
      (fun e _ => 1 / ((SwEns.stepDraws e).card : ℚ)) SwEns.stepWith (fun e => SwGraph.rooted e.graph) (swStates T n)
      (fun S => (swWeight n p S : ℚ)) := by
  classical
  let Ω := swStates T n
  have hΩ : ∀ S, S ∈ Ω ↔ ∃ g : SwGraph T, SwValid g ∧ g.nextId = n ∧ SwGraph.rooted g = S := fun S => mem_swStates
  let V : SwEns T Script → Prop := fun e => SwValid e.graph ∧ e.graph.nextId = n ∧ e.rProb = p
  let obs : SwEns T Script → Finset (ℕ × ℕ × ℕ) := fun e => SwGraph.rooted e.graph
  have hstate : ∀ g : SwGraph T, SwValid g → g.nextId = n → V ⟨g, p, ⟨[]⟩⟩ := fun g g1 g2 => ⟨g1, g2, rfl⟩
  have hwpos : ∀ S ∈ Ω, 0 < swWeight n p S := by
    intro S hS
    obtain ⟨g, g1, g2, rfl⟩ := (hΩ S).mp hS
    have := g1.weight_pos hp
    rwa [g2] at this
  have hbal : ∀ e e', V e → V e' → swWeight n p (obs e) * Markov.cnt SwEns.stepDraws SwEns.stepWith obs e (obs e') =
      swWeight n p (obs e') * Markov.cnt SwEns.stepDraws SwEns.stepWith obs e' (obs e) := by
    rintro e e' ⟨h1, h2, h3⟩ ⟨h1', h2', h3'⟩
    have := C55_sw_detailed_balance h1 h1' (h2'.trans h2.symm) (h3'.trans h3.symm)
    rw [show e.graph.vertexCount = n from h2, h3] at this
    rw [SwEns.cnt_eq, SwEns.cnt_eq]
    exact this
  have hdraw : ∀ e, V e → ∀ d, d ∈ SwEns.stepDraws e ↔ d.1 < 2 * n ∧ d.2.1 < 2 ^ 53 ∧ d.2.2 < n - 1 := by
    rintro e ⟨h1, h2, _⟩ d
    unfold SwEns.stepDraws
    rw [Finset.mem_product, Finset.mem_product, Finset.mem_range, Finset.mem_range, Finset.mem_range, h1.count,
      show e.graph.vertexCount = e.graph.nextId from rfl, h2]
  have hl : Markov.Lumped V SwEns.stepDraws SwEns.stepWith obs Ω (2 * n * (2 ^ 53 * (n - 1))) := by
    refine ⟨?_, Nat.mul_pos (by omega) (Nat.mul_pos (Nat.pow_pos (by decide)) (by omega)), ?_, ?_, ?_, ?_⟩
    · rintro e ⟨h1, h2, _⟩
      unfold SwEns.stepDraws
      rw [Finset.card_product, Finset.card_product, Finset.card_range, Finset.card_range, Finset.card_range, h1.count,
        show e.graph.vertexCount = e.graph.nextId from rfl, h2]
    · rintro e he ⟨num, u, x⟩ hd
      rw [hdraw e he] at hd
      obtain ⟨h1, h2, h3⟩ := he
      obtain ⟨f, _, hstep⟩ := SwEns.mStep_script h1
      obtain ⟨s, g', b1, b2⟩ := hstep num (by rw [h2]; exact hd.1) u hd.2.1 x (by rw [h2]; exact hd.2.2)
      refine ⟨_, SwEns.stepWith_eq_ok.mpr ⟨s, b1 []⟩, ?_⟩
      rcases b2 with ⟨_, rfl⟩ | ⟨_, _, m⟩
      · exact ⟨h1, h2, h3⟩
      · exact ⟨m.valid h1, m.n.trans h2, h3⟩
    · rintro e ⟨h1, h2, _⟩
      exact (hΩ _).mpr ⟨e.graph, h1, h2, rfl⟩
    · intro S hS
      obtain ⟨g, g1, g2, rfl⟩ := (hΩ S).mp hS
      exact ⟨_, hstate g g1 g2, rfl⟩
    · intro e e' he he' ho S hS
      have hwS := hwpos S hS
      obtain ⟨g, g1, g2, rfl⟩ := (hΩ S).mp hS
      have q := hstate g g1 g2
      have k1 := hbal e _ he q
      have k2 := hbal e' _ he' q
      rw [← ho] at k2
      have hwe : 0 < swWeight n p (obs e) := hwpos _ ((hΩ _).mpr ⟨e.graph, he.1, he.2.1, rfl⟩)
      exact Nat.eq_of_mul_eq_mul_left hwe (k1.trans k2.symm)
  have hpath : ∀ {g : SwGraph T}, SwValid g → g.nextId = n →
      Relation.ReflTransGen (Markov.Possible V SwEns.stepDraws SwEns.stepWith obs) (SwGraph.rooted g) (SwGraph.rooted g₀) := by
    intro g g1 g2
    obtain ⟨τ, hτ⟩ := g1.exists_placed g2
    obtain ⟨η, hη⟩ := w₀.exists_placed n₀
    have hreach := g1.placed_reach w₀ h6 g2 n₀ hτ hη
    induction hreach using Relation.ReflTransGen.head_induction_on generalizing g with
    | refl =>
      have hr : SwGraph.rooted g = SwGraph.rooted g₀ := by
        ext ⟨i, o, j⟩
        rw [g1.mem_rooted_placed g2 hτ, w₀.mem_rooted_placed n₀ hη]
      rw [hr]
    | head h1 _ ih =>
      obtain ⟨num, x, s, g', c1, c2, a1, a2, a3, a4⟩ :=
        SwEns.mStep_of_move (e := ⟨g, p, ⟨[]⟩⟩) g1 hp g2 hτ h1
      refine Relation.ReflTransGen.head ⟨⟨g, p, ⟨[]⟩⟩, hstate g g1 g2, rfl, (num, 0, x), ?_, _,
        SwEns.stepWith_eq_ok.mpr ⟨s, a1 []⟩, rfl⟩ (ih a2 a3 a4)
      rw [hdraw _ (hstate g g1 g2)]
      exact ⟨c1, Nat.pow_pos (by decide), c2⟩
  have hself : Markov.Possible V SwEns.stepDraws SwEns.stepWith obs (SwGraph.rooted g₀) (SwGraph.rooted g₀) := by
    let e₀ : SwEns T Script := ⟨g₀, p, ⟨[]⟩⟩
    obtain ⟨f, hf, hstep⟩ := SwEns.mStep_script (e := e₀) w₀
    have h0 : 0 < 2 * g₀.nextId := by omega
    obtain ⟨q1, _, q3, q4⟩ := w₀.rooted_lt (hf.mapsTo (show (0 : ℕ) ∈ {x | x < 2 * e₀.graph.nextId} from h0))
    have hx : (if (f 0).2.2 < (f 0).1 then (f 0).2.2 else (f 0).2.2 - 1) < g₀.nextId - 1 := by split <;> omega
    obtain ⟨s, g', b1, b2⟩ := hstep 0 h0 0 (Nat.pow_pos (by decide)) _ hx
    have hprop : proposal e₀.rProb (f 0).1 (f 0).2.1 0 (if (f 0).2.2 < (f 0).1 then (f 0).2.2 else (f 0).2.2 - 1) = (f 0).2.2 := by
      unfold proposal
      rw [if_pos (by simpa using hp)]
      by_cases hc : (f 0).2.2 < (f 0).1
      · simp [hc]
      · simp only [hc, if_false]
        rw [if_neg (by omega)]; omega
    rcases b2 with ⟨_, hg'⟩ | ⟨b2, _⟩
    · refine ⟨e₀, hstate g₀ w₀ n₀, rfl, (0, 0, _), ?_, _, SwEns.stepWith_eq_ok.mpr ⟨s, b1 []⟩, by rw [hg']⟩
      rw [hdraw _ (hstate g₀ w₀ n₀), ← n₀]
      exact ⟨h0, Nat.pow_pos (by decide), hx⟩
    · exact absurd hprop b2
  have hmem₀ : SwGraph.rooted g₀ ∈ Ω := (hΩ _).mpr ⟨g₀, w₀, n₀, rfl⟩
  exact hl.ergodic (w := fun S => (swWeight n p S : ℚ)) (fun _ _ => Nat.cast_nonneg _)
    (Finset.sum_pos (fun S hS => by exact_mod_cast hwpos S hS) ⟨_, hmem₀⟩)
    (by
      intro e e' he he'
      exact_mod_cast hbal e e' he he')
    hmem₀ (.inl hself)
    (by
      intro S hS
      obtain ⟨g, g1, g2, rfl⟩ := (hΩ S).mp hS
      exact hpath g1 g2)

/-- The chain of `m_step` of `SwEnsemble` converges, from every valid network on `n ≥ 6` vertices, to the distribution in which all
edges are rewired independently, restricted to the networks without double edges: `swWeight n p S` is the number of equally likely
outcomes of one coin and one target per edge that give the network `S`, and `Ω` is the set of all networks. -/
theorem C66_sw_converges {n : ℕ} (h6 : 6 ≤ n) {p : ℚ} (hp : 0 ≤ p) :
    ∃ Ω : Finset (Finset (ℕ × ℕ × ℕ)),
      (∀ S, S ∈ Ω ↔ ∃ g : SwGraph T, SwValid g ∧ g.vertexCount = n ∧ SwGraph.rooted g = S) ∧
      ∀ ε : ℚ, 0 < ε → ∃ t₀, ∀ t, t₀ ≤ t → ∀ e : SwEns T Script, SwValid e.graph → e.graph.vertexCount = n → e.rProb = p →
        ∀ g : SwGraph T, SwValid g → g.vertexCount = n →
          |lawAfter SwEns.stepDraws SwEns.stepWith (fun e => SwGraph.rooted e.graph) t e (SwGraph.rooted g) -
            (swWeight n p (SwGraph.rooted g) : ℚ) / ∑ S ∈ Ω, (swWeight n p S : ℚ)| < ε := by
  refine ⟨swStates T n, fun S => mem_swStates, fun ε hε => ?_⟩
  by_cases hex : ∃ g : SwGraph T, SwValid g ∧ g.nextId = n
  swap
  · exact ⟨0, fun t _ e h1 h2 => absurd ⟨e.graph, h1, h2⟩ hex⟩
  obtain ⟨g₀, w₀, n₀⟩ := hex
  obtain ⟨t₀, ht⟩ := (SwEns.ergodic h6 hp w₀ n₀).converges hε
  refine ⟨t₀, fun t hle e h1 h2 h3 g g1 g2 => ?_⟩
  rw [lawAfter_eq]
  exact ht t hle e ⟨h1, h2, h3⟩ _ (mem_swStates.mpr ⟨g, g1, g2, rfl⟩)

/-- The hypotheses are met: `exSw` is a network on seven vertices which is not the ring. -/
example : ∃ e : SwEns Nat Script, SwValid e.graph ∧ e.graph.vertexCount = 7 ∧ e.rProb = 1 / 2 ∧
    (0, 1, 4) ∈ SwGraph.rooted e.graph :=
  ⟨⟨exSw, 1 / 2, ⟨[]⟩⟩, exSw_valid, by decide, rfl, exSw_valid.mem_rooted.mpr (by decide)⟩

end Verif
