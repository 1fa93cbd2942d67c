import Verif.Lemmas.TwoLooks
import Verif.Props.Rate
import Verif.Props.Binomial

/-!
# C101: measurements on a network drawn from the ensemble and some Markov steps later

A program calls `randomize`, looks at the network, makes `t` Markov steps and looks again.

* `_stationary`: the second look has exactly the distribution of the ensemble, for every `t`: after `randomize` no steps have to be thrown away.
* `_reversible`: first `A`, then `B` is as likely as first `B`, then `A`.
* `_covariance`: for every sum over the edges, such as `edge_count` or a degree, the covariance with any quantity of the first look is
  multiplied by the same number in every step, `1 - 1 / N` for `ErEnsembleC` and `SpacialEnsemble`, `1 - N / (m (N - m))` for `ErEnsembleM`,
  where `N = n (n - 1) / 2`.
* `_autocovariance`: the value for the same sum at both looks.
* `_pair`: the probability after `t` steps that a given pair is connected.
-/

set_option linter.unusedSectionVars false
set_option linter.unusedSimpArgs false

namespace Verif
open AdjContainer GenericGraph MeasureTheory ProbabilityTheory Markov

variable {T : Type}

/-! ## The variance of a sum over independent edges -/

theorem indep_one {n : ℕ} (pr : Sym2 ℕ → ℚ) {x : Sym2 ℕ} (hx : x ∈ pairSet n) :
    ∑ S ∈ (pairSet n).powerset, indepProb n pr S * (if x ∈ S then 1 else 0) = pr x := by
  have h1 := indepProb_marginal pr (A := {x}) (B := {x}) (Finset.singleton_subset_iff.mpr hx) (Finset.Subset.refl _)
  rw [Finset.prod_singleton, if_pos (Finset.mem_singleton_self x)] at h1
  rw [← h1, Finset.sum_filter]
  refine Finset.sum_congr rfl fun S _ => ?_
  rw [mul_ite, mul_one, mul_zero]
  refine if_congr ?_ rfl rfl
  rw [Finset.inter_eq_left, Finset.singleton_subset_iff]

theorem indep_two {n : ℕ} (pr : Sym2 ℕ → ℚ) {x y : Sym2 ℕ} (hx : x ∈ pairSet n) (hy : y ∈ pairSet n) (hxy : x ≠ y) :
    ∑ S ∈ (pairSet n).powerset, indepProb n pr S * ((if x ∈ S then 1 else 0) * (if y ∈ S then 1 else 0)) = pr x * pr y := by
  have h1 := indepProb_marginal pr (A := {x, y}) (B := {x, y})
    (Finset.insert_subset_iff.mpr ⟨hx, Finset.singleton_subset_iff.mpr hy⟩) (Finset.Subset.refl _)
  rw [Finset.prod_pair hxy, if_pos (by simp), if_pos (by simp)] at h1
  rw [← h1, Finset.sum_filter]
  refine Finset.sum_congr rfl fun S _ => ?_
  have h4 : ({x, y} ∩ S = ({x, y} : Finset (Sym2 ℕ))) ↔ (x ∈ S ∧ y ∈ S) := by
    rw [Finset.inter_eq_left, Finset.insert_subset_iff, Finset.singleton_subset_iff]
  rw [if_congr h4 rfl rfl]
  by_cases h2 : x ∈ S <;> by_cases h3 : y ∈ S <;> simp [h2, h3]

/-- The variance of the sum of the weights `a` over the edges. -/
theorem indep_variance {n : ℕ} (pr a : Sym2 ℕ → ℚ) :
    ∑ S ∈ (pairSet n).powerset, indepProb n pr S * ((∑ x ∈ S, a x) * (∑ x ∈ S, a x)) -
      (∑ S ∈ (pairSet n).powerset, indepProb n pr S * ∑ x ∈ S, a x) * (∑ S ∈ (pairSet n).powerset, indepProb n pr S * ∑ x ∈ S, a x) =
      ∑ x ∈ pairSet n, a x ^ 2 * (pr x * (1 - pr x)) := by
  have h1 : ∀ S ∈ (pairSet n).powerset, ∑ x ∈ S, a x = ∑ x ∈ pairSet n, a x * (if x ∈ S then 1 else 0) := by
    intro S hS
    simp only [mul_ite, mul_one, mul_zero]
    rw [← Finset.sum_filter, Finset.filter_mem_eq_inter, Finset.inter_eq_right.mpr (Finset.mem_powerset.mp hS)]
  have h2 : ∑ S ∈ (pairSet n).powerset, indepProb n pr S * ∑ x ∈ S, a x = ∑ x ∈ pairSet n, a x * pr x := by
    rw [Finset.sum_congr rfl fun S hS => by rw [h1 S hS, Finset.mul_sum], Finset.sum_comm]
    refine Finset.sum_congr rfl fun x hx => ?_
    rw [← indep_one pr hx, Finset.mul_sum]
    exact Finset.sum_congr rfl fun S _ => by ring
  have h3 : ∑ S ∈ (pairSet n).powerset, indepProb n pr S * ((∑ x ∈ S, a x) * (∑ x ∈ S, a x)) =
      ∑ x ∈ pairSet n, ∑ y ∈ pairSet n, a x * a y * (if x = y then pr x else pr x * pr y) := by
    have h4 : ∀ S ∈ (pairSet n).powerset, indepProb n pr S * ((∑ x ∈ S, a x) * (∑ x ∈ S, a x)) =
        ∑ x ∈ pairSet n, ∑ y ∈ pairSet n, a x * a y * (indepProb n pr S * ((if x ∈ S then 1 else 0) * (if y ∈ S then 1 else 0))) := by
      intro S hS
      rw [h1 S hS, Finset.sum_mul_sum, Finset.mul_sum]
      refine Finset.sum_congr rfl fun x _ => ?_
      rw [Finset.mul_sum]
      exact Finset.sum_congr rfl fun y _ => by ring
    rw [Finset.sum_congr rfl h4, Finset.sum_comm]
    refine Finset.sum_congr rfl fun x hx => ?_
    rw [Finset.sum_comm]
    refine Finset.sum_congr rfl fun y hy => ?_
    rw [← Finset.mul_sum]
    congr 1
    by_cases hxy : x = y
    · subst hxy
      rw [if_pos rfl, ← indep_one pr hx]
      refine Finset.sum_congr rfl fun S _ => ?_
      split <;> simp
    · rw [if_neg hxy, indep_two pr hx hy hxy]
  rw [h2, h3, Finset.sum_mul_sum, ← Finset.sum_sub_distrib]
  refine Finset.sum_congr rfl fun x hx => ?_
  rw [← Finset.sum_sub_distrib, Finset.sum_eq_single x]
  · rw [if_pos rfl]; ring
  · intro y _ hyx
    rw [if_neg (Ne.symm hyx)]; ring
  · exact fun h => absurd hx h

/-! ## `ErEnsembleC` -/

theorem ErC.looks {n : ℕ} (hn : 2 ≤ n) (p : ℚ) {e₀ : ErC T Script} (w₀ : e₀.graph.WF) (n₀ : e₀.graph.nextId = n) (p₀ : e₀.prob = p) :
    Looks (ErC.put : ErC T Unit → Stream → ErC T Stream) (fun _ => ErC.randomize) (fun _ => ErC.mStep) (fun e => e.graph.edges)
      (fun c => c.graph.WF ∧ c.graph.nextId = n ∧ c.prob = p) (fun c => c.graph.WF ∧ 2 ≤ c.graph.nextId) (fun c => c.graph.edges)
      (ErC.core : ErC T Script → ErC T Unit) ErC.stepDraws (fun e _ => 1 / ((ErC.stepDraws e).card : ℚ)) ErC.stepWith
      (fun e => e.graph.edges) (fun e : ErC T Script => e.graph.WF ∧ e.graph.nextId = n ∧ e.prob = p) (pairSet n).powerset
      (indepProb n (fun _ => headProb p)) := by
  have he := ErC.ergodic hn w₀ n₀ p₀
  have hm := ErC.mixing (T := T) hn p
  exact ⟨ErC.resample n p, hm.law, he.lumped, he.balance, he.nonneg, indepProb_sum _ _,
    fun c hc => ⟨⟨c.graph, c.prob, c.cTarget, ⟨[]⟩⟩, hc, rfl⟩, hm.valid, fun _ _ => rfl⟩

theorem ErC.twoLooks_eq (e : ErC T Stream) (k t : ℕ) (A B : Finset (Sym2 ℕ) → Prop) :
    {ω | ∃ e₁ l e₂, ErC.randomize { e with rng := (⟨ω, k⟩ : Stream) } = .ok e₁ ∧ mSteps ErC.mStep t e₁ = .ok (l, e₂) ∧ A e₁.graph.edges ∧
      B e₂.graph.edges} = TwoLooks ErC.put (fun _ => ErC.randomize) (fun _ => ErC.mStep) (fun e : ErC T Stream => e.graph.edges) e.core' k t A B := by
  ext ω
  exact ⟨fun h => ⟨0, h⟩, fun ⟨_, h⟩ => h⟩

/-- After `randomize` and any number of Markov steps, every set `B` of networks has its probability in G(n, p). -/
theorem C101_er_c_stationary {e : ErC T Stream} (h : e.graph.WF) (hn : 2 ≤ e.graph.vertexCount) (B : Finset (Sym2 ℕ) → Prop)
    [DecidablePred B] (t k : ℕ) :
    (uniformTape {ω | ∃ e₁ l e₂, ErC.randomize { e with rng := (⟨ω, k⟩ : Stream) } = .ok e₁ ∧ mSteps ErC.mStep t e₁ = .ok (l, e₂) ∧
      B e₂.graph.edges}).toReal =
      ((∑ S ∈ (pairSet e.graph.vertexCount).powerset with B S, headProb e.prob ^ S.card *
        (1 - headProb e.prob) ^ (e.graph.vertexCount * (e.graph.vertexCount - 1) / 2 - S.card) : ℚ) : ℝ) := by
  have h1 := (ErC.looks hn e.prob (e₀ := ⟨e.graph, e.prob, e.cTarget, ⟨[]⟩⟩) h rfl rfl).stationary B t (c := e.core') ⟨h, rfl, rfl⟩ k
  rw [← ErC.twoLooks_eq] at h1
  simp only [true_and] at h1
  rw [h1]
  congr 1
  rw [← card_pairSet]
  exact Finset.sum_congr rfl fun S hS => indepProb_const (Finset.mem_powerset.mp (Finset.mem_filter.mp hS).1)

/-- First `A`, then `B` is as likely as first `B`, then `A`. -/
theorem C101_er_c_reversible {e : ErC T Stream} (h : e.graph.WF) (hn : 2 ≤ e.graph.vertexCount) (A B : Finset (Sym2 ℕ) → Prop)
    [DecidablePred A] [DecidablePred B] (t k : ℕ) :
    (uniformTape {ω | ∃ e₁ l e₂, ErC.randomize { e with rng := (⟨ω, k⟩ : Stream) } = .ok e₁ ∧ mSteps ErC.mStep t e₁ = .ok (l, e₂) ∧
      A e₁.graph.edges ∧ B e₂.graph.edges}).toReal =
    (uniformTape {ω | ∃ e₁ l e₂, ErC.randomize { e with rng := (⟨ω, k⟩ : Stream) } = .ok e₁ ∧ mSteps ErC.mStep t e₁ = .ok (l, e₂) ∧
      B e₁.graph.edges ∧ A e₂.graph.edges}).toReal := by
  rw [ErC.twoLooks_eq, ErC.twoLooks_eq]
  exact (ErC.looks hn e.prob (e₀ := ⟨e.graph, e.prob, e.cTarget, ⟨[]⟩⟩) h rfl rfl).reversible A B t (c := e.core') ⟨h, rfl, rfl⟩ k

theorem rate_ne_one {n : ℕ} (hn : 2 ≤ n) : (1 : ℚ) - 1 / ((pairSet n).card : ℚ) ≠ 1 := by
  rw [card_pairSet]
  exact (pair_rate hn).2.ne

theorem ErC.sum_rate {n : ℕ} (hn : 2 ≤ n) (p : ℚ) (a : Sym2 ℕ → ℚ) (t : ℕ) (e : ErC T Script)
    (he : e.graph.WF ∧ e.graph.nextId = n ∧ e.prob = p) :
    Steady.meanAfter ErC.stepDraws (fun e _ => 1 / ((ErC.stepDraws e).card : ℚ)) ErC.stepWith (fun e => ∑ x ∈ e.graph.edges, a x) t e =
      ∑ x ∈ pairSet n, a x * headProb p + (∑ x ∈ e.graph.edges, a x - ∑ x ∈ pairSet n, a x * headProb p) *
        (1 - 1 / ((pairSet n).card : ℚ)) ^ t := by
  have hm := ErC.mixing (T := T) hn p
  exact toggle_sum_mean hm.steady (ErC.steps_draws p) (fun e he => Finset.mem_powerset.mp (hm.mem e he)) (ErC.steps_toggle p) a t he

/-- The covariance of any quantity `g` at the first look and a sum over the edges at the second look. -/
theorem C101_er_c_covariance {e : ErC T Stream} (h : e.graph.WF) {n : ℕ} (hn : 2 ≤ n) (hen : e.graph.vertexCount = n)
    (g : Finset (Sym2 ℕ) → ℚ) (a : Sym2 ℕ → ℚ) (t k : ℕ) {P₁ : Finset (Sym2 ℕ) → ℝ} {P₂ : Finset (Sym2 ℕ) → Finset (Sym2 ℕ) → ℝ}
    (hP₁ : ∀ S, P₁ S = (uniformTape {ω | ∃ e₁, ErC.randomize { e with rng := (⟨ω, k⟩ : Stream) } = .ok e₁ ∧ e₁.graph.edges = S}).toReal)
    (hP₂ : ∀ S S', P₂ S S' = (uniformTape {ω | ∃ e₁ l e₂, ErC.randomize { e with rng := (⟨ω, k⟩ : Stream) } = .ok e₁ ∧
      mSteps ErC.mStep t e₁ = .ok (l, e₂) ∧ e₁.graph.edges = S ∧ e₂.graph.edges = S'}).toReal) :
    ∑ S ∈ (pairSet n).powerset, ∑ S' ∈ (pairSet n).powerset, (g S : ℝ) * (∑ x ∈ S', a x : ℚ) * P₂ S S' -
        (∑ S ∈ (pairSet n).powerset, (g S : ℝ) * P₁ S) * (∑ S ∈ (pairSet n).powerset, (∑ x ∈ S, a x : ℚ) * P₁ S) =
      (1 - 1 / ((n * (n - 1) / 2 : ℕ) : ℝ)) ^ t * (∑ S ∈ (pairSet n).powerset, (g S : ℝ) * (∑ x ∈ S, a x : ℚ) * P₁ S -
        (∑ S ∈ (pairSet n).powerset, (g S : ℝ) * P₁ S) * (∑ S ∈ (pairSet n).powerset, (∑ x ∈ S, a x : ℚ) * P₁ S)) := by
  subst hen
  have h1 := (ErC.looks hn e.prob (e₀ := ⟨e.graph, e.prob, e.cTarget, ⟨[]⟩⟩) h rfl rfl).autocovariance (f := fun S => ∑ x ∈ S, a x) (rate_ne_one hn) (fun t e he => ErC.sum_rate hn _ a t e he) g t
    (c := e.core') ⟨h, rfl, rfl⟩ k (P₁ := P₁) (P₂ := P₂) (fun S hS => by
      rw [hP₁, ErC.event h (fun E => E = S) k, Finset.filter_eq', if_pos hS, Finset.sum_singleton,
        ENNReal.toReal_ofReal (by exact_mod_cast indepProb_nonneg (fun _ => headProb_nonneg _) (fun _ => headProb_le_one _) S)])
    (fun S _ S' _ => by rw [hP₂, ← ErC.twoLooks_eq])
  rw [h1, card_pairSet]
  push_cast
  rfl

/-- The autocovariance of a sum over the edges. -/
theorem C101_er_c_autocovariance {e : ErC T Stream} (h : e.graph.WF) {n : ℕ} (hn : 2 ≤ n) (hen : e.graph.vertexCount = n)
    (a : Sym2 ℕ → ℚ) (t k : ℕ) {P₁ : Finset (Sym2 ℕ) → ℝ} {P₂ : Finset (Sym2 ℕ) → Finset (Sym2 ℕ) → ℝ}
    (hP₁ : ∀ S, P₁ S = (uniformTape {ω | ∃ e₁, ErC.randomize { e with rng := (⟨ω, k⟩ : Stream) } = .ok e₁ ∧ e₁.graph.edges = S}).toReal)
    (hP₂ : ∀ S S', P₂ S S' = (uniformTape {ω | ∃ e₁ l e₂, ErC.randomize { e with rng := (⟨ω, k⟩ : Stream) } = .ok e₁ ∧
      mSteps ErC.mStep t e₁ = .ok (l, e₂) ∧ e₁.graph.edges = S ∧ e₂.graph.edges = S'}).toReal) :
    ∑ S ∈ (pairSet n).powerset, ∑ S' ∈ (pairSet n).powerset, ((∑ x ∈ S, a x : ℚ) : ℝ) * (∑ x ∈ S', a x : ℚ) * P₂ S S' -
        (∑ S ∈ (pairSet n).powerset, (∑ x ∈ S, a x : ℚ) * P₁ S) ^ 2 =
      (1 - 1 / ((n * (n - 1) / 2 : ℕ) : ℝ)) ^ t * ((∑ x ∈ pairSet n, a x ^ 2 * (headProb e.prob * (1 - headProb e.prob)) : ℚ) : ℝ) := by
  rw [pow_two, C101_er_c_covariance h hn hen (fun S => ∑ x ∈ S, a x) a t k hP₁ hP₂]
  congr 1
  have h1 : ∀ S ∈ (pairSet n).powerset, P₁ S = (indepProb n (fun _ => headProb e.prob) S : ℝ) := by
    intro S hS
    subst hen
    rw [hP₁, ErC.event h (fun E => E = S) k, Finset.filter_eq', if_pos hS, Finset.sum_singleton,
      ENNReal.toReal_ofReal (by exact_mod_cast indepProb_nonneg (fun _ => headProb_nonneg _) (fun _ => headProb_le_one _) S)]
  have h2 := congrArg (fun q : ℚ => (q : ℝ)) (indep_variance (n := n) (fun _ => headProb e.prob) a)
  push_cast at h2 ⊢
  rw [← h2]
  congr 1
  · exact Finset.sum_congr rfl fun S hS => by rw [h1 S hS]; ring
  · congr 1 <;> exact Finset.sum_congr rfl fun S hS => by rw [h1 S hS]; ring

/-! ## `SpacialEnsemble` -/

theorem Spacial.pairProb_eq {e₀ : Spacial T Script} (hsym : ∀ p q, e₀.law p q = e₀.law q p) :
    e₀.pairProb hsym = Spacial.edgeLaw e₀.law (coords e₀.graph) := by
  funext x
  induction x with
  | _ a b =>
    show e₀.law (posAt (coords e₀.graph) a) (posAt (coords e₀.graph) b) = e₀.law (posAt (coords e₀.graph) (a ⊓ b)) (posAt (coords e₀.graph) (a ⊔ b))
    rcases le_total a b with hab | hab
    · rw [inf_eq_left.mpr hab, sup_eq_right.mpr hab]
    · rw [inf_eq_right.mpr hab, sup_eq_left.mpr hab, hsym]

theorem Spacial.looks {e₀ : Spacial T Script} (w₀ : e₀.graph.WF) (hn : 2 ≤ e₀.graph.vertexCount) (hsym : ∀ p q, e₀.law p q = e₀.law q p) :
    Looks (Spacial.put : Spacial T Unit → Stream → Spacial T Stream) (fun _ => Spacial.randomize) (fun _ => Spacial.mStep)
      (fun e => e.graph.edges)
      (fun c => c.graph.WF ∧ c.graph.nextId = e₀.graph.nextId ∧ c.law = e₀.law ∧ coords c.graph = coords e₀.graph)
      (fun c => c.graph.WF ∧ 2 ≤ c.graph.nextId) (fun c => c.graph.edges)
      (Spacial.core : Spacial T Script → Spacial T Unit) Spacial.stepDraws (fun e _ => 1 / ((Spacial.stepDraws e).card : ℚ)) Spacial.stepWith
      (fun e => e.graph.edges)
      (fun e : Spacial T Script => e.graph.WF ∧ e.graph.nextId = e₀.graph.nextId ∧ e.law = e₀.law ∧ coords e.graph = coords e₀.graph)
      (pairSet e₀.graph.nextId).powerset
      (indepProb e₀.graph.nextId (fun x => headProb (Spacial.edgeLaw e₀.law (coords e₀.graph) x))) := by
  have he := Spacial.ergodic w₀ hn rfl hsym
  rw [Spacial.pairProb_eq hsym] at he
  have hm := Spacial.mixing w₀ hn hsym
  exact ⟨Spacial.resample e₀.graph.nextId e₀.law (coords e₀.graph), hm.law, he.lumped, he.balance, he.nonneg, indepProb_sum _ _,
    fun c hc => ⟨⟨c.graph, ⟨[]⟩, c.law⟩, hc, rfl⟩, hm.valid, fun _ _ => rfl⟩

theorem Spacial.twoLooks_eq (e : Spacial T Stream) (k t : ℕ) (A B : Finset (Sym2 ℕ) → Prop) :
    {ω | ∃ e₁ l e₂, Spacial.randomize { e with rng := (⟨ω, k⟩ : Stream) } = .ok e₁ ∧ mSteps Spacial.mStep t e₁ = .ok (l, e₂) ∧
      A e₁.graph.edges ∧ B e₂.graph.edges} =
      TwoLooks Spacial.put (fun _ => Spacial.randomize) (fun _ => Spacial.mStep) (fun e : Spacial T Stream => e.graph.edges) e.core' k t A B := by
  ext ω
  exact ⟨fun h => ⟨0, h⟩, fun ⟨_, h⟩ => h⟩

theorem Spacial.event {e : Spacial T Stream} (h : e.graph.WF) (Q : Finset (Sym2 ℕ) → Prop) [DecidablePred Q] (k : ℕ) :
    uniformTape {ω | ∃ e', Spacial.randomize { e with rng := (⟨ω, k⟩ : Stream) } = .ok e' ∧ Q e'.graph.edges} =
      ENNReal.ofReal ((∑ S ∈ (pairSet e.graph.vertexCount).powerset with Q S,
        indepProb e.graph.vertexCount (fun x => headProb (Spacial.edgeLaw e.law (coords e.graph) x)) S : ℚ) : ℝ) := by
  rw [← edgesLaw_filter (fun _ => headProb_nonneg _) (fun _ => headProb_le_one _)]
  rw [← (Spacial.resample e.graph.vertexCount e.law (coords e.graph)).event (look := fun e => e.graph.edges) (fun _ _ => rfl) (c := e.core')
    ⟨h, rfl, rfl, rfl⟩ (P := Q) k]
  congr 1
  ext ω
  exact ⟨fun ⟨e', a⟩ => ⟨0, e', a⟩, fun ⟨_, e', a⟩ => ⟨e', a⟩⟩

theorem Spacial.event_one {e : Spacial T Stream} (h : e.graph.WF) {S : Finset (Sym2 ℕ)} (hS : S ∈ (pairSet e.graph.vertexCount).powerset)
    (k : ℕ) : (uniformTape {ω | ∃ e₁, Spacial.randomize { e with rng := (⟨ω, k⟩ : Stream) } = .ok e₁ ∧ e₁.graph.edges = S}).toReal =
      (indepProb e.graph.vertexCount (fun x => headProb (Spacial.edgeLaw e.law (coords e.graph) x)) S : ℝ) := by
  rw [Spacial.event h (fun E => E = S) k, Finset.filter_eq', if_pos hS, Finset.sum_singleton,
    ENNReal.toReal_ofReal (by exact_mod_cast indepProb_nonneg (fun _ => headProb_nonneg _) (fun _ => headProb_le_one _) S)]

/-- After `randomize` and any number of Markov steps, every set `B` of networks is as likely as right after `randomize`. -/
theorem C101_spacial_stationary {e : Spacial T Stream} (h : e.graph.WF) (hn : 2 ≤ e.graph.vertexCount)
    (hsym : ∀ p q, e.law p q = e.law q p) (B : Finset (Sym2 ℕ) → Prop) [DecidablePred B] (t k : ℕ) :
    uniformTape {ω | ∃ e₁ l e₂, Spacial.randomize { e with rng := (⟨ω, k⟩ : Stream) } = .ok e₁ ∧ mSteps Spacial.mStep t e₁ = .ok (l, e₂) ∧
      B e₂.graph.edges} =
    uniformTape {ω | ∃ e₁, Spacial.randomize { e with rng := (⟨ω, k⟩ : Stream) } = .ok e₁ ∧ B e₁.graph.edges} := by
  have h1 := (Spacial.looks (e₀ := ⟨e.graph, ⟨[]⟩, e.law⟩) h hn hsym).stationary B t (c := e.core') ⟨h, rfl, rfl, rfl⟩ k
  rw [← Spacial.twoLooks_eq] at h1
  simp only [true_and] at h1
  rw [Spacial.event h B k]
  exact (ENNReal.ofReal_toReal (measure_ne_top _ _)).symm.trans (congrArg ENNReal.ofReal h1)

/-- First `A`, then `B` is as likely as first `B`, then `A`. -/
theorem C101_spacial_reversible {e : Spacial T Stream} (h : e.graph.WF) (hn : 2 ≤ e.graph.vertexCount)
    (hsym : ∀ p q, e.law p q = e.law q p) (A B : Finset (Sym2 ℕ) → Prop) [DecidablePred A] [DecidablePred B] (t k : ℕ) :
    (uniformTape {ω | ∃ e₁ l e₂, Spacial.randomize { e with rng := (⟨ω, k⟩ : Stream) } = .ok e₁ ∧ mSteps Spacial.mStep t e₁ = .ok (l, e₂) ∧
      A e₁.graph.edges ∧ B e₂.graph.edges}).toReal =
    (uniformTape {ω | ∃ e₁ l e₂, Spacial.randomize { e with rng := (⟨ω, k⟩ : Stream) } = .ok e₁ ∧ mSteps Spacial.mStep t e₁ = .ok (l, e₂) ∧
      B e₁.graph.edges ∧ A e₂.graph.edges}).toReal := by
  rw [Spacial.twoLooks_eq, Spacial.twoLooks_eq]
  exact (Spacial.looks (e₀ := ⟨e.graph, ⟨[]⟩, e.law⟩) h hn hsym).reversible A B t (c := e.core') ⟨h, rfl, rfl, rfl⟩ k

/-- The covariance of any quantity `g` at the first look and a sum over the edges at the second look. -/
theorem C101_spacial_covariance {e : Spacial T Stream} (h : e.graph.WF) {n : ℕ} (hn : 2 ≤ n) (hen : e.graph.vertexCount = n)
    (hsym : ∀ p q, e.law p q = e.law q p)
    (g : Finset (Sym2 ℕ) → ℚ) (a : Sym2 ℕ → ℚ) (t k : ℕ) {P₁ : Finset (Sym2 ℕ) → ℝ} {P₂ : Finset (Sym2 ℕ) → Finset (Sym2 ℕ) → ℝ}
    (hP₁ : ∀ S, P₁ S = (uniformTape {ω | ∃ e₁, Spacial.randomize { e with rng := (⟨ω, k⟩ : Stream) } = .ok e₁ ∧ e₁.graph.edges = S}).toReal)
    (hP₂ : ∀ S S', P₂ S S' = (uniformTape {ω | ∃ e₁ l e₂, Spacial.randomize { e with rng := (⟨ω, k⟩ : Stream) } = .ok e₁ ∧
      mSteps Spacial.mStep t e₁ = .ok (l, e₂) ∧ e₁.graph.edges = S ∧ e₂.graph.edges = S'}).toReal) :
    ∑ S ∈ (pairSet n).powerset, ∑ S' ∈ (pairSet n).powerset, (g S : ℝ) * (∑ x ∈ S', a x : ℚ) * P₂ S S' -
        (∑ S ∈ (pairSet n).powerset, (g S : ℝ) * P₁ S) * (∑ S ∈ (pairSet n).powerset, (∑ x ∈ S, a x : ℚ) * P₁ S) =
      (1 - 1 / ((n * (n - 1) / 2 : ℕ) : ℝ)) ^ t * (∑ S ∈ (pairSet n).powerset, (g S : ℝ) * (∑ x ∈ S, a x : ℚ) * P₁ S -
        (∑ S ∈ (pairSet n).powerset, (g S : ℝ) * P₁ S) * (∑ S ∈ (pairSet n).powerset, (∑ x ∈ S, a x : ℚ) * P₁ S)) := by
  subst hen
  have hm := Spacial.mixing (e₀ := (⟨e.graph, ⟨[]⟩, e.law⟩ : Spacial T Script)) h hn hsym
  have h1 := (Spacial.looks (e₀ := ⟨e.graph, ⟨[]⟩, e.law⟩) h hn hsym).autocovariance (f := fun S => ∑ x ∈ S, a x) (rate_ne_one hn)
    (fun t e he => toggle_sum_mean hm.steady Spacial.steps_draws (fun e he => Finset.mem_powerset.mp (hm.mem e he))
      (Spacial.steps_toggle hsym) a t he) g t
    (c := e.core') ⟨h, rfl, rfl, rfl⟩ k (P₁ := P₁) (P₂ := P₂) (fun S hS => (hP₁ S).trans (Spacial.event_one h hS k))
    (fun S _ S' _ => by rw [hP₂, ← Spacial.twoLooks_eq])
  refine h1.trans ?_
  rw [show (pairSet (GenericGraph.vertexCount e.graph)).card = _ from card_pairSet _]
  push_cast
  rfl

/-- The autocovariance of a sum over the edges. -/
theorem C101_spacial_autocovariance {e : Spacial T Stream} (h : e.graph.WF) {n : ℕ} (hn : 2 ≤ n) (hen : e.graph.vertexCount = n)
    (hsym : ∀ p q, e.law p q = e.law q p)
    (a : Sym2 ℕ → ℚ) (t k : ℕ) {P₁ : Finset (Sym2 ℕ) → ℝ} {P₂ : Finset (Sym2 ℕ) → Finset (Sym2 ℕ) → ℝ}
    (hP₁ : ∀ S, P₁ S = (uniformTape {ω | ∃ e₁, Spacial.randomize { e with rng := (⟨ω, k⟩ : Stream) } = .ok e₁ ∧ e₁.graph.edges = S}).toReal)
    (hP₂ : ∀ S S', P₂ S S' = (uniformTape {ω | ∃ e₁ l e₂, Spacial.randomize { e with rng := (⟨ω, k⟩ : Stream) } = .ok e₁ ∧
      mSteps Spacial.mStep t e₁ = .ok (l, e₂) ∧ e₁.graph.edges = S ∧ e₂.graph.edges = S'}).toReal) :
    ∑ S ∈ (pairSet n).powerset, ∑ S' ∈ (pairSet n).powerset, ((∑ x ∈ S, a x : ℚ) : ℝ) * (∑ x ∈ S', a x : ℚ) * P₂ S S' -
        (∑ S ∈ (pairSet n).powerset, (∑ x ∈ S, a x : ℚ) * P₁ S) ^ 2 =
      (1 - 1 / ((n * (n - 1) / 2 : ℕ) : ℝ)) ^ t * ((∑ x ∈ pairSet n, a x ^ 2 * (headProb (Spacial.edgeLaw e.law (coords e.graph) x) *
        (1 - headProb (Spacial.edgeLaw e.law (coords e.graph) x))) : ℚ) : ℝ) := by
  rw [pow_two, C101_spacial_covariance h hn hen hsym (fun S => ∑ x ∈ S, a x) a t k hP₁ hP₂]
  congr 1
  have h1 : ∀ S ∈ (pairSet n).powerset, P₁ S = (indepProb n (fun x => headProb (Spacial.edgeLaw e.law (coords e.graph) x)) S : ℝ) := by
    intro S hS
    subst hen
    rw [hP₁, Spacial.event_one h hS k]
  have h2 := congrArg (fun q : ℚ => (q : ℝ)) (indep_variance (n := n) (fun x => headProb (Spacial.edgeLaw e.law (coords e.graph) x)) a)
  push_cast at h2 ⊢
  rw [← h2]
  congr 1
  · exact Finset.sum_congr rfl fun S hS => by rw [h1 S hS]; ring
  · congr 1 <;> exact Finset.sum_congr rfl fun S hS => by rw [h1 S hS]; ring

/-! ## `ErEnsembleM` -/

section
variable {n m : ℕ}

theorem ErM.sum_rate (hm0 : 0 < m) (hm : m < n * (n - 1) / 2) (a : Sym2 ℕ → ℚ) (t : ℕ) : ∀ (e : ErM T Script),
    (e.Inv ∧ e.graph.nextId = n ∧ e.m = m) →
    Steady.meanAfter ErM.stepDraws (fun e _ => 1 / ((ErM.stepDraws e).card : ℚ)) ErM.stepWith (fun e => ∑ x ∈ e.graph.edges, a x) t e =
      (m : ℚ) / (pairSet n).card * ∑ x ∈ pairSet n, a x + (∑ x ∈ e.graph.edges, a x - (m : ℚ) / (pairSet n).card * ∑ x ∈ pairSet n, a x) *
        (1 - ((pairSet n).card : ℚ) / (m * ((pairSet n).card - m))) ^ t := by
  have hx := ErM.mixing (T := T) hm0 hm
  set ρ := 1 - ((pairSet n).card : ℚ) / (m * ((pairSet n).card - m)) with hρ
  set μ := (m : ℚ) / (pairSet n).card * ∑ x ∈ pairSet n, a x with hμ
  have hone : ∀ S ∈ (pairSet n).powersetCard m, swapMean (pairSet n) (fun S => ∑ x ∈ S, a x) S = μ + (∑ x ∈ S, a x - μ) * ρ := by
    intro S hS
    obtain ⟨h1, h2⟩ := Finset.mem_powersetCard.mp hS
    have h3 : ∀ S ⊆ pairSet n, ∑ x ∈ S, a x = ∑ x ∈ pairSet n, a x * (if x ∈ S then 1 else 0) := by
      intro S hS
      simp only [mul_ite, mul_one, mul_zero]
      rw [← Finset.sum_filter, Finset.filter_mem_eq_inter, Finset.inter_eq_right.mpr hS]
    have h4 : swapMean (pairSet n) (fun S => ∑ x ∈ S, a x) S =
        ∑ x ∈ pairSet n, a x * swapMean (pairSet n) (fun S => if x ∈ S then 1 else 0) S := by
      unfold swapMean
      have h5 : ∀ x ∈ S, ∀ y ∈ pairSet n \ S, ∑ z ∈ insert y (S.erase x), a z =
          ∑ z ∈ pairSet n, a z * (if z ∈ insert y (S.erase x) then 1 else 0) := fun x hx y hy => h3 _ (swap_mem h1 h2 hx hy).1
      rw [Finset.sum_congr rfl fun x hx => Finset.sum_congr rfl fun y hy => h5 x hx y hy]
      rw [Finset.sum_congr rfl fun x _ => Finset.sum_comm, Finset.sum_comm, Finset.sum_div]
      refine Finset.sum_congr rfl fun z _ => ?_
      rw [mul_div_assoc', Finset.mul_sum]
      congr 1
      exact Finset.sum_congr rfl fun x _ => by rw [Finset.mul_sum]
    rw [h4, h3 S h1, hμ, Finset.mul_sum, ← Finset.sum_sub_distrib, Finset.sum_mul, ← Finset.sum_add_distrib]
    refine Finset.sum_congr rfl fun x hx => ?_
    rw [swap_pair h1 h2 hm0 (by rw [card_pairSet]; exact hm) hx, ← hρ]
    ring
  induction t with
  | zero => intro e _; rw [pow_zero]; show ∑ x ∈ e.graph.edges, a x = _; ring
  | succ t ih =>
    intro e he
    show avg _ _ _ _ e = _
    have h1 : ∀ e : ErM T Script, (e.Inv ∧ e.graph.nextId = n ∧ e.m = m) → Steady.meanAfter ErM.stepDraws
        (fun e _ => 1 / ((ErM.stepDraws e).card : ℚ)) ErM.stepWith (fun e => ∑ x ∈ e.graph.edges, a x) t e =
        (μ - μ * ρ ^ t) + ρ ^ t * ∑ x ∈ e.graph.edges, a x := fun e he => by rw [ih e he]; ring
    rw [hx.steady.avg_congr h1 he, Steady.avg_add, hx.steady.avg_const _ he, Steady.avg_mul]
    have h2 := ErM.avg_swap he.1 (F := fun e => ∑ x ∈ e.graph.edges, a x) (G := fun S => ∑ x ∈ S, a x) (fun _ _ _ _ => rfl)
    rw [he.2.1] at h2
    rw [h2, hone _ (hx.mem e he)]
    ring

theorem ErM.looks (hm0 : 0 < m) (hm : m < n * (n - 1) / 2) {e₀ : ErM T Script} (w₀ : e₀.Inv) (n₀ : e₀.graph.nextId = n) (m₀ : e₀.m = m) :
    Looks (ErM.put : ErM T Unit → Stream → ErM T Stream) (fun _ => ErM.randomize) (fun _ => ErM.mStep) (fun e => e.graph.edges)
      (fun c => (ErM.put c (⟨fun _ => 0, 0⟩ : Stream)).Inv ∧ c.graph.nextId = n ∧ c.m = m)
      (fun c => (ErM.put c (⟨[]⟩ : Script)).Inv ∧ 0 < c.m ∧ c.m < c.graph.nextId * (c.graph.nextId - 1) / 2) (fun c => c.graph.edges)
      (ErM.core : ErM T Script → ErM T Unit) ErM.stepDraws (fun e _ => 1 / ((ErM.stepDraws e).card : ℚ)) ErM.stepWith
      (fun e => e.graph.edges) (fun e : ErM T Script => e.Inv ∧ e.graph.nextId = n ∧ e.m = m) ((pairSet n).powersetCard m)
      (fun _ => 1 / ((n * (n - 1) / 2).choose m : ℚ)) := by
  have he := ErM.ergodic hm0 hm w₀ n₀ m₀
  have hx := ErM.mixing (T := T) hm0 hm
  have hc : 0 < (n * (n - 1) / 2).choose m := Nat.choose_pos hm.le
  have hc' : (0 : ℚ) < ((n * (n - 1) / 2).choose m : ℚ) := by exact_mod_cast hc
  have hr := ErM.resample (T := T) n m hm.le
  have hw : (fun _ : Finset (Sym2 ℕ) => (((n * (n - 1) / 2).choose m : ℕ) : ENNReal)⁻¹) =
      fun _ => ENNReal.ofReal ((1 / ((n * (n - 1) / 2).choose m : ℚ) : ℚ) : ℝ) := by
    funext _
    rw [one_div, Rat.cast_inv, Rat.cast_natCast, ENNReal.ofReal_inv_of_pos (by exact_mod_cast hc), ENNReal.ofReal_natCast]
  rw [hw] at hr
  refine ⟨hr, hx.law, he.lumped, fun x hx y hy => ?_, fun _ _ => by positivity, ?_, ?_, hx.valid, fun _ _ => rfl⟩
  · have := he.balance x hx y hy
    rw [one_mul, one_mul] at this
    rw [this]
  · rw [Finset.sum_const, nsmul_eq_mul, Finset.card_powersetCard, card_pairSet]
    field_simp
  · rintro c ⟨h1, h2, h3⟩
    exact ⟨ErM.put c ⟨[]⟩, ⟨⟨h1.wf, h1.len, h1.cur, h1.split, h1.all⟩, h2, h3⟩, rfl⟩

end

theorem ErM.twoLooks_eq (e : ErM T Stream) (k t : ℕ) (A B : Finset (Sym2 ℕ) → Prop) :
    {ω | ∃ e₁ l e₂, ErM.randomize { e with rng := (⟨ω, k⟩ : Stream) } = .ok e₁ ∧ mSteps ErM.mStep t e₁ = .ok (l, e₂) ∧
      A e₁.graph.edges ∧ B e₂.graph.edges} =
      TwoLooks ErM.put (fun _ => ErM.randomize) (fun _ => ErM.mStep) (fun e : ErM T Stream => e.graph.edges) e.core' k t A B := by
  ext ω
  exact ⟨fun h => ⟨0, h⟩, fun ⟨_, h⟩ => h⟩

theorem ErM.event_one {e : ErM T Stream} (h : e.Inv) {S : Finset (Sym2 ℕ)} (hS : S ∈ (pairSet e.graph.vertexCount).powersetCard e.m)
    (k : ℕ) : (uniformTape {ω | ∃ e₁, ErM.randomize { e with rng := (⟨ω, k⟩ : Stream) } = .ok e₁ ∧ e₁.graph.edges = S}).toReal =
      ((1 / ((e.graph.vertexCount * (e.graph.vertexCount - 1) / 2).choose e.m : ℚ) : ℚ) : ℝ) := by
  rw [ErM.event h (fun E => E = S) k, Finset.filter_eq', if_pos hS, Finset.card_singleton, ENNReal.toReal_div]
  simp

section
variable {e : ErM T Stream} (h : e.Inv) (hm0 : 0 < e.m) (hm : e.m < e.graph.vertexCount * (e.graph.vertexCount - 1) / 2)
include h hm0 hm

/-- After `randomize` and any number of Markov steps, every set `B` of networks has the share of its members among all networks with
`m` edges. -/
theorem C101_er_m_stationary (B : Finset (Sym2 ℕ) → Prop) [DecidablePred B] (t k : ℕ) :
    (uniformTape {ω | ∃ e₁ l e₂, ErM.randomize { e with rng := (⟨ω, k⟩ : Stream) } = .ok e₁ ∧ mSteps ErM.mStep t e₁ = .ok (l, e₂) ∧
      B e₂.graph.edges}).toReal =
      ((((pairSet e.graph.vertexCount).powersetCard e.m).filter B).card : ℝ) /
        ((e.graph.vertexCount * (e.graph.vertexCount - 1) / 2).choose e.m : ℝ) := by
  have hI : (ErM.put e.core (⟨[]⟩ : Script)).Inv := ⟨h.wf, h.len, h.cur, h.split, h.all⟩
  have h1 := (ErM.looks hm0 hm hI rfl rfl).stationary B t (c := e.core') ⟨⟨h.wf, h.len, h.cur, h.split, h.all⟩, rfl, rfl⟩ k
  rw [← ErM.twoLooks_eq] at h1
  simp only [true_and] at h1
  rw [h1, Finset.sum_const, nsmul_eq_mul]
  push_cast
  ring

/-- First `A`, then `B` is as likely as first `B`, then `A`. -/
theorem C101_er_m_reversible (A B : Finset (Sym2 ℕ) → Prop) [DecidablePred A] [DecidablePred B] (t k : ℕ) :
    (uniformTape {ω | ∃ e₁ l e₂, ErM.randomize { e with rng := (⟨ω, k⟩ : Stream) } = .ok e₁ ∧ mSteps ErM.mStep t e₁ = .ok (l, e₂) ∧
      A e₁.graph.edges ∧ B e₂.graph.edges}).toReal =
    (uniformTape {ω | ∃ e₁ l e₂, ErM.randomize { e with rng := (⟨ω, k⟩ : Stream) } = .ok e₁ ∧ mSteps ErM.mStep t e₁ = .ok (l, e₂) ∧
      B e₁.graph.edges ∧ A e₂.graph.edges}).toReal := by
  have hI : (ErM.put e.core (⟨[]⟩ : Script)).Inv := ⟨h.wf, h.len, h.cur, h.split, h.all⟩
  rw [ErM.twoLooks_eq, ErM.twoLooks_eq]
  exact (ErM.looks hm0 hm hI rfl rfl).reversible A B t (c := e.core') ⟨⟨h.wf, h.len, h.cur, h.split, h.all⟩, rfl, rfl⟩ k

/-- The covariance of any quantity `g` at the first look and a sum over the edges at the second look. -/
theorem C101_er_m_covariance {N : ℕ} (hN : N = e.graph.vertexCount * (e.graph.vertexCount - 1) / 2)
    {Ω : Finset (Finset (Sym2 ℕ))} (hΩ : Ω = (pairSet e.graph.vertexCount).powersetCard e.m)
    (g : Finset (Sym2 ℕ) → ℚ) (a : Sym2 ℕ → ℚ) (t k : ℕ) {P₁ : Finset (Sym2 ℕ) → ℝ} {P₂ : Finset (Sym2 ℕ) → Finset (Sym2 ℕ) → ℝ}
    (hP₁ : ∀ S, P₁ S = (uniformTape {ω | ∃ e₁, ErM.randomize { e with rng := (⟨ω, k⟩ : Stream) } = .ok e₁ ∧ e₁.graph.edges = S}).toReal)
    (hP₂ : ∀ S S', P₂ S S' = (uniformTape {ω | ∃ e₁ l e₂, ErM.randomize { e with rng := (⟨ω, k⟩ : Stream) } = .ok e₁ ∧
      mSteps ErM.mStep t e₁ = .ok (l, e₂) ∧ e₁.graph.edges = S ∧ e₂.graph.edges = S'}).toReal) :
    ∑ S ∈ Ω, ∑ S' ∈ Ω, (g S : ℝ) * (∑ x ∈ S', a x : ℚ) * P₂ S S' -
        (∑ S ∈ Ω, (g S : ℝ) * P₁ S) * (∑ S ∈ Ω, (∑ x ∈ S, a x : ℚ) * P₁ S) =
      (1 - (N : ℝ) / (e.m * (N - e.m))) ^ t * (∑ S ∈ Ω, (g S : ℝ) * (∑ x ∈ S, a x : ℚ) * P₁ S -
        (∑ S ∈ Ω, (g S : ℝ) * P₁ S) * (∑ S ∈ Ω, (∑ x ∈ S, a x : ℚ) * P₁ S)) := by
  subst hΩ hN
  have hI : (ErM.put e.core (⟨[]⟩ : Script)).Inv := ⟨h.wf, h.len, h.cur, h.split, h.all⟩
  have h1 := (ErM.looks hm0 hm hI rfl rfl).autocovariance (f := fun S => ∑ x ∈ S, a x) (by
      have hp : (0 : ℚ) < ((pairSet e.graph.vertexCount).card : ℚ) / (e.m * ((pairSet e.graph.vertexCount).card - e.m)) := by
        rw [card_pairSet]
        have h2 : (0 : ℚ) < e.m := by exact_mod_cast hm0
        have h3 : (e.m : ℚ) < ((e.graph.vertexCount * (e.graph.vertexCount - 1) / 2 : ℕ) : ℚ) := by exact_mod_cast hm
        exact div_pos (by linarith) (mul_pos h2 (by linarith))
      intro hc
      linarith) (fun t e he => ErM.sum_rate hm0 hm a t e he) g t
    (c := e.core') ⟨⟨h.wf, h.len, h.cur, h.split, h.all⟩, rfl, rfl⟩ k (P₁ := P₁) (P₂ := P₂)
    (fun S hS => (hP₁ S).trans (ErM.event_one h hS k)) (fun S _ S' _ => by rw [hP₂, ← ErM.twoLooks_eq])
  rw [h1, card_pairSet]
  push_cast
  rfl

end

/-- The number of edge sets that contain the given pairs, relative to all. -/
theorem choose_one {N m : ℕ} (hm0 : 0 < m) (hm : m < N) : ((N - 1).choose (m - 1) : ℚ) / (N.choose m : ℚ) = m / N := by
  obtain ⟨m, rfl⟩ : ∃ j, m = j + 1 := ⟨m - 1, by omega⟩
  obtain ⟨N, rfl⟩ : ∃ j, N = j + 1 := ⟨N - 1, by omega⟩
  have h1 : ((N + 1 : ℕ) : ℚ) * (N.choose m : ℚ) = ((N + 1).choose (m + 1) : ℚ) * ((m + 1 : ℕ) : ℚ) := by
    exact_mod_cast Nat.add_one_mul_choose_eq N m
  have h2 : (0 : ℚ) < ((N + 1).choose (m + 1) : ℚ) := by exact_mod_cast Nat.choose_pos hm.le
  rw [Nat.add_sub_cancel, Nat.add_sub_cancel, div_eq_div_iff h2.ne' (by positivity)]
  linarith

theorem subset_two {U : Finset (Sym2 ℕ)} {m : ℕ} (hm0 : 0 < m) (hm : m < U.card) {x y : Sym2 ℕ} (hx : x ∈ U) (hy : y ∈ U) :
    ∑ S ∈ U.powersetCard m, 1 / (U.card.choose m : ℚ) * ((if x ∈ S then 1 else 0) * (if y ∈ S then 1 else 0)) =
      if x = y then (m : ℚ) / U.card else (m : ℚ) * (m - 1) / (U.card * (U.card - 1)) := by
  have h0 : ∑ S ∈ U.powersetCard m, 1 / (U.card.choose m : ℚ) * ((if x ∈ S then 1 else 0) * (if y ∈ S then 1 else 0)) =
      (((U.powersetCard m).filter fun S => (({x, y} : Finset (Sym2 ℕ)) ∩ S).card = ({x, y} : Finset (Sym2 ℕ)).card).card : ℚ) /
        (U.card.choose m : ℚ) := by
    rw [Finset.card_filter, Nat.cast_sum, Finset.sum_div]
    refine Finset.sum_congr rfl fun S _ => ?_
    have h4 : (({x, y} ∩ S).card = ({x, y} : Finset (Sym2 ℕ)).card) ↔ (x ∈ S ∧ y ∈ S) := by
      constructor
      · intro hc
        have := Finset.inter_eq_left.mp (Finset.eq_of_subset_of_card_le Finset.inter_subset_left hc.ge)
        rwa [Finset.insert_subset_iff, Finset.singleton_subset_iff] at this
      · intro hc
        rw [Finset.inter_eq_left.mpr (by rw [Finset.insert_subset_iff, Finset.singleton_subset_iff]; exact hc)]
    rw [if_congr h4 rfl rfl]
    by_cases h2 : x ∈ S <;> by_cases h3 : y ∈ S <;> simp [h2, h3]
  have hsub : ({x, y} : Finset (Sym2 ℕ)) ⊆ U := by rw [Finset.insert_subset_iff, Finset.singleton_subset_iff]; exact ⟨hx, hy⟩
  rw [h0, card_hypergeometric hsub, Nat.choose_self, one_mul]
  by_cases hxy : x = y
  · subst hxy
    rw [if_pos rfl, Finset.pair_eq_singleton, Finset.card_singleton, if_pos (show 1 ≤ m from hm0), choose_one hm0 hm]
  · rw [if_neg hxy, Finset.card_pair hxy]
    by_cases h2 : 2 ≤ m
    · rw [if_pos h2]
      have a1 := choose_one hm0 hm
      have a2 := choose_one (N := U.card - 1) (m := m - 1) (by omega) (by omega)
      have a3 : (0 : ℚ) < ((U.card - 1).choose (m - 1) : ℚ) := by exact_mod_cast Nat.choose_pos (by omega)
      rw [Nat.sub_sub, Nat.sub_sub, Nat.cast_sub (by omega), Nat.cast_sub (by omega), Nat.cast_one] at a2
      have a4 : ((U.card - 2).choose (m - 2) : ℚ) / (U.card.choose m : ℚ) =
          ((U.card - 1).choose (m - 1) : ℚ) / (U.card.choose m : ℚ) * (((U.card - 2).choose (m - 2) : ℚ) / ((U.card - 1).choose (m - 1) : ℚ)) := by
        field_simp
      rw [a4, a1]
      rw [show (1 + 1 : ℕ) = 2 from rfl] at a2
      rw [a2, div_mul_div_comm]
    · rw [if_neg h2]
      have : m = 1 := by omega
      subst this
      simp

/-- The variance of the sum of the weights `a` over the elements of a random subset with `m` elements. -/
theorem subset_variance {U : Finset (Sym2 ℕ)} {m : ℕ} (hm0 : 0 < m) (hm : m < U.card) (a : Sym2 ℕ → ℚ) :
    ∑ S ∈ U.powersetCard m, 1 / (U.card.choose m : ℚ) * ((∑ x ∈ S, a x) * (∑ x ∈ S, a x)) -
      (∑ S ∈ U.powersetCard m, 1 / (U.card.choose m : ℚ) * ∑ x ∈ S, a x) * (∑ S ∈ U.powersetCard m, 1 / (U.card.choose m : ℚ) * ∑ x ∈ S, a x) =
      (m : ℚ) * (U.card - m) / (U.card * (U.card - 1)) * (∑ x ∈ U, a x ^ 2 - (∑ x ∈ U, a x) ^ 2 / U.card) := by
  have h1 : ∀ S ∈ U.powersetCard m, ∑ x ∈ S, a x = ∑ x ∈ U, a x * (if x ∈ S then 1 else 0) := by
    intro S hS
    simp only [mul_ite, mul_one, mul_zero]
    rw [← Finset.sum_filter, Finset.filter_mem_eq_inter, Finset.inter_eq_right.mpr (Finset.mem_powersetCard.mp hS).1]
  have h2 : ∑ S ∈ U.powersetCard m, 1 / (U.card.choose m : ℚ) * ∑ x ∈ S, a x = (m : ℚ) / U.card * ∑ x ∈ U, a x := by
    rw [Finset.sum_congr rfl fun S hS => by rw [h1 S hS, Finset.mul_sum], Finset.sum_comm, Finset.mul_sum]
    refine Finset.sum_congr rfl fun x hx => ?_
    have := subset_two hm0 hm hx hx
    rw [if_pos rfl] at this
    rw [← this, Finset.sum_mul]
    exact Finset.sum_congr rfl fun S _ => by split <;> ring
  have h3 : ∑ S ∈ U.powersetCard m, 1 / (U.card.choose m : ℚ) * ((∑ x ∈ S, a x) * (∑ x ∈ S, a x)) =
      ∑ x ∈ U, ∑ y ∈ U, a x * a y * (if x = y then (m : ℚ) / U.card else (m : ℚ) * (m - 1) / (U.card * (U.card - 1))) := by
    have h4 : ∀ S ∈ U.powersetCard m, 1 / (U.card.choose m : ℚ) * ((∑ x ∈ S, a x) * (∑ x ∈ S, a x)) =
        ∑ x ∈ U, ∑ y ∈ U, a x * a y * (1 / (U.card.choose m : ℚ) * ((if x ∈ S then 1 else 0) * (if y ∈ S then 1 else 0))) := by
      intro S hS
      rw [h1 S hS, Finset.sum_mul_sum, Finset.mul_sum]
      refine Finset.sum_congr rfl fun x _ => ?_
      rw [Finset.mul_sum]
      exact Finset.sum_congr rfl fun y _ => by ring
    rw [Finset.sum_congr rfl h4, Finset.sum_comm]
    refine Finset.sum_congr rfl fun x hx => ?_
    rw [Finset.sum_comm]
    refine Finset.sum_congr rfl fun y hy => ?_
    rw [← Finset.mul_sum, subset_two hm0 hm hx hy]
  have hU : (1 : ℚ) < U.card := by exact_mod_cast (show 1 < U.card by omega)
  set q : ℚ := (m : ℚ) * (m - 1) / (U.card * (U.card - 1)) with hq
  have h5 : ∀ x ∈ U, ∑ y ∈ U, a x * a y * (if x = y then (m : ℚ) / U.card else q) = a x ^ 2 * ((m : ℚ) / U.card - q) + a x * q * ∑ y ∈ U, a y := by
    intro x hx
    rw [Finset.mul_sum, ← Finset.add_sum_erase U _ hx, ← Finset.add_sum_erase U (fun y => a x * q * a y) hx, if_pos rfl]
    rw [Finset.sum_congr rfl fun y hy => by rw [if_neg (Ne.symm (Finset.ne_of_mem_erase hy)), show a x * a y * q = a x * q * a y by ring]]
    ring
  rw [h3, h2, Finset.sum_congr rfl h5, Finset.sum_add_distrib, ← Finset.sum_mul, ← Finset.sum_mul, ← Finset.sum_mul, hq]
  have hU1 : (U.card : ℚ) - 1 ≠ 0 := by linarith
  have hU0 : (U.card : ℚ) ≠ 0 := by linarith
  field_simp
  ring

/-- The autocovariance of a sum over the edges. -/
theorem C101_er_m_autocovariance {e : ErM T Stream} (h : e.Inv) (hm0 : 0 < e.m)
    (hm : e.m < e.graph.vertexCount * (e.graph.vertexCount - 1) / 2)
    {N : ℕ} (hN : N = e.graph.vertexCount * (e.graph.vertexCount - 1) / 2)
    {Ω : Finset (Finset (Sym2 ℕ))} (hΩ : Ω = (pairSet e.graph.vertexCount).powersetCard e.m)
    (a : Sym2 ℕ → ℚ) (t k : ℕ) {P₁ : Finset (Sym2 ℕ) → ℝ} {P₂ : Finset (Sym2 ℕ) → Finset (Sym2 ℕ) → ℝ}
    (hP₁ : ∀ S, P₁ S = (uniformTape {ω | ∃ e₁, ErM.randomize { e with rng := (⟨ω, k⟩ : Stream) } = .ok e₁ ∧ e₁.graph.edges = S}).toReal)
    (hP₂ : ∀ S S', P₂ S S' = (uniformTape {ω | ∃ e₁ l e₂, ErM.randomize { e with rng := (⟨ω, k⟩ : Stream) } = .ok e₁ ∧
      mSteps ErM.mStep t e₁ = .ok (l, e₂) ∧ e₁.graph.edges = S ∧ e₂.graph.edges = S'}).toReal) :
    ∑ S ∈ Ω, ∑ S' ∈ Ω, ((∑ x ∈ S, a x : ℚ) : ℝ) * (∑ x ∈ S', a x : ℚ) * P₂ S S' - (∑ S ∈ Ω, (∑ x ∈ S, a x : ℚ) * P₁ S) ^ 2 =
      (1 - (N : ℝ) / (e.m * (N - e.m))) ^ t * (((e.m : ℚ) * (N - e.m) / (N * (N - 1)) *
        (∑ x ∈ pairSet e.graph.vertexCount, a x ^ 2 - (∑ x ∈ pairSet e.graph.vertexCount, a x) ^ 2 / N) : ℚ) : ℝ) := by
  rw [pow_two, C101_er_m_covariance h hm0 hm hN hΩ (fun S => ∑ x ∈ S, a x) a t k hP₁ hP₂]
  congr 1
  subst hΩ hN
  have h1 : ∀ S ∈ (pairSet e.graph.vertexCount).powersetCard e.m, P₁ S =
      ((1 / ((pairSet e.graph.vertexCount).card.choose e.m : ℚ) : ℚ) : ℝ) := by
    intro S hS
    rw [hP₁, ErM.event_one h hS k, card_pairSet]
  have h2 := congrArg (fun q : ℚ => (q : ℝ)) (subset_variance hm0 (by rw [card_pairSet]; exact hm) a)
  rw [← card_pairSet, ← h2]
  push_cast
  congr 1
  · exact Finset.sum_congr rfl fun S hS => by rw [h1 S hS]; push_cast; ring
  · congr 1 <;> exact Finset.sum_congr rfl fun S hS => by rw [h1 S hS]; push_cast; ring

/-- `ErEnsembleM`: the probability that the pair `x` is connected after `t` steps from any network, exactly. -/
theorem C101_er_m_pair {e : ErM T Stream} (h : e.Inv) (hm0 : 0 < e.m) (hm : e.m < e.graph.vertexCount * (e.graph.vertexCount - 1) / 2)
    {N : ℕ} (hN : N = e.graph.vertexCount * (e.graph.vertexCount - 1) / 2) {x : Sym2 ℕ} (hx : x ∈ pairSet e.graph.vertexCount) (t : ℕ) :
    (uniformTape {ω | ∃ ss e', mSteps ErM.mStep t ({ e with rng := ⟨ω, 0⟩ } : ErM T Stream) = .ok (ss, e') ∧ x ∈ e'.graph.edges}).toReal =
      (e.m : ℝ) / N + ((if x ∈ e.graph.edges then 1 else 0) - (e.m : ℝ) / N) * (1 - (N : ℝ) / (e.m * (N - e.m))) ^ t := by
  subst hN
  have hI : (ErM.put e.core (⟨[]⟩ : Script)).Inv := ⟨h.wf, h.len, h.cur, h.split, h.all⟩
  have h1 := (ErM.mixing (T := T) hm0 hm).event (fun S => x ∈ S) (P := fun f => x ∈ f.graph.edges) (fun _ _ => Iff.rfl)
    (e := ErM.put e.core (⟨[]⟩ : Script)) ⟨hI, rfl, rfl⟩ t
  have h2 := ErM.sum_rate hm0 hm (fun y => if x = y then 1 else 0) t (ErM.put e.core (⟨[]⟩ : Script)) ⟨hI, rfl, rfl⟩
  simp only [Finset.sum_ite_eq] at h2
  rw [if_pos hx, mul_one] at h2
  have h3 : {ω | ∃ ss e', mSteps ErM.mStep t ({ e with rng := ⟨ω, 0⟩ } : ErM T Stream) = .ok (ss, e') ∧ x ∈ e'.graph.edges} =
      {ω | ∃ (_ : ℕ) (l : _) (f : ErM T Stream), mSteps ErM.mStep t
        (ErM.put (ErM.core (ErM.put e.core (⟨[]⟩ : Script))) (⟨ω, 0⟩ : Stream)) = .ok (l, f) ∧ x ∈ f.graph.edges} := by
    ext ω
    exact ⟨fun h => ⟨0, h⟩, fun ⟨_, h⟩ => h⟩
  rw [h3, h1]
  refine (congrArg (fun q : ℚ => (q : ℝ)) h2).trans ?_
  rw [card_pairSet]
  show ((_ + ((if x ∈ e.graph.edges then 1 else 0) - _) * _ : ℚ) : ℝ) = _
  by_cases hxe : x ∈ e.graph.edges
  · simp only [hxe, if_true]; push_cast; ring
  · simp only [hxe, if_false]; push_cast; ring

/-! ## The hypotheses are met -/

/-- `ErEnsembleC` with 5 vertices (10 pairs) and probability 1/2: the autocovariance of the number of edges one step apart is
`9/10 * 10 * q * (1 - q)`, where `q` is the probability that a uniform draw is at most 1/2. -/
example : ∃ e : ErC Nat Stream, e.graph.WF ∧ e.graph.vertexCount = 5 ∧
    ∀ (P₁ : Finset (Sym2 ℕ) → ℝ) (P₂ : Finset (Sym2 ℕ) → Finset (Sym2 ℕ) → ℝ),
    (∀ S, P₁ S = (uniformTape {ω | ∃ e₁, ErC.randomize { e with rng := (⟨ω, 0⟩ : Stream) } = .ok e₁ ∧ e₁.graph.edges = S}).toReal) →
    (∀ S S', P₂ S S' = (uniformTape {ω | ∃ e₁ l e₂, ErC.randomize { e with rng := (⟨ω, 0⟩ : Stream) } = .ok e₁ ∧
      mSteps ErC.mStep 1 e₁ = .ok (l, e₂) ∧ e₁.graph.edges = S ∧ e₂.graph.edges = S'}).toReal) →
    ∑ S ∈ (pairSet 5).powerset, ∑ S' ∈ (pairSet 5).powerset, ((∑ _x ∈ S, 1 : ℚ) : ℝ) * (∑ _x ∈ S', 1 : ℚ) * P₂ S S' -
      (∑ S ∈ (pairSet 5).powerset, (∑ _x ∈ S, 1 : ℚ) * P₁ S) ^ 2 = 9 * (headProb (1 / 2) * (1 - headProb (1 / 2)) : ℚ) := by
  refine ⟨⟨exTail, 1 / 2, 2, ⟨fun _ => 0, 0⟩⟩, exTail_wf, by decide, fun P₁ P₂ h1 h2 => ?_⟩
  rw [C101_er_c_autocovariance exTail_wf (n := 5) (by decide) (by decide) (fun _ => 1) 1 0 h1 h2]
  generalize headProb (1 / 2) = q
  rw [Finset.sum_const, card_pairSet]
  norm_num
  ring

example : exSpacial.graph.WF ∧ 2 ≤ exSpacial.graph.vertexCount ∧ (∀ p q, exSpacial.law p q = exSpacial.law q p) :=
  ⟨exSpacial_wf, by decide, fun p q => by simp only [exSpacial, eq_comm]⟩

/-- `ErEnsembleM` with 5 vertices and 4 edges: a pair that is connected is connected after one step with probability
`2/5 + 3/5 * (1 - 10/24) = 3/4`, since one of 4 edges is moved. -/
example : ∃ e : ErM Nat Stream, e.Inv ∧ e.graph.vertexCount = 5 ∧ e.m = 4 ∧ ∀ x ∈ e.graph.edges,
    (uniformTape {ω | ∃ ss e', mSteps ErM.mStep 1 ({ e with rng := ⟨ω, 0⟩ } : ErM Nat Stream) = .ok (ss, e') ∧ x ∈ e'.graph.edges}).toReal =
      3 / 4 := by
  obtain ⟨e, _, h2, h3, h4, _⟩ := ErM.new_spec (T := Nat) (n := 5) (m := 4) (by decide) (by decide) (⟨fun _ => 0, 0⟩ : Stream)
  have h3' : e.graph.vertexCount = 5 := h3
  refine ⟨e, h2, h3, h4, fun x hx => ?_⟩
  rw [C101_er_m_pair h2 (by omega) (by rw [h3', h4]; decide) (N := 10) (by rw [h3']) (edges_sub_pairSet h2.wf hx) 1, if_pos hx, h4]
  norm_num

end Verif
