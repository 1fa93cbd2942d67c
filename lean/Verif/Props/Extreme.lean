import Verif.Model.Special
import Verif.Lemmas.Coupling
import Verif.Props.Er
import Verif.Props.Spacial
import Verif.Props.Sw
import Verif.Props.Ws
import Verif.Props.Coupling

/-!
# C105: probabilities that are not probabilities

Nothing checks the probabilities given to the ensembles.  Infinite values and NaN behave like certain rational numbers; values below 0 never
connect, values of at least `1 - 2^-53` always do, and 0 does not mean never.
-/

set_option linter.unusedSectionVars false
set_option linter.unusedSimpArgs false

namespace Verif
open AdjContainer GenericGraph

variable {T R : Type} [Rng R]

/-- The rational number that decides like the `f64` value. -/
def F64.asProb : F64 → ℚ
  | .num q => q
  | .posInf => 1
  | .negInf => -1
  | .nan => -1

theorem coin_tails (r : R) {p : ℚ} (hp : p < 0) : (coin r p).1 = false := by
  have h0 : (0 : ℚ) ≤ ((Rng.genUnit r).1 : ℚ) / 2 ^ 53 := div_nonneg (Nat.cast_nonneg _) (pow_nonneg (by norm_num) _)
  have h1 : ¬ ((Rng.genUnit r).1 : ℚ) / 2 ^ 53 ≤ p := by linarith
  simp only [coin, h1, decide_false]

theorem coin_heads (r : R) {p : ℚ} (hp : AllHeads p) : (coin r p).1 = true := Ws.throwAt_one p hp r 0

/-- **C105.** Every `f64` value as probability decides like a rational number: NaN and negative infinity like a negative number, positive
infinity like 1.  So the theorems about the ensembles, which hold for all rational probabilities, cover all `f64` values. -/
theorem C105_special_values (v : F64) : (∀ r : R, coinF r v = coin r v.asProb) ∧ (v = .nan → v.asProb < 0) ∧ (v = .negInf → v.asProb < 0) ∧
    (v = .posInf → AllHeads v.asProb) := by
  have h1 : AllHeads 1 := by
    unfold AllHeads
    norm_num
  refine ⟨fun r => ?_, ?_, ?_, ?_⟩
  · have hn := coin_tails r (p := -1) (by norm_num)
    have hp := coin_heads r h1
    cases v with
    | num q => rfl
    | posInf => exact Prod.ext hp.symm rfl
    | negInf => exact Prod.ext hn.symm rfl
    | nan => exact Prod.ext hn.symm rfl
  · rintro rfl; exact neg_one_lt_zero
  · rintro rfl; exact neg_one_lt_zero
  · rintro rfl; exact h1

theorem throws_none {p : ℕ × ℕ → ℚ} : ∀ (l : List (ℕ × ℕ)) (r : R), (∀ x ∈ l, p x < 0) → chosen l (throws p l r).1 = ∅
  | [], _, _ => rfl
  | x :: l, r, h => by
    show chosen (x :: l) ((coin r (p x)).1 :: (throws p l (coin r (p x)).2).1) = ∅
    rw [chosen_cons, coin_tails r (h x List.mem_cons_self), throws_none l _ (fun y hy => h y (List.mem_cons_of_mem _ hy))]
    rfl

theorem throws_all {p : ℕ × ℕ → ℚ} : ∀ (l : List (ℕ × ℕ)) (r : R), (∀ x ∈ l, AllHeads (p x)) →
    chosen l (throws p l r).1 = (l.map toEdge).toFinset
  | [], _, _ => rfl
  | x :: l, r, h => by
    show chosen (x :: l) ((coin r (p x)).1 :: (throws p l (coin r (p x)).2).1) = _
    rw [chosen_cons, coin_heads r (h x List.mem_cons_self), throws_all l _ (fun y hy => h y (List.mem_cons_of_mem _ hy))]
    simp

theorem toEdge_toFinset (n : ℕ) : ∀ x y, s(x, y) ∈ ((allPairs n).map toEdge).toFinset ↔ x < n ∧ y < n ∧ x ≠ y := by
  intro x y
  rw [List.mem_toFinset, List.mem_map]
  constructor
  · rintro ⟨⟨a, b⟩, h1, h2⟩
    have h3 := mem_allPairs.mp h1
    unfold toEdge at h2
    rcases Sym2.eq_iff.mp h2 with ⟨rfl, rfl⟩ | ⟨rfl, rfl⟩ <;> dsimp only at * <;> omega
  · rintro ⟨h1, h2, h3⟩
    rcases Nat.lt_or_gt_of_ne h3 with h | h
    · exact ⟨(x, y), mem_allPairs.mpr ⟨h, h2⟩, rfl⟩
    · exact ⟨(y, x), mem_allPairs.mpr ⟨h, h1⟩, Sym2.eq_swap⟩

/-- **C105.** `ErEnsembleC` with a negative probability (or NaN): `randomize` gives the graph without edges, and a Markov step can only remove
the edge it draws. -/
theorem C105_er_c_never {e : ErC T R} (h : e.graph.WF) (hp : e.prob < 0) :
    (∃ x, e.randomize = .ok x ∧ x.graph.edges = ∅) ∧
    (2 ≤ e.graph.vertexCount → ∃ a b s x, e.mStep = .ok (s, x) ∧ a < e.graph.vertexCount ∧ b < e.graph.vertexCount ∧ a ≠ b ∧
      x.graph.edges = e.graph.edges.erase s(a, b)) := by
  constructor
  · obtain ⟨x, a1, _, _, _, _, a6, _⟩ := C32_er_c_randomize h
    refine ⟨x, a1, ?_⟩
    rw [a6, coins_throws]
    exact throws_none _ _ (fun _ _ => hp)
  · intro hn
    obtain ⟨a, b, r, d1, d2, d3, d4⟩ := drawTwo_spec e.rng hn
    obtain ⟨s, x, m1, _, _, _, _, _, _, _, m9⟩ := ErC.mStep_cases h d1 d2 d3 d4
    refine ⟨a, b, s, x, m1, d2, d3, d4, ?_⟩
    rw [m9, coin_tails r hp]
    rfl

/-- **C105.** `ErEnsembleC` with a probability of at least `1 - 2^-53` (for example any target connectivity of `n - 1` or more, or
infinity): `randomize` gives the complete graph, and a Markov step can only add the edge it draws. -/
theorem C105_er_c_always {e : ErC T R} (h : e.graph.WF) (hp : AllHeads e.prob) :
    (∃ x, e.randomize = .ok x ∧ ∀ a b, s(a, b) ∈ x.graph.edges ↔ a < e.graph.vertexCount ∧ b < e.graph.vertexCount ∧ a ≠ b) ∧
    (2 ≤ e.graph.vertexCount → ∃ a b s x, e.mStep = .ok (s, x) ∧ a < e.graph.vertexCount ∧ b < e.graph.vertexCount ∧ a ≠ b ∧
      x.graph.edges = insert s(a, b) e.graph.edges) := by
  constructor
  · obtain ⟨x, a1, _, _, _, _, a6, _⟩ := C32_er_c_randomize h
    refine ⟨x, a1, ?_⟩
    rw [a6, coins_throws, throws_all _ _ (fun _ _ => hp)]
    exact toEdge_toFinset _
  · intro hn
    obtain ⟨a, b, r, d1, d2, d3, d4⟩ := drawTwo_spec e.rng hn
    obtain ⟨s, x, m1, _, _, _, _, _, _, _, m9⟩ := ErC.mStep_cases h d1 d2 d3 d4
    refine ⟨a, b, s, x, m1, d2, d3, d4, ?_⟩
    rw [m9, coin_heads r hp]
    rfl

/-- **C105.** A target connectivity of at least `n - 1` gives the complete graph, a negative one the graph without edges. -/
theorem C105_er_c_new [Node T] {n : ℕ} (hn : 2 ≤ n) (c : ℚ) (r : R) :
    ∃ e : ErC T R, ErC.new n c r = .ok e ∧ (c < 0 → e.graph.edges = ∅) ∧
      ((n : ℚ) - 1 ≤ c → ∀ a b, s(a, b) ∈ e.graph.edges ↔ a < n ∧ b < n ∧ a ≠ b) := by
  obtain ⟨e, a1, _, _, _, _, _, a6⟩ := (C32_er_c_new (T := T) n c r).2 (by omega)
  have h2 : (2 : ℚ) ≤ n := by exact_mod_cast hn
  refine ⟨e, a1, fun hc => ?_, fun hc => ?_⟩
  · rw [a6, coins_throws]
    exact throws_none _ _ (fun _ _ => div_neg_of_neg_of_pos hc (by linarith))
  · rw [a6, coins_throws, throws_all _ _ (fun _ _ => ?_)]
    · exact toEdge_toFinset _
    · have h3 : 1 ≤ c / ((n : ℚ) - 1) := by
        rw [le_div_iff₀ (by linarith)]
        linarith
      refine le_trans ?_ h3
      norm_num

/-- **C105.** The probability 0 does not mean never: the throw `0`, one of `2^53`, succeeds. -/
theorem C105_zero_is_not_never : (coin (⟨[0]⟩ : Script) 0).1 = true ∧
    ∃ x, ErC.randomize (⟨exPath.clearEdges, 0, 0, ⟨[0, 1, 1, 1, 1, 1]⟩⟩ : ErC Nat Script) = .ok x ∧ x.graph.edges = {s(0, 1)} := by
  have hw : exPath.clearEdges.WF := clearEdges_wf exPath_wf
  refine ⟨by simp [coin, Rng.genUnit, Script.next], ?_⟩
  obtain ⟨x, a1, _, _, _, _, a6, _⟩ := C32_er_c_randomize (e := (⟨exPath.clearEdges, 0, 0, ⟨[0, 1, 1, 1, 1, 1]⟩⟩ : ErC Nat Script)) hw
  refine ⟨x, a1, ?_⟩
  rw [a6]
  decide +kernel

/-- **C105.** `SpacialEnsemble`: the same for every pair. -/
theorem C105_spacial_extreme {e : Spacial T R} (h : e.graph.WF) :
    ((∀ p q, e.law p q < 0) → ∃ x, e.randomize = .ok x ∧ x.graph.edges = ∅) ∧
    ((∀ p q, AllHeads (e.law p q)) → ∃ x, e.randomize = .ok x ∧
      ∀ a b, s(a, b) ∈ x.graph.edges ↔ a < e.graph.vertexCount ∧ b < e.graph.vertexCount ∧ a ≠ b) := by
  obtain ⟨x, a1, _, _, _, _, _, a6, _⟩ := C47_spacial_randomize h
  refine ⟨fun hp => ⟨x, a1, ?_⟩, fun hp => ⟨x, a1, ?_⟩⟩
  · rw [a6]
    exact throws_none _ _ (fun _ _ => hp _ _)
  · rw [a6, throws_all (p := fun p => e.prob p.1 p.2) _ _ (fun _ _ => hp _ _)]
    exact toEdge_toFinset _

/-- **C105.** `SmallWorldWS::randomize` with a negative probability gives the ring, whatever the network was; with a probability of at least
`1 - 2^-53` no edge is left at its place, if the call returns. -/
theorem C105_ws_extreme {e : Ws T R} (h : e.graph.WF) (hd : 2 * e.neighborDistance + 1 ≤ e.graph.vertexCount)
    (hn : e.graph.vertexCount < 2 ^ 32) (fuel : ℕ) :
    (e.rewireProb < 0 → ∃ g0 r, e.graph.initRing e.neighborDistance = .ok (.ok (), g0) ∧
      e.randomize fuel = .ok { e with graph := g0, rng := r }) ∧
    (AllHeads e.rewireProb → ∀ e', e.randomize fuel = .ok e' → ∀ u, ∀ z ∈ WSGraph.entries e'.graph u, z.2.isAtOrigin = false) := by
  constructor
  · intro hp
    obtain ⟨g0, h1, h2⟩ := (C45_ws_two_throws_per_edge h hd hn fuel).1 (fun k _ => coin_tails _ hp)
    exact ⟨g0, _, h1, h2⟩
  · intro hp e' he'
    exact ((C45_ws_randomize h hd hn fuel).2 e' he').2.2.2.2.2 hp

/-- **C105.** `SwEnsemble` with a negative probability: `randomize` only resets edges; the number of long-range edges does not grow. -/
theorem C105_sw_never {e : SwEns T R} (h : SwValid e.graph) (hp : e.rProb < 0) :
    ∃ e', e.randomize = .ok e' ∧ SwGraph.countLongRangingEdges e'.graph ≤ SwGraph.countLongRangingEdges e.graph := by
  obtain ⟨e', h1, h2, _⟩ := C39_reset_only h hp
  exact ⟨e', h1, h2⟩

/-- The hypotheses are met: NaN, infinity, and ordinary values. -/
example : (F64.nan).asProb < 0 ∧ AllHeads (F64.posInf).asProb ∧ ¬ AllHeads (1 / 2) ∧ ¬ ((0 : ℚ) < 0) := by
  refine ⟨by simp [F64.asProb], ?_, ?_, lt_irrefl _⟩
  · simp only [F64.asProb, AllHeads]; norm_num
  · simp only [AllHeads]; norm_num

/-- An ensemble with NaN as probability. -/
example : exTail.WF ∧ (⟨exTail, F64.nan.asProb, 0, ⟨[]⟩⟩ : ErC Nat Script).prob < 0 ∧ 2 ≤ exTail.vertexCount :=
  ⟨exTail_wf, by simp [F64.asProb], by decide⟩

end Verif
