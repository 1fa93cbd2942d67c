import Verif.Lemmas.WsChance
import Verif.Lemmas.RandomSet
import Verif.Props.Mean
import Verif.Props.AlmostSure
import Verif.Lemmas.Indep

/-!
# C81: which edges `SmallWorldWS::randomize` moves
-/

set_option linter.unusedSectionVars false
set_option linter.unusedSimpArgs false

namespace Verif
open MeasureTheory ProbabilityTheory AdjContainer GenericGraph

variable {T : Type} [Node T]

/-! ## Specification -/

/-- The edge that belongs to the place `o` on the ring is somewhere else. -/
def Moved (g : WSGraph T) (o : Sym2 ℕ) : Prop := ∃ u, ∃ z ∈ WSGraph.entries g u, z.2.pair = o ∧ s(u, z.1) ≠ o

/-- Two coins, at least one of which shows heads. -/
noncomputable def movedProb (p : ℚ) : ℝ := 1 - (1 - headsReal p) ^ 2

open Classical in
/-- The set of moved edges. -/
noncomputable def movedSet (n d : ℕ) (g : WSGraph T) : Finset (Sym2 ℕ) := (ringSet n d).filter (Moved g)

/-- Every edge of the ring is moved with probability `movedProb p`, independently of the others; so the number of moved edges is binomial. -/
def MovedLaw (n d : ℕ) (p : ℚ) (net : (ℕ → ℝ) → WSGraph T) : Prop :=
  (∀ A B : Finset (Sym2 ℕ), A ⊆ ringSet n d → B ⊆ ringSet n d → Disjoint A B →
    uniformTape {ω | (∀ o ∈ A, Moved (net ω) o) ∧ ∀ o ∈ B, ¬ Moved (net ω) o} =
      ENNReal.ofReal (movedProb p ^ A.card * (1 - movedProb p) ^ B.card)) ∧
  (∀ k, uniformTape {ω | (movedSet n d (net ω)).card = k} =
    ENNReal.ofReal (((n * d).choose k : ℝ) * (movedProb p ^ k * (1 - movedProb p) ^ (n * d - k)))) ∧
  MemLp (fun ω => ((movedSet n d (net ω)).card : ℝ)) 2 uniformTape ∧
  ∫ ω, ((movedSet n d (net ω)).card : ℝ) ∂uniformTape = (n * d : ℕ) * movedProb p ∧
  variance (fun ω => ((movedSet n d (net ω)).card : ℝ)) uniformTape = (n * d : ℕ) * (movedProb p * (1 - movedProb p))

/-! ## Proof -/

theorem movedProb_bounds (p : ℚ) : 0 ≤ movedProb p ∧ movedProb p ≤ 1 := by
  obtain ⟨h0, h1⟩ := headsReal_bounds p
  unfold movedProb
  constructor
  · nlinarith
  · have := sq_nonneg (1 - headsReal p); linarith

namespace Ws

theorem q1_real (p : ℚ) : q1 p = ENNReal.ofReal (headsReal p) := by
  unfold q1 headsReal
  rw [div_eq_mul_inv, ENNReal.ofReal_mul (by positivity), ENNReal.ofReal_natCast, ENNReal.ofReal_inv_of_pos (by positivity)]
  congr 2
  rw [show (2 : ℝ) ^ 53 = ((2 ^ 53 : ℕ) : ℝ) by norm_num, ENNReal.ofReal_natCast]

theorem q0_real (p : ℚ) : q0 p = ENNReal.ofReal (1 - headsReal p) := by
  unfold q0
  rw [q1_real, ENNReal.ofReal_sub _ (headsReal_bounds p).1, ENNReal.ofReal_one]

theorem mv_real (p : ℚ) : mv p 2 = ENNReal.ofReal (movedProb p) := by
  obtain ⟨h0, h1⟩ := headsReal_bounds p
  have h2 : 0 ≤ 1 - headsReal p := by linarith
  simp only [mv, mul_zero, add_zero]
  rw [q0_real, q1_real, ← ENNReal.ofReal_mul h2, ← ENNReal.ofReal_add h0 (by positivity)]
  congr 1
  unfold movedProb
  ring

theorem moved_iff {n d : Nat} {dat : List T} {g : WSGraph T} {E : Finset (Sym2 ℕ)} {org : Sym2 ℕ → Sym2 ℕ}
    (h : J n d dat g E org 0) {o : Sym2 ℕ} (ho : o ∈ ringSet n d) : Moved g o ↔ o ∉ homeSet n g := by
  have hms := h.ms
  rw [add_zero] at hms
  have hring : ∃ x ∈ E, org x = o := by
    have : o ∈ (ringSet n d).val := ho
    rw [← hms, Multiset.mem_map] at this
    exact this
  have hinj : ∀ x ∈ E, ∀ y ∈ E, org x = org y → x = y := by
    intro x hx y hy hxy
    have hnd : (E.val.map org).Nodup := by rw [hms]; exact (ringSet n d).nodup
    exact Multiset.inj_on_of_nodup_map hnd x hx y hy hxy
  rw [mem_homeSet h]
  constructor
  · rintro ⟨u, z, hz, h1, h2⟩ ⟨h3, h4⟩
    obtain ⟨he, hE⟩ := h.entry hz
    rw [he.pair] at h1
    exact h2 (hinj _ hE _ h3 (h1.trans h4.symm))
  · intro hn
    obtain ⟨x, hx, hxo⟩ := hring
    induction x using Sym2.ind with
    | h u v =>
      obtain ⟨og, hz⟩ := h.exists_entry hx
      refine ⟨u, (v, og), hz, (h.entry hz).1.pair.trans hxo, ?_⟩
      intro hc
      have hc : s(u, v) = o := hc
      rw [hc] at hx hxo
      exact hn ⟨hx, hxo⟩

/-- The run on a tape: the network `randomize` returns, if it returns with enough fuel, otherwise the network before. -/
noncomputable def runOf (f : ℕ → Stream → Res (Ws T Stream)) (e0 : (ℕ → ℝ) → Ws T Stream) (ω : ℕ → ℝ) : Ws T Stream := by
  classical
  exact if h : ∃ e, ∃ F, ∀ fuel, F ≤ fuel → f fuel ⟨ω, 0⟩ = .ok e then h.choose else e0 ω

theorem runOf_eq {f : ℕ → Stream → Res (Ws T Stream)} {e0 : (ℕ → ℝ) → Ws T Stream} {ω : ℕ → ℝ} {e : Ws T Stream} {F : ℕ}
    (h : ∀ fuel, F ≤ fuel → f fuel ⟨ω, 0⟩ = .ok e) : runOf f e0 ω = e := by
  have hex : ∃ e, ∃ F, ∀ fuel, F ≤ fuel → f fuel ⟨ω, 0⟩ = .ok e := ⟨e, F, h⟩
  unfold runOf
  rw [dif_pos hex]
  obtain ⟨F', hF'⟩ := hex.choose_spec
  have h1 := hF' (max F F') (le_max_right _ _)
  rw [h _ (le_max_left _ _)] at h1
  exact (Res.ok.inj h1).symm

theorem randomize_eq {g : WSGraph T} (h : g.WF) {d : ℕ} (hd : 2 * d + 1 ≤ g.vertexCount) (hn : g.vertexCount < 2 ^ 32) (p : ℚ) :
    ∃ g0, J g.vertexCount d g.data g0 (ringSet g.vertexCount d) id 0 ∧ ∀ fuel (r : Stream), Ws.randomize fuel ⟨g, p, r, d⟩ =
      (List.range g.vertexCount).foldlM (rewireBody p fuel) (g0, r) >>= fun x => .ok ⟨x.1, p, x.2, d⟩ := by
  obtain ⟨g0, h1, h2, h3, h4, h5⟩ := Ws.start h hd hn
  refine ⟨g0, h4, fun fuel r => ?_⟩
  unfold Ws.randomize
  simp only
  rw [h1]
  simp only [Res.ok_bind]
  have hlen : g0.vertexCount = g.nextId := h2
  rw [hlen]
  rfl

theorem randomize_ret {g : WSGraph T} {g0 : WSGraph T} {n d : ℕ} {p : ℚ}
    (hr : ∀ fuel (r : Stream), Ws.randomize fuel ⟨g, p, r, d⟩ =
      (List.range n).foldlM (rewireBody p fuel) (g0, r) >>= fun x => .ok ⟨x.1, p, x.2, d⟩) {ω : ℕ → ℝ} {e : Ws T Stream} :
    (∃ F, ∀ fuel, F ≤ fuel → Ws.randomize fuel ⟨g, p, ⟨ω, 0⟩, d⟩ = .ok e) ↔
      ∃ g' j, RetOf Prod.mk (fun fuel r => (List.range n).foldlM (rewireBody p fuel) (g0, r)) ω 0 g' j ∧ e = ⟨g', p, ⟨ω, j⟩, d⟩ := by
  constructor
  · rintro ⟨F, hF⟩
    have h1 := hF F (le_refl _)
    rw [hr] at h1
    obtain ⟨x, hx, h2⟩ := Res.bind_eq_ok.mp h1
    obtain ⟨g', j, h3, h4⟩ := (loop_adaptive p (List.range n) g0).ret (fuel := F) hx
    refine ⟨g', j, h4, ?_⟩
    cases h2
    rw [h3]
  · rintro ⟨g', j, ⟨F, hF⟩, rfl⟩
    refine ⟨F, fun fuel hf => ?_⟩
    rw [hr]
    have : (List.range n).foldlM (rewireBody p fuel) (g0, (⟨ω, 0⟩ : Stream)) = .ok (g', ⟨ω, j⟩) := hF fuel hf
    rw [this]
    rfl

end Ws

/-- `randomize` moves a random set of edges of the ring: the function returns with probability one, and every edge is moved
independently of the others with probability `1 - (1 - q)²`. -/
theorem Ws.moved_law {g : WSGraph T} (h : g.WF) (hn : g.vertexCount < 2 ^ 32) {d : ℕ} (hd : 2 * d + 2 ≤ g.vertexCount) (p : ℚ) :
    ∃ run : (ℕ → ℝ) → Ws T Stream,
      (∀ᵐ ω ∂uniformTape, ∃ F, ∀ fuel, F ≤ fuel → Ws.randomize fuel ⟨g, p, ⟨ω, 0⟩, d⟩ = .ok (run ω)) ∧
      ProductLaw uniformTape (ringSet g.vertexCount d) (movedProb p) (fun ω => movedSet g.vertexCount d (run ω).graph) := by
  classical
  set n := g.vertexCount with hnn
  obtain ⟨g0, hJ, hr⟩ := Ws.randomize_eq h (d := d) (by omega) hn p
  set f : ℕ → Stream → Res (Ws T Stream) := fun fuel r => Ws.randomize fuel ⟨g, p, r, d⟩ with hf
  set run := Ws.runOf f (fun ω => ⟨g, p, ⟨ω, 0⟩, d⟩) with hrun
  have hE : ∀ ω e, (∃ F, ∀ fuel, F ≤ fuel → f fuel ⟨ω, 0⟩ = .ok e) ↔ ∃ g' j,
      RetOf Prod.mk (fun fuel r => (List.range n).foldlM (Ws.rewireBody p fuel) (g0, r)) ω 0 g' j ∧ e = ⟨g', p, ⟨ω, j⟩, d⟩ :=
    fun ω e => Ws.randomize_ret hr
  have hret : ∀ᵐ ω ∂uniformTape, ∃ F, ∀ fuel, F ≤ fuel → f fuel ⟨ω, 0⟩ = .ok (run ω) := by
    filter_upwards [ae_fair] with ω hω
    obtain ⟨F, x, _, h2⟩ := Ws.randomize_fair (e := ⟨g, p, ⟨ω, 0⟩, d⟩) h hn hd hω
    refine ⟨F, ?_⟩
    rw [hrun, Ws.runOf_eq h2]
    exact h2
  refine ⟨run, hret, ?_⟩
  have hcard : (ringSet n d).card = n * d := ringSet_card (by omega)
  set X : (ℕ → ℝ) → Finset (Sym2 ℕ) := fun ω => movedSet n d (run ω).graph with hX
  have hsub : ∀ ω, X ω ⊆ ringSet n d := fun ω => Finset.filter_subset _ _
  have hsampler := (Ws.loop_adaptive p (List.range n) g0).sampler joins_pair
  -- the event for one set
  have hev : ∀ S ⊆ ringSet n d, Chance (fun ω k => ∃ g' j,
      RetOf Prod.mk (fun fuel r => (List.range n).foldlM (Ws.rewireBody p fuel) (g0, r)) ω k g' j ∧ Ws.Good n d g.data g' ∧
        Ws.homeSet n g' = ringSet n d \ S)
      (ENNReal.ofReal (movedProb p ^ S.card * (1 - movedProb p) ^ ((ringSet n d).card - S.card))) := by
    intro S hS
    have := Ws.all_chance p hn hd hJ hS
    obtain ⟨b0, b1⟩ := headsReal_bounds p
    obtain ⟨m0, m1⟩ := movedProb_bounds p
    rw [Ws.mv_real, Ws.q0_real, ← ENNReal.ofReal_pow m0, ← ENNReal.ofReal_pow (by linarith), ← ENNReal.ofReal_pow (by positivity),
      ← ENNReal.ofReal_mul (by positivity)] at this
    rw [hcard, show 1 - movedProb p = (1 - headsReal p) ^ 2 by unfold movedProb; ring]
    exact this
  have hXS : ∀ {ω} {g' : WSGraph T} {j : ℕ},
      RetOf Prod.mk (fun fuel r => (List.range n).foldlM (Ws.rewireBody p fuel) (g0, r)) ω 0 g' j → Ws.Good n d g.data g' →
      X ω = ringSet n d \ Ws.homeSet n g' := by
    intro ω g' j h1 h2
    obtain ⟨F, hF⟩ := (hE ω ⟨g', p, ⟨ω, j⟩, d⟩).mpr ⟨g', j, h1, rfl⟩
    have hrω : run ω = ⟨g', p, ⟨ω, j⟩, d⟩ := Ws.runOf_eq hF
    obtain ⟨E, org, hJ'⟩ := h2
    ext o
    simp only [hX, movedSet, hrω, Finset.mem_filter, Finset.mem_sdiff]
    constructor
    · rintro ⟨a, b⟩; exact ⟨a, (Ws.moved_iff hJ' a).mp b⟩
    · rintro ⟨a, b⟩; exact ⟨a, (Ws.moved_iff hJ' a).mpr b⟩
  -- the tapes on which it does not return
  obtain ⟨w, hw⟩ := hsampler.chance (fun _ => True)
  set N : Set (ℕ → ℝ) := {ω | ¬ ∃ g' j, RetOf Prod.mk (fun fuel r => (List.range n).foldlM (Ws.rewireBody p fuel) (g0, r)) ω 0 g' j} with hN
  have hNm : MeasurableSet N := by
    have := (hw.meas 0).compl
    simpa [hN, Set.compl_ofPred] using this
  have hN0 : uniformTape N = 0 := by
    refine measure_mono_null ?_ hret
    intro ω hω hc
    obtain ⟨F, hF⟩ := hc
    obtain ⟨g', j, h1, _⟩ := (hE ω (run ω)).mp ⟨F, hF⟩
    exact hω ⟨g', j, h1⟩
  have hgood : ∀ {ω g' j}, RetOf Prod.mk (fun fuel r => (List.range n).foldlM (Ws.rewireBody p fuel) (g0, r)) ω 0 g' j →
      Ws.Good n d g.data g' := by
    rintro ω g' j ⟨F, hF⟩
    obtain ⟨E', org', k1, _⟩ := Ws.loop_rewires hn (List.range n) (⟨ω, 0⟩ : Stream) (g', (⟨ω, j⟩ : Stream))
      (fun i hi => List.mem_range.mp hi) hJ (hF F (le_refl _))
    exact ⟨E', org', k1⟩
  set S0 := movedSet n d g with hS0
  have hXN : ∀ ω ∈ N, X ω = S0 := by
    intro ω hω
    have : run ω = ⟨g, p, ⟨ω, 0⟩, d⟩ := by
      rw [hrun]
      unfold Ws.runOf
      rw [dif_neg]
      rintro ⟨e, F, hF⟩
      obtain ⟨g', j, h1, _⟩ := (hE ω e).mp ⟨F, hF⟩
      exact hω ⟨g', j, h1⟩
    simp only [hX, this, hS0]
  have hfib : ∀ S ⊆ ringSet n d, {ω | X ω = S} = {ω | ∃ g' j,
      RetOf Prod.mk (fun fuel r => (List.range n).foldlM (Ws.rewireBody p fuel) (g0, r)) ω 0 g' j ∧ Ws.Good n d g.data g' ∧
        Ws.homeSet n g' = ringSet n d \ S} ∪ (if S0 = S then N else ∅) := by
    intro S hS
    ext ω
    simp only [Set.mem_union, Set.mem_ofPred_eq]
    constructor
    · intro hx
      by_cases hω : ω ∈ N
      · right
        rw [if_pos ((hXN ω hω).symm.trans hx)]
        exact hω
      · left
        rw [hN, Set.mem_ofPred_eq, not_not] at hω
        obtain ⟨g', j, h1⟩ := hω
        have hg := hgood h1
        refine ⟨g', j, h1, hg, ?_⟩
        have hh : Ws.homeSet n g' ⊆ ringSet n d := by
          obtain ⟨E, org, hJ'⟩ := hg
          intro e he
          obtain ⟨h3, h4⟩ := (Ws.mem_homeSet hJ' e).mp he
          have : org e ∈ (ringSet n d).val := by
            rw [← hJ'.ms, add_zero]
            exact Multiset.mem_map_of_mem org h3
          rw [h4] at this
          exact this
        rw [← hx, hXS h1 hg, Finset.sdiff_sdiff_eq_self hh]
    · rintro (⟨g', j, h1, h2, h3⟩ | hx)
      · rw [hXS h1 h2, h3, Finset.sdiff_sdiff_eq_self hS]
      · split at hx
        · rename_i he
          rw [hXN ω hx, he]
        · exact absurd hx (Set.notMem_empty _)
  refine ⟨(movedProb_bounds p).1, (movedProb_bounds p).2, hsub, fun S => ?_, fun S hS => ?_⟩
  · by_cases hS : S ⊆ ringSet n d
    · rw [hfib S hS]
      refine ((hev S hS).meas 0).union ?_
      split
      · exact hNm
      · exact MeasurableSet.empty
    · have : {ω | X ω = S} = ∅ := by
        ext ω
        simp only [Set.mem_ofPred_eq, Set.mem_empty_iff_false, iff_false]
        rintro rfl
        exact hS (hsub ω)
      rw [this]
      exact MeasurableSet.empty
  · rw [hfib S hS, ← (hev S hS).prob 0]
    split
    · exact measure_congr (union_ae_eq_left_of_ae_eq_empty (ae_eq_empty.mpr hN0))
    · rw [Set.union_empty]

theorem ProductLaw.movedLaw {n d : ℕ} (hd : 2 * d + 1 ≤ n) {p : ℚ} {net : (ℕ → ℝ) → WSGraph T}
    (h : ProductLaw uniformTape (ringSet n d) (movedProb p) (fun ω => movedSet n d (net ω))) : MovedLaw n d p net := by
  have hcard : (ringSet n d).card = n * d := Ws.ringSet_card hd
  have hm := h.moments
  rw [hcard] at hm
  refine ⟨?_, fun k => ?_, hm⟩
  · intro A B hA hB hAB
    rw [← h.inside_outside hA hB hAB]
    congr 1
    ext ω
    simp only [Set.mem_ofPred_eq, movedSet, Finset.subset_iff, Finset.mem_filter, Finset.disjoint_left, not_and]
    constructor
    · rintro ⟨h1, h2⟩; exact ⟨fun o ho => ⟨hA ho, h1 o ho⟩, fun o ho _ => h2 o ho⟩
    · rintro ⟨h1, h2⟩; exact ⟨fun o ho => (h1 ho).2, fun o ho => h2 ho (hB ho)⟩
  · rw [h.card_law k, hcard]

/-- `randomize` on independent uniform draws, on a network of `n ≥ 2 d + 2` vertices: it returns with probability one; every edge of
the ring is moved independently of the others with probability `1 - (1 - q)²`, where `q` is the probability of heads (which differs
from the `rewire_prob` by at most `2^-53`), because each of its two ends throws a coin for it.  So the number of moved edges is
binomial with mean `n d (1 - (1 - q)²)`. -/
theorem C81_ws_randomize_moved {g : WSGraph T} (h : g.WF) (hn : g.vertexCount < 2 ^ 32) {d : ℕ} (hd : 2 * d + 2 ≤ g.vertexCount) (p : ℚ) :
    ∃ run : (ℕ → ℝ) → Ws T Stream,
      (∀ᵐ ω ∂uniformTape, ∃ F, ∀ fuel, F ≤ fuel → Ws.randomize fuel ⟨g, p, ⟨ω, 0⟩, d⟩ = .ok (run ω)) ∧
      MovedLaw g.vertexCount d p (fun ω => (run ω).graph) := by
  obtain ⟨run, h1, h2⟩ := Ws.moved_law h hn hd p
  exact ⟨run, h1, h2.movedLaw (by omega)⟩

/-- The same for `new`. -/
theorem C81_ws_new_moved {n : ℕ} (hn : n < 2 ^ 32) {d : ℕ} (hd : 2 * d + 2 ≤ n) (p : ℚ) :
    ∃ run : (ℕ → ℝ) → Ws T Stream,
      (∀ᵐ ω ∂uniformTape, ∃ F, ∀ fuel, F ≤ fuel → Ws.new fuel n d p (⟨ω, 0⟩ : Stream) = .ok (.ok (run ω))) ∧
      MovedLaw n d p (fun ω => (run ω).graph) := by
  obtain ⟨g0, h1, h2, h3, h4, _⟩ := Ws.start (g := (GenericGraph.new n : WSGraph T)) (new_wf n) (d := d) (by show _ ≤ n; omega) hn
  have hv : g0.vertexCount = n := h2
  obtain ⟨run, k1, k2⟩ := C81_ws_randomize_moved h3 (by rw [hv]; exact hn) (d := d) (by rw [hv]; exact hd) p
  rw [hv] at k2
  refine ⟨run, ?_, k2⟩
  filter_upwards [k1] with ω hω
  obtain ⟨F, hF⟩ := hω
  refine ⟨F, fun fuel hf => ?_⟩
  unfold Ws.new
  rw [if_neg (by omega)]
  simp only [Res.ok_bind]
  rw [h1]
  simp only [Res.ok_bind]
  rw [hF fuel hf]
  rfl

/-- The documented probability is the `rewire_prob`.  The probability with which the code moves an edge is larger unless the coin is
constant: with `q` the probability of heads it is `q (2 - q)`. -/
theorem C81_moved_prob (p : ℚ) : movedProb p = headsReal p * (2 - headsReal p) ∧ headsReal p ≤ movedProb p ∧
    (movedProb p = headsReal p ↔ p < 0 ∨ (2 ^ 53 - 1) / 2 ^ 53 ≤ p) ∧ |headsReal p - clamp01 (p : ℝ)| ≤ 1 / 2 ^ 53 := by
  obtain ⟨h0, h1⟩ := headsReal_bounds p
  have e1 : movedProb p = headsReal p * (2 - headsReal p) := by unfold movedProb; ring
  refine ⟨e1, by rw [e1]; nlinarith, ?_, ?_⟩
  · obtain ⟨k1, k2⟩ := C33_heads p
    have z0 : headsReal p = 0 ↔ p < 0 := by
      rw [← not_le, ← k1, headsReal, div_eq_zero_iff]
      constructor
      · rintro (h | h)
        · have : heads p = 0 := by exact_mod_cast h
          omega
        · norm_num at h
      · intro h
        left
        have : heads p = 0 := by omega
        rw [this]; norm_num
    have z1 : headsReal p = 1 ↔ (2 ^ 53 - 1) / 2 ^ 53 ≤ p := by
      rw [← not_lt, ← k2, headsReal, div_eq_one_iff_eq (by positivity)]
      have hle : heads p ≤ 2 ^ 53 := heads_le p
      constructor
      · intro h
        have : heads p = 2 ^ 53 := by exact_mod_cast h
        omega
      · intro h
        have : heads p = 2 ^ 53 := by omega
        rw [this]; norm_num
    rw [← z0, ← z1, e1]
    constructor
    · intro h
      have : headsReal p * (1 - headsReal p) = 0 := by linarith
      rcases mul_eq_zero.mp this with h | h
      · exact Or.inl h
      · right; linarith
    · rintro (h | h) <;> rw [h] <;> norm_num
  · have := (Rat.cast_le (K := ℝ)).mpr (C71_throw_close p).1
    push_cast at this
    rw [← cast_clamp01]
    exact this

/-- With a `rewire_prob` of one half, on average at least three quarters of the edges are moved. -/
example : ∃ run : (ℕ → ℝ) → Ws Nat Stream,
    (∀ᵐ ω ∂uniformTape, ∃ F, ∀ fuel, F ≤ fuel → Ws.new fuel 10 2 (1 / 2) (⟨ω, 0⟩ : Stream) = .ok (.ok (run ω))) ∧
    15 - 1 / 2 ^ 40 ≤ ∫ ω, ((movedSet 10 2 (run ω).graph).card : ℝ) ∂uniformTape := by
  obtain ⟨run, h1, _, _, _, h2, _⟩ := C81_ws_new_moved (T := Nat) (n := 10) (by norm_num) (d := 2) (by norm_num) (1 / 2)
  refine ⟨run, h1, ?_⟩
  rw [h2]
  obtain ⟨e1, _, _, e2⟩ := C81_moved_prob (1 / 2)
  have hc : clamp01 (((1 / 2 : ℚ)) : ℝ) = 1 / 2 := by unfold clamp01; norm_num
  rw [hc, abs_le] at e2
  obtain ⟨b0, b1⟩ := headsReal_bounds (1 / 2)
  rw [e1]
  push_cast
  norm_num at e2 ⊢
  nlinarith

end Verif
