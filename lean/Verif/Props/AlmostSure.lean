import Verif.Lemmas.WsFair
import Verif.Lemmas.BaFair
import Verif.Lemmas.ConfigFair
import Verif.Lemmas.DogFair
import Verif.Props.WsLaw
import Verif.Lemmas.TapeLaw

/-!
# The loops that draw until something fits end with probability one (C70)

The generator reads an infinite tape of independent numbers that are uniformly distributed in `[0, 1)`
(`Verif.Spec.Stream`).  "With probability one" means for almost every tape.  `fuel` bounds the number of rounds of the loops; a
statement of the form `∃ F, ∀ fuel ≥ F, … = .ok x` says that the Rust function, which has no such bound, returns `x`.
-/

set_option linter.unusedSectionVars false
set_option linter.unusedSimpArgs false

namespace Verif
open MeasureTheory AdjContainer GenericGraph

variable {T : Type}

/-! ## The generator is the one it should be -/

/-- **The draws are uniform and independent.** The probability that from position `s` on the numbers of the tape lead to the draws
`l = [(h₁, k₁), (h₂, k₂), …]` (`kᵢ` from a range of size `hᵢ`) is `1 / (h₁ h₂ …)`. -/
theorem C70_draws_uniform {l : List (ℕ × ℕ)} (hl : ∀ d ∈ l, d.2 < d.1) (s : ℕ) :
    uniformTape {ω | ∀ i (hi : i < l.length), partOf (ω (s + i)) l[i].1 = l[i].2} = (l.map (fun d => (d.1 : ENNReal)⁻¹)).prod := by
  have hset : {ω : ℕ → ℝ | ∀ i (hi : i < l.length), partOf (ω (s + i)) l[i].1 = l[i].2} =
      Set.pi ((Finset.range l.length).image (fun i => s + i) : Finset ℕ)
        (fun t => {x | partOf x (l.getD (t - s) (0, 0)).1 = (l.getD (t - s) (0, 0)).2}) := by
    ext ω
    simp only [Set.mem_ofPred_eq, Set.mem_pi, Finset.coe_image, Set.mem_image, Finset.mem_coe, Finset.mem_range]
    constructor
    · rintro h _ ⟨i, hi, rfl⟩
      rw [Nat.add_sub_cancel_left, getD_lt hi]
      exact h i hi
    · intro h i hi
      have := h (s + i) ⟨i, hi, rfl⟩
      rw [Nat.add_sub_cancel_left, getD_lt hi] at this
      exact this
  rw [hset, uniformTape, Measure.infinitePi_pi _ (fun t _ => measurableSet_partOf _ _),
    Finset.prod_image (fun a _ b _ hab => by simpa using hab)]
  have h1 : ∀ i ∈ Finset.range l.length, (volume.restrict (Set.Ico (0 : ℝ) 1))
      {x | partOf x (l.getD (s + i - s) (0, 0)).1 = (l.getD (s + i - s) (0, 0)).2} =
        (fun d : ℕ × ℕ => (d.1 : ENNReal)⁻¹) (l.getD i (0, 0)) := by
    intro i hi
    have hi' := Finset.mem_range.mp hi
    rw [Nat.add_sub_cancel_left, getD_lt hi']
    exact volume_partOf (hl _ (List.getElem_mem hi'))
  rw [Finset.prod_congr rfl h1, Finset.prod_range, ← List.prod_ofFn]
  congr 1
  apply List.ext_getElem
  · simp
  · intro i h2 h3
    simp at h2
    simp [h2]

/-- What the calls return on the tape. -/
theorem C70_generator_reads (r : Stream) (h : ℕ) (hh : 0 < h) (p : ℚ) :
    genRange r h = .ok (partOf (r.tape r.pos) h, ⟨r.tape, r.pos + 1⟩) ∧
    coin r p = (decide ((partOf (r.tape r.pos) (2 ^ 53) : ℚ) / 2 ^ 53 ≤ p), ⟨r.tape, r.pos + 1⟩) :=
  ⟨r.genRange_eq hh, rfl⟩

example : ∀ d ∈ [(6, 2), (2 ^ 53, 0)], d.2 < d.1 := by
  intro d hd
  simp only [List.mem_cons, List.not_mem_nil, or_false] at hd
  rcases hd with rfl | rfl
  · decide
  · exact Nat.two_pow_pos 53

/-! ## Watts-Strogatz -/

namespace Ws

theorem new_fair [Node T] {n d : ℕ} (hn : n < 2 ^ 32) (hd : 2 * d + 2 ≤ n) (p : ℚ) {r : Stream} (hω : Fair r.tape) :
    Eventually (fun fuel => (Ws.new fuel n d p r : Res (Except WSCreationError (Ws T Stream)))) (fun x => ∃ e, x = .ok e) := by
  obtain ⟨g1, h1, h2, h3, h4, h5⟩ := Ws.start (g := (GenericGraph.new n : WSGraph T)) (new_wf n) (d := d)
    (by show _ ≤ n; omega) hn
  have h2' : g1.nextId = n := h2
  obtain ⟨g2, k1, k2, k3, k4, k5⟩ := Ws.start h3 (d := d) (by rw [h2']; omega) (by rw [h2']; exact hn)
  rw [h2'] at k4
  obtain ⟨F, x, hx, hF⟩ := loop_fair (p := p) hn hd hω (r := r) rfl k4
  refine ⟨F, .ok ⟨x.1, p, x.2, d⟩, ⟨_, rfl⟩, fun fuel hfuel => ?_⟩
  show Ws.new fuel n d p r = _
  unfold Ws.new
  rw [if_neg (by omega)]
  simp only [Res.ok_bind]
  rw [h1]
  simp only [Res.ok_bind]
  unfold Ws.randomize
  simp only
  rw [k1]
  simp only [Res.ok_bind]
  have hlen : g2.vertexCount = n := k2.trans h2'
  have h6 : (List.range n).foldlM (rewireBody p fuel) (g2, r) = .ok x := hF fuel hfuel
  rw [hlen, h6]
  rfl

theorem randomize_fair [Node T] {e : Ws T Stream} (h : e.graph.WF) (hn : e.graph.vertexCount < 2 ^ 32)
    (hd : 2 * e.neighborDistance + 2 ≤ e.graph.vertexCount) (hω : Fair e.rng.tape) :
    Eventually (fun fuel => e.randomize fuel) (fun e' => e'.rng.tape = e.rng.tape) := by
  obtain ⟨g2, k1, k2, k3, k4, k5⟩ := Ws.start h (d := e.neighborDistance) (by show _ ≤ e.graph.vertexCount; omega) hn
  obtain ⟨F, x, hx, hF⟩ := loop_fair (p := e.rewireProb) hn hd hω (r := e.rng) rfl k4
  refine ⟨F, { e with graph := x.1, rng := x.2 }, hx.1, fun fuel hfuel => ?_⟩
  show Ws.randomize fuel e = _
  unfold Ws.randomize
  simp only
  rw [k1]
  simp only [Res.ok_bind]
  have h6 : (List.range e.graph.vertexCount).foldlM (rewireBody e.rewireProb fuel) (g2, e.rng) = .ok x := hF fuel hfuel
  rw [show g2.vertexCount = e.graph.vertexCount from k2, h6]
  rfl

end Ws

/-- `randomize` returns with probability one if `n ≥ 2d + 2`. -/
theorem C70_ws_randomize [Node T] {g : WSGraph T} (h : g.WF) (hn : g.vertexCount < 2 ^ 32) {d : ℕ} (hd : 2 * d + 2 ≤ g.vertexCount) (p : ℚ) :
    ∀ᵐ ω ∂uniformTape, ∃ (F : ℕ) (e : Ws T Stream), ∀ fuel, F ≤ fuel → Ws.randomize fuel ⟨g, p, ⟨ω, 0⟩, d⟩ = .ok e := by
  filter_upwards [ae_fair] with ω hω
  obtain ⟨F, x, _, h2⟩ := Ws.randomize_fair (e := ⟨g, p, ⟨ω, 0⟩, d⟩) h hn hd hω
  exact ⟨F, x, h2⟩

namespace Ws

theorem thrown_tails {α : Type} {p : ℚ} (hp : ¬ AllHeads p) {r r' : Stream} {l D : List α} (h : Thrown p r l D r')
    (ht : ∀ i < l.length, partOf (r.tape (r.pos + i)) (2 ^ 53) = 2 ^ 53 - 1) : D = [] := by
  induction h with
  | nil r => rfl
  | @heads r r1 r2 x l D hc _ ih =>
    exfalso
    apply hp
    have h0 := ht 0 (by simp)
    have h1 : (coin r p).1 = true := by rw [hc]
    rw [Stream.coin_fst, decide_eq_true_eq, show r.head = r.tape (r.pos + 0) from rfl, h0] at h1
    exact h1
  | @tails r r1 r2 x l D hc _ ih =>
    have h1 : r1 = r.skip 1 := by
      have := r.coin_snd p
      rw [hc] at this
      exact this
    apply ih
    intro i hi
    have := ht (i + 1) (by simpa using hi)
    rw [h1, ← this, Stream.skip_tape, Stream.skip_pos]
    congr 2
    omega

theorem thrown_one {α : Type} {p : ℚ} (hp : ¬ AllHeads p) (hp0 : 0 ≤ p) {r r' : Stream} {l D : List α} (h : Thrown p r l D r')
    (hl : l ≠ []) (h0 : partOf (r.tape r.pos) (2 ^ 53) = 0)
    (ht : ∀ i < l.length, 1 ≤ i → partOf (r.tape (r.pos + i)) (2 ^ 53) = 2 ^ 53 - 1) : D.length = 1 := by
  have hc0 : (coin r p).1 = true := by
    rw [Stream.coin_fst, decide_eq_true_eq, show r.head = r.tape r.pos from rfl, h0]
    simpa using hp0
  cases h with
  | nil => exact absurd rfl hl
  | @heads _ r1 _ x l D hc hr =>
    have h1 : r1 = r.skip 1 := by
      have := r.coin_snd p
      rw [hc] at this
      exact this
    rw [thrown_tails hp hr]
    · rfl
    · intro i hi
      have := ht (i + 1) (by simpa using hi) (by omega)
      rw [h1, ← this, Stream.skip_tape, Stream.skip_pos]
      congr 2
      omega
  | @tails _ r1 _ x l D hc hr =>
    rw [hc] at hc0
    cases hc0

theorem stuck_of_throws {p : ℚ} (hp0 : 0 ≤ p) (hp : ¬ AllHeads p) {n d : Nat} (hd : 1 ≤ d) (hnd : n = 2 * d + 1) {dat : List T}
    {g0 : WSGraph T} (h : J n d dat g0 (ringSet n d) id 0) (hn : n < 2 ^ 32) {r : Stream}
    (h0 : partOf (r.tape r.pos) (2 ^ 53) = 0)
    (ht : ∀ i, 1 ≤ i → i ≤ n → partOf (r.tape (r.pos + i)) (2 ^ 53) = 2 ^ 53 - 1) (fuel : ℕ) :
    (List.range n).foldlM (rewireBody p fuel) (g0, r) = .diverge := by
  have hn0 : 0 < n := by omega
  have hfull : ringSet n d = full n := by
    apply Finset.eq_of_subset_of_card_le h.sub_full
    have := h.card (by omega)
    simp at this
    rw [card_full, this, hnd]
    have : (2 * d + 1) * (2 * d + 1 - 1) = 2 * ((2 * d + 1) * d) := by
      rw [Nat.add_sub_cancel]; ring
    rw [this]; omega
  obtain ⟨g1, rewire, rng1, L, a1, a2, a3, a4, a5⟩ := removeStage_thrown (p := p) h hn0 r
  have hLmem : ∀ e, e ∈ L ↔ e ∈ full n ∧ 0 ∈ e := by
    intro e
    rw [a4, hfull]
    simp
  have hLne : L ≠ [] := by
    apply List.ne_nil_of_mem (a := s(0, 1))
    rw [hLmem, mem_full]
    exact ⟨⟨by omega, by omega, by omega⟩, by simp⟩
  have hLlen : L.length ≤ n := by
    have hsub : L.toFinset ⊆ (Finset.range n).image (fun v => s(0, v)) := by
      intro e he
      rw [List.mem_toFinset, hLmem] at he
      obtain ⟨he1, he2⟩ := he
      obtain ⟨v, rfl⟩ := Sym2.mem_iff_exists.mp he2
      exact Finset.mem_image.mpr ⟨v, Finset.mem_range.mpr (mem_full.mp he1).2.1, rfl⟩
    have := (Finset.card_le_card hsub).trans Finset.card_image_le
    rwa [List.toFinset_card_of_nodup a3, Finset.card_range] at this
  have hlen : rewire.length = 1 := by
    have := thrown_one hp hp0 a5 hLne h0 (fun i hi hi1 => ht i hi1 (by omega))
    rwa [List.length_map] at this
  obtain ⟨o, rfl⟩ := List.length_eq_one_iff.mp hlen
  have hpick := pickPair_stuck (R := Stream) a2.raw hn hn0 o (by
    rintro a b ⟨f1, f2, f3, f4, f5⟩
    apply f5
    rw [Finset.mem_sdiff, hfull, mem_full]
    refine ⟨⟨f1, f2, f3⟩, ?_⟩
    simpa using f4) fuel rng1
  have hbody : rewireBody p fuel (g0, r) 0 = .diverge := by
    unfold rewireBody
    simp only
    rw [a1]
    simp only [Res.ok_bind, List.foldlM_cons, List.foldlM_nil]
    unfold addRandomEdge
    simp only
    rw [hpick]
    rfl
  obtain ⟨m, rfl⟩ : ∃ m, n = m + 1 := ⟨n - 1, by omega⟩
  rw [List.range_succ_eq_map, List.foldlM_cons, hbody]
  rfl

end Ws

/-- **With the smallest accepted number of vertices the constructor may hang.** For `n = 2d + 1` and any rewiring probability that
allows a success, `WS::new` runs forever with positive probability. -/
theorem C70_ws_hangs [Node T] {d : ℕ} (hd : 1 ≤ d) (hn : 2 * d + 1 < 2 ^ 32) {p : ℚ} (hp0 : 0 ≤ p) :
    0 < uniformTape {ω | ∀ fuel, (Ws.new fuel (2 * d + 1) d p (⟨ω, 0⟩ : Stream) :
      Res (Except WSCreationError (Ws T Stream))) = .diverge} := by
  by_cases hp : AllHeads p
  · have : {ω | ∀ fuel, (Ws.new fuel (2 * d + 1) d p (⟨ω, 0⟩ : Stream) : Res (Except WSCreationError (Ws T Stream))) = .diverge} =
        Set.univ := by
      ext ω
      simp only [Set.mem_ofPred_eq, Set.mem_univ, iff_true]
      exact fun fuel => C46_ws_never_returns fuel d hd hn p hp _
    rw [this, measure_univ]
    exact one_pos
  · set l : List (ℕ × ℕ) := (2 ^ 53, 0) :: List.replicate (2 * d + 1) (2 ^ 53, 2 ^ 53 - 1) with hl
    have hlt : ∀ x ∈ l, x.2 < x.1 := by
      intro x hx
      have h53 : (0 : ℕ) < 2 ^ 53 := Nat.two_pow_pos 53
      rcases List.mem_cons.mp hx with rfl | hx
      · exact h53
      · rw [List.eq_of_mem_replicate hx]
        show 2 ^ 53 - 1 < 2 ^ 53
        omega
    have hmeas := C70_draws_uniform hlt 0
    refine lt_of_lt_of_le (b := uniformTape {ω | ∀ i (hi : i < l.length), partOf (ω (0 + i)) l[i].1 = l[i].2}) ?_ (measure_mono ?_)
    · rw [hmeas]
      have : (l.map (fun d => (d.1 : ENNReal)⁻¹)).prod ≠ 0 := by
        intro h0
        rw [List.prod_eq_zero_iff, List.mem_map] at h0
        obtain ⟨x, _, hx⟩ := h0
        exact ENNReal.inv_ne_zero.mpr (ENNReal.natCast_ne_top x.1) hx
      exact pos_iff_ne_zero.mpr this
    · intro ω hω fuel
      have hω' : ∀ i (hi : i < l.length), partOf (ω (0 + i)) l[i].1 = l[i].2 := hω
      obtain ⟨g1, h1, h2, h3, h4, h5⟩ := Ws.start (g := (GenericGraph.new (2 * d + 1) : WSGraph T)) (new_wf _) (d := d)
        (by show _ ≤ 2 * d + 1; omega) hn
      have h2' : g1.nextId = 2 * d + 1 := h2
      obtain ⟨g2, k1, k2, k3, k4, k5⟩ := Ws.start h3 (d := d) (by rw [h2']) (by rw [h2']; exact hn)
      rw [h2'] at k4
      unfold Ws.new
      rw [if_neg (by omega)]
      simp only [Res.ok_bind]
      rw [h1]
      simp only [Res.ok_bind]
      unfold Ws.randomize
      simp only
      rw [k1]
      simp only [Res.ok_bind]
      have hlen : g2.vertexCount = 2 * d + 1 := k2.trans h2'
      rw [hlen, Ws.stuck_of_throws hp0 hp hd rfl k4 hn (r := ⟨ω, 0⟩)]
      · rfl
      · have := hω' 0 (by simp [hl])
        exact this
      · intro i hi1 hi2
        have := hω' i (by simp [hl]; omega)
        obtain ⟨i, rfl⟩ : ∃ k, i = k + 1 := ⟨i - 1, by omega⟩
        simp only [hl, List.getElem_cons_succ, List.getElem_replicate] at this
        exact this

/-- **Exact condition.** `WS::new(n, d, p)` with `d ≥ 1` and a probability that allows a success returns a network with probability
one exactly if `n ≥ 2d + 2`. -/
theorem C70_ws_new_iff [Node T] {n d : ℕ} (hd : 1 ≤ d) (hn : n < 2 ^ 32) {p : ℚ} (hp0 : 0 ≤ p) :
    (∀ᵐ ω ∂uniformTape, ∃ (F : ℕ) (e : Ws T Stream), ∀ fuel, F ≤ fuel → Ws.new fuel n d p (⟨ω, 0⟩ : Stream) = .ok (.ok e)) ↔
      2 * d + 2 ≤ n := by
  constructor
  · intro h
    by_contra hlt
    rcases Nat.lt_or_ge n (2 * d + 1) with h1 | h1
    · obtain ⟨ω, F, e, he⟩ := h.exists
      have := he F (le_refl _)
      unfold Ws.new at this
      rw [if_pos (by omega)] at this
      simp at this
    · obtain rfl : n = 2 * d + 1 := by omega
      have hpos := C70_ws_hangs (T := T) hd hn hp0
      have hzero : uniformTape {ω | ∀ fuel, (Ws.new fuel (2 * d + 1) d p (⟨ω, 0⟩ : Stream) :
          Res (Except WSCreationError (Ws T Stream))) = .diverge} = 0 := by
        refine measure_mono_null ?_ (ae_iff.mp h)
        intro ω hω hc
        obtain ⟨F, e, he⟩ := hc
        have h2 := hω F
        rw [he F (le_refl _)] at h2
        cases h2
      rw [hzero] at hpos
      exact lt_irrefl _ hpos
  · intro h
    filter_upwards [ae_fair] with ω hω
    obtain ⟨F, x, ⟨e, rfl⟩, h2⟩ := Ws.new_fair (T := T) hn h p (r := ⟨ω, 0⟩) hω
    exact ⟨F, e, h2⟩

example : 1 ≤ 3 ∧ (8 : ℕ) < 2 ^ 32 ∧ (0 : ℚ) ≤ 1 / 10 ∧ 2 * 3 + 2 ≤ 8 := ⟨by decide, by decide, by norm_num, by decide⟩

/-! ## Barabási-Albert -/

/-- `randomize` returns with probability one exactly if `m` is at most the number of vertices of the source with a neighbour. -/
theorem C70_ba_iff {source graph : Graph T} {weights : List Nat} {m : Nat}
    (hv : ∀ r : Stream, (Ba.Valid { source, graph, rng := r, m, weights })) (hE : 1 ≤ source.edgeCount)
    (hlt : source.vertexCount < graph.vertexCount) :
    (∀ᵐ ω ∂uniformTape, ∃ (F : ℕ) (e : Ba T Stream), ∀ fuel, F ≤ fuel →
      Ba.randomize fuel { source, graph, rng := ⟨ω, 0⟩, m, weights } = .ok e) ↔ m ≤ (Ba.attachable source).card := by
  constructor
  · intro h
    obtain ⟨ω, F, e, he⟩ := h.exists
    exact C44_ba_m_le (hv ⟨ω, 0⟩) hE hlt (he F (le_refl _))
  · intro h
    filter_upwards [ae_fair] with ω hω
    obtain ⟨F, x, _, h2⟩ := Ba.randomize_fair (hv ⟨ω, 0⟩) hE h hω
    exact ⟨F, x, h2⟩

example : (∀ r : Stream, (⟨exPath, GenericGraph.new 6, r, 2, [0, 0, 0, 0, 0, 0]⟩ : Ba Nat Stream).Valid) ∧ 1 ≤ exPath.edgeCount ∧
    exPath.vertexCount < (GenericGraph.new 6 : Graph Nat).vertexCount ∧ 2 ≤ (Ba.attachable exPath).card :=
  ⟨fun r => ⟨exPath_wf, new_wf _, show exPath.vertexCount ≤ 6 by decide, rfl⟩, by decide, by decide, by decide⟩

/-! ## Configuration model -/

/-- `from_vec_unchecked` returns with probability one exactly if some simple graph has the degrees. -/
theorem C70_config_iff [Node T] (d : List Nat) :
    (∀ᵐ ω ∂uniformTape, ∃ (F : ℕ) (e : Config T Stream), ∀ fuel, F ≤ fuel →
      Config.fromVecUnchecked fuel d (⟨ω, 0⟩ : Stream) = .ok e) ↔ ∃ g : Graph T, Realises g d := by
  constructor
  · intro h
    obtain ⟨ω, F, e, he⟩ := h.exists
    exact ⟨e.graph, ((C40_config_new d _ F).2 e (he F (le_refl _))).2.2.1⟩
  · rintro ⟨g, hg⟩
    filter_upwards [ae_fair] with ω hω
    obtain ⟨F, x, _, h2⟩ := Config.randomize_fair (Config.base_new (T := T) d (⟨ω, 0⟩ : Stream)) (g := g) hg hω
    exact ⟨F, x, h2⟩

/-- `randomize` of a configuration model that holds a network with the right degrees returns with probability one. -/
theorem C70_config_randomize {g : Graph T} {d halfs backup : List Nat} (hi : ∀ r : Stream, (⟨g, d, r, halfs, backup⟩ : Config T Stream).Inv) :
    ∀ᵐ ω ∂uniformTape, ∃ (F : ℕ) (e : Config T Stream), ∀ fuel, F ≤ fuel →
      Config.randomize fuel ⟨g, d, ⟨ω, 0⟩, halfs, backup⟩ = .ok e := by
  filter_upwards [ae_fair] with ω hω
  obtain ⟨F, x, _, h2⟩ := Config.randomize_fair (hi ⟨ω, 0⟩).toBase (g := g)
    (realises_iff.mpr ⟨(hi ⟨ω, 0⟩).wf, (hi ⟨ω, 0⟩).deg⟩) hω
  exact ⟨F, x, h2⟩

/-- A Markov step of a configuration model with an edge returns with probability one. -/
theorem C70_config_step {g : Graph T} {d halfs backup : List Nat} (hi : ∀ r : Stream, (⟨g, d, r, halfs, backup⟩ : Config T Stream).Inv)
    (hE : 1 ≤ g.edgeCount) :
    ∀ᵐ ω ∂uniformTape, ∃ (F : ℕ) (x : ConfigStep × Config T Stream), ∀ fuel, F ≤ fuel →
      Config.mStep fuel ⟨g, d, ⟨ω, 0⟩, halfs, backup⟩ = .ok x := by
  filter_upwards [ae_fair] with ω hω
  obtain ⟨F, x, _, h2⟩ := Config.mStep_fair (hi ⟨ω, 0⟩) hE hω
  exact ⟨F, x, h2⟩

example : (∀ r : Stream, (⟨exPath, [1, 2, 2, 1], r, [], [0, 1, 1, 2, 2, 3]⟩ : Config Nat Stream).Inv) ∧ 1 ≤ exPath.edgeCount :=
  ⟨fun _ => ⟨⟨exPath_wf, rfl, halves_init [1, 2, 2, 1]⟩, show exPath.degreeVec = [1, 2, 2, 1] by decide⟩, by decide⟩

/-! ## DogEnsemble -/

/-- The search for a partner returns with probability one exactly if there is a vertex that differs from `node`, is not yet adjacent
to it, and has an edge. -/
theorem C70_dog_partner_iff {g : SpacialGraph T} (h : g.WF) {node D : Nat} (hnode : node < g.vertexCount) (hD : 0 < D) :
    (∀ᵐ ω ∂uniformTape, ∃ (F : ℕ) (x : SpacialGraph T × Stream), ∀ fuel, F ≤ fuel →
      Dog.findPartner node D fuel g (⟨ω, 0⟩ : Stream) = .ok x) ↔
      ∃ v < g.vertexCount, v ≠ node ∧ ¬ g.toSimple.Adj node v ∧ ∃ w, g.toSimple.Adj v w := by
  constructor
  · intro hh
    by_contra hno
    obtain ⟨ω, F, e, he⟩ := hh.exists
    have := (C58_partner_iff (R := Stream) h hnode hD).2 hno F ⟨ω, 0⟩
    rw [he F (le_refl _)] at this
    cases this
  · rintro ⟨v, h1, h2, h3, w, h4⟩
    filter_upwards [ae_fair] with ω hω
    have hp : Dog.Partner g node v := by
      refine ⟨h1, h2, ?_, ?_⟩
      · rw [h.mem_edges]; rwa [h.adj_iff] at h3
      · rw [h.adj_iff] at h4; exact List.ne_nil_of_mem h4
    obtain ⟨F, x, _, h5⟩ := Dog.findPartner_fair h hnode hD hp (r := ⟨ω, 0⟩) hω
    exact ⟨F, x, h5⟩

example : exSpacial.graph.WF ∧ 2 < exSpacial.graph.vertexCount ∧ 0 ≠ 2 ∧ ¬ exSpacial.graph.toSimple.Adj 2 0 ∧
    exSpacial.graph.toSimple.Adj 0 1 := by
  refine ⟨exSpacial_wf, by decide, by decide, ?_, ?_⟩
  · rw [exSpacial_wf.adj_iff]; decide
  · rw [exSpacial_wf.adj_iff]; decide

end Verif
