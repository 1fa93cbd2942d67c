import Verif.Lemmas.WsPlace
import Verif.Props.WsMoved

/-!
# C88: where `SmallWorldWS::randomize` puts the edges it moves
-/

set_option linter.unusedSectionVars false
set_option linter.unusedSimpArgs false

namespace Verif
open MeasureTheory ProbabilityTheory AdjContainer GenericGraph
open Ws (Sits full places placedLaw)

variable {T : Type} [Node T]

/-! ## Specification -/

/-- The probability that every edge `o` of the ring ends at the place `place o` is `placedLaw` of the set of the moved edges, provided the
moved edges go to different places off the ring; it does not depend on which places these are. -/
def PlacedLaw (n d : ℕ) (p : ℚ) (net : (ℕ → ℝ) → WSGraph T) : Prop :=
  ∀ place : Sym2 ℕ → Sym2 ℕ, (∀ o ∈ ringSet n d, place o ∈ full n) → Set.InjOn place (ringSet n d) →
    (∀ o ∈ ringSet n d, place o ≠ o → place o ∉ ringSet n d) →
    uniformTape {ω | ∀ o ∈ ringSet n d, Sits (net ω) o (place o)} =
      placedLaw n d (ENNReal.ofReal (headsReal p)) (ENNReal.ofReal (1 - headsReal p))
        ((ringSet n d).filter (fun o => place o ≠ o)) (List.range n) ∅

/-- The networks that arise with positive probability are all networks with `n d` edges. -/
def AllPossible (n d : ℕ) (net : (ℕ → ℝ) → WSGraph T) : Prop :=
  ∀ E : Finset (Sym2 ℕ), 0 < uniformTape {ω | (net ω).edges = E} ↔ E ⊆ full n ∧ E.card = n * d

/-! ## Proof -/

namespace Ws

theorem back_ne_zero (N m : ℕ) : back N m ≠ 0 := by
  induction m with
  | zero => simp [back]
  | succ m ih =>
    unfold back
    exact mul_ne_zero (ENNReal.inv_ne_zero.mpr (ENNReal.natCast_ne_top _)) ih

theorem placedLaw_ne_zero (n d : ℕ) {q q' : ENNReal} (hq : q ≠ 0) (hq' : q' ≠ 0) {M : Finset (Sym2 ℕ)} : ∀ (vs : List ℕ)
    {M0 : Finset (Sym2 ℕ)}, M0 ⊆ M → (∀ o ∈ M \ M0, ∃ i ∈ vs, i ∈ o) → placedLaw n d q q' M vs M0 ≠ 0 := by
  intro vs
  induction vs with
  | nil =>
    intro M0 hM0 h
    have : M0 = M := by
      refine hM0.antisymm fun o ho => ?_
      by_contra hc
      obtain ⟨i, hi, _⟩ := h o (Finset.mem_sdiff.mpr ⟨ho, hc⟩)
      cases hi
    unfold placedLaw
    rw [if_pos this]
    exact one_ne_zero
  | cons i vs ih =>
    intro M0 hM0 h
    unfold placedLaw
    intro hc
    rw [Finset.sum_eq_zero_iff] at hc
    have := hc ((M \ M0).filter (i ∈ ·)) (Finset.mem_powerset.mpr (le_refl _))
    refine absurd this (mul_ne_zero (mul_ne_zero ?_ (back_ne_zero _ _)) (ih ?_ ?_))
    · rw [Finset.prod_ne_zero_iff]
      intro e _
      split
      · exact hq
      · exact hq'
    · exact Finset.union_subset hM0 ((Finset.filter_subset _ _).trans Finset.sdiff_subset)
    · intro o ho
      simp only [Finset.mem_sdiff, Finset.mem_union, Finset.mem_filter, not_or, not_and] at ho
      obtain ⟨h1, h2, h3⟩ := ho
      obtain ⟨t, ht, hto⟩ := h o (Finset.mem_sdiff.mpr ⟨h1, h2⟩)
      rcases List.mem_cons.mp ht with rfl | ht
      · exact absurd hto (h3 ⟨h1, h2⟩)
      · exact ⟨t, ht, hto⟩

/-! ### One moved edge -/

theorem placedLaw_done (n d : ℕ) (q q' : ENNReal) (o : Sym2 ℕ) (vs : List ℕ) :
    placedLaw n d q q' {o} vs {o} = q' ^ (vs.map (fun i => ((ringSet n d \ {o}).filter (i ∈ ·)).card)).sum := by
  induction vs with
  | nil => simp [placedLaw]
  | cons i vs ih =>
    unfold placedLaw
    rw [show (({o} : Finset (Sym2 ℕ)) \ {o}).filter (i ∈ ·) = ∅ by simp, Finset.powerset_empty, Finset.sum_singleton,
      Finset.union_empty, ih, Finset.card_empty, back, mul_one, List.map_cons, List.sum_cons, pow_add,
      Finset.prod_congr rfl (fun e _ => if_neg (Finset.notMem_empty e)), Finset.prod_const]

theorem placedLaw_one (n d : ℕ) (q q' : ENNReal) {o : Sym2 ℕ} (ho : o ∈ ringSet n d) (vs : List ℕ) :
    placedLaw n d q q' {o} vs ∅ = q' ^ (vs.map (fun i => ((ringSet n d \ {o}).filter (i ∈ ·)).card)).sum *
      ((∑ k ∈ Finset.range (vs.countP (· ∈ o)), q * q' ^ k) * ((n * (n - 1) / 2 - n * d : ℕ) : ENNReal)⁻¹) := by
  induction vs with
  | nil => simp [placedLaw]
  | cons i vs ih =>
    have hins : ringSet n d = insert o (ringSet n d \ {o}) := by
      ext e
      rw [Finset.mem_insert, Finset.mem_sdiff, Finset.mem_singleton]
      constructor
      · intro he; by_cases hc : e = o <;> simp [hc, he]
      · rintro (rfl | he)
        · exact ho
        · exact he.1
    have hno : o ∉ (ringSet n d \ {o}).filter (i ∈ ·) := by simp
    unfold placedLaw
    by_cases hi : i ∈ o
    · have hf : (({o} : Finset (Sym2 ℕ)) \ ∅).filter (i ∈ ·) = insert o ∅ := by
        ext e
        simp only [Finset.sdiff_empty, Finset.mem_filter, Finset.mem_singleton, Finset.insert_empty]
        constructor
        · exact fun h => h.1
        · rintro rfl; exact ⟨rfl, hi⟩
      have hr : (ringSet n d \ ∅).filter (i ∈ ·) = insert o ((ringSet n d \ {o}).filter (i ∈ ·)) := by
        rw [Finset.sdiff_empty]
        conv_lhs => rw [hins]
        rw [Finset.filter_insert, if_pos hi]
      have hq : ∏ e ∈ (ringSet n d \ {o}).filter (i ∈ ·), (if e ∈ ({o} : Finset (Sym2 ℕ)) then q else q') =
          q' ^ ((ringSet n d \ {o}).filter (i ∈ ·)).card := by
        rw [← Finset.prod_const]
        refine Finset.prod_congr rfl fun e he => if_neg fun hc => hno ?_
        have hc := Finset.mem_singleton.mp hc
        subst hc
        exact he
      rw [hf, Finset.sum_powerset_insert (Finset.notMem_empty o), Finset.powerset_empty, Finset.sum_singleton, Finset.sum_singleton,
        Finset.union_empty, ih, Finset.empty_union, Finset.insert_empty, placedLaw_done, hr, Finset.prod_insert hno, Finset.prod_insert hno,
        if_neg (Finset.notMem_empty o), if_pos (Finset.mem_singleton_self o), Finset.card_empty, Finset.card_singleton,
        Finset.prod_congr rfl (fun e _ => if_neg (Finset.notMem_empty e)), Finset.prod_const,
        hq, List.map_cons, List.sum_cons, List.countP_cons_of_pos (by simpa using hi), Finset.sum_range_succ']
      simp only [back, add_zero, mul_one, pow_zero, pow_succ, pow_add]
      simp only [← mul_assoc]
      rw [← Finset.sum_mul]
      ring
    · have hf : (({o} : Finset (Sym2 ℕ)) \ ∅).filter (i ∈ ·) = ∅ := by
        ext e
        simp only [Finset.sdiff_empty, Finset.mem_filter, Finset.mem_singleton, Finset.notMem_empty, iff_false, not_and]
        rintro rfl; exact hi
      have hr : (ringSet n d \ ∅).filter (i ∈ ·) = (ringSet n d \ {o}).filter (i ∈ ·) := by
        rw [Finset.sdiff_empty]
        conv_lhs => rw [hins]
        rw [Finset.filter_insert, if_neg hi]
      rw [hf, Finset.powerset_empty, Finset.sum_singleton, Finset.union_empty, ih, hr,
        Finset.prod_congr rfl (fun e _ => if_neg (Finset.notMem_empty e)), Finset.prod_const, Finset.card_empty,
        List.map_cons, List.sum_cons, List.countP_cons_of_neg (by simpa using hi)]
      simp only [back, mul_one, pow_add]
      ring

/-- Every edge has two ends. -/
theorem sum_ends {n : ℕ} {F : Finset (Sym2 ℕ)} (hF : F ⊆ full n) :
    ((List.range n).map (fun i => (F.filter (i ∈ ·)).card)).sum = 2 * F.card := by
  have h1 : ((List.range n).map (fun i => (F.filter (i ∈ ·)).card)).sum = ∑ i ∈ Finset.range n, (F.filter (i ∈ ·)).card := rfl
  rw [h1]
  have h2 := Finset.sum_card_bipartiteAbove_eq_sum_card_bipartiteBelow (s := Finset.range n) (t := F) (fun i e => i ∈ e)
  simp only [Finset.bipartiteAbove, Finset.bipartiteBelow] at h2
  rw [h2, Finset.sum_congr rfl (g := fun _ => 2), Finset.sum_const, smul_eq_mul, mul_comm]
  intro e he
  induction e using Sym2.ind with
  | h u v =>
    obtain ⟨hu, hv, huv⟩ := mem_full.mp (hF he)
    have : (Finset.range n).filter (fun i => i ∈ s(u, v)) = {u, v} := by
      ext x
      simp only [Finset.mem_filter, Finset.mem_range, Sym2.mem_iff, Finset.mem_insert, Finset.mem_singleton]
      constructor
      · exact fun h => h.2
      · rintro (rfl | rfl) <;> simp [*]
    rw [this, Finset.card_pair huv]

/-- The edges of a network in which every edge sits where `place` says. -/
theorem Good.edges_eq {n d : ℕ} (hd : 2 * d + 1 ≤ n) {dat : List T} {g : WSGraph T} (hg : Good n d dat g) {place : Sym2 ℕ → Sym2 ℕ}
    (h : ∀ o ∈ ringSet n d, Sits g o (place o)) : g.edges = (ringSet n d).image place := by
  obtain ⟨E, org, hJ⟩ := hg
  rw [(hJ.wf hd).2]
  ext x
  rw [Finset.mem_image]
  constructor
  · intro hx
    have hs : Sits g (org x) x := hJ.sits_iff.mpr ⟨hx, rfl⟩
    exact ⟨org x, hJ.sits_mem hs, hJ.sits_inj (h _ (hJ.sits_mem hs)) hs⟩
  · rintro ⟨o, ho, rfl⟩
    exact (hJ.sits_iff.mp (h o ho)).1

theorem places_law {g : WSGraph T} (h : g.WF) (hn : g.vertexCount < 2 ^ 32) {d : ℕ} (hd : 2 * d + 2 ≤ g.vertexCount) (p : ℚ) :
    ∃ run : (ℕ → ℝ) → Ws T Stream,
      (∀ᵐ ω ∂uniformTape, ∃ F, ∀ fuel, F ≤ fuel → Ws.randomize fuel ⟨g, p, ⟨ω, 0⟩, d⟩ = .ok (run ω)) ∧
      (∀ᵐ ω ∂uniformTape, Good g.vertexCount d g.data (run ω).graph) ∧
      PlacedLaw g.vertexCount d p (fun ω => (run ω).graph) := by
  classical
  set n := g.vertexCount with hnn
  obtain ⟨g0, hJ, hr⟩ := Ws.randomize_eq h (d := d) (by omega) hn p
  set f : ℕ → Stream → Res (Ws T Stream) := fun fuel r => Ws.randomize fuel ⟨g, p, r, d⟩ with hf
  set run := Ws.runOf f (fun ω => ⟨g, p, ⟨ω, 0⟩, d⟩) with hrun
  have hE : ∀ ω e, (∃ F, ∀ fuel, F ≤ fuel → f fuel ⟨ω, 0⟩ = .ok e) ↔ ∃ g' j,
      RetOf Prod.mk (fun fuel r => (List.range n).foldlM (Ws.rewireBody p fuel) (g0, r)) ω 0 g' j ∧ e = ⟨g', p, ⟨ω, j⟩, d⟩ :=
    fun ω e => Ws.randomize_ret hr
  have hret : ∀ᵐ ω ∂uniformTape, ∃ F, ∀ fuel, F ≤ fuel → f fuel ⟨ω, 0⟩ = .ok (run ω) := by
    filter_upwards [ae_fair] with ω hω
    obtain ⟨F, x, _, h2⟩ := Ws.randomize_fair (e := ⟨g, p, ⟨ω, 0⟩, d⟩) h hn hd hω
    refine ⟨F, ?_⟩
    rw [hrun, Ws.runOf_eq h2]
    exact h2
  have hgood : ∀ {ω g' j}, RetOf Prod.mk (fun fuel r => (List.range n).foldlM (Ws.rewireBody p fuel) (g0, r)) ω 0 g' j →
      Ws.Good n d g.data g' := by
    rintro ω g' j ⟨F, hF⟩
    obtain ⟨E', org', k1, _⟩ := Ws.loop_rewires hn (List.range n) (⟨ω, 0⟩ : Stream) (g', (⟨ω, j⟩ : Stream))
      (fun i hi => List.mem_range.mp hi) hJ (hF F (le_refl _))
    exact ⟨E', org', k1⟩
  have hret' : ∀ᵐ ω ∂uniformTape, ∃ j,
      RetOf Prod.mk (fun fuel r => (List.range n).foldlM (Ws.rewireBody p fuel) (g0, r)) ω 0 (run ω).graph j := by
    filter_upwards [hret] with ω hω
    obtain ⟨g', j, h1, h2⟩ := (hE ω (run ω)).mp hω
    rw [h2]
    exact ⟨j, h1⟩
  refine ⟨run, hret, ?_, ?_⟩
  · filter_upwards [hret'] with ω hω
    obtain ⟨j, hj⟩ := hω
    exact hgood hj
  · intro place hpf hinj hoff
    set M := (ringSet n d).filter (fun o => place o ≠ o) with hM
    have hMr : M ⊆ ringSet n d := Finset.filter_subset _ _
    have hcur : ∀ o ∈ ringSet n d, cur place M o = place o := by
      intro o ho
      unfold cur
      split
      · rfl
      · rename_i hc
        rw [hM, Finset.mem_filter, not_and, not_not] at hc
        exact (hc ho).symm
    have hat : At n d g.data place ∅ g0 := by
      refine ⟨⟨_, _, hJ⟩, fun o ho => hJ.sits_iff.mpr ?_⟩
      unfold cur
      rw [if_neg (Finset.notMem_empty _)]
      exact ⟨ho, rfl⟩
    have hc := loop_place_chance (M := M) (place := place) (dat := g.data) hn hd hMr
      (fun o ho => ⟨hpf o (hMr ho), hoff o (hMr ho) (Finset.mem_filter.mp ho).2⟩)
      (hinj.mono (Finset.coe_subset.mpr hMr)) p (List.range n) (fun i hi => List.mem_range.mp hi) (Finset.empty_subset _) hat
    rw [q1_real, q0_real] at hc
    rw [← hc.prob 0]
    refine measure_congr ?_
    filter_upwards [hret'] with ω hω
    obtain ⟨j, hj⟩ := hω
    refine propext ⟨fun hs => ?_, ?_⟩
    · exact ⟨(run ω).graph, j, hj, hgood hj, fun o ho => by rw [hcur o ho]; exact hs o ho⟩
    · rintro ⟨g', j', h1, h2⟩
      obtain ⟨rfl, rfl⟩ := ((Ws.loop_adaptive p (List.range n) g0).sampler joins_pair).det hj h1
      intro o ho
      have := h2.2 o ho
      rwa [hcur o ho] at this

/-- A network with as many edges as the ring: the missing edges of the ring can be sent to the other places. -/
theorem exists_place {n d : ℕ} (hd : 2 * d + 1 ≤ n) {E : Finset (Sym2 ℕ)} (hE : E ⊆ full n) (hc : E.card = n * d) :
    ∃ place : Sym2 ℕ → Sym2 ℕ, (∀ o ∈ ringSet n d, place o ∈ full n) ∧ Set.InjOn place (ringSet n d) ∧
      (∀ o ∈ ringSet n d, place o ≠ o → place o ∉ ringSet n d) ∧ (ringSet n d).image place = E := by
  classical
  have hcard : (ringSet n d \ E).card = (E \ ringSet n d).card := by
    have h1 := Finset.card_sdiff_add_card_inter (ringSet n d) E
    have h2 := Finset.card_sdiff_add_card_inter E (ringSet n d)
    rw [Finset.inter_comm] at h2
    rw [ringSet_card hd] at h1
    omega
  let f := Finset.equivOfCardEq hcard
  let place : Sym2 ℕ → Sym2 ℕ := fun o => if h : o ∈ ringSet n d \ E then (f ⟨o, h⟩ : Sym2 ℕ) else o
  have hp1 : ∀ o (h : o ∈ ringSet n d \ E), place o = (f ⟨o, h⟩ : Sym2 ℕ) := fun o h => dif_pos h
  have hp2 : ∀ o, o ∉ ringSet n d \ E → place o = o := fun o h => dif_neg h
  have hoff : ∀ o ∈ ringSet n d \ E, place o ∈ E ∧ place o ∉ ringSet n d := fun o ho => by
    rw [hp1 o ho]
    exact Finset.mem_sdiff.mp (f ⟨o, ho⟩).2
  have hin : ∀ o ∈ ringSet n d, o ∉ ringSet n d \ E → o ∈ E := by
    intro o ho h
    by_contra hc
    exact h (Finset.mem_sdiff.mpr ⟨ho, hc⟩)
  have hmem : ∀ o ∈ ringSet n d, place o ∈ E := by
    intro o ho
    by_cases h : o ∈ ringSet n d \ E
    · exact (hoff o h).1
    · rw [hp2 o h]
      exact hin o ho h
  refine ⟨place, fun o ho => hE (hmem o ho), ?_, ?_, ?_⟩
  · intro x hx y hy hxy
    by_cases h1 : x ∈ ringSet n d \ E <;> by_cases h2 : y ∈ ringSet n d \ E
    · rw [hp1 x h1, hp1 y h2] at hxy
      have := f.injective (Subtype.ext hxy)
      exact congrArg Subtype.val this
    · rw [hp2 y h2] at hxy
      exact absurd hy (by rw [← hxy]; exact (hoff x h1).2)
    · rw [hp2 x h1] at hxy
      exact absurd hx (by rw [hxy]; exact (hoff y h2).2)
    · rwa [hp2 x h1, hp2 y h2] at hxy
  · intro o ho hne
    by_cases h : o ∈ ringSet n d \ E
    · exact (hoff o h).2
    · exact absurd (hp2 o h) hne
  · ext x
    rw [Finset.mem_image]
    constructor
    · rintro ⟨o, ho, rfl⟩
      exact hmem o ho
    · intro hx
      by_cases hr : x ∈ ringSet n d
      · exact ⟨x, hr, hp2 x (fun h => (Finset.mem_sdiff.mp h).2 hx)⟩
      · have hxs : x ∈ E \ ringSet n d := Finset.mem_sdiff.mpr ⟨hx, hr⟩
        refine ⟨f.symm ⟨x, hxs⟩, (Finset.mem_sdiff.mp (f.symm ⟨x, hxs⟩).2).1, ?_⟩
        rw [hp1 _ (f.symm ⟨x, hxs⟩).2]
        simp

theorem all_possible {n d : ℕ} (hd : 2 * d + 2 ≤ n) {p : ℚ} {dat : List T} {net : (ℕ → ℝ) → WSGraph T}
    (hg : ∀ᵐ ω ∂uniformTape, Good n d dat (net ω)) (hl : PlacedLaw n d p net) (h0 : 0 < headsReal p) (h1 : headsReal p < 1) :
    AllPossible n d net := by
  intro E
  constructor
  · intro hpos
    by_contra hc
    refine absurd hpos (not_lt.mpr (le_of_eq ?_))
    refine measure_mono_null ?_ hg
    intro ω hω hgood
    obtain ⟨E', org, hJ⟩ := hgood
    have he : (net ω).edges = E := hω
    rw [(hJ.wf (by omega)).2] at he
    subst he
    have := hJ.card (by omega)
    exact hc ⟨hJ.sub_full, by simpa using this⟩
  · rintro ⟨hE, hcard⟩
    obtain ⟨place, p1, p2, p3, p4⟩ := exists_place (by omega) hE hcard
    have hlaw := hl place p1 p2 p3
    have hpos : 0 < uniformTape {ω | ∀ o ∈ ringSet n d, Sits (net ω) o (place o)} := by
      rw [hlaw, pos_iff_ne_zero]
      refine placedLaw_ne_zero n d ?_ ?_ _ (Finset.empty_subset _) ?_
      · exact (ENNReal.ofReal_pos.mpr h0).ne'
      · exact (ENNReal.ofReal_pos.mpr (by linarith)).ne'
      · intro o ho
        have hr : o ∈ ringSet n d := (Finset.mem_filter.mp (Finset.mem_sdiff.mp ho).1).1
        have hfull := ringSet_sub_full (show 2 * d + 1 ≤ n by omega) hr
        induction o using Sym2.ind with
        | h u v => exact ⟨u, List.mem_range.mpr (mem_full.mp hfull).1, Sym2.mem_mk_left _ _⟩
    refine hpos.trans_le (measure_mono_ae ?_)
    filter_upwards [hg] with ω hω hs
    exact (hω.edges_eq (by omega) hs).trans p4

end Ws

/-- One edge that was removed is put back: every place that is free and is not the edge's own place on the ring is taken with the same
probability. -/
theorem C88_put_back {n d : ℕ} (hn : n < 2 ^ 32) (hn0 : 0 < n) {dat : List T} {g : WSGraph T} {E : Finset (Sym2 ℕ)}
    {org : Sym2 ℕ → Sym2 ℕ} {Pm : Multiset (Sym2 ℕ)} {o : OriginalEdge} (h : Ws.J n d dat g E org (o.pair ::ₘ Pm)) {x : Sym2 ℕ} :
    uniformTape {ω | ∃ g' r F, (∀ fuel, F ≤ fuel → Ws.addRandomEdge fuel (g, (⟨ω, 0⟩ : Stream)) o = .ok (g', r)) ∧
        Ws.J n d dat g' (insert x E) (Function.update org x o.pair) Pm ∧ x ∉ E} =
      if x ∈ full n ∧ x ∉ E ∧ x ≠ o.pair then (((full n \ E).erase o.pair).card : ENNReal)⁻¹ else 0 := by
  by_cases hx : x ∈ places n E o.pair
  · have hx' := hx
    unfold places at hx'
    rw [Finset.mem_erase, Finset.mem_sdiff] at hx'
    rw [if_pos ⟨hx'.2.1, hx'.2.2, hx'.1⟩]
    have := (Ws.addRandomEdge_chance hn hn0 h hx).prob 0
    unfold places at this
    rw [← this]
    congr 1
    ext ω
    constructor
    · rintro ⟨g', r, F, h1, h2, _⟩
      obtain ⟨a, j, e1, e2⟩ := (Ws.addRandomEdge_adaptive g o).ret (r := (⟨ω, 0⟩ : Stream)) (h1 F (le_refl F))
      cases e1
      exact ⟨g', j, e2, h2⟩
    · rintro ⟨g', j, ⟨F, hF⟩, h2⟩
      exact ⟨g', _, F, hF, h2, hx'.2.2⟩
  · rw [if_neg (by unfold places at hx; rw [Finset.mem_erase, Finset.mem_sdiff] at hx; tauto)]
    have : {ω | ∃ g' r F, (∀ fuel, F ≤ fuel → Ws.addRandomEdge fuel (g, (⟨ω, 0⟩ : Stream)) o = .ok (g', r)) ∧
        Ws.J n d dat g' (insert x E) (Function.update org x o.pair) Pm ∧ x ∉ E} = ∅ := by
      ext ω
      simp only [Set.mem_ofPred_eq, Set.mem_empty_iff_false, iff_false]
      rintro ⟨g', r, F, h1, h2, h3⟩
      obtain ⟨a, j, e1, e2⟩ := (Ws.addRandomEdge_adaptive g o).ret (r := (⟨ω, 0⟩ : Stream)) (h1 F (le_refl F))
      cases e1
      obtain ⟨y, hy, h4⟩ := Ws.addRandomEdge_some hn hn0 h e2
      have he := h4.edges_unique h2
      have : x ∈ insert y E := by rw [he]; exact Finset.mem_insert_self _ _
      rcases Finset.mem_insert.mp this with rfl | hc
      · exact hx hy
      · exact h3 hc
    rw [this, measure_empty]

/-- Such a network: the ring of four vertices after the first vertex has given up its edges. -/
example : ∃ (g : WSGraph Nat) (E : Finset (Sym2 ℕ)) (org : Sym2 ℕ → Sym2 ℕ) (o : OriginalEdge) (Pm : Multiset (Sym2 ℕ)),
    Ws.J 4 1 [0, 1, 2, 3] g E org (o.pair ::ₘ Pm) := by
  obtain ⟨g0, _, _, _, h4, _⟩ := Ws.start (g := (GenericGraph.new 4 : WSGraph Nat)) (new_wf 4) (d := 1) (by decide) (by decide)
  have h4 : Ws.J 4 1 [0, 1, 2, 3] g0 (ringSet 4 1) id 0 := h4
  obtain ⟨g', rewire, _, D, _, _, _, k1, k2, k3, _⟩ := Ws.removeStage_spec (p := 1) h4 (i := 0) (by decide) (⟨[]⟩ : Script)
  have hD : s(0, 1) ∈ D := by
    by_contra hc
    exact k3 (by unfold AllHeads; norm_num) s(0, 1)
      (Finset.mem_sdiff.mpr ⟨by decide +kernel, hc⟩) (Sym2.mem_mk_left _ _) rfl
  rcases rewire with _ | ⟨o, rest⟩
  · have : s(0, 1) ∈ D.val := hD
    rw [← k2] at this
    simp at this
  · rw [← k2] at k1
    exact ⟨g', _, _, o, ((rest.map OriginalEdge.pair : List (Sym2 ℕ)) : Multiset (Sym2 ℕ)), k1⟩

/-- `randomize` on independent uniform draws, on a network of `n ≥ 2 d + 2` vertices: the probability that each edge of the ring ends at a
given place, where the moved edges go to different places off the ring, depends only on which edges are moved, so all such placements
of the same edges are equally likely. -/
theorem C88_ws_randomize_places {g : WSGraph T} (h : g.WF) (hn : g.vertexCount < 2 ^ 32) {d : ℕ} (hd : 2 * d + 2 ≤ g.vertexCount) (p : ℚ) :
    ∃ run : (ℕ → ℝ) → Ws T Stream,
      (∀ᵐ ω ∂uniformTape, ∃ F, ∀ fuel, F ≤ fuel → Ws.randomize fuel ⟨g, p, ⟨ω, 0⟩, d⟩ = .ok (run ω)) ∧
      PlacedLaw g.vertexCount d p (fun ω => (run ω).graph) ∧
      (0 < headsReal p → headsReal p < 1 → AllPossible g.vertexCount d (fun ω => (run ω).graph)) := by
  obtain ⟨run, h1, h2, h3⟩ := Ws.places_law h hn hd p
  exact ⟨run, h1, h3, fun a b => Ws.all_possible hd h2 h3 a b⟩

/-- The same for `new`. -/
theorem C88_ws_new_places {n : ℕ} (hn : n < 2 ^ 32) {d : ℕ} (hd : 2 * d + 2 ≤ n) (p : ℚ) :
    ∃ run : (ℕ → ℝ) → Ws T Stream,
      (∀ᵐ ω ∂uniformTape, ∃ F, ∀ fuel, F ≤ fuel → Ws.new fuel n d p (⟨ω, 0⟩ : Stream) = .ok (.ok (run ω))) ∧
      PlacedLaw n d p (fun ω => (run ω).graph) ∧
      (0 < headsReal p → headsReal p < 1 → AllPossible n d (fun ω => (run ω).graph)) := by
  obtain ⟨g0, h1, h2, h3, h4, _⟩ := Ws.start (g := (GenericGraph.new n : WSGraph T)) (new_wf n) (d := d) (by show _ ≤ n; omega) hn
  have hv : g0.vertexCount = n := h2
  obtain ⟨run, k1, k2⟩ := C88_ws_randomize_places h3 (by rw [hv]; exact hn) (d := d) (by rw [hv]; exact hd) p
  rw [hv] at k2
  refine ⟨run, ?_, k2⟩
  filter_upwards [k1] with ω hω
  obtain ⟨F, hF⟩ := hω
  refine ⟨F, fun fuel hf => ?_⟩
  unfold Ws.new
  rw [if_neg (by omega)]
  simp only
  rw [h1]
  simp only [Res.ok_bind]
  rw [hF fuel hf]
  rfl

/-- All placements of the same moved edges on places off the ring have the same probability. -/
theorem C88_equally_likely {n d : ℕ} {p : ℚ} {net : (ℕ → ℝ) → WSGraph T} (h : PlacedLaw n d p net) {place place' : Sym2 ℕ → Sym2 ℕ}
    (h1 : ∀ o ∈ ringSet n d, place o ∈ full n ∧ place' o ∈ full n) (h2 : Set.InjOn place (ringSet n d)) (h2' : Set.InjOn place' (ringSet n d))
    (h3 : ∀ o ∈ ringSet n d, place o ≠ o → place o ∉ ringSet n d) (h3' : ∀ o ∈ ringSet n d, place' o ≠ o → place' o ∉ ringSet n d)
    (hm : ∀ o ∈ ringSet n d, place o = o ↔ place' o = o) :
    uniformTape {ω | ∀ o ∈ ringSet n d, Sits (net ω) o (place o)} = uniformTape {ω | ∀ o ∈ ringSet n d, Sits (net ω) o (place' o)} := by
  rw [h place (fun o ho => (h1 o ho).1) h2 h3, h place' (fun o ho => (h1 o ho).2) h2' h3']
  congr 1
  exact Finset.filter_congr fun o ho => not_congr (hm o ho)

/-- In particular: the probability that only the edge `o` of the ring is moved, and moved to `x`, is the probability that only `o` is
moved, divided by the number of pairs that are not on the ring. -/
theorem C88_one_edge {n d : ℕ} (hd : 2 * d + 2 ≤ n) {p : ℚ} {net : (ℕ → ℝ) → WSGraph T} (h : PlacedLaw n d p net) {o x : Sym2 ℕ}
    (ho : o ∈ ringSet n d) (hx : x ∈ full n) (hxr : x ∉ ringSet n d) :
    uniformTape {ω | Sits (net ω) o x ∧ ∀ e ∈ ringSet n d, e ≠ o → Sits (net ω) e e} =
      ENNReal.ofReal (movedProb p * (1 - movedProb p) ^ (n * d - 1) / (n * (n - 1) / 2 - n * d : ℕ)) := by
  have hsub := Ws.ringSet_sub_full (n := n) (d := d) (by omega)
  set place : Sym2 ℕ → Sym2 ℕ := fun e => if e = o then x else e with hplace
  have hpo : place o = x := if_pos rfl
  have hpe : ∀ e, e ≠ o → place e = e := fun e he => if_neg he
  have hox : x ≠ o := fun hc => hxr (hc ▸ ho)
  have hl := h place (by
    intro e he
    by_cases hc : e = o
    · rw [hc, hpo]; exact hx
    · rw [hpe e hc]; exact hsub he) (by
    intro a ha b hb hab
    by_cases h1 : a = o <;> by_cases h2 : b = o
    · rw [h1, h2]
    · rw [h1, hpo, hpe b h2] at hab; exact absurd hb (hab ▸ hxr)
    · rw [h2, hpo, hpe a h1] at hab; exact absurd ha (hab ▸ hxr)
    · rwa [hpe a h1, hpe b h2] at hab) (by
    intro e he hne
    by_cases hc : e = o
    · rw [hc, hpo]; exact hxr
    · exact absurd (hpe e hc) hne)
  have hev : {ω | ∀ e ∈ ringSet n d, Sits (net ω) e (place e)} =
      {ω | Sits (net ω) o x ∧ ∀ e ∈ ringSet n d, e ≠ o → Sits (net ω) e e} := by
    ext ω
    simp only [Set.mem_ofPred_eq]
    constructor
    · intro hs
      refine ⟨by have := hs o ho; rwa [hpo] at this, fun e he hne => ?_⟩
      have := hs e he
      rwa [hpe e hne] at this
    · rintro ⟨h1, h2⟩ e he
      by_cases hc : e = o
      · rw [hc, hpo]; exact h1
      · rw [hpe e hc]; exact h2 e he hc
  have hM : (ringSet n d).filter (fun e => place e ≠ e) = {o} := by
    ext e
    rw [Finset.mem_filter, Finset.mem_singleton]
    constructor
    · rintro ⟨_, hne⟩
      by_contra hc
      exact hne (hpe e hc)
    · rintro rfl
      exact ⟨ho, by rw [hpo]; exact hox⟩
  rw [hev, hM, Ws.placedLaw_one n d _ _ ho, Ws.sum_ends (Finset.sdiff_subset.trans hsub),
    Finset.card_sdiff_of_subset (Finset.singleton_subset_iff.mpr ho), Ws.ringSet_card (by omega), Finset.card_singleton] at hl
  have hcount : (List.range n).countP (· ∈ o) = 2 := by
    have hof := hsub ho
    clear_value place
    induction o using Sym2.ind with
    | h u v =>
      obtain ⟨h1, h2, h3⟩ := Ws.mem_full.mp hof
      exact Ws.countP_two h1 h2 h3
  rw [hl, hcount]
  obtain ⟨b0, b1⟩ := headsReal_bounds p
  have hN : 0 < n * (n - 1) / 2 - n * d := by
    have h1 := Finset.card_lt_card (Finset.ssubset_iff_subset_ne.mpr ⟨hsub, fun hc => hxr (hc ▸ hx)⟩)
    rw [Ws.ringSet_card (by omega), Ws.card_full] at h1
    omega
  have hN' : (0 : ℝ) < ((n * (n - 1) / 2 - n * d : ℕ) : ℝ) := by exact_mod_cast hN
  have c0 : 0 ≤ 1 - headsReal p := by linarith
  rw [Finset.sum_range_succ, Finset.sum_range_one, pow_zero, mul_one, pow_one, ← ENNReal.ofReal_mul b0,
    ← ENNReal.ofReal_add b0 (by positivity), ← ENNReal.ofReal_pow c0, ← ENNReal.ofReal_natCast, ← ENNReal.ofReal_inv_of_pos hN',
    ← ENNReal.ofReal_mul (by positivity), ← ENNReal.ofReal_mul (by positivity)]
  congr 1
  rw [show 1 - movedProb p = (1 - headsReal p) ^ 2 by unfold movedProb; ring, ← pow_mul,
    show movedProb p = headsReal p + headsReal p * (1 - headsReal p) by unfold movedProb; ring]
  ring

/-- Four vertices, one neighbour on each side, probability one half: the edge between 0 and 1 may be moved across the square. -/
example : ∃ run : (ℕ → ℝ) → Ws Nat Stream,
    (∀ᵐ ω ∂uniformTape, ∃ F, ∀ fuel, F ≤ fuel → Ws.new fuel 4 1 (1 / 2) (⟨ω, 0⟩ : Stream) = .ok (.ok (run ω))) ∧
    uniformTape {ω | Sits (run ω).graph s(0, 1) s(0, 2) ∧ ∀ e ∈ ringSet 4 1, e ≠ s(0, 1) → Sits (run ω).graph e e} =
      ENNReal.ofReal (movedProb (1 / 2) * (1 - movedProb (1 / 2)) ^ 3 / 2) ∧
    (0 < headsReal (1 / 2) → headsReal (1 / 2) < 1 →
      0 < uniformTape {ω | (run ω).graph.edges = {s(0, 2), s(1, 3), s(0, 1), s(0, 3)}}) := by
  obtain ⟨run, h1, h2, h3⟩ := C88_ws_new_places (T := Nat) (n := 4) (by norm_num) (d := 1) (by norm_num) (1 / 2)
  refine ⟨run, h1, ?_, fun a b => (h3 a b _).mpr ⟨by decide +kernel, by decide +kernel⟩⟩
  have := C88_one_edge (by norm_num) h2 (o := s(0, 1)) (x := s(0, 2)) (by decide +kernel) (by decide +kernel) (by decide +kernel)
  rw [this]
  norm_num

end Verif
