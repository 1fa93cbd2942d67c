import Verif.Lemmas.BaGrowth

/-!
# C100: ages and degrees in the Barabási-Albert ensemble
-/

set_option linter.unusedSectionVars false
set_option linter.unusedSimpArgs false

namespace Verif
open AdjContainer GenericGraph MeasureTheory

variable {T : Type}

theorem degree_degIn {A : Type} [AdjContainer T A] [LawfulAdj T A] {g : GenericGraph T A} (h : g.WF) {v : ℕ} (hv : v < g.vertexCount) :
    g.degree v = some (degIn g.edges v) := by
  rw [degree_spec h hv, h.deg_eq]
  rfl

theorem sum_list_sum {α ι M : Type} [AddCommMonoid M] (s : Finset ι) (f : α → ι → M) (l : List α) :
    ∑ i ∈ s, (l.map fun a => f a i).sum = (l.map fun a => ∑ i ∈ s, f a i).sum := by
  induction l with
  | nil => simp
  | cons a l ih => simp only [List.map_cons, List.sum_cons, Finset.sum_add_distrib, ih]

theorem sum_map_const_of {α : Type} {f : α → ENNReal} {c : ENNReal} {l : List α} (h : ∀ a ∈ l, f a = c) : (l.map f).sum = l.length * c := by
  induction l with
  | nil => simp
  | cons a l ih =>
    rw [List.map_cons, List.sum_cons, ih (fun b hb => h b (by simp [hb])), h a (by simp), List.length_cons, Nat.cast_succ]
    ring

namespace Ba

variable {e : Ba T Stream}

/-- The probability of an event about the edges. -/
theorem event (hv : e.Valid) (hE : 1 ≤ e.source.edgeCount) {P : Finset (Sym2 ℕ) → Prop} [DecidablePred P] (k : ℕ) :
    uniformTape {ω | ∃ fuel e', Ba.randomize fuel ({ e with rng := ⟨ω, k⟩ } : Ba T Stream) = .ok e' ∧ P e'.graph.edges} =
      ∑ E ∈ (pairSet e.graph.vertexCount).powerset with P E, growLaw e.source e.graph.vertexCount e.m E :=
  (resample e.source hE e.graph.vertexCount e.m).event (look := fun e : Ba T Stream => e.graph.edges) (fun _ _ => rfl)
    (c := ⟨e.source, e.graph, (), e.m, e.weights⟩) ⟨⟨hv.source, hv.graph, hv.le, hv.len⟩, rfl, rfl, rfl⟩ k

theorem fresh (hv : e.Valid) {order : List ℕ}
    (ho : order ∈ (List.range' e.source.vertexCount (e.graph.vertexCount - e.source.vertexCount)).permutations) :
    Fresh e.graph.vertexCount order e.source.edges := by
  have hp := List.mem_permutations.mp ho
  have hle : e.source.vertexCount ≤ e.graph.vertexCount := hv.le
  have hm : ∀ i ∈ order, e.source.vertexCount ≤ i ∧ i < e.graph.vertexCount := by
    intro i hi
    have := hp.mem_iff.mp hi
    rw [List.mem_range'_1] at this
    omega
  refine ⟨hp.nodup_iff.mpr (List.nodup_range' ..), fun i hi => (hm i hi).2, fun i hi => ?_, fun x hx => ?_⟩
  · rw [degIn_eq hv.source, degreeVec_getD hv.source, nbrs_of_ge (by rw [hv.source.len]; exact (hm i hi).1)]
    rfl
  · have := edges_sub_pairSet hv.source hx
    induction x with
    | _ a b =>
      have h1 := mk_mem_pairSet.mp this
      exact mk_mem_pairSet.mpr ⟨h1.1.trans_le hle, h1.2.1.trans_le hle, h1.2.2⟩

/-- Means over the law of the ensemble. -/
theorem sum_growLaw (hv : e.Valid) (F : Finset (Sym2 ℕ) → ENNReal) :
    ∑ E ∈ (pairSet e.graph.vertexCount).powerset, growLaw e.source e.graph.vertexCount e.m E * F E =
      ((List.range' e.source.vertexCount (e.graph.vertexCount - e.source.vertexCount)).permutations.map fun order =>
        growMean e.graph.vertexCount e.m order e.source.edges F).sum / ((e.graph.vertexCount - e.source.vertexCount).factorial : ENNReal) := by
  unfold growLaw
  simp only [div_eq_mul_inv, mul_right_comm _ _ (F _)]
  rw [← Finset.sum_mul]
  congr 1
  simp only [← List.sum_map_mul_right]
  rw [sum_list_sum]
  congr 1
  refine List.map_congr_left fun order ho => ?_
  exact sum_grownLaw F order _ (fresh hv ho)

theorem length_orders : (List.range' e.source.vertexCount (e.graph.vertexCount - e.source.vertexCount)).permutations.length =
    (e.graph.vertexCount - e.source.vertexCount).factorial := by
  rw [List.length_permutations, List.length_range']

theorem average_const {k : ℕ} {c : ENNReal} : (k.factorial : ENNReal) * c / k.factorial = c := by
  rw [mul_comm, mul_div_assoc, ENNReal.div_self (by exact_mod_cast k.factorial_ne_zero) (ENNReal.natCast_ne_top _), mul_one]

/-- What `degree` shows after a call. -/
theorem degree_after (hv : e.Valid) (hE : 1 ≤ e.source.edgeCount) {v : ℕ} (hvn : v < e.graph.vertexCount) (k : ℕ) (P : ℕ → Prop)
    [DecidablePred P] :
    uniformTape {ω | ∃ fuel e', Ba.randomize fuel ({ e with rng := ⟨ω, k⟩ } : Ba T Stream) = .ok e' ∧ ∃ d, e'.graph.degree v = some d ∧ P d} =
      ∑ E ∈ (pairSet e.graph.vertexCount).powerset with P (degIn E v), growLaw e.source e.graph.vertexCount e.m E := by
  rw [← event hv hE (P := fun E => P (degIn E v)) k]
  congr 1
  ext ω
  refine exists_congr fun fuel => exists_congr fun e' => and_congr_right fun hr => ?_
  obtain ⟨k1, _, _, _, k5, _⟩ := (C44_ba_randomize (e := { e with rng := (⟨ω, k⟩ : Stream) }) ⟨hv.source, hv.graph, hv.le, hv.len⟩ hE fuel).2 _ hr
  rw [degree_degIn k1.graph (by rw [k5]; exact hvn)]
  simp

/-- The mean degree. -/
theorem mean_degree (hv : e.Valid) (hE : 1 ≤ e.source.edgeCount) {v : ℕ} (hvn : v < e.graph.vertexCount) (k : ℕ) :
    ∑ d ∈ Finset.range e.graph.vertexCount, (d : ENNReal) *
        uniformTape {ω | ∃ fuel e', Ba.randomize fuel ({ e with rng := ⟨ω, k⟩ } : Ba T Stream) = .ok e' ∧ e'.graph.degree v = some d} =
      ∑ E ∈ (pairSet e.graph.vertexCount).powerset, growLaw e.source e.graph.vertexCount e.m E * (degIn E v : ENNReal) := by
  have h1 : ∀ d, uniformTape {ω | ∃ fuel e', Ba.randomize fuel ({ e with rng := ⟨ω, k⟩ } : Ba T Stream) = .ok e' ∧
      e'.graph.degree v = some d} =
      ∑ E ∈ (pairSet e.graph.vertexCount).powerset with degIn E v = d, growLaw e.source e.graph.vertexCount e.m E := by
    intro d
    rw [← degree_after hv hE hvn k (fun x => x = d)]
    simp
  rw [Finset.sum_congr rfl (fun d _ => by rw [h1 d])]
  rw [← Finset.sum_fiberwise_of_maps_to (s := (pairSet e.graph.vertexCount).powerset) (t := Finset.range e.graph.vertexCount)
    (g := fun E => degIn E v) (fun E hE' => by
      have h2 : degIn E v ≤ (pairsAt e.graph.vertexCount v).card :=
        Finset.card_le_card (Finset.filter_subset_filter _ (Finset.mem_powerset.mp hE'))
      rw [card_pairsAt hvn] at h2
      rw [Finset.mem_range]
      omega)]
  refine Finset.sum_congr rfl fun d _ => ?_
  rw [Finset.mul_sum]
  refine Finset.sum_congr rfl fun E hE' => ?_
  rw [(Finset.mem_filter.mp hE').2, mul_comm]

theorem sum_degIn (hv : e.Valid) : ∑ y ∈ Finset.range e.graph.vertexCount, degIn e.source.edges y = 2 * e.source.edgeCount := by
  have hdeg : ∀ u, degIn e.source.edges u = (e.source.nbrs u).length := fun u => by
    rw [degIn_eq hv.source, degreeVec_getD hv.source]
  have hle : e.source.vertexCount ≤ e.graph.vertexCount := hv.le
  have h1 := sum_map_eq (fun x : ℕ => x) 0 e.source.degreeVec
  rw [List.map_id', (C26_degrees hv.source).2.2.1,
    show e.source.degreeVec.length = e.source.vertexCount by simp [degreeVec, hv.source.len, vertexCount]] at h1
  rw [h1, ← Finset.sum_subset (Finset.range_subset_range.mpr hle) (fun y _ hy => by
    rw [hdeg, nbrs_of_ge (by rw [hv.source.len]; exact not_lt.mp (fun h => hy (Finset.mem_range.mpr h)))]; rfl)]
  exact Finset.sum_congr rfl fun u _ => degIn_eq hv.source u

end Ba

/-- **C100, exchangeability.**  The index of a new vertex says nothing about its age: permuting the new vertices does not change the
probability of a network. -/
theorem C100_ba_exchangeable {e : Ba T Stream} (hv : e.Valid) (hE : 1 ≤ e.source.edgeCount) (σ : Equiv.Perm ℕ)
    (hσ : ∀ x, (x < e.source.vertexCount ∨ e.graph.vertexCount ≤ x) → σ x = x) (k : ℕ) (E : Finset (Sym2 ℕ)) :
    uniformTape {ω | ∃ fuel e', Ba.randomize fuel ({ e with rng := ⟨ω, k⟩ } : Ba T Stream) = .ok e' ∧
        e'.graph.edges = E.image (Sym2.map σ)} =
      uniformTape {ω | ∃ fuel e', Ba.randomize fuel ({ e with rng := ⟨ω, k⟩ } : Ba T Stream) = .ok e' ∧ e'.graph.edges = E} := by
  have hle : e.source.vertexCount ≤ e.graph.vertexCount := hv.le
  have hlt : ∀ x, σ x < e.graph.vertexCount ↔ x < e.graph.vertexCount := by
    intro x
    constructor
    · intro h
      by_contra hx
      rw [hσ x (Or.inr (not_lt.mp hx))] at h
      exact hx h
    · intro h
      by_contra hx
      have h1 := σ.injective (hσ (σ x) (Or.inr (not_lt.mp hx)))
      rw [h1] at hx
      exact hx h
  have hge : ∀ x, e.source.vertexCount ≤ σ x ↔ e.source.vertexCount ≤ x := by
    intro x
    constructor
    · intro h
      by_contra hx
      rw [hσ x (Or.inl (not_le.mp hx))] at h
      exact hx h
    · intro h
      by_contra hx
      have h1 := σ.injective (hσ (σ x) (Or.inl (not_le.mp hx)))
      rw [h1] at hx
      exact hx h
  have hsrc : e.source.edges.image (Sym2.map σ) = e.source.edges := by
    have h1 : ∀ x ∈ e.source.edges, Sym2.map σ x = x := by
      intro x hx
      have := edges_sub_pairSet hv.source hx
      induction x with
      | _ a b =>
        have h2 := mk_mem_pairSet.mp this
        rw [Sym2.map_mk, hσ a (Or.inl h2.1), hσ b (Or.inl h2.2.1)]
    rw [Finset.image_congr (g := id) (fun x hx => h1 x hx), Finset.image_id]
  rw [C84_ba_law hv hE, C84_ba_law hv hE]
  congr 1
  set l := List.range' e.source.vertexCount (e.graph.vertexCount - e.source.vertexCount) with hl
  have hmem : ∀ x, x ∈ l ↔ e.source.vertexCount ≤ x ∧ x < e.graph.vertexCount := by
    intro x
    rw [hl, List.mem_range'_1]
    omega
  have hnd : l.Nodup := List.nodup_range' ..
  have hperm : (l.map σ).Perm l := by
    rw [List.perm_ext_iff_of_nodup (hnd.map σ.injective) hnd]
    intro x
    rw [List.mem_map]
    constructor
    · rintro ⟨y, hy, rfl⟩
      rw [hmem] at hy ⊢
      exact ⟨(hge y).mpr hy.1, (hlt y).mpr hy.2⟩
    · intro hx
      refine ⟨σ.symm x, ?_, by simp⟩
      rw [hmem] at hx ⊢
      rw [← hge, ← hlt, Equiv.apply_symm_apply]
      exact hx
  rw [← (hperm.permutations.map _).sum_eq, ← List.map_permutations, List.map_map]
  congr 1
  refine List.map_congr_left fun order _ => ?_
  have h1 := grownLaw_relabel (m := e.m) σ hlt E order e.source.edges
  rw [hsrc] at h1
  exact h1

/-- **C100, preferential attachment with any `m`.**  A new vertex is joined to a vertex at least as often as to one of lower degree. -/
theorem C100_ba_rich {e : Ba T Stream} (hv : e.Valid) (hE : 1 ≤ e.source.edgeCount) (hn : e.graph.vertexCount = e.source.vertexCount + 1)
    (k : ℕ) {u v du dv : ℕ} (hdu : e.source.degree u = some du) (hdv : e.source.degree v = some dv) (hd : dv ≤ du)
    (hu : u < e.source.vertexCount) (hvs : v < e.source.vertexCount) :
    uniformTape {ω | ∃ fuel e', Ba.randomize fuel ({ e with rng := ⟨ω, k⟩ } : Ba T Stream) = .ok e' ∧
        s(e.source.vertexCount, v) ∈ e'.graph.edges} ≤
      uniformTape {ω | ∃ fuel e', Ba.randomize fuel ({ e with rng := ⟨ω, k⟩ } : Ba T Stream) = .ok e' ∧
        s(e.source.vertexCount, u) ∈ e'.graph.edges} := by
  rcases eq_or_ne u v with rfl | hne
  · exact le_refl _
  have key : ∀ x, x < e.source.vertexCount → uniformTape {ω | ∃ fuel e', Ba.randomize fuel ({ e with rng := ⟨ω, k⟩ } : Ba T Stream) = .ok e' ∧
      s(e.source.vertexCount, x) ∈ e'.graph.edges} =
      ∑ S ∈ (Finset.range e.graph.vertexCount).powerset with x ∈ S, picks e.graph.vertexCount (degIn e.source.edges) e.m ∅ S := by
    intro x hx
    rw [Ba.event hv hE (P := fun E => s(e.source.vertexCount, x) ∈ E), Finset.sum_filter]
    have h1 := Ba.sum_growLaw hv (fun E => if s(e.source.vertexCount, x) ∈ E then 1 else 0)
    simp only [mul_ite, mul_one, mul_zero] at h1
    rw [h1, hn, show e.source.vertexCount + 1 - e.source.vertexCount = 1 by omega,
      show (List.range' e.source.vertexCount 1).permutations = [[e.source.vertexCount]] by
        simp [List.permutations, List.permutationsAux_cons, List.permutationsAux_nil]]
    simp only [List.map_cons, List.map_nil, List.sum_cons, List.sum_nil, add_zero, Nat.factorial_one, Nat.cast_one, div_one, growMean]
    rw [Finset.sum_filter]
    refine Finset.sum_congr rfl fun S _ => ?_
    have h2 : s(e.source.vertexCount, x) ∈ e.source.edges ∪ S.image (fun v => s(e.source.vertexCount, v)) ↔ x ∈ S := by
      rw [Finset.mem_union, Finset.mem_image]
      constructor
      · rintro (h | ⟨y, hy, h⟩)
        · have := (mk_mem_pairSet.mp (edges_sub_pairSet hv.source h)).1
          exact absurd this (lt_irrefl _)
        · rcases Sym2.eq_iff.mp h with ⟨_, rfl⟩ | ⟨h1, _⟩
          · exact hy
          · omega
      · exact fun h => Or.inr ⟨x, h, rfl⟩
    simp only [h2]
    split <;> simp
  rw [key v hvs, key u hu]
  rw [degree_degIn hv.source hu] at hdu
  rw [degree_degIn hv.source hvs] at hdv
  refine picked_le ?_ hne (by omega) (by omega) e.m
  rw [Option.some.inj hdu, Option.some.inj hdv]
  exact hd

/-- **C100, a lead is kept.**  A vertex of the source whose degree there is not lower than that of another has, after growing by any number of
vertices, the larger degree in the sense of probabilities: it has at least `x` neighbours at least as often, for every `x`. -/
theorem C100_ba_lead {e : Ba T Stream} (hv : e.Valid) (hE : 1 ≤ e.source.edgeCount) (k : ℕ) {u v du dv : ℕ} (hdu : e.source.degree u = some du)
    (hdv : e.source.degree v = some dv) (hd : dv ≤ du) (hu : u < e.source.vertexCount) (hvs : v < e.source.vertexCount) (x : ℕ) :
    uniformTape {ω | ∃ fuel e', Ba.randomize fuel ({ e with rng := ⟨ω, k⟩ } : Ba T Stream) = .ok e' ∧
        ∃ d, e'.graph.degree v = some d ∧ x ≤ d} ≤
      uniformTape {ω | ∃ fuel e', Ba.randomize fuel ({ e with rng := ⟨ω, k⟩ } : Ba T Stream) = .ok e' ∧
        ∃ d, e'.graph.degree u = some d ∧ x ≤ d} := by
  have hle : e.source.vertexCount ≤ e.graph.vertexCount := hv.le
  rw [Ba.degree_after hv hE (hvs.trans_le hle) k (fun d => x ≤ d), Ba.degree_after hv hE (hu.trans_le hle) k (fun d => x ≤ d)]
  have key : ∀ y, ∑ E ∈ (pairSet e.graph.vertexCount).powerset with x ≤ degIn E y, Ba.growLaw e.source e.graph.vertexCount e.m E =
      ((List.range' e.source.vertexCount (e.graph.vertexCount - e.source.vertexCount)).permutations.map fun order =>
        growMean e.graph.vertexCount e.m order e.source.edges (fun E => if x ≤ degIn E y then 1 else 0)).sum /
        ((e.graph.vertexCount - e.source.vertexCount).factorial : ENNReal) := by
    intro y
    rw [← Ba.sum_growLaw hv, Finset.sum_filter]
    simp only [mul_ite, mul_one, mul_zero]
  rw [key, key]
  refine ENNReal.div_le_div_right (List.sum_le_sum fun order ho => ?_) _
  have hf := Ba.fresh hv ho
  have hnot : ∀ y, y < e.source.vertexCount → y ∉ order := by
    intro y hy hm
    have := (List.mem_permutations.mp ho).mem_iff.mp hm
    rw [List.mem_range'_1] at this
    omega
  have h1 := growMean_deg (m := e.m) (fun w => if x ≤ w v then 1 else 0) order _ hf
  have h2 := growMean_deg (m := e.m) (fun w => if x ≤ w u then 1 else 0) order _ hf
  rw [h1, h2]
  rw [degree_degIn hv.source hu] at hdu
  rw [degree_degIn hv.source hvs] at hdv
  refine degMean_le (F := fun d => if x ≤ d then 1 else 0) (hu.trans_le hle) (hvs.trans_le hle) (fun a b hab => ?_) order _
    (hnot u hu) (hnot v hvs) (by rw [Option.some.inj hdu, Option.some.inj hdv]; exact hd)
  by_cases ha : x ≤ a
  · simp [ha, ha.trans hab]
  · simp [ha]

/-- **C100, mean degrees with one edge per new vertex.**  The mean degree of a vertex of the source, after all vertices were attached, is its
degree there times the product of `1 + 1 / (2 (E₀ + t))`, where `E₀` is the number of edges of the source. -/
theorem C100_ba_mean_source {e : Ba T Stream} (hv : e.Valid) (hE : 1 ≤ e.source.edgeCount) (hm : e.m = 1) (k : ℕ) {v dv : ℕ}
    (hdv : e.source.degree v = some dv) (hvs : v < e.source.vertexCount) :
    ∑ d ∈ Finset.range e.graph.vertexCount, (d : ENNReal) *
        uniformTape {ω | ∃ fuel e', Ba.randomize fuel ({ e with rng := ⟨ω, k⟩ } : Ba T Stream) = .ok e' ∧ e'.graph.degree v = some d} =
      dv * ∏ t ∈ Finset.range (e.graph.vertexCount - e.source.vertexCount), (1 + 1 / ((2 * (e.source.edgeCount + t) : ℕ) : ENNReal)) := by
  have hle : e.source.vertexCount ≤ e.graph.vertexCount := hv.le
  rw [Ba.mean_degree hv hE (hvs.trans_le hle), Ba.sum_growLaw hv, hm]
  rw [sum_map_const_of (c := dv * ∏ t ∈ Finset.range (e.graph.vertexCount - e.source.vertexCount),
    (1 + 1 / ((2 * (e.source.edgeCount + t) : ℕ) : ENNReal))), Ba.length_orders, Ba.average_const]
  intro order ho
  have hf := Ba.fresh hv ho
  have hlen : order.length = e.graph.vertexCount - e.source.vertexCount := by
    rw [(List.mem_permutations.mp ho).length_eq, List.length_range']
  have hnot : v ∉ order := by
    intro hmem
    have := (List.mem_permutations.mp ho).mem_iff.mp hmem
    rw [List.mem_range'_1] at this
    omega
  rw [growMean_deg (m := 1) (fun w => ((w v : ℕ) : ENNReal)) order _ hf, degMean_one (hvs.trans_le hle) order _ hf.lt hnot
    (by rw [Ba.sum_degIn hv]; omega), Ba.sum_degIn hv, hlen]
  rw [degree_degIn hv.source hvs] at hdv
  rw [Option.some.inj hdv]
  congr 1
  refine Finset.prod_congr rfl fun t _ => ?_
  rw [Nat.mul_add]

/-- **C100, mean degrees of the new vertices, one edge each.**  All new vertices have the same mean degree, which is given by the edges that do
not end in the source. -/
theorem C100_ba_mean_new {e : Ba T Stream} (hv : e.Valid) (hE : 1 ≤ e.source.edgeCount) (hm : e.m = 1) (k : ℕ) {v : ℕ}
    (hvs : e.source.vertexCount ≤ v) (hvn : v < e.graph.vertexCount) :
    ((e.graph.vertexCount - e.source.vertexCount : ℕ) : ENNReal) * ∑ d ∈ Finset.range e.graph.vertexCount, (d : ENNReal) *
        uniformTape {ω | ∃ fuel e', Ba.randomize fuel ({ e with rng := ⟨ω, k⟩ } : Ba T Stream) = .ok e' ∧ e'.graph.degree v = some d} +
      ((2 * e.source.edgeCount : ℕ) : ENNReal) *
        ∏ t ∈ Finset.range (e.graph.vertexCount - e.source.vertexCount), (1 + 1 / ((2 * (e.source.edgeCount + t) : ℕ) : ENNReal)) =
      ((2 * e.source.edgeCount + 2 * (e.graph.vertexCount - e.source.vertexCount) : ℕ) : ENNReal) := by
  have hle : e.source.vertexCount ≤ e.graph.vertexCount := hv.le
  set s := e.source.vertexCount with hs
  set n := e.graph.vertexCount with hn
  set M : ℕ → ENNReal := fun y => ∑ d ∈ Finset.range n, (d : ENNReal) *
    uniformTape {ω | ∃ fuel e', Ba.randomize fuel ({ e with rng := ⟨ω, k⟩ } : Ba T Stream) = .ok e' ∧ e'.graph.degree y = some d} with hM
  -- the sum of all means
  have htot : ∑ y ∈ Finset.range n, M y = ((2 * e.source.edgeCount + 2 * (n - s) : ℕ) : ENNReal) := by
    rw [Finset.sum_congr rfl (g := fun y => ∑ E ∈ (pairSet n).powerset, Ba.growLaw e.source n e.m E * (degIn E y : ENNReal))
      (fun y hy => Ba.mean_degree hv hE (Finset.mem_range.mp hy) k), Finset.sum_comm]
    simp only [← Finset.mul_sum]
    rw [Ba.sum_growLaw hv, hm, sum_map_const_of (c := ((2 * e.source.edgeCount + 2 * (n - s) : ℕ) : ENNReal)), Ba.length_orders,
      Ba.average_const]
    intro order ho
    have hf := Ba.fresh hv ho
    have h1 := growMean_deg (m := 1) (fun w => ((∑ y ∈ Finset.range n, w y : ℕ) : ENNReal)) order _ hf
    rw [degMean_total order _ hf.lt (by rw [Ba.sum_degIn hv]; omega), Ba.sum_degIn hv,
      (List.mem_permutations.mp ho).length_eq, List.length_range'] at h1
    rw [← h1]
    simp only [Nat.cast_sum]
    rfl
  -- the source
  have hsrc : ∑ y ∈ Finset.range s, M y = ((2 * e.source.edgeCount : ℕ) : ENNReal) *
      ∏ t ∈ Finset.range (n - s), (1 + 1 / ((2 * (e.source.edgeCount + t) : ℕ) : ENNReal)) := by
    rw [Finset.sum_congr rfl (fun y hy => C100_ba_mean_source hv hE hm k (degree_degIn hv.source (Finset.mem_range.mp hy))
      (Finset.mem_range.mp hy)), ← Finset.sum_mul]
    congr 1
    rw [← Nat.cast_sum, ← Ba.sum_degIn hv]
    congr 1
    refine Finset.sum_subset (Finset.range_subset_range.mpr hle) (fun y _ hy => ?_)
    rw [Ba.degIn_eq hv.source, Ba.degreeVec_getD hv.source,
      nbrs_of_ge (by rw [hv.source.len]; exact not_lt.mp (fun h => hy (Finset.mem_range.mpr h)))]
    rfl
  -- the new vertices
  have hnew : ∀ y ∈ Finset.range n \ Finset.range s, M y = M v := by
    intro y hy
    rw [Finset.mem_sdiff, Finset.mem_range, Finset.mem_range] at hy
    refine Finset.sum_congr rfl fun d _ => ?_
    congr 1
    have hσ : ∀ x, (x < s ∨ n ≤ x) → Equiv.swap v y x = x := by
      intro x hx
      refine Equiv.swap_apply_of_ne_of_ne ?_ ?_ <;> omega
    have hlt : ∀ x, x < n ↔ Equiv.swap v y x < n := by
      intro x
      rw [Equiv.swap_apply_def]
      split
      · omega
      · split <;> omega
    have h1 := Ba.degree_after hv hE hy.1 k (fun x => x = d)
    have h2 := Ba.degree_after hv hE hvn k (fun x => x = d)
    simp only [exists_eq_right] at h1 h2
    rw [h1, h2, Finset.sum_filter, Finset.sum_filter]
    have hinv : Function.LeftInverse (fun E : Finset (Sym2 ℕ) => E.image (Sym2.map (Equiv.swap v y)))
        (fun E : Finset (Sym2 ℕ) => E.image (Sym2.map (Equiv.swap v y))) := by
      intro E
      simp only [Finset.image_image]
      rw [Finset.image_congr (g := id) (fun x _ => by rw [Function.comp_apply, Sym2.map_map]; simp), Finset.image_id]
    refine Finset.sum_equiv ⟨_, _, hinv, hinv⟩ (fun E => ?_) (fun E _ => ?_)
    · simp only [Equiv.coe_fn_mk, Finset.mem_powerset]
      have hsub : ∀ E, E ⊆ pairSet n → E.image (Sym2.map (Equiv.swap v y)) ⊆ pairSet n := by
        intro E hE' x hx
        obtain ⟨z, hz, rfl⟩ := Finset.mem_image.mp hx
        have := hE' hz
        induction z with
        | _ a b =>
          rw [Sym2.map_mk]
          have h3 := mk_mem_pairSet.mp this
          exact mk_mem_pairSet.mpr ⟨(hlt a).mp h3.1, (hlt b).mp h3.2.1, fun h => h3.2.2 ((Equiv.swap v y).injective h)⟩
      refine ⟨hsub E, fun h => ?_⟩
      have := hsub _ h
      rwa [show (E.image (Sym2.map (Equiv.swap v y))).image (Sym2.map (Equiv.swap v y)) = E from hinv E] at this
    · simp only [Equiv.coe_fn_mk]
      have h3 : degIn (E.image (Sym2.map (Equiv.swap v y))) v = degIn E y := by
        rw [degIn_relabel]
        simp
      have h4 := C100_ba_exchangeable hv hE (Equiv.swap v y) hσ k E
      rw [C84_ba_law hv hE, C84_ba_law hv hE] at h4
      rw [h3]
      unfold Ba.growLaw
      rw [← h4]
  change ((n - s : ℕ) : ENNReal) * M v + _ = _
  rw [← htot, ← Finset.sum_sdiff (f := M) (Finset.range_subset_range.mpr hle), hsrc, Finset.sum_congr rfl hnew, Finset.sum_const, nsmul_eq_mul,
    Finset.card_sdiff_of_subset (Finset.range_subset_range.mpr hle), Finset.card_range, Finset.card_range]

/-- A triangle with a tail, to be grown by three vertices with two edges each. -/
def exBaThree : Ba Nat Stream :=
  { source := exTail, graph := GenericGraph.new 8, rng := ⟨fun _ => 0, 0⟩, m := 2, weights := List.replicate 8 0 }

theorem exBaThree_valid : exBaThree.Valid :=
  ⟨exTail_wf, new_wf _, by decide, by decide⟩

/-- The hypotheses are met: one and three new vertices, one and two edges each, two vertices of different degree, and a permutation that is not
the identity. -/
example : (exBaStream.Valid ∧ 1 ≤ exBaStream.source.edgeCount ∧ exBaStream.graph.vertexCount = exBaStream.source.vertexCount + 1 ∧
      exBaStream.m = 1 ∧ exBaStream.source.degree 2 = some 3 ∧ exBaStream.source.degree 0 = some 2) ∧
    exBaThree.Valid ∧ 1 ≤ exBaThree.source.edgeCount ∧ exBaThree.m = 2 ∧ Equiv.swap 5 7 ≠ 1 ∧
      ∀ x, (x < exBaThree.source.vertexCount ∨ exBaThree.graph.vertexCount ≤ x) → Equiv.swap 5 7 x = x := by
  refine ⟨⟨exBaStream_valid, by decide, by decide, rfl, by decide, by decide⟩, exBaThree_valid, by decide, rfl, ?_, fun x hx => ?_⟩
  · intro h
    have := congrArg (fun σ : Equiv.Perm ℕ => σ 5) h
    simp at this
  · have h1 : exBaThree.source.vertexCount = 5 := by decide
    have h2 : exBaThree.graph.vertexCount = 8 := by decide
    rw [h1, h2] at hx
    exact Equiv.swap_apply_of_ne_of_ne (by omega) (by omega)

/-- The vertex of degree 3 gets on average 3/8 of an edge, when one vertex is attached to the triangle with a tail. -/
example (k : ℕ) : ∑ d ∈ Finset.range 6, (d : ENNReal) *
      uniformTape {ω | ∃ fuel e', Ba.randomize fuel ({ exBaStream with rng := ⟨ω, k⟩ } : Ba Nat Stream) = .ok e' ∧
        e'.graph.degree 2 = some d} = 3 * (1 + 1 / 8) := by
  have := C100_ba_mean_source exBaStream_valid (by decide) rfl k (v := 2) (dv := 3) (by decide) (by decide)
  rw [show exBaStream.graph.vertexCount = 6 by decide, show exBaStream.source.vertexCount = 5 by decide,
    show exBaStream.source.edgeCount = 4 by decide] at this
  rw [this]
  norm_num

end Verif
