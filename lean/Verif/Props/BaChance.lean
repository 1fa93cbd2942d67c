import Verif.Lemmas.BaChance

/-!
# C84: the law of the Barabási-Albert ensemble
-/

set_option linter.unusedSectionVars false
set_option linter.unusedSimpArgs false

namespace Verif
open AdjContainer GenericGraph MeasureTheory ProbabilityTheory
open Ws (mk3 joins_mk3)

variable {T : Type}

namespace Ba

theorem randomize_iff {e : Ba T Stream} {g0 : Graph T} (h1 : e.graph.resetFromGraph e.source = .ok g0)
    (h8 : initWeights e.source g0.vertexCount e.weights = .ok g0.degreeVec) {ω : ℕ → ℝ} {k : ℕ} (E : Finset (Sym2 ℕ)) :
    (∃ fuel e', Ba.randomize fuel ({ e with rng := ⟨ω, k⟩ } : Ba T Stream) = .ok e' ∧ e'.graph.edges = E) ↔
      ∃ a j, RetOf mk3 (fun fuel (r : Stream) => ((List.range' e.source.vertexCount (g0.vertexCount - e.source.vertexCount)).permutations.getD
          (partOf (ω k) (List.range' e.source.vertexCount (g0.vertexCount - e.source.vertexCount)).permutations.length)
          (List.range' e.source.vertexCount (g0.vertexCount - e.source.vertexCount))).foldlM (growBody e.m fuel)
          (mk3 (g0, g0.degreeVec) r)) ω (k + 1) a j ∧ a.1.edges = E := by
  set l := List.range' e.source.vertexCount (g0.vertexCount - e.source.vertexCount) with hl
  have hrand : ∀ fuel, Ba.randomize fuel ({ e with rng := ⟨ω, k⟩ } : Ba T Stream) =
      ((l.permutations.getD (partOf (ω k) l.permutations.length) l).foldlM (growBody e.m fuel)
        (g0, g0.degreeVec, (⟨ω, k + 1⟩ : Stream)) >>= fun x => .ok { e with graph := x.1, weights := x.2.1, rng := x.2.2 }) := by
    intro fuel
    unfold Ba.randomize
    simp only [h1, Res.ok_bind, h8]
    rfl
  constructor
  · rintro ⟨fuel, e', hr, hE⟩
    rw [hrand] at hr
    obtain ⟨⟨g, w, r⟩, h2, h3⟩ := Res.bind_eq_ok.mp hr
    cases h3
    have had := Adaptive.foldlM' (step := fun fuel => growBody (T := T) (R := Stream) e.m fuel) (mk := mk3)
      (fun x a => growBody_adaptive e.m a x) (l.permutations.getD (partOf (ω k) l.permutations.length) l) (g0, g0.degreeVec)
    obtain ⟨a, lst, h4, h5, h6⟩ := had fuel ω (k + 1) _ h2
    have h7 : g = a.1 := congrArg Prod.fst h4
    exact ⟨a, _, ⟨fuel, fun fuel' hf => h6 fuel' hf ω (k + 1) h5⟩, by rw [← h7]; exact hE⟩
  · rintro ⟨a, j, ⟨F, hF⟩, hE⟩
    refine ⟨F, { e with graph := a.1, weights := a.2, rng := ⟨ω, j⟩ }, ?_, hE⟩
    rw [hrand]
    have := hF F (le_refl F)
    rw [Res.bind_eq_ok]
    exact ⟨_, this, rfl⟩

end Ba

/-- **C84, the law of `randomize`.**  Whatever the present state of the ensemble, `randomize` gives the graph the edges `E` with the
probability that growing the source graph by the new vertices in a uniformly random order gives `E`; each new vertex is joined to `m`
vertices chosen one after the other, each with probability proportional to its degree before the new vertex came. -/
theorem C84_ba_law {e : Ba T Stream} (hv : e.Valid) (hE : 1 ≤ e.source.edgeCount) (k : ℕ) (E : Finset (Sym2 ℕ)) :
    uniformTape {ω | ∃ fuel e', Ba.randomize fuel ({ e with rng := ⟨ω, k⟩ } : Ba T Stream) = .ok e' ∧ e'.graph.edges = E} =
      ((List.range' e.source.vertexCount (e.graph.vertexCount - e.source.vertexCount)).permutations.map fun order =>
        grownLaw e.graph.vertexCount e.m order e.source.edges E).sum /
        ((e.graph.vertexCount - e.source.vertexCount).factorial : ENNReal) := by
  obtain ⟨g0, h1, h2, h3, h4, h5, h6, h7, h8⟩ := Ba.prepare hv
  have hset : {ω : ℕ → ℝ | ∃ fuel e', Ba.randomize fuel ({ e with rng := ⟨ω, k⟩ } : Ba T Stream) = .ok e' ∧ e'.graph.edges = E} =
      _ := Set.ext fun ω => Ba.randomize_iff h1 h8 E
  rw [hset, h3]
  set l := List.range' e.source.vertexCount (e.graph.vertexCount - e.source.vertexCount) with hl
  have hlen : l.permutations.length = (e.graph.vertexCount - e.source.vertexCount).factorial := by
    rw [List.length_permutations, hl, List.length_range']
  have hN : 0 < l.permutations.length := by rw [hlen]; exact Nat.factorial_pos _
  have hterm : ∀ p ∈ Finset.range l.permutations.length, Chance (fun ω k => ∃ b i, (b = partOf (ω k) l.permutations.length ∧ i = k + 1) ∧
      b = p ∧ ∃ a j, RetOf mk3 (fun fuel (r : Stream) => (l.permutations.getD b l).foldlM (Ba.growBody e.m fuel)
          (mk3 (g0, g0.degreeVec) r)) ω i a j ∧ a.1.edges = E)
      ((l.permutations.length : ENNReal)⁻¹ * grownLaw e.graph.vertexCount e.m (l.permutations.getD p l) e.source.edges E) := by
    intro p hp
    rw [Finset.mem_range] at hp
    refine chance_bind (Sampler.draw l.permutations.length) (P := fun b => b = p) ?_
      (Q := fun b ω i => ∃ a j, RetOf mk3 (fun fuel (r : Stream) => (l.permutations.getD b l).foldlM (Ba.growBody e.m fuel)
          (mk3 (g0, g0.degreeVec) r)) ω i a j ∧ a.1.edges = E) ?_
    · have := chance_draw hN (fun i => i = p)
      rw [Finset.filter_eq', if_pos (Finset.mem_range.mpr hp), Finset.card_singleton, Nat.cast_one, one_mul] at this
      refine this.congr fun ω k => ?_
      exact ⟨fun h => ⟨_, _, ⟨rfl, rfl⟩, h⟩, fun ⟨b, i, ⟨h, _⟩, h'⟩ => h ▸ h'⟩
    · rintro b rfl
      have hperm : (l.permutations.getD b l).Perm l := by
        rw [List.getD_eq_getElem?_getD, List.getElem?_eq_getElem hp]
        exact List.mem_permutations.mp (List.getElem_mem hp)
      obtain ⟨o1, o2⟩ := Ba.order_spec hv h3 h7 (order := l.permutations.getD b l) (by rw [h3]; exact hperm)
      have := Ba.loop_chance e.m E (l.permutations.getD b l) g0 h2 (by rw [h6]; exact hE) o1 o2
      rw [h5] at this
      rwa [show g0.nextId = e.graph.vertexCount from h3] at this
  have hsum := Chance.sum _ hterm (by
    rintro p _ p' _ ω k ⟨b, i, ⟨hb, _⟩, h, _⟩ ⟨b', i', ⟨hb', _⟩, h', _⟩
    rw [← h, ← h', hb, hb'])
  rw [sum_map_eq _ l, div_eq_mul_inv, mul_comm, ← hlen, Finset.mul_sum, ← hsum.prob k]
  congr 1
  ext ω
  constructor
  · intro h
    exact ⟨_, Finset.mem_range.mpr (partOf_lt _ hN), _, _, ⟨rfl, rfl⟩, rfl, h⟩
  · rintro ⟨p, _, b, i, ⟨rfl, rfl⟩, _, h⟩
    exact h

/-- **C84, one new vertex with one edge.**  It is joined to `v` with probability (degree of `v`) / (twice the number of edges). -/
theorem C84_ba_one {e : Ba T Stream} (hv : e.Valid) (hE : 1 ≤ e.source.edgeCount) (hn : e.graph.vertexCount = e.source.vertexCount + 1)
    (hm : e.m = 1) (k : ℕ) {v : ℕ} (hvn : v < e.source.vertexCount) :
    uniformTape {ω | ∃ fuel e', Ba.randomize fuel ({ e with rng := ⟨ω, k⟩ } : Ba T Stream) = .ok e' ∧
        e'.graph.edges = insert s(e.source.vertexCount, v) e.source.edges} =
      ((e.source.nbrs v).length : ENNReal) / ((2 * e.source.edgeCount : ℕ) : ENNReal) := by
  set s := e.source.vertexCount with hs
  have hdeg : ∀ u, degIn e.source.edges u = (e.source.nbrs u).length := fun u => by
    rw [Ba.degIn_eq hv.source, Ba.degreeVec_getD hv.source]
  have hout : ∀ u, s(s, u) ∉ e.source.edges := fun u hu => by
    have h1 : u ∈ e.source.nbrs s := hv.source.mem_edges.mp hu
    rw [nbrs_of_ge (by rw [hv.source.len]; exact le_refl _)] at h1
    exact absurd h1 (by simp)
  have hsum : ∑ u ∈ Finset.range (s + 1), degIn e.source.edges u = 2 * e.source.edgeCount := by
    have h1 := sum_map_eq (fun x : ℕ => x) 0 e.source.degreeVec
    rw [List.map_id', (C26_degrees hv.source).2.2.1, show e.source.degreeVec.length = s by simp [degreeVec, hv.source.len, hs, vertexCount]] at h1
    rw [Finset.sum_range_succ, h1, Finset.sum_congr rfl (fun u _ => Ba.degIn_eq hv.source u), hdeg,
      nbrs_of_ge (by rw [hv.source.len]; exact le_refl _)]
    simp
  rw [C84_ba_law hv hE, hn, hm]
  have h1 : s + 1 - s = 1 := by omega
  rw [h1]
  have hperm : (List.range' s 1).permutations = [[s]] := by
    simp [List.permutations, List.permutationsAux_cons, List.permutationsAux_nil]
  rw [hperm]
  simp only [List.map_cons, List.map_nil, List.sum_cons, List.sum_nil, add_zero, Nat.factorial_one, Nat.cast_one, div_one]
  unfold grownLaw
  have hmem : ∀ (S : Finset ℕ) (u : ℕ), s(s, u) ∈ S.image (fun v => s(s, v)) ↔ u ∈ S := by
    intro S u
    rw [Finset.mem_image]
    constructor
    · rintro ⟨w, hw, h⟩
      rcases Sym2.eq_iff.mp h with ⟨_, rfl⟩ | ⟨h1, h2⟩
      · exact hw
      · rw [← h1, ← h2]; rw [h2] at hw; exact h2 ▸ h1 ▸ hw
    · exact fun h => ⟨u, h, rfl⟩
  have hiff : ∀ S : Finset ℕ, e.source.edges ∪ S.image (fun v => s(s, v)) = insert s(s, v) e.source.edges ↔ S = {v} := by
    intro S
    constructor
    · intro h
      ext u
      have h2 := Finset.ext_iff.mp h s(s, u)
      rw [Finset.mem_union, hmem, Finset.mem_insert] at h2
      simp only [hout, or_false, false_or] at h2
      rw [h2, Finset.mem_singleton, Sym2.eq_iff]
      constructor
      · rintro (⟨_, h⟩ | ⟨h, h'⟩)
        · exact h
        · omega
      · exact fun h => Or.inl ⟨rfl, h⟩
    · rintro rfl
      ext x
      simp [or_comm]
  rw [Finset.sum_eq_single {v}]
  · unfold grownLaw
    rw [if_pos ((hiff {v}).mpr rfl), mul_one]
    unfold picks
    rw [Finset.sdiff_empty, hsum, Finset.sum_eq_single v]
    · unfold picks
      rw [if_pos (by simp), mul_one, hdeg]
    · intro u _ hu
      unfold picks
      rw [if_neg (by simpa using hu), mul_zero]
    · intro h
      exact absurd (Finset.mem_range.mpr (by omega)) h
  · intro S _ hS
    unfold grownLaw
    rw [if_neg (by rw [hiff]; exact hS), mul_zero]
  · intro h
    exact absurd (by simp; omega) h

/-- A triangle with a tail grown by one vertex. -/
def exBaStream : Ba Nat Stream :=
  { source := exTail, graph := GenericGraph.new 6, rng := ⟨fun _ => 0, 0⟩, m := 1, weights := List.replicate 6 0 }

theorem exBaStream_valid : exBaStream.Valid :=
  ⟨exTail_wf, new_wf _, by decide, by decide⟩

/-- The new vertex is joined to the vertex of degree 3 with probability 3/8. -/
example (k : ℕ) : uniformTape {ω | ∃ fuel e', Ba.randomize fuel ({ exBaStream with rng := ⟨ω, k⟩ } : Ba Nat Stream) = .ok e' ∧
    e'.graph.edges = insert s(5, 2) exTail.edges} = 3 / 8 := by
  have := C84_ba_one exBaStream_valid (by decide) (by decide) rfl k (v := 2) (by decide)
  rw [show (exBaStream.source.nbrs 2).length = 3 by decide, show 2 * exBaStream.source.edgeCount = 8 by decide] at this
  exact_mod_cast this

end Verif
