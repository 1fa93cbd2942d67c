import Verif.Props.SwCore
import Verif.Props.Dense

/-!
# C115: cores of networks with given degrees or a given number of edges
-/

set_option linter.unusedSectionVars false
set_option linter.unusedSimpArgs false

namespace Verif
open AdjContainer GenericGraph

open Classical in
/-- **A core needs degrees.** `q_core(q)` is at most the number of vertices with `q` neighbours or more, and 0 if there are at most `q`
of them. -/
theorem C115_core_degrees {T A : Type} [AdjContainer T A] [LawfulAdj T A] {g : GenericGraph T A} (h : g.WF) {q r : ℕ}
    (hr : g.qCore q = .ok (some r)) :
    r ≤ (g.degreeVec.filter (fun d => decide (q ≤ d))).length ∧
      ((g.degreeVec.filter (fun d => decide (q ≤ d))).length ≤ q → r = 0) := by
  have hle : r ≤ (g.degreeVec.filter (fun d => decide (q ≤ d))).length := by
    have hq : 2 ≤ q ∧ 0 < g.vertexCount := by
      by_contra hc
      rw [C20_q_core_none q (by omega)] at hr
      cases hr
    obtain ⟨r', K, a1, a2, a3, a4, a5, a6⟩ := C20_q_core h hq.1 hq.2
    rw [hr] at a1
    cases a1
    by_cases hr0 : r = 0
    · omega
    obtain ⟨v, hv, hsz⟩ := a6 (fun hc => hr0 (a5 hc))
    rw [← hsz]
    unfold sizeWithin
    refine (Finset.card_filter_le _ _).trans ?_
    have hvec : g.degreeVec = (List.range g.vertexCount).map (fun v => (g.nbrs v).length) := by
      apply List.ext_getElem?
      intro i
      rw [List.getElem?_map]
      by_cases hi : i < g.nextId
      · rw [List.getElem?_range (show i < g.vertexCount from hi), Option.map_some, ← BiInv.degree_nbrs h hi]
        unfold GenericGraph.degreeVec GenericGraph.degree
        rw [List.getElem?_map]
      · rw [List.getElem?_eq_none, List.getElem?_eq_none]
        · rfl
        · rw [List.length_range]; exact Nat.le_of_not_lt hi
        · unfold GenericGraph.degreeVec
          rw [List.length_map, h.len]
          omega
    rw [hvec, List.filter_map, List.length_map, ← List.toFinset_card_of_nodup (List.nodup_range.filter _)]
    apply Finset.card_le_card
    intro w hw
    obtain ⟨k1, k2⟩ := a2 w hw
    rw [List.mem_toFinset, List.mem_filter, List.mem_range]
    refine ⟨k1, ?_⟩
    simp only [Function.comp, decide_eq_true_eq]
    refine k2.trans ?_
    rw [← List.toFinset_card_of_nodup (h.nodup w)]
    apply Finset.card_le_card
    intro x hx
    rw [List.mem_toFinset]
    exact h.adj_iff.mp (Finset.mem_filter.mp hx).2
  refine ⟨hle, fun hfew => ?_⟩
  by_contra hr0
  have := (C115_core_size h hr hr0).1
  omega

variable {T R : Type} [Rng R]

/-- `ErEnsembleM` with fewer than `q (q + 1) / 2` edges: `q_core(q)` is 0 after every history of calls. -/
theorem C115_er_m [Node T] {n m : ℕ} (hn : 1 ≤ n) (hm : m ≤ n * (n - 1) / 2) (r : R) :
    ∃ e0 : ErM T R, ErM.new n m r = .ok e0 ∧ ∀ ws e, Hist ErM.Call ErM.setAt e0 ws e →
      ∀ q, 2 ≤ q → 2 * m < q * (q + 1) → e.graph.qCore q = .ok (some 0) := by
  obtain ⟨e0, h1, h2⟩ := C75_er_m (T := T) hn hm r
  refine ⟨e0, h1, fun ws e he q hq hlt => ?_⟩
  obtain ⟨h3, h4, h5, _⟩ := h2 ws e he
  exact C115_no_core h3 hq (by rw [h4]; omega) (.inl (by rw [h5]; exact hlt))

/-- `ConfigurationModel`: `q_core(q)` is at most the number of entries of the degree vector that are at least `q`, it is 0 if there are at
most `q` of them, and the size of the largest component if all of them are; after every history of calls that does not replace
the degree vector. -/
theorem C115_config [Node T] {d : List ℕ} (hne : d ≠ []) (r : R) {fuel : ℕ} {e0 : Config T R}
    (h0 : Config.fromVecUnchecked fuel d r = .ok e0) {ws : List (ℕ × T)} {e : Config T R}
    (he : Hist (Config.Call false) Config.setAt e0 ws e) {q : ℕ} (hq : 2 ≤ q) :
    ∃ k C, e.graph.qCore q = .ok (some k) ∧ e.graph.connectedComponents = .ok C ∧ k ≤ (d.filter (fun x => decide (q ≤ x))).length ∧
      ((d.filter (fun x => decide (q ≤ x))).length ≤ q → k = 0) ∧ ((∀ x ∈ d, q ≤ x) → k = C.headD 0) := by
  obtain ⟨h1, _⟩ := C75_config_degrees d r h0 he
  obtain ⟨h2, h3⟩ := realises_iff.mp h1
  have hlen : e.graph.vertexCount = d.length := h1.2.1
  have hpos : 0 < e.graph.vertexCount := by rw [hlen]; exact List.length_pos_of_ne_nil hne
  obtain ⟨k, K, a1, -⟩ := C20_q_core h2 hq hpos
  obtain ⟨C, b1, -⟩ := connectedComponents_spec h2
  obtain ⟨c1, c2⟩ := C115_core_degrees h2 a1
  rw [h3] at c1 c2
  refine ⟨k, C, a1, b1, c1, c2, fun hall => ?_⟩
  obtain ⟨C', k1, k2⟩ := C113_core_min_degree h2 hq hpos (by
    intro v x hx
    apply hall
    rw [← h3]
    unfold GenericGraph.degree at hx
    rw [Option.map_eq_some_iff] at hx
    obtain ⟨a, ha, rfl⟩ := hx
    exact List.mem_map_of_mem (List.mem_of_getElem? ha))
  rw [b1, Res.ok.injEq] at k1
  subst k1
  rw [a1, Res.ok.injEq, Option.some.injEq] at k2
  exact k2

/-- A ring of five from the degree vector of twos: the 2-core is everything, the 3-core empty.  A star has one vertex of degree 3 and no
2-core. -/
example : ((Config.fromVecUnchecked 5 [2, 2, 2, 2, 2] ⟨[0, 2, 3, 4, 5, 6, 7, 8, 9, 1]⟩ : Res (Config Nat PermRng)).bind fun e =>
      .ok (e.graph.qCore 2, e.graph.qCore 3)) = .ok (.ok (some 5), .ok (some 0)) ∧
    (exGraph 3 [[1, 2, 3], [0], [0], [0]]).degreeVec = [3, 1, 1, 1] ∧
    (exGraph 3 [[1, 2, 3], [0], [0], [0]]).qCore 2 = .ok (some 0) ∧ (exGraph 3 [[1, 2, 3], [0], [0], [0]]).WF :=
  ⟨by decide, by decide, by decide, GenericGraph.wf_of_check _ (fun _ _ => trivial) (by decide)⟩

end Verif
