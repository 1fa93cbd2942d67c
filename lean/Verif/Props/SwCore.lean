import Verif.Props.SwPieces

/-!
# C115: how many edges a core needs, and how few small-world networks have within any set of vertices
-/

set_option linter.unusedSectionVars false
set_option linter.unusedSimpArgs false

namespace Verif
open AdjContainer GenericGraph

/-! ## Any network -/

open Classical in
/-- **What a core costs.** If `q_core(q)` is not 0, then it is at least `q + 1`, and the network has at least `q * q_core(q) / 2` edges. -/
theorem C115_core_size {T A : Type} [AdjContainer T A] [LawfulAdj T A] {g : GenericGraph T A} (h : g.WF) {q r : ℕ}
    (hr : g.qCore q = .ok (some r)) (hr0 : r ≠ 0) : q + 1 ≤ r ∧ q * r ≤ 2 * g.edgeCount ∧ r ≤ g.vertexCount := by
  have hq : 2 ≤ q ∧ 0 < g.vertexCount := by
    by_contra hc
    rw [C20_q_core_none q (by omega)] at hr
    cases hr
  obtain ⟨r', K, a1, a2, a3, a4, a5, a6⟩ := C20_q_core h hq.1 hq.2
  rw [hr] at a1
  cases a1
  obtain ⟨v, hv, hsz⟩ := a6 (fun hc => hr0 (a5 hc))
  unfold sizeWithin at hsz
  set P := K.filter (fun w => (inducedOn g K).Reachable v w) with hP
  have hsub : ∀ w ∈ P, K.filter (fun x => g.toSimple.Adj w x) ⊆ P := by
    intro w hw x hx
    rw [hP, Finset.mem_filter] at hw ⊢
    rw [Finset.mem_filter] at hx
    exact ⟨hx.1, hw.2.trans (SimpleGraph.Adj.reachable (⟨hx.2, hw.1, hx.1⟩ : (inducedOn g K).Adj w x))⟩
  have hvP : v ∈ P := by rw [hP, Finset.mem_filter]; exact ⟨hv, SimpleGraph.Reachable.refl _⟩
  have hPn : P ⊆ Finset.range g.vertexCount := fun w hw => Finset.mem_range.mpr (a2 w (Finset.mem_filter.mp hw).1).1
  refine ⟨?_, ?_, ?_⟩
  · have h1 : K.filter (fun x => g.toSimple.Adj v x) ⊆ P.erase v := by
      intro x hx
      refine Finset.mem_erase.mpr ⟨?_, hsub v hvP hx⟩
      rintro rfl
      exact g.toSimple.loopless.irrefl _ (Finset.mem_filter.mp hx).2
    have h2 := Finset.card_le_card h1
    rw [Finset.card_erase_of_mem hvP, hsz] at h2
    have h3 := (a2 v hv).2
    omega
  · rw [← h.count, ← hsz, mul_comm, ← smul_eq_mul, ← Finset.sum_const]
    refine (Finset.sum_le_sum (g := fun w => (g.nbrs w).length) ?_).trans (Finset.sum_le_sum_of_subset hPn)
    intro w hw
    refine (a2 w (Finset.mem_filter.mp hw).1).2.trans ?_
    rw [← List.toFinset_card_of_nodup (h.nodup w)]
    apply Finset.card_le_card
    intro x hx
    rw [List.mem_toFinset]
    exact h.adj_iff.mp (Finset.mem_filter.mp hx).2
  · rw [← hsz]
    exact (Finset.card_le_card hPn).trans (by rw [Finset.card_range])

/-- A network with too few edges for a single core of `q + 1` vertices has none: `q_core(q)` is 0. -/
theorem C115_no_core {T A : Type} [AdjContainer T A] [LawfulAdj T A] {g : GenericGraph T A} (h : g.WF) {q : ℕ} (hq : 2 ≤ q)
    (hn : 0 < g.vertexCount) (hm : 2 * g.edgeCount < q * (q + 1) ∨ g.vertexCount ≤ q) : g.qCore q = .ok (some 0) := by
  obtain ⟨r, K, a1, -⟩ := C20_q_core h hq hn
  by_cases hr : r = 0
  · rw [a1, hr]
  · obtain ⟨h1, h2, h3⟩ := C115_core_size h a1 hr
    have := Nat.mul_le_mul_left q h1
    omega

/-! ## Small-world networks -/

variable {T R : Type} [Rng R]

section Proof
open Classical

/-- An edge has its root at `v` and leads to `w`. -/
def swRoot (g : SwGraph T) (v w : ℕ) : Prop := ∃ o, (⟨w, some o⟩ : SwEdge) ∈ SwGraph.raw g v

theorem SwValid.nbr_iff {g : SwGraph T} (h : SwValid g) {v w : ℕ} :
    (w ∈ g.nbrs v ↔ swRoot g v w ∨ swRoot g w v) ∧ ¬ (swRoot g v w ∧ swRoot g w v) := by
  have hsymm : ∀ {a b}, a ∈ g.nbrs b → b ∈ g.nbrs a := fun hab => h.wf.adj_iff.mp (h.wf.adj_iff.mpr hab).symm
  refine ⟨⟨fun hw => ?_, ?_⟩, ?_⟩
  · obtain ⟨e, he, rfl⟩ := sw_mem_nbrs.mp hw
    obtain ⟨e', he', hd⟩ := sw_mem_nbrs.mp (hsymm hw)
    have := h.oneEnd v e he e' he' hd
    rcases e with ⟨w, o⟩
    rcases e' with ⟨v', o'⟩
    subst hd
    cases o with
    | some o => exact .inl ⟨o, he⟩
    | none =>
      cases o' with
      | some o' => exact .inr ⟨o', he'⟩
      | none => simp [SwEdge.isRoot] at this
  · rintro (⟨o, ho⟩ | ⟨o, ho⟩)
    · exact sw_mem_nbrs.mpr ⟨_, ho, rfl⟩
    · exact hsymm (sw_mem_nbrs.mpr ⟨_, ho, rfl⟩)
  · rintro ⟨⟨o, ho⟩, o', ho'⟩
    have := h.oneEnd v _ ho _ ho' rfl
    simp [SwEdge.isRoot] at this

theorem SwValid.root_card {g : SwGraph T} (h : SwValid g) {v : ℕ} (hv : v < g.nextId) (C : Finset ℕ) :
    (C.filter (fun w => swRoot g v w)).card ≤ 2 ∧ ((∀ w ∈ g.nbrs v, w ∈ C) → (C.filter (fun w => swRoot g v w)).card = 2) := by
  obtain ⟨d1, o1, d2, o2, k1, k2, k3⟩ := h.rootPair hv
  have hmem : ∀ w, swRoot g v w ↔ w = d1 ∨ w = d2 := by
    intro w
    unfold swRoot
    have : ∀ o, (⟨w, some o⟩ : SwEdge) ∈ SwGraph.raw g v ↔ (w = d1 ∧ o = o1) ∨ (w = d2 ∧ o = o2) := by
      intro o
      have : (⟨w, some o⟩ : SwEdge) ∈ SwGraph.raw g v ↔ (⟨w, some o⟩ : SwEdge) ∈ (SwGraph.raw g v).filter SwEdge.isRoot := by
        rw [List.mem_filter]; simp [SwEdge.isRoot]
      rw [this, k1]; simp
    constructor
    · rintro ⟨o, ho⟩
      have := (this o).mp ho
      omega
    · rintro (rfl | rfl)
      · exact ⟨o1, (this o1).mpr (.inl ⟨rfl, rfl⟩)⟩
      · exact ⟨o2, (this o2).mpr (.inr ⟨rfl, rfl⟩)⟩
  have hsub : C.filter (fun w => swRoot g v w) ⊆ {d1, d2} := by
    intro w hw
    have := (hmem w).mp (Finset.mem_filter.mp hw).2
    simpa using this
  refine ⟨(Finset.card_le_card hsub).trans (Finset.card_le_two), fun hcl => ?_⟩
  rw [← Finset.card_pair k3]
  congr 1
  apply Finset.Subset.antisymm hsub
  intro w hw
  have hw : w = d1 ∨ w = d2 := by simpa using hw
  rw [Finset.mem_filter]
  exact ⟨hcl w (h.nbr_iff.1.mpr (.inl ((hmem w).mpr hw))), (hmem w).mpr hw⟩

/-- The degrees within a set add up to twice the number of roots of edges within the set. -/
theorem SwValid.sum_within {g : SwGraph T} (h : SwValid g) (C : Finset ℕ) :
    ∑ v ∈ C, (C.filter (fun w => g.toSimple.Adj v w)).card = 2 * ∑ v ∈ C, (C.filter (fun w => swRoot g v w)).card := by
  have h1 : ∀ v ∈ C, (C.filter (fun w => g.toSimple.Adj v w)).card =
      (C.filter (fun w => swRoot g v w)).card + (C.filter (fun w => swRoot g w v)).card := by
    intro v _
    rw [← Finset.card_union_of_disjoint]
    · congr 1
      ext w
      rw [Finset.mem_union, Finset.mem_filter, Finset.mem_filter, Finset.mem_filter, h.wf.adj_iff, h.nbr_iff.1]
      tauto
    · rw [Finset.disjoint_left]
      intro w k1 k2
      exact h.nbr_iff.2 ⟨(Finset.mem_filter.mp k1).2, (Finset.mem_filter.mp k2).2⟩
  rw [Finset.sum_congr rfl h1, Finset.sum_add_distrib, two_mul]
  congr 1
  exact (Finset.sum_card_bipartiteAbove_eq_sum_card_bipartiteBelow (s := C) (t := C) (r := swRoot g)).symm

end Proof

open Classical in
/-- **No set of vertices holds many edges.** In a small-world network the neighbours the members of a set of `k` vertices have within
the set are at most `4 k`: the set holds at most `2 k` edges. -/
theorem C115_sw_sparse {g : SwGraph T} (h : SwValid g) {C : Finset ℕ} (hC : ∀ v ∈ C, v < g.vertexCount) :
    ∑ v ∈ C, (C.filter (fun w => g.toSimple.Adj v w)).card ≤ 4 * C.card := by
  rw [h.sum_within]
  have := Finset.sum_le_card_nsmul C (fun v => (C.filter (fun w => swRoot g v w)).card) 2 (fun v hv => (h.root_card (hC v hv) C).1)
  rw [smul_eq_mul] at this
  omega

/-- **The degrees of a piece.** In every component of a small-world network the degrees are 4 on average. -/
theorem C115_sw_piece_degrees {g : SwGraph T} (h : SwValid g) (v : ℕ) {C : Finset ℕ}
    (hC : ∀ w, w ∈ C ↔ w < g.vertexCount ∧ g.toSimple.Reachable v w) :
    ∑ w ∈ C, (g.degree w).getD 0 = 4 * C.card := by
  classical
  have hcl : ∀ w ∈ C, ∀ x ∈ g.nbrs w, x ∈ C := by
    intro w hw x hx
    have hmem : s(w, x) ∈ g.edges := (h.wf.mem_edges).mpr hx
    exact (hC x).mpr ⟨(h.wf.mem_lt hmem).2.1, ((hC w).mp hw).2.trans (h.wf.adj_iff.mpr hx : g.toSimple.Adj w x).reachable⟩
  have h1 : ∀ w ∈ C, (g.degree w).getD 0 = (C.filter (fun x => g.toSimple.Adj w x)).card := by
    intro w hw
    rw [BiInv.degree_nbrs h.wf ((hC w).mp hw).1, Option.getD_some, ← List.toFinset_card_of_nodup (h.wf.nodup w)]
    congr 1
    ext x
    rw [List.mem_toFinset, Finset.mem_filter, h.wf.adj_iff]
    exact ⟨fun hx => ⟨hcl w hw x hx, hx⟩, fun hx => hx.2⟩
  rw [Finset.sum_congr rfl h1, h.sum_within,
    Finset.sum_congr rfl (fun w hw => (h.root_card ((hC w).mp hw).1 C).2 (hcl w hw)), Finset.sum_const, smul_eq_mul]
  omega

/-- **No core above four.** `q_core(q)` of a small-world network is 0 for every `q ≥ 5`. -/
theorem C115_sw_core {g : SwGraph T} (h : SwValid g) {q : ℕ} (hq : 5 ≤ q) : g.qCore q = .ok (some 0) := by
  classical
  have hn : 0 < g.vertexCount := by have := h.size; show 0 < g.nextId; omega
  obtain ⟨r, K, a1, a2, a3, a4, a5, a6⟩ := C20_q_core h.wf (by omega : 2 ≤ q) hn
  have hK : K = ∅ := by
    by_contra hne
    have h1 := C115_sw_sparse h (C := K) (fun v hv => (a2 v hv).1)
    have h2 := Finset.card_nsmul_le_sum K (fun v => (K.filter (fun w => g.toSimple.Adj v w)).card) q (fun v hv => (a2 v hv).2)
    have h3 : 0 < K.card := Finset.card_pos.mpr (Finset.nonempty_iff_ne_empty.mpr hne)
    rw [smul_eq_mul] at h2
    have h4 := Nat.mul_le_mul_left K.card hq
    omega
  rw [a1, a5 hK]

/-- The same for everything that can be reached from `new` by public calls, with any generator. -/
theorem C115_sw_history [Node T] {n : ℕ} (hn : 5 ≤ n) (p : ℚ) (r : R) :
    ∃ e0 : SwEns T R, SwEns.new n p r = .ok e0 ∧ ∀ e, SwHist e0 e → ∀ q, 5 ≤ q → e.graph.qCore q = .ok (some 0) := by
  obtain ⟨e0, h1, h2⟩ := C35_sw_invariant (T := T) hn p r
  exact ⟨e0, h1, fun e he q hq => C115_sw_core (h2 e he).1 hq⟩

/-- Four is attained: two pieces of five vertices, each complete.  A component of such a network, and a network with a core whose edges
are just enough. -/
example : SwValid exSwSplit ∧ exSwSplit.qCore 4 = .ok (some 5) ∧ exSwSplit.qCore 5 = .ok (some 0) ∧
    ((exGraph 6 [[1, 2, 3], [0, 2, 3], [0, 1, 3], [0, 1, 2], []]).qCore 3 = .ok (some 4) ∧ 3 * 4 = 2 * 6) ∧
    (exGraph 6 [[1, 2, 3], [0, 2, 3], [0, 1, 3], [0, 1, 2], []]).qCore 4 = .ok (some 0) :=
  ⟨exSwSplit_valid, by decide, by decide, ⟨by decide, rfl⟩, by decide⟩

example : (exGraph 6 [[1, 2, 3], [0, 2, 3], [0, 1, 3], [0, 1, 2], []]).WF ∧
    (exGraph 6 [[1, 2, 3], [0, 2, 3], [0, 1, 3], [0, 1, 2], []]).qCore 3 = .ok (some 4) ∧
    2 * (exGraph 6 [[1, 2, 3], [0, 2, 3], [0, 1, 3], [0, 1, 2], []]).edgeCount < 4 * (4 + 1) :=
  ⟨GenericGraph.wf_of_check _ (fun _ _ => trivial) (by decide), by decide, by decide⟩

open Classical in
example : ∃ C : Finset ℕ, (∀ w, w ∈ C ↔ w < exSwSplit.vertexCount ∧ exSwSplit.toSimple.Reachable 0 w) ∧ 0 ∈ C := by
  refine ⟨(Finset.range exSwSplit.vertexCount).filter (fun w => exSwSplit.toSimple.Reachable 0 w), fun w => ?_, ?_⟩
  · rw [Finset.mem_filter, Finset.mem_range]
  · rw [Finset.mem_filter, Finset.mem_range]; exact ⟨by decide, SimpleGraph.Reachable.refl _⟩

end Verif
