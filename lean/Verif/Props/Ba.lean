import Verif.Lemmas.Ba
import Verif.Props.Edit

/-!
# Barabási-Albert ensemble: growth (C44)
-/

set_option linter.unusedSectionVars false
set_option linter.unusedSimpArgs false

namespace Verif
open AdjContainer GenericGraph

variable {T R : Type} [Rng R]

/-- Growth by attachment: starting from the edges `E0`, the vertices of the list are attached one after the other, each to
exactly `m` different vertices that have an edge already. -/
inductive Grows (E0 : Finset (Sym2 ℕ)) (m : Nat) : List Nat → Finset (Sym2 ℕ) → Prop where
  | start : Grows E0 m [] E0
  | grow {pre : List Nat} {E : Finset (Sym2 ℕ)} {i : Nat} {S : Finset ℕ} : Grows E0 m pre E → (∀ e ∈ E, i ∉ e) →
      S.card = m → (∀ v ∈ S, ∃ e ∈ E, v ∈ e) → Grows E0 m (pre ++ [i]) (E ∪ S.image (fun v => s(i, v)))

namespace Grows

variable {E0 E : Finset (Sym2 ℕ)} {m : Nat} {pre : List Nat}

theorem subset (h : Grows E0 m pre E) : E0 ⊆ E := by
  induction h with
  | start => exact subset_refl _
  | grow _ _ _ _ ih => exact ih.trans Finset.subset_union_left

theorem new_edge (h : Grows E0 m pre E) {e : Sym2 ℕ} (he : e ∈ E) : e ∈ E0 ∨ ∃ i ∈ pre, i ∈ e := by
  induction h with
  | start => exact .inl he
  | @grow pre E j S _ _ _ _ ih =>
    rcases Finset.mem_union.mp he with he | he
    · rcases ih he with h1 | ⟨i, h1, h2⟩
      · exact .inl h1
      · exact .inr ⟨i, by simp [h1], h2⟩
    · obtain ⟨v, _, rfl⟩ := Finset.mem_image.mp he
      exact .inr ⟨j, by simp, by simp⟩

theorem endpoint (h : Grows E0 m pre E) {e : Sym2 ℕ} (he : e ∈ E) {v : ℕ} (hv : v ∈ e) :
    v ∈ pre ∨ ∃ e0 ∈ E0, v ∈ e0 := by
  induction h generalizing e v with
  | start => exact .inr ⟨e, he, hv⟩
  | grow _ _ _ hS ih =>
    rcases Finset.mem_union.mp he with he | he
    · rcases ih he hv with h1 | h1
      · exact .inl (by simp [h1])
      · exact .inr h1
    · obtain ⟨w, hw, rfl⟩ := Finset.mem_image.mp he
      rcases Sym2.mem_iff.mp hv with rfl | rfl
      · exact .inl (by simp)
      · obtain ⟨e1, h1, h2⟩ := hS _ hw
        rcases ih h1 h2 with h3 | h3
        · exact .inl (by simp [h3])
        · exact .inr h3

theorem nil (h : Grows E0 m pre E) (hn : pre = []) : E = E0 := by
  cases h with
  | start => rfl
  | grow => simp at hn

theorem image_card (i : ℕ) (S : Finset ℕ) : (S.image (fun v => s(i, v))).card = S.card := by
  apply Finset.card_image_of_injective
  intro a b hab
  have := Sym2.congr_right.mp hab
  exact this

theorem card (h : Grows E0 m pre E) : E.card = E0.card + m * pre.length := by
  induction h with
  | start => simp
  | @grow pre E i S _ hi hS _ ih =>
    have hd : Disjoint E (S.image (fun v => s(i, v))) := by
      rw [Finset.disjoint_left]
      intro e he hc
      obtain ⟨v, _, rfl⟩ := Finset.mem_image.mp hc
      exact hi _ he (by simp)
    rw [Finset.card_union_of_disjoint hd, image_card, ih, hS]
    simp [Nat.mul_add, Nat.add_assoc]

theorem degree (h : Grows E0 m pre E) {i : ℕ} (hi : i ∈ pre) : m ≤ degOf E i := by
  induction h with
  | start => simp at hi
  | @grow pre E j S _ _ hS _ ih =>
    rcases List.mem_append.mp hi with h1 | h1
    · refine (ih h1).trans (Finset.card_le_card (Finset.filter_subset_filter _ Finset.subset_union_left))
    · simp only [List.mem_singleton] at h1
      subst h1
      rw [← hS, ← image_card i S]
      apply Finset.card_le_card
      intro e he
      rw [Finset.mem_filter]
      refine ⟨Finset.mem_union_right _ he, ?_⟩
      obtain ⟨v, _, rfl⟩ := Finset.mem_image.mp he
      simp

theorem reach (h : Grows E0 m pre E) (hm : 1 ≤ m) {i : ℕ} (hi : i ∈ pre) :
    ∃ e0 ∈ E0, ∃ u ∈ e0, (SimpleGraph.fromEdgeSet (E : Set (Sym2 ℕ))).Reachable i u := by
  induction h generalizing i with
  | start => simp at hi
  | @grow pre E j S hg hj hS hv ih =>
    have hmono : SimpleGraph.fromEdgeSet (E : Set (Sym2 ℕ)) ≤
        SimpleGraph.fromEdgeSet ((E ∪ S.image (fun v => s(j, v)) : Finset (Sym2 ℕ)) : Set (Sym2 ℕ)) :=
      SimpleGraph.fromEdgeSet_mono (by exact_mod_cast Finset.subset_union_left)
    have old : ∀ k ∈ pre, ∃ e0 ∈ E0, ∃ u ∈ e0,
        (SimpleGraph.fromEdgeSet ((E ∪ S.image (fun v => s(j, v)) : Finset (Sym2 ℕ)) : Set (Sym2 ℕ))).Reachable k u := by
      intro k hk
      obtain ⟨e0, h1, u, h2, h3⟩ := ih hk
      exact ⟨e0, h1, u, h2, h3.mono hmono⟩
    rcases List.mem_append.mp hi with h1 | h1
    · exact old i h1
    · simp only [List.mem_singleton] at h1
      subst h1
      obtain ⟨v, hvS⟩ := Finset.card_pos.mp (by omega : 0 < S.card)
      obtain ⟨e, he, hve⟩ := hv v hvS
      have hne : i ≠ v := fun hc => hj e he (hc ▸ hve)
      have hadj : (SimpleGraph.fromEdgeSet ((E ∪ S.image (fun v => s(i, v)) : Finset (Sym2 ℕ)) : Set (Sym2 ℕ))).Adj i v := by
        rw [SimpleGraph.fromEdgeSet_adj]
        exact ⟨by exact_mod_cast Finset.mem_union_right _ (Finset.mem_image.mpr ⟨v, hvS, rfl⟩), hne⟩
      rcases hg.endpoint he hve with h2 | ⟨e0, h2, h3⟩
      · obtain ⟨e0, h3, u, h4, h5⟩ := old v h2
        exact ⟨e0, h3, u, h4, hadj.reachable.trans h5⟩
      · exact ⟨e0, h2, v, h3, hadj.reachable⟩

end Grows

theorem toSimple_eq_fromEdgeSet {A : Type} [AdjContainer T A] [LawfulAdj T A] {g : GenericGraph T A} (h : g.WF) :
    g.toSimple = SimpleGraph.fromEdgeSet (g.edges : Set (Sym2 ℕ)) := by
  ext i j
  rw [h.adj_iff, SimpleGraph.fromEdgeSet_adj, Finset.mem_coe, h.mem_edges]
  exact ⟨fun hh => ⟨hh, h.ne hh⟩, fun hh => hh.1⟩

/-- What a `BAensemble` made by its constructors satisfies. -/
structure Ba.Valid (e : Ba T R) : Prop where
  source : e.source.WF
  graph : e.graph.WF
  le : e.source.vertexCount ≤ e.graph.vertexCount
  len : e.weights.length = e.graph.vertexCount

namespace Ba

/-- The vertices with at least one neighbour. -/
def attachable (g : Graph T) : Finset ℕ := (Finset.range g.vertexCount).filter (fun v => g.nbrs v ≠ [])

theorem mem_attachable {g : Graph T} (h : g.WF) {v : ℕ} : v ∈ attachable g ↔ g.nbrs v ≠ [] := by
  unfold attachable
  rw [Finset.mem_filter, Finset.mem_range]
  refine ⟨fun hh => hh.2, fun hh => ⟨?_, hh⟩⟩
  by_contra hc
  exact hh (nbrs_of_ge (by rw [h.len]; show g.vertexCount ≤ v; omega))

theorem nbrs_ne_nil_iff {g : Graph T} (h : g.WF) {v : ℕ} : g.nbrs v ≠ [] ↔ ∃ e ∈ g.edges, v ∈ e := by
  constructor
  · intro hh
    obtain ⟨w, hw⟩ := List.exists_mem_of_ne_nil _ hh
    exact ⟨s(v, w), h.mem_edges.mpr hw, by simp⟩
  · rintro ⟨e, he, hv⟩ hc
    obtain ⟨w, rfl⟩ := Sym2.mem_iff_exists.mp hv
    rw [h.mem_edges, hc] at he
    simp at he

theorem isolated_iff {g : Graph T} (h : g.WF) {v : ℕ} : g.nbrs v = [] ↔ ∀ e ∈ g.edges, v ∉ e := by
  have := nbrs_ne_nil_iff h (v := v)
  constructor
  · intro h1 e he hv
    exact this.mpr ⟨e, he, hv⟩ h1
  · intro h1
    by_contra hc
    obtain ⟨e, he, hv⟩ := this.mp hc
    exact h1 e he hv

/-- Loop invariant over the random order. -/
structure Loop (g0 : Graph T) (m : Nat) (pre : List Nat) (st : Graph T × List Nat × R) : Prop where
  wf : st.1.WF
  n : st.1.nextId = g0.nextId
  data : st.1.data = g0.data
  weights : st.2.1 = st.1.degreeVec
  grows : Grows g0.edges m pre st.1.edges

theorem Loop.edge {g0 : Graph T} {m : Nat} {pre : List Nat} {st : Graph T × List Nat × R} (h : Loop g0 m pre st)
    (h0 : g0.WF) (hE : 1 ≤ g0.edgeCount) : 1 ≤ st.1.edgeCount := by
  rw [h.wf.edgeCount_eq_card, h.grows.card, ← h0.edgeCount_eq_card]; omega

theorem Loop.isolated {g0 : Graph T} {m : Nat} {pre : List Nat} {st : Graph T × List Nat × R} (h : Loop g0 m pre st)
    (h0 : g0.WF) {i : Nat} (hi : g0.nbrs i = []) (hpre : i ∉ pre) : st.1.nbrs i = [] := by
  rw [isolated_iff h.wf]
  intro e he hv
  rcases h.grows.endpoint he hv with h1 | ⟨e0, h1, h2⟩
  · exact hpre h1
  · exact (isolated_iff h0).mp hi e0 h1 h2

theorem Loop.next {g0 : Graph T} {m : Nat} {pre : List Nat} {g g' : Graph T} {w w' : List Nat} {rng rng' : R}
    (h : Loop g0 m pre (g, w, rng)) {i : Nat} (hnil : g.nbrs i = []) {S : Finset ℕ}
    (hA : Att g i (fun v => g.nbrs v ≠ []) g' S) (hS : S.card = m) (hw : w' = g'.degreeVec) :
    Loop g0 m (pre ++ [i]) (g', w', rng') := by
  refine ⟨hA.wf, hA.n.trans h.n, hA.data.trans h.data, hw, ?_⟩
  show Grows _ _ _ g'.edges
  rw [hA.edges]
  exact .grow h.grows ((isolated_iff h.wf).mp hnil) hS (fun v hv => (nbrs_ne_nil_iff h.wf).mp (hA.mem v hv))

theorem loop_spec {g0 : Graph T} (h0 : g0.WF) (hE : 1 ≤ g0.edgeCount) {order : List Nat} (hnd : order.Nodup)
    (hord : ∀ i ∈ order, i < g0.nextId ∧ g0.nbrs i = []) (m fuel : Nat) (rng : R) :
    (order.foldlM (growBody m fuel) (g0, g0.degreeVec, rng)).wp (fun st => Loop g0 m order st) True := by
  refine foldlM_wp order (fun pre st => Loop g0 m pre st) ?_ ⟨h0, rfl, rfl, rfl, .start⟩
  rintro pre i post ⟨g, w, rng⟩ hsplit hI
  obtain rfl : w = g.degreeVec := hI.weights
  have hi : i ∈ order := by rw [hsplit]; simp
  have hpre : i ∉ pre := by
    rw [hsplit] at hnd
    intro hc
    exact (List.nodup_append.mp hnd).2.2 _ hc i (by simp) rfl
  have hn : g.nextId = g0.nextId := hI.n
  have hnil : g.nbrs i = [] := hI.isolated h0 (hord i hi).2 hpre
  refine Res.wp_mono (growBody_spec hI.wf (hI.edge h0 hE) (by rw [hn]; exact (hord i hi).1) hnil) ?_ id
  rintro ⟨g', w', rng'⟩ ⟨S, hA, hS, hw⟩
  exact hI.next hnil hA hS hw

/-- The first half of `randomize`: the graph is reset and the weights are the degrees. -/
theorem prepare {e : Ba T R} (hv : e.Valid) :
    ∃ g0, e.graph.resetFromGraph e.source = .ok g0 ∧ g0.WF ∧ g0.vertexCount = e.graph.vertexCount ∧ g0.data = e.graph.data ∧
      g0.edges = e.source.edges ∧ g0.edgeCount = e.source.edgeCount ∧ (∀ i, g0.nbrs i = e.source.nbrs i) ∧
      initWeights e.source g0.vertexCount e.weights = .ok g0.degreeVec := by
  obtain ⟨g0, h1, h2, h3, h4, h5, h6, _⟩ := (C27_reset_from_graph hv.graph hv.source).1 hv.le
  obtain ⟨w, w1, w2, w3⟩ := initWeights_spec hv.source hv.le hv.len
  refine ⟨g0, h1, h2, h3, h6, ?_, h4, h5, ?_⟩
  · apply h2.edges_eq_of
    intro i j
    rw [h5, hv.source.mem_edges]
  · rw [h3, w1]
    congr 1
    symm
    rw [degreeVec_eq_iff h2]
    refine ⟨by rw [w2]; exact h3, fun i _ => ?_⟩
    rw [w3, h5]

theorem order_spec {e : Ba T R} (hv : e.Valid) {g0 : Graph T} (hn : g0.vertexCount = e.graph.vertexCount)
    (hnb : ∀ i, g0.nbrs i = e.source.nbrs i) {order : List Nat}
    (hp : order.Perm (List.range' e.source.vertexCount (g0.vertexCount - e.source.vertexCount))) :
    order.Nodup ∧ ∀ i ∈ order, i < g0.nextId ∧ g0.nbrs i = [] := by
  refine ⟨hp.nodup_iff.mpr List.nodup_range', fun i hi => ?_⟩
  rw [hp.mem_iff, List.mem_range'_1] at hi
  have hle := hv.le
  rw [hn] at hi
  refine ⟨by show i < g0.vertexCount; omega, ?_⟩
  rw [hnb]
  exact nbrs_of_ge (by rw [hv.source.len]; exact hi.1)

end Ba

/-- **C44.** `randomize` of a valid ensemble whose source has an edge never panics, and whenever it returns, the graph arose
from the source by attaching the other vertices one after the other in some order, each to exactly `m` vertices of positive
degree; data, source and `m` are unchanged and the stored weights are the degrees. -/
theorem C44_ba_randomize {e : Ba T R} (hv : e.Valid) (hE : 1 ≤ e.source.edgeCount) (fuel : Nat) :
    e.randomize fuel ≠ .panic ∧
    ∀ e', e.randomize fuel = .ok e' → e'.Valid ∧ e'.source = e.source ∧ e'.m = e.m ∧ e'.graph.data = e.graph.data ∧
      e'.graph.vertexCount = e.graph.vertexCount ∧ e'.weights = e'.graph.degreeVec ∧
      ∃ order : List Nat, order.Perm (List.range' e.source.vertexCount (e.graph.vertexCount - e.source.vertexCount)) ∧
        Grows e.source.edges e.m order e'.graph.edges := by
  obtain ⟨g0, h1, h2, h3, h4, h5, h6, h7, h8⟩ := Ba.prepare hv
  have hw : (e.randomize fuel).wp (fun e' => e'.Valid ∧ e'.source = e.source ∧ e'.m = e.m ∧ e'.graph.data = e.graph.data ∧
      e'.graph.vertexCount = e.graph.vertexCount ∧ e'.weights = e'.graph.degreeVec ∧
      ∃ order : List Nat, order.Perm (List.range' e.source.vertexCount (e.graph.vertexCount - e.source.vertexCount)) ∧
        Grows e.source.edges e.m order e'.graph.edges) True := by
    unfold Ba.randomize
    rw [h1, Res.ok_bind]
    rcases hs : Rng.shuffle e.rng (List.range' e.source.vertexCount (g0.vertexCount - e.source.vertexCount)) with ⟨order, rng⟩
    have hp : order.Perm (List.range' e.source.vertexCount (g0.vertexCount - e.source.vertexCount)) := by
      have := Rng.shuffle_perm e.rng (List.range' e.source.vertexCount (g0.vertexCount - e.source.vertexCount))
      rw [hs] at this; exact this
    simp only [hs, h8, Res.ok_bind]
    obtain ⟨o1, o2⟩ := Ba.order_spec hv h3 h7 hp
    refine Res.wp_bind (Res.wp_mono (Ba.loop_spec h2 (by rw [h6]; exact hE) o1 o2 e.m fuel rng) ?_ id)
    rintro ⟨g, w, rng'⟩ hI
    have hvc : g.vertexCount = e.graph.vertexCount := hI.n.trans h3
    have hwd : w = g.degreeVec := hI.weights
    refine ⟨⟨hv.source, hI.wf, hvc ▸ hv.le, ?_⟩, rfl, rfl, hI.data.trans h4, hvc, hwd, order, ?_, ?_⟩
    · show w.length = g.vertexCount
      rw [hwd]
      simp [degreeVec, hI.wf.len, vertexCount]
    · rw [← h3]; exact hp
    · rw [← h5]; exact hI.grows
  exact ⟨hw.ne_panic, fun e' he => hw.post he⟩

/-- The consequences: number of edges, the source is the induced subgraph, degrees of the new vertices, connectivity. -/
theorem C44_ba_structure {e e' : Ba T R} (hv : e.Valid) (hE : 1 ≤ e.source.edgeCount) {fuel : Nat}
    (he : e.randomize fuel = .ok e') :
    e'.graph.edgeCount = e.source.edgeCount + e.m * (e.graph.vertexCount - e.source.vertexCount) ∧
    (∀ u v, u < e.source.vertexCount → v < e.source.vertexCount →
      (e'.graph.toSimple.Adj u v ↔ e.source.toSimple.Adj u v)) ∧
    (∀ v, e.source.vertexCount ≤ v → v < e.graph.vertexCount → e.m ≤ (e'.graph.nbrs v).length) ∧
    ((∀ u v, u < e.source.vertexCount → v < e.source.vertexCount → e.source.toSimple.Reachable u v) → 1 ≤ e.m →
      ∀ u v, u < e.graph.vertexCount → v < e.graph.vertexCount → e'.graph.toSimple.Reachable u v) := by
  obtain ⟨h1, h2, h3, h4, h5, h6, order, hp, hg⟩ := (C44_ba_randomize hv hE fuel).2 e' he
  have hlt : ∀ {e0 : Sym2 ℕ} {u : ℕ}, e0 ∈ e.source.edges → u ∈ e0 → u < e.source.vertexCount := by
    intro e0 u h0 hu
    obtain ⟨w, rfl⟩ := Sym2.mem_iff_exists.mp hu
    exact (hv.source.mem_lt h0).1
  refine ⟨?_, ?_, ?_, ?_⟩
  · rw [h1.graph.edgeCount_eq_card, hg.card, hv.source.edgeCount_eq_card, hp.length_eq, List.length_range']
  · intro u v hu hv'
    rw [h1.graph.adj_iff, hv.source.adj_iff, ← h1.graph.mem_edges, ← hv.source.mem_edges]
    refine ⟨fun hm => ?_, fun hm => hg.subset hm⟩
    rcases hg.new_edge hm with h7 | ⟨i, h7, h8⟩
    · exact h7
    · rw [hp.mem_iff, List.mem_range'_1] at h7
      rcases Sym2.mem_iff.mp h8 with rfl | rfl <;> omega
  · intro v h7 h8
    rw [h1.graph.deg_eq]
    apply hg.degree
    rw [hp.mem_iff, List.mem_range'_1]; omega
  · intro hc hm
    have hle : e.source.toSimple ≤ e'.graph.toSimple := by
      rw [toSimple_eq_fromEdgeSet hv.source, toSimple_eq_fromEdgeSet h1.graph]
      exact SimpleGraph.fromEdgeSet_mono (by exact_mod_cast hg.subset)
    have key : ∀ u, u < e.graph.vertexCount → ∃ s, s < e.source.vertexCount ∧ e'.graph.toSimple.Reachable u s := by
      intro u hu
      by_cases hus : u < e.source.vertexCount
      · exact ⟨u, hus, SimpleGraph.Reachable.refl _⟩
      · obtain ⟨e0, k1, s, k2, k3⟩ := hg.reach hm (i := u) (by rw [hp.mem_iff, List.mem_range'_1]; omega)
        exact ⟨s, hlt k1 k2, by rw [toSimple_eq_fromEdgeSet h1.graph]; exact k3⟩
    intro u v hu hv'
    obtain ⟨s, s1, s2⟩ := key u hu
    obtain ⟨t, t1, t2⟩ := key v hv'
    exact s2.trans (((hc s t s1 t1).mono hle).trans t2.symm)

/-- **Preferential attachment.** While a vertex is attached the weights are the degrees before it was attached, so that among the
`2 * edge_count` equally likely values of a draw exactly `degree v` choose vertex `v`. -/
theorem C44_ba_preferential {g : Graph T} (h : g.WF) (v : Nat) :
    ((List.range (2 * g.edgeCount)).filter (fun t => weightedPick g.degreeVec t = v)).length = (g.nbrs v).length := by
  rw [← (C26_degrees h).2.2.1, weightedPick_count, Ba.degreeVec_getD h]

example : exTail.WF ∧ (List.range (2 * exTail.edgeCount)).map (weightedPick exTail.degreeVec) = [0, 0, 1, 1, 2, 2, 2, 3] :=
  ⟨exTail_wf, by decide⟩

/-- A source without edges makes `randomize` panic as soon as a vertex has to be attached. -/
theorem C44_ba_no_edges {e : Ba T R} (hv : e.Valid) (hE : e.source.edgeCount = 0)
    (hlt : e.source.vertexCount < e.graph.vertexCount) (fuel : Nat) : e.randomize fuel = .panic := by
  obtain ⟨g0, h1, h2, h3, h4, h5, h6, h7, h8⟩ := Ba.prepare hv
  unfold Ba.randomize
  rw [h1, Res.ok_bind]
  rcases hs : Rng.shuffle e.rng (List.range' e.source.vertexCount (g0.vertexCount - e.source.vertexCount)) with ⟨order, rng⟩
  have hp : order.Perm (List.range' e.source.vertexCount (g0.vertexCount - e.source.vertexCount)) := by
    have := Rng.shuffle_perm e.rng (List.range' e.source.vertexCount (g0.vertexCount - e.source.vertexCount))
    rw [hs] at this; exact this
  simp only [hs, h8, Res.ok_bind]
  have hsum : g0.degreeVec.sum = 0 := by rw [(C26_degrees h2).2.2.1, h6, hE]
  cases order with
  | nil =>
    have := hp.length_eq
    simp at this; omega
  | cons i order =>
    rw [List.foldlM_cons]
    simp [-Res.bind_eq_ok, Ba.growBody, weightedIndexNew, hsum]

/-- Every returned ensemble that had a vertex to attach has `m ≤` number of vertices of the source with a neighbour. -/
theorem C44_ba_m_le {e e' : Ba T R} (hv : e.Valid) (hE : 1 ≤ e.source.edgeCount)
    (hlt : e.source.vertexCount < e.graph.vertexCount) {fuel : Nat} (he : e.randomize fuel = .ok e') :
    e.m ≤ (Ba.attachable e.source).card := by
  obtain ⟨h1, h2, h3, h4, h5, h6, order, hp, hg⟩ := (C44_ba_randomize hv hE fuel).2 e' he
  have key : ∀ {pre : List Nat} {E : Finset (Sym2 ℕ)}, Grows e.source.edges e.m pre E → pre ≠ [] →
      e.m ≤ (Ba.attachable e.source).card := by
    intro pre E hg
    induction hg with
    | start => intro h; exact absurd rfl h
    | @grow pre E i S hg' _ hS hSv ih =>
      intro _
      by_cases hnil : pre = []
      · subst hnil
        have : E = e.source.edges := hg'.nil rfl
        subst this
        rw [← hS]
        apply Finset.card_le_card
        intro v hvS
        rw [Ba.mem_attachable hv.source, Ba.nbrs_ne_nil_iff hv.source]
        exact hSv v hvS
      · exact ih hnil
  refine key hg ?_
  rintro rfl
  have := hp.length_eq
  simp at this; omega

/-- If `m` exceeds the number of vertices of the source with a neighbour, `randomize` never returns, whatever the generator
does. -/
theorem C44_ba_diverges {e : Ba T R} (hv : e.Valid) (hE : 1 ≤ e.source.edgeCount)
    (hlt : e.source.vertexCount < e.graph.vertexCount) (hm : (Ba.attachable e.source).card < e.m) (fuel : Nat) :
    e.randomize fuel = .diverge := by
  cases hr : e.randomize fuel with
  | ok e' => exact absurd (C44_ba_m_le hv hE hlt hr) (by omega)
  | panic => exact absurd hr (C44_ba_randomize hv hE fuel).1
  | diverge => rfl

namespace Ba

theorem loop_run {g0 : Graph T} (h0 : g0.WF) (hE : 1 ≤ g0.edgeCount) {m : Nat} (hm : m ≤ (attachable g0).card) :
    ∀ (post pre : List Nat), (pre ++ post).Nodup → (∀ i ∈ pre ++ post, i < g0.nextId ∧ g0.nbrs i = []) →
    ∀ (g : Graph T), Loop (R := Script) g0 m pre (g, g.degreeVec, ⟨[]⟩) →
    ∃ ds, ∀ rest : List Nat, ∃ st, post.foldlM (growBody m (m + 1)) (g, g.degreeVec, (⟨ds ++ rest⟩ : Script)) = .ok st := by
  intro post
  induction post with
  | nil => intro pre _ _ g _; exact ⟨[], fun rest => ⟨_, rfl⟩⟩
  | cons i post ih =>
    intro pre hnd hlt g hI
    have hpre : i ∉ pre := by
      intro hc
      exact (List.nodup_append.mp hnd).2.2 _ hc i (by simp) rfl
    have hn : g.nextId = g0.nextId := hI.n
    have hnil : g.nbrs i = [] := hI.isolated h0 (hlt i (by simp)).2 hpre
    have hi : i < g.nextId := by rw [hn]; exact (hlt i (by simp)).1
    obtain ⟨hpos, hw⟩ := weight_pos hI.wf hnil
    obtain ⟨S0, hS0, hS0c⟩ := Finset.exists_subset_card_eq hm
    have hL : ∀ v ∈ S0.toList, v ∉ (∅ : Finset ℕ) ∧ 0 < g.degreeVec.getD v 0 := by
      intro v hv
      refine ⟨by simp, ?_⟩
      have h1 := hS0 (Finset.mem_toList.mp hv)
      rw [mem_attachable h0, nbrs_ne_nil_iff h0] at h1
      obtain ⟨e, he, hve⟩ := h1
      have : g.nbrs v ≠ [] := (nbrs_ne_nil_iff hI.wf).mpr ⟨e, hI.grows.subset he, hve⟩
      rw [degreeVec_getD hI.wf]
      exact List.length_pos_iff.mpr this
    have hlen : S0.toList.length = m := by rw [Finset.length_toList, hS0c]
    obtain ⟨ds, g', S', a2, a3, a1⟩ := attach_run hI.wf hi hnil hw (P := fun v => g.nbrs v ≠ []) hpos S0.toList g ∅
      (Att.start hI.wf _ _) (m := m) (by simp [hS0c]) (Finset.nodup_toList _) hL
    rw [hlen] at a1
    have hI' : Loop (R := Script) g0 m (pre ++ [i]) (g', g'.degreeVec, ⟨[]⟩) := hI.next hnil a2 a3 rfl
    obtain ⟨ds', hds'⟩ := ih (pre ++ [i]) (by simpa using hnd) (by simpa using hlt) g' hI'
    refine ⟨ds ++ ds', fun rest => ?_⟩
    obtain ⟨st, hst⟩ := hds' rest
    refine ⟨st, ?_⟩
    rw [List.foldlM_cons, List.append_assoc,
      growBody_of_attach hI.wf (hI.edge h0 hE) hi hnil (a1 (ds' ++ rest)) a2, Res.ok_bind, hst]

end Ba

/-- **Exact termination condition.** With a vertex to attach, `randomize` can return iff `m` is at most the number of vertices of
the source with a neighbour. -/
theorem C44_ba_returns_iff {source graph : Graph T} {weights : List Nat} {m : Nat}
    (hv : ∀ r : Script, (Ba.Valid { source, graph, rng := r, m, weights })) (hE : 1 ≤ source.edgeCount)
    (hlt : source.vertexCount < graph.vertexCount) :
    (∃ (r : Script) (fuel : Nat) (e' : Ba T Script), Ba.randomize fuel { source, graph, rng := r, m, weights } = .ok e') ↔
      m ≤ (Ba.attachable source).card := by
  constructor
  · rintro ⟨r, fuel, e', he⟩
    exact C44_ba_m_le (hv r) hE hlt he
  · intro hm
    obtain ⟨g0, h1, h2, h3, h4, h5, h6, h7, h8⟩ := Ba.prepare (hv ⟨[]⟩)
    simp only at h1 h2 h3 h4 h5 h6 h7 h8
    have hatt : Ba.attachable g0 = Ba.attachable source := by
      ext v
      rw [Ba.mem_attachable h2, Ba.mem_attachable (hv ⟨[]⟩).source, h7]
    obtain ⟨o1, o2⟩ := Ba.order_spec (hv ⟨[]⟩) h3 h7 (List.Perm.refl _)
    obtain ⟨ds, hds⟩ := Ba.loop_run h2 (by rw [h6]; exact hE) (m := m) (by rw [hatt]; exact hm)
      (List.range' source.vertexCount (g0.vertexCount - source.vertexCount)) [] (by simpa using o1) (by simpa using o2) g0
      ⟨h2, rfl, rfl, rfl, .start⟩
    obtain ⟨st, hst⟩ := hds []
    refine ⟨⟨ds⟩, m + 1, ?_⟩
    rw [List.append_nil] at hst
    unfold Ba.randomize
    simp only [h1, Res.ok_bind, h8, Rng.shuffle, hst]
    exact ⟨_, rfl⟩

/-! ### Constructors -/

theorem attachable_complete {g : Graph T} {n : Nat} (hg : g.WF) (hn : 2 ≤ n)
    (h : ∀ i j, j ∈ g.nbrs i ↔ i < n ∧ j < n ∧ i ≠ j) : Ba.attachable g = Finset.range n := by
  ext v
  rw [Ba.mem_attachable hg, Finset.mem_range]
  constructor
  · intro hh
    obtain ⟨w, hw⟩ := List.exists_mem_of_ne_nil _ hh
    exact ((h v w).mp hw).1
  · intro hv
    by_cases h0 : v = 0
    · exact List.ne_nil_of_mem ((h v 1).mpr (by omega))
    · exact List.ne_nil_of_mem ((h v 0).mpr (by omega))

/-- `new`: panics exactly if its assertions fail; otherwise the source is complete, and every returned graph is simple and
connected (for `m ≥ 1`) with `s(s-1)/2 + m (n-s)` edges.  For `m > s` it never returns. -/
theorem C44_ba_new [Node T] (n : Nat) (rng : R) (m s fuel : Nat) :
    ((Ba.new fuel n rng m s : Res (Ba T R)) = .panic ↔ ¬ (2 ≤ s ∧ s < n)) ∧
    (2 ≤ s → s < n → s < m → (Ba.new fuel n rng m s : Res (Ba T R)) = .diverge) ∧
    ∀ e : Ba T R, Ba.new fuel n rng m s = .ok e → e.Valid ∧ e.graph.vertexCount = n ∧ e.m = m ∧ m ≤ s ∧
      e.graph.edgeCount = s * (s - 1) / 2 + m * (n - s) ∧ e.graph.data = (List.range n).map Node.newFromIndex ∧
      (∀ u v, u < s → v < s → u ≠ v → e.graph.toSimple.Adj u v) ∧
      (∀ v, s ≤ v → v < n → m ≤ (e.graph.nbrs v).length) ∧
      (1 ≤ m → ∀ u v, u < n → v < n → e.graph.toSimple.Reachable u v) := by
  by_cases hs : 2 ≤ s
  · by_cases hn : s < n
    · obtain ⟨g, h1, h2, h3, h4, h5, h6⟩ := completeGraph_spec (T := T) (n := s) (by omega)
      have heq : (Ba.new fuel n rng m s : Res (Ba T R)) =
          Ba.randomize fuel { source := g, graph := GenericGraph.new n, rng, m, weights := List.replicate n 0 } := by
        simp [-Res.bind_eq_ok, Ba.new, hs, hn, h1]
      have hv : Ba.Valid ({ source := g, graph := GenericGraph.new n, rng, m, weights := List.replicate n 0 } : Ba T R) :=
        ⟨h2, new_wf _, by show g.nextId ≤ n; omega, by simp [GenericGraph.new, vertexCount]⟩
      have hE : 1 ≤ g.edgeCount := by
        rw [h4]
        obtain ⟨k, rfl⟩ : ∃ k, s = k + 2 := ⟨s - 2, by omega⟩
        show 1 ≤ (k + 2) * (k + 1) / 2
        rw [Nat.le_div_iff_mul_le (by omega)]
        calc 1 * 2 ≤ 2 * 1 := by omega
          _ ≤ (k + 2) * (k + 1) := Nat.mul_le_mul (by omega) (by omega)
      have hvc : g.vertexCount = s := h3
      have hvn : (GenericGraph.new n : Graph T).vertexCount = n := rfl
      have hatt := attachable_complete h2 hs h5
      rw [heq]
      refine ⟨?_, ?_, ?_⟩
      · refine ⟨fun hc => absurd hc (C44_ba_randomize hv hE fuel).1, fun hc => absurd ⟨hs, hn⟩ hc⟩
      · intro _ _ hm
        refine C44_ba_diverges hv hE (by show g.vertexCount < _; rw [hvc, hvn]; exact hn) ?_ fuel
        show (Ba.attachable g).card < m
        rw [hatt, Finset.card_range]; exact hm
      · intro e he
        obtain ⟨a1, a2, a3, a4, a5, a6, a7⟩ := (C44_ba_randomize hv hE fuel).2 e he
        obtain ⟨b1, b2, b3, b4⟩ := C44_ba_structure hv hE he
        have hm := C44_ba_m_le hv hE (by show g.vertexCount < _; rw [hvc, hvn]; exact hn) he
        simp only [hvc, hvn] at b1 b2 b3 b4 a5
        refine ⟨a1, a5, a3, ?_, ?_, ?_, ?_, b3, b4 ?_⟩
        · have : m ≤ (Ba.attachable g).card := hm
          rwa [hatt, Finset.card_range] at this
        · rw [b1, h4]
        · rw [a4]
          show (GenericGraph.new n : Graph T).data = _
          rw [new_eq_fromVec, fromVec_data]
        · intro u v hu hv' hne
          rw [b2 u v hu hv', h2.adj_iff, h5]
          exact ⟨hu, hv', hne⟩
        · intro u v hu hv'
          by_cases hne : u = v
          · subst hne; exact SimpleGraph.Reachable.refl _
          · exact (h2.adj_iff.mpr ((h5 u v).mpr ⟨hu, hv', hne⟩) : g.toSimple.Adj u v).reachable
    · have : (Ba.new fuel n rng m s : Res (Ba T R)) = .panic := by simp [-Res.bind_eq_ok, Ba.new, hs, hn]
      rw [this]
      exact ⟨by simp [hn], fun _ h => absurd h hn, by simp⟩
  · have : (Ba.new fuel n rng m s : Res (Ba T R)) = .panic := by simp [-Res.bind_eq_ok, Ba.new, hs]
    rw [this]
    exact ⟨by simp [hs], fun h => absurd h hs, by simp⟩

theorem Ba.copyData_spec {source g : Graph T} (hs : source.WF) (hg : g.WF) (hle : source.vertexCount ≤ g.vertexCount) :
    ∃ g', Ba.copyData source g = .ok g' ∧ g'.WF ∧ g'.vertexCount = g.vertexCount ∧
      g'.data = source.data ++ g.data.drop source.vertexCount := by
  have hdl : source.data.length = source.nextId := by simp [data, hs.len]
  have hgl : g.data.length = g.nextId := by simp [data, hg.len]
  obtain ⟨g', h1, h2, h3, h4⟩ := foldlM_range (f := fun g i => do
      let t ← source.at_ i
      g.setAt i t) source.nextId
    (fun k (x : Graph T) => x.WF ∧ x.nextId = g.nextId ∧ x.data = source.data.take k ++ g.data.drop k) (s := g)
    (by
      rintro i x hi ⟨a1, a2, a3⟩
      have hil := hs.lt_length hi
      obtain ⟨x', b1, b2, b3, b4, b5, b6⟩ := setAt_spec a1 (i := i) (by rw [a2]; exact lt_of_lt_of_le hi hle)
        (contained source.vertices[i])
      refine ⟨x', ?_, b2, b3.trans a2, ?_⟩
      · simp only [at_, container, Vec.idx_of_lt hil, Res.ok_bind, Res.pure_eq, b1]
      · have hi' : i < source.data.length := by rw [hdl]; exact hi
        have hig : i < g.data.length := by rw [hgl]; exact lt_of_lt_of_le hi hle
        rw [b6, a3, List.set_append_right _ _ (by simp), List.take_add_one, List.getElem?_eq_getElem hi']
        simp only [List.length_take, Nat.min_eq_left (Nat.le_of_lt hi'), Nat.sub_self, Option.toList_some, List.append_assoc]
        congr 1
        rw [List.drop_eq_getElem_cons hig]
        simp [data])
    ⟨hg, rfl, by simp⟩
  refine ⟨g', h1, h2, h3, ?_⟩
  rw [h4, List.take_of_length_le (by rw [hdl])]
  rfl

/-- `new_from_graph`: panics exactly if the source has an isolated vertex or no vertex at all or too many vertices; otherwise it
grows from the source, whose data are copied. -/
theorem C44_ba_new_from_graph [Node T] {source : Graph T} (hs : source.WF) (n : Nat) (rng : R) (m fuel : Nat) :
    ((Ba.newFromGraph fuel n rng m source : Res (Ba T R)) = .panic ↔
      ¬ ((∀ v, v < source.vertexCount → source.nbrs v ≠ []) ∧ 1 ≤ source.vertexCount ∧ source.vertexCount < n)) ∧
    ((∀ v, v < source.vertexCount → source.nbrs v ≠ []) → 1 ≤ source.vertexCount → source.vertexCount < n →
      source.vertexCount < m → (Ba.newFromGraph fuel n rng m source : Res (Ba T R)) = .diverge) ∧
    ∀ e : Ba T R, Ba.newFromGraph fuel n rng m source = .ok e → e.Valid ∧ e.source = source ∧ e.graph.vertexCount = n ∧
      e.m = m ∧ m ≤ source.vertexCount ∧
      e.graph.edgeCount = source.edgeCount + m * (n - source.vertexCount) ∧
      e.graph.data = source.data ++ ((List.range n).map Node.newFromIndex).drop source.vertexCount ∧
      (∀ u v, u < source.vertexCount → v < source.vertexCount → (e.graph.toSimple.Adj u v ↔ source.toSimple.Adj u v)) ∧
      (∀ v, source.vertexCount ≤ v → v < n → m ≤ (e.graph.nbrs v).length) ∧
      ((∀ u v, u < source.vertexCount → v < source.vertexCount → source.toSimple.Reachable u v) → 1 ≤ m →
        ∀ u v, u < n → v < n → e.graph.toSimple.Reachable u v) := by
  have hall : (source.vertices.all (fun c => AdjContainer.degree c > 0)) = true ↔
      ∀ v, v < source.vertexCount → source.nbrs v ≠ [] := by
    rw [List.all_eq_true]
    constructor
    · intro h v hv
      have hl := hs.lt_length hv
      have := h _ (List.getElem_mem hl)
      simp only [decide_eq_true_eq, LawfulAdj.degree_eq] at this
      rw [nbrs_getElem hl]
      exact List.ne_nil_of_length_pos this
    · intro h c hc
      obtain ⟨v, hv, rfl⟩ := List.getElem_of_mem hc
      have := h v (by show v < source.nextId; rw [← hs.len]; exact hv)
      rw [nbrs_getElem hv] at this
      simpa [LawfulAdj.degree_eq, Nat.pos_iff_ne_zero] using this
  by_cases ha : ∀ v, v < source.vertexCount → source.nbrs v ≠ []
  · by_cases hn : source.vertexCount < n
    · obtain ⟨g, c1, c2, c3, c4⟩ := Ba.copyData_spec hs (new_wf (A := NodeContainer T) n)
        (show source.vertexCount ≤ (GenericGraph.new n : Graph T).vertexCount from Nat.le_of_lt hn)
      have hvn : g.vertexCount = n := c3
      have heq : (Ba.newFromGraph fuel n rng m source : Res (Ba T R)) =
          Ba.randomize fuel { source, graph := g, rng, m, weights := List.replicate n 0 } := by
        simp [-Res.bind_eq_ok, -List.all_eq_true, Ba.newFromGraph, hall.mpr ha, hn, c1]
      have hv : Ba.Valid ({ source, graph := g, rng, m, weights := List.replicate n 0 } : Ba T R) :=
        ⟨hs, c2, by show source.vertexCount ≤ g.vertexCount; omega, by simp [hvn]⟩
      have hlt : source.vertexCount < g.vertexCount := by rw [hvn]; exact hn
      have hatt : Ba.attachable source = Finset.range source.vertexCount := by
        ext v
        rw [Ba.mem_attachable hs, Finset.mem_range]
        refine ⟨fun hh => ?_, ha v⟩
        by_contra hc
        exact hh (nbrs_of_ge (by rw [hs.len]; show source.vertexCount ≤ v; omega))
      rw [heq]
      by_cases h1 : 1 ≤ source.vertexCount
      · have hE : 1 ≤ source.edgeCount := by
          by_contra hc
          exact ha 0 h1 (hs.nbrs_nil_of_edgeCount (by omega) 0)
        refine ⟨⟨fun hc => absurd hc (C44_ba_randomize hv hE fuel).1, fun hc => absurd ⟨ha, h1, hn⟩ hc⟩, ?_, ?_⟩
        · intro _ _ _ hm
          refine C44_ba_diverges hv hE hlt ?_ fuel
          show (Ba.attachable source).card < m
          rw [hatt, Finset.card_range]; exact hm
        · intro e he
          obtain ⟨a1, a2, a3, a4, a5, a6, a7⟩ := (C44_ba_randomize hv hE fuel).2 e he
          obtain ⟨b1, b2, b3, b4⟩ := C44_ba_structure hv hE he
          have hm : m ≤ (Ba.attachable source).card := C44_ba_m_le hv hE hlt he
          simp only [hvn] at b1 b2 b3 b4 a5
          refine ⟨a1, a2, a5, a3, ?_, b1, ?_, b2, b3, b4⟩
          · rwa [hatt, Finset.card_range] at hm
          · rw [a4]
            show g.data = _
            rw [c4, new_eq_fromVec, fromVec_data]
      · have hE : source.edgeCount = 0 := by
          have := hs.edgeCount_le
          have h0 : source.nextId = 0 := by have : source.vertexCount = 0 := by omega
                                            exact this
          rw [h0] at this; omega
        have hp := C44_ba_no_edges hv hE hlt fuel
        rw [hp]
        exact ⟨by simp [h1], fun _ h => absurd h h1, by simp⟩
    · have : (Ba.newFromGraph fuel n rng m source : Res (Ba T R)) = .panic := by
        simp [-Res.bind_eq_ok, -List.all_eq_true, Ba.newFromGraph, hall.mpr ha, hn]
      rw [this]
      exact ⟨by simp [hn], fun _ _ h => absurd h hn, by simp⟩
  · have hf : (source.vertices.all (fun c => AdjContainer.degree c > 0)) = false := by
      rw [← Bool.not_eq_true]; exact fun hc => ha (hall.mp hc)
    have : (Ba.newFromGraph fuel n rng m source : Res (Ba T R)) = .panic := by
      simp [-Res.bind_eq_ok, -List.all_eq_true, -List.all_eq_false, Ba.newFromGraph, hf]
    rw [this]
    refine ⟨?_, fun h => absurd h ha, by simp⟩
    simp only [true_iff]
    exact fun hc => ha hc.1

/-- `new_from_generic_graph` is `new_from_graph` of the converted graph. -/
theorem C44_ba_new_from_generic {A : Type} [AdjContainer T A] [LawfulAdj T A] [Node T] (source : GenericGraph T A) (n : Nat)
    (rng : R) (m fuel : Nat) :
    (Ba.newFromGenericGraph fuel n rng m source : Res (Ba T R)) = Ba.newFromGraph fuel n rng m source.toGraph := by
  have : source.toGraph.vertices.all (fun c => AdjContainer.degree c > 0) =
      source.vertices.all (fun c => AdjContainer.degree c > 0) := by
    simp [toGraph, List.all_map, Function.comp_def, LawfulAdj.degree_eq, neighbors]
  unfold Ba.newFromGenericGraph Ba.newFromGraph
  rw [this]
  rfl

/-! ### Examples -/

/-- The path of four vertices grown to six vertices. -/
def exBa (draws : List Nat) : Ba Nat Script :=
  { source := exPath, graph := GenericGraph.new 6, rng := ⟨draws⟩, m := 2, weights := [0, 0, 0, 0, 0, 0] }

theorem exBa_valid (draws : List Nat) : (exBa draws).Valid := ⟨exPath_wf, new_wf _, show exPath.vertexCount ≤ 6 by decide, rfl⟩

example : 1 ≤ (exBa []).source.edgeCount ∧ (exBa []).source.vertexCount < (exBa []).graph.vertexCount ∧
    (exBa []).m ≤ (Ba.attachable (exBa []).source).card := by decide

example : ((exBa [0, 0, 1, 9, 0]).randomize 4).bind (fun e => .ok (e.graph.degreeVec, e.graph.edgeCount, e.weights)) =
    .ok ([3, 3, 2, 1, 3, 2], 7, [3, 3, 2, 1, 3, 2]) := by decide

end Verif
