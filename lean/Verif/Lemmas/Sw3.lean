import Verif.Lemmas.Sw2

/-!
# Small-world ensemble: `make_connected`
-/

set_option linter.unusedSectionVars false
set_option linter.unusedSimpArgs false

namespace Verif
open AdjContainer GenericGraph
open scoped BigOperators

variable {T R : Type} [Rng R]

/-- The vertices whose edge to the next vertex of the ring is in place. -/
def SwGraph.homes (g : SwGraph T) : Finset ℕ :=
  (Finset.range g.nextId).filter
    (fun x => (⟨(x + 1) % g.nextId, some ((x + 1) % g.nextId)⟩ : SwEdge) ∈ SwGraph.raw g x)

theorem SwGraph.mem_homes {g : SwGraph T} {x : ℕ} : x ∈ SwGraph.homes g ↔
    x < g.nextId ∧ (⟨(x + 1) % g.nextId, some ((x + 1) % g.nextId)⟩ : SwEdge) ∈ SwGraph.raw g x := by
  unfold SwGraph.homes; rw [Finset.mem_filter, Finset.mem_range]

theorem SwGraph.homes_card (g : SwGraph T) : (SwGraph.homes g).card ≤ g.nextId := by
  have := Finset.card_filter_le (Finset.range g.nextId)
    (fun x => (⟨(x + 1) % g.nextId, some ((x + 1) % g.nextId)⟩ : SwEdge) ∈ SwGraph.raw g x)
  rw [Finset.card_range] at this
  exact this

/-- The root edge that originally led to `o`. -/
theorem SwValid.find {g : SwGraph T} (h : SwValid g) {i o : Nat} (hi : i < g.nextId)
    (ho : o = (i + 1) % g.nextId ∨ o = (i + 2) % g.nextId) :
    ∃ d, (SwGraph.raw g i).find? (fun edge => edge.originallyTo == some o) = some ⟨d, some o⟩ ∧
      (⟨d, some o⟩ : SwEdge) ∈ SwGraph.raw g i := by
  have : o ∈ (SwGraph.raw g i).filterMap (·.originallyTo) := by
    rw [(h.roots i hi).mem_iff]; simpa using ho
  obtain ⟨e, he, heo⟩ := List.mem_filterMap.mp this
  have hs : ((SwGraph.raw g i).find? (fun edge => edge.originallyTo == some o)).isSome := by
    rw [List.find?_isSome]; exact ⟨e, he, by simp [heo]⟩
  obtain ⟨f, hf⟩ := Option.isSome_iff_exists.mp hs
  have h1 := List.find?_some hf
  have h2 := List.mem_of_find?_eq_some hf
  obtain ⟨d, o'⟩ := f
  simp only [beq_iff_eq] at h1
  subst h1
  exact ⟨d, hf, h2⟩

/-- State of the pass over the ring after `t` vertices. -/
structure PassInv (g0 : SwGraph T) (num : Nat) (ids : List Int) (t : Nat) (s : SwGraph T × List Bool) : Prop where
  valid : SwValid s.1
  n : s.1.nextId = g0.nextId
  data : s.1.data = g0.data
  len : s.2.length = num
  edges : ∀ p ∈ s.1.edges, p ∈ g0.edges ∨ ∃ x < t, p = s(x, (x + 1) % g0.nextId)
  homes : SwGraph.homes g0 ⊆ SwGraph.homes s.1
  roots : ∀ x, ∀ e ∈ SwGraph.raw s.1 x, e.isRoot = true → e ∈ SwGraph.raw g0 x ∨ e.originallyTo = some e.dst
  prog : SwGraph.homes g0 ≠ SwGraph.homes s.1 ∨
    ((∀ m < num, s.2[m]? = some false) ∧ ∀ x < t, ids[x]? = ids[(x + 1) % g0.nextId]?)

theorem connectBody_spec {g0 : SwGraph T} {num : Nat} {ids : List Int} {reps : List Nat} (h0 : SwValid g0)
    (hc : CcInv g0 g0.nextId num ids reps) {t : Nat} {s : SwGraph T × List Bool} (ht : t < g0.nextId)
    (q : PassInv g0 num ids t s) : ∃ s', SwEns.connectBody ids s t = .ok s' ∧ PassInv g0 num ids (t + 1) s' := by
  obtain ⟨g, nc⟩ := s
  obtain ⟨qv, qn, qd, ql, qe, qh, qr, qp⟩ := q
  simp only at qv qn qd ql qe qh qr qp
  have hn := h0.size
  have hs : (t + 1) % g0.nextId < g0.nextId := Nat.mod_lt _ (by omega)
  have lab : ∀ x < g0.nextId, ∃ c < num, ids[x]? = some (c : Int) := by
    intro x hx
    rcases hc.val x hx with h1 | h1
    · exact absurd h1 (hc.done x hx hx)
    · exact h1
  obtain ⟨a, ha, ia⟩ := lab t ht
  obtain ⟨b, hb, ib⟩ := lab _ hs
  have hm : min (a : Int) (b : Int) = ((min a b : Nat) : Int) := by omega
  have hml : min a b < nc.length := by rw [ql]; omega
  have hvc : g.vertexCount = g0.nextId := qn
  have mono : ∀ p ∈ g.edges, p ∈ g0.edges ∨ ∃ x < t + 1, p = s(x, (x + 1) % g0.nextId) := by
    intro p hp
    rcases qe p hp with h1 | ⟨x, h1, h2⟩
    · exact .inl h1
    · exact .inr ⟨x, by omega, h2⟩
  have hus : GenericGraph.toUsize (min (a : Int) (b : Int)) = .ok (min a b) := by
    rw [hm]; simp [toUsize]
  by_cases hcond : nc[min a b] = false ∧ (a : Int) ≠ (b : Int)
  · have hab : ¬ g0.toSimple.Reachable t ((t + 1) % g0.nextId) := by
      intro hr
      have := (hc.same t a ia _).mpr hr
      rw [ib] at this
      simp at this
      exact hcond.2 (by omega)
    have hnot : (t + 1) % g0.nextId ∉ g.nbrs t := by
      intro hmem
      have := qv.wf.mem_edges.mpr hmem
      rcases qe _ this with h1 | ⟨x, h1, h2⟩
      · have := h0.wf.mem_edges.mp h1
        exact hab (SimpleGraph.Adj.reachable (h0.wf.adj_iff.mpr this))
      · rw [Sym2.eq_iff] at h2
        rcases h2 with ⟨h2, _⟩ | ⟨h2, h3⟩
        · omega
        · rcases add_mod_cases ht (show 1 < g0.nextId by omega) with h4 | h4 <;>
          rcases add_mod_cases (show x < g0.nextId by omega) (show 1 < g0.nextId by omega) with h5 | h5 <;> omega
    obtain ⟨d, hd, hdm⟩ := qv.find (i := t) (o := (t + 1) % g0.nextId) (by rw [qn]; exact ht) (by rw [qn]; exact .inl rfl)
    rcases resetEdge_spec qv hdm with ⟨h1, _⟩ | ⟨_, h1, _⟩ | ⟨h1, h2, g', h3, h4⟩
    · subst h1
      exact absurd (sw_mem_nbrs.mpr ⟨_, hdm, rfl⟩) hnot
    · exact absurd h1 hnot
    · obtain ⟨c, c1, _, c3, _⟩ := sw_container qv.wf (i := t) (by rw [qn]; exact ht)
      rw [c3] at hd
      refine ⟨(g', nc.set (min a b) true), ?_, ?_⟩
      · unfold SwEns.connectBody
        simp only [hvc]
        rw [Vec.idx_of_some ia, Res.ok_bind, Vec.idx_of_some ib, Res.ok_bind, hus, Res.ok_bind, Vec.idx_of_lt hml, Res.ok_bind,
          if_pos hcond, Vec.put_of_lt hml, Res.ok_bind, Vec.idx_of_some c1, Res.ok_bind, SwContainer.iterRawEdges, hd]
        simp [-Res.bind_eq_ok, h3]
      · have hhome : t ∉ SwGraph.homes g0 := by
          intro hmem
          have := qh hmem
          rw [SwGraph.mem_homes, qn] at this
          exact hnot (sw_mem_nbrs.mpr ⟨_, this.2, rfl⟩)
        have hhome' : t ∈ SwGraph.homes g' := by
          rw [SwGraph.mem_homes, h4.n, qn]
          exact ⟨ht, (h4.mem qv.wf).mpr (.inl ⟨rfl, rfl⟩)⟩
        refine ⟨h4.valid qv, h4.n.trans qn, h4.data.trans qd, by simpa using ql, ?_, ?_, ?_, .inl ?_⟩
        · intro p hp
          change p ∈ g'.edges at hp
          rw [h4.edges qv.wf, Finset.mem_insert, Finset.mem_erase] at hp
          rcases hp with rfl | hp
          · exact .inr ⟨t, by omega, rfl⟩
          · exact mono p hp.2
        · intro x hx
          have hx' := qh hx
          rw [SwGraph.mem_homes] at hx' ⊢
          change x < g'.nextId ∧ _ ∈ SwGraph.raw g' x
          rw [h4.n]
          refine ⟨hx'.1, (h4.mem qv.wf).mpr (.inr (.inr ⟨hx'.2, ?_, ?_⟩))⟩
          · rintro ⟨rfl, _⟩
            exact hhome hx
          · rintro ⟨rfl, h5⟩
            simp only at h5
            have := sw_raw_inj qv.wf hx'.2 (qv.loose hdm) h5
            simp at this
        · intro x e he hroot
          rcases (h4.mem qv.wf).mp he with ⟨rfl, rfl⟩ | ⟨rfl, rfl⟩ | ⟨h5, _⟩
          · exact .inr rfl
          · simp [SwEdge.isRoot] at hroot
          · exact qr x e h5 hroot
        · intro heq
          rw [heq] at hhome
          exact hhome hhome'
  · refine ⟨(g, nc), ?_, qv, qn, qd, ql, mono, qh, qr, ?_⟩
    · unfold SwEns.connectBody
      simp only [hvc]
      rw [Vec.idx_of_some ia, Res.ok_bind, Vec.idx_of_some ib, Res.ok_bind, hus, Res.ok_bind, Vec.idx_of_lt hml, Res.ok_bind,
        if_neg hcond]
      rfl
    · rcases qp with h1 | ⟨h1, h2⟩
      · exact .inl h1
      · refine .inr ⟨h1, ?_⟩
        have hf : nc[min a b] = false := by
          have := h1 (min a b) (by omega)
          rw [List.getElem?_eq_getElem hml] at this
          simpa using this
        have hab : a = b := by
          by_contra hne
          exact hcond ⟨hf, by omega⟩
        intro x hx
        by_cases hxt : x = t
        · subst hxt; rw [ia, ib, hab]
        · exact h2 x (by omega)

/-- Equal labels along the ring: connected. -/
theorem ring_labels_connected {g0 : SwGraph T} {num : Nat} {ids : List Int} {reps : List Nat}
    (hc : CcInv g0 g0.nextId num ids reps) (h : ∀ x < g0.nextId, ids[x]? = ids[(x + 1) % g0.nextId]?) :
    ∀ v w, v < g0.nextId → w < g0.nextId → g0.toSimple.Reachable v w := by
  have hz : ∀ v < g0.nextId, ids[v]? = ids[0]? := by
    intro v
    induction v with
    | zero => intro _; rfl
    | succ v ih =>
      intro hv
      rw [← ih (by omega), h v (by omega), Nat.mod_eq_of_lt hv]
  intro v w hv hw
  rcases hc.val v hv with h1 | ⟨c, _, h1⟩
  · exact absurd h1 (hc.done v hv hv)
  · exact (hc.same v c h1 w).mp (by rw [hz w hw, ← hz v hv, h1])

theorem connectLoop_sw_spec : ∀ (fuel : Nat) {g : SwGraph T}, SwValid g →
    g.nextId + 1 ≤ fuel + (SwGraph.homes g).card →
    ∃ g', SwEns.connectLoop fuel g = .ok g' ∧ SwValid g' ∧ g'.nextId = g.nextId ∧ g'.data = g.data ∧
      (∀ v w, v < g.nextId → w < g.nextId → g'.toSimple.Reachable v w) ∧
      (∀ x, ∀ e ∈ SwGraph.raw g' x, e.isRoot = true → e ∈ SwGraph.raw g x ∨ e.originallyTo = some e.dst) ∧
      ((∀ v w, v < g.nextId → w < g.nextId → g.toSimple.Reachable v w) → g' = g) := by
  intro fuel
  induction fuel with
  | zero =>
    intro g h hf
    have := SwGraph.homes_card g
    omega
  | succ fuel ih =>
    intro g h hf
    have hn := h.size
    obtain ⟨b, b1, b2⟩ := isConnected_spec h.wf (by omega)
    cases b with
    | true =>
      refine ⟨g, by simp [-Res.bind_eq_ok, SwEns.connectLoop, b1], h, rfl, rfl, b2.mp rfl, fun x e he _ => .inl he, fun _ => rfl⟩
    | false =>
      obtain ⟨num, ids, reps, c1, c2⟩ := ccIds_spec h.wf
      obtain ⟨⟨g1, nc1⟩, d1, d2⟩ := foldlM_range (f := SwEns.connectBody ids) g.nextId (PassInv g num ids)
        (fun i s hi hs => connectBody_spec h c2 hi hs) (s := (g, List.replicate num false))
        ⟨h, rfl, rfl, by simp, fun p hp => .inl hp, Finset.Subset.refl _, fun x e he _ => .inl he,
          .inr ⟨fun m hm => by simp [List.getElem?_replicate, hm], by simp⟩⟩
      have hnc : ¬ ∀ v w, v < g.nextId → w < g.nextId → g.toSimple.Reachable v w := fun hc => by simpa using b2.mpr hc
      have hprog : SwGraph.homes g ≠ SwGraph.homes g1 := by
        rcases d2.prog with h1 | ⟨_, h1⟩
        · exact h1
        · exact absurd (ring_labels_connected c2 h1) hnc
      have hlt := Finset.card_lt_card (Finset.ssubset_iff_subset_ne.mpr ⟨d2.homes, hprog⟩)
      have d2n : g1.nextId = g.nextId := d2.n
      obtain ⟨g', e1, e2, e3, e4, e5, e6, _⟩ := ih d2.valid (by rw [d2.n]; simp only at hlt ⊢; omega)
      simp only at e3 e4 e5
      refine ⟨g', ?_, e2, e3.trans d2.n, e4.trans d2.data, by rw [d2n] at e5; exact e5, ?_, fun hc => absurd hc hnc⟩
      · have hvc : g.vertexCount = g.nextId := rfl
        simp [-Res.bind_eq_ok, SwEns.connectLoop, b1, c1, hvc, d1, e1]
      · intro x e he hroot
        rcases e6 x e he hroot with h1 | h1
        · exact d2.roots x e h1 hroot
        · exact .inr h1

end Verif
