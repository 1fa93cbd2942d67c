import Verif.Lemmas.Sw3
import Mathlib.Algebra.BigOperators.Group.Finset.Basic
import Mathlib.Algebra.BigOperators.Group.List.Basic
import Mathlib.Tactic.NormNum
import Mathlib.Tactic.Linarith

/-!
# Small-world ensemble: arbitrary undo steps, long-ranging edges, drawing an edge
-/

set_option linter.unusedSectionVars false
set_option linter.unusedSimpArgs false

namespace Verif
open AdjContainer GenericGraph
open scoped BigOperators

variable {T R : Type} [Rng R]

/-- `rewire_edge` with arbitrary arguments: if it returns, the network is valid again. -/
theorem rewireEdge_any {g g' : SwGraph T} (h : SwValid g) {i j k : Nat} {s : SwChange}
    (e : SwGraph.rewireEdge g i j k = .ok (s, g')) : SwValid g' ∧ g'.nextId = g.nextId ∧ g'.data = g.data := by
  have e0 := e
  unfold SwGraph.rewireEdge at e
  split at e
  · simp at e; rw [← e.2]; exact ⟨h, rfl, rfl⟩
  · rename_i hjk
    simp only [Res.bind_eq_ok] at e
    obtain ⟨⟨c0, c1, c2⟩, e1, ⟨s', d0, d1, d2⟩, e2, e3⟩ := e
    have hlt : (i < g.nextId ∧ j < g.nextId ∧ k < g.nextId) ∧ i ≠ j ∧ j ≠ k ∧ k ≠ i := by
      unfold get3 at e1
      simp only [Res.bind_eq_ok] at e1
      obtain ⟨⟨⟩, a1, ⟨⟩, a2, _⟩ := e1
      simp only [Res.assert_eq_ok, Bool.and_eq_true, bne_iff_ne, decide_eq_true_eq] at a1 a2
      exact ⟨⟨a1.1.1, a1.1.2, a1.2⟩, a2.1.1, a2.1.2, a2.2⟩
    obtain ⟨⟨hi, hj, hk⟩, hij, _, hki⟩ := hlt
    obtain ⟨b0, b1, b2, a0, a1, a2, a3⟩ := get3_of_lt h.wf.len hi hj hk hij hjk hki
    rw [a3] at e1
    simp only [Res.ok.injEq, Prod.mk.injEq] at e1
    obtain ⟨rfl, rfl, rfl⟩ := e1
    have i1 : b1.id = j := h.wf.ids _ _ a1
    by_cases hm : ∃ o, (⟨j, some o⟩ : SwEdge) ∈ SwGraph.raw g i
    · obtain ⟨o, hm⟩ := hm
      rcases rewireEdge_spec h hm hk hki with ⟨_, h4⟩ | ⟨_, _, h4⟩ | ⟨_, _, g2, h4, h5⟩
      · rw [h4] at e0; simp at e0; rw [← e0.2]; exact ⟨h, rfl, rfl⟩
      · rw [h4] at e0; simp at e0; rw [← e0.2]; exact ⟨h, rfl, rfl⟩
      · rw [h4] at e0; simp at e0; rw [← e0.2]; exact ⟨h5.valid h, h5.n, h5.data⟩
    · have hset : ((g.vertices.set i b0).set j b1).set k b2 = g.vertices := by
        obtain ⟨x1, rfl⟩ := List.getElem?_eq_some_iff.mp a0
        obtain ⟨x2, rfl⟩ := List.getElem?_eq_some_iff.mp a1
        obtain ⟨x3, rfl⟩ := List.getElem?_eq_some_iff.mp a2
        simp
      have same : d0 = b0 ∧ d1 = b1 ∧ d2 = b2 := by
        unfold SwContainer.rewire at e2
        split at e2
        · simp at e2; exact ⟨e2.2.1.symm, e2.2.2.1.symm, e2.2.2.2.symm⟩
        · rename_i p hp
          split at e2
          · simp at e2; exact ⟨e2.2.1.symm, e2.2.2.1.symm, e2.2.2.2.symm⟩
          · exfalso
            simp only [Res.bind_eq_ok] at e2
            obtain ⟨edge, f1, _, f2, _⟩ := e2
            simp only [Res.assert_eq_ok, Vec.idx_eq_ok] at f1 f2
            unfold SwContainer.adjPosition at hp
            rw [List.findIdx?_eq_some_iff_getElem] at hp
            obtain ⟨q1, q2, _⟩ := hp
            rw [List.getElem?_eq_getElem q1] at f1
            simp only [Option.some.injEq] at f1
            rw [f1, i1] at q2
            apply hm
            rw [sw_raw_of_some a0]
            obtain ⟨dst, og⟩ := edge
            simp only [beq_iff_eq] at q2
            subst q2
            cases og with
            | none => simp [SwEdge.isRoot] at f2
            | some o => exact ⟨o, by rw [← f1]; exact List.getElem_mem q1⟩
      obtain ⟨rfl, rfl, rfl⟩ := same
      simp [hset] at e3
      rw [← e3.2]; exact ⟨h, rfl, rfl⟩

/-! ### Long-ranging edges -/

/-- The root edges, as pairs (owner, ring distance), that do not lead to their original target. -/
def SwGraph.away (g : SwGraph T) : Finset (ℕ × ℕ) :=
  (Finset.range g.nextId ×ˢ {1, 2}).filter (fun p =>
    (⟨(p.1 + p.2) % g.nextId, some ((p.1 + p.2) % g.nextId)⟩ : SwEdge) ∉ SwGraph.raw g p.1)

theorem vertices_eq_map_raw {g : SwGraph T} (h : g.WF) :
    g.vertices.map (fun c => c.adj) = (List.range g.nextId).map (SwGraph.raw g) := by
  apply List.ext_getElem?
  intro x
  rw [List.getElem?_map, List.getElem?_map]
  by_cases hx : x < g.nextId
  · obtain ⟨c, c1, _, c3, _⟩ := sw_container h hx
    rw [c1, List.getElem?_range hx]; simp [c3]
  · have hl := h.len
    rw [List.getElem?_eq_none (by omega), List.getElem?_eq_none (by simpa using hx)]; rfl

theorem countLong_sum {g : SwGraph T} (h : g.WF) : SwGraph.countLongRangingEdges g =
    ∑ x ∈ Finset.range g.nextId, ((SwGraph.raw g x).filter SwEdge.isLongRangingRoot).length := by
  unfold SwGraph.countLongRangingEdges
  rw [List.flatMap_def, vertices_eq_map_raw h, List.filter_flatten, List.length_flatten, List.map_map, List.map_map,
    Finset.sum_eq_multiset_sum, Finset.range_val, ← Multiset.coe_range, Multiset.map_coe, Multiset.sum_coe]
  rfl

theorem filter_long (l : List SwEdge) :
    (l.filter SwEdge.isRoot).filter SwEdge.isLongRangingRoot = l.filter SwEdge.isLongRangingRoot := by
  rw [List.filter_filter]
  apply List.filter_congr
  rintro ⟨d, o⟩ _
  cases o <;> simp [SwEdge.isRoot, SwEdge.isLongRangingRoot]

theorem SwValid.long_vertex {g : SwGraph T} (h : SwValid g) {x : Nat} (hx : x < g.nextId) :
    ((SwGraph.raw g x).filter SwEdge.isLongRangingRoot).length =
      (if (⟨(x + 1) % g.nextId, some ((x + 1) % g.nextId)⟩ : SwEdge) ∉ SwGraph.raw g x then 1 else 0) +
      (if (⟨(x + 2) % g.nextId, some ((x + 2) % g.nextId)⟩ : SwEdge) ∉ SwGraph.raw g x then 1 else 0) := by
  obtain ⟨d1, o1, d2, o2, h1, h2, h3⟩ := h.rootPair hx
  have hn := h.size
  have hne : (x + 1) % g.nextId ≠ (x + 2) % g.nextId := by
    rcases add_mod_cases hx (show 1 < g.nextId by omega) with h4 | h4 <;>
    rcases add_mod_cases hx (show 2 < g.nextId by omega) with h5 | h5 <;> omega
  have hmem : ∀ o, (⟨o, some o⟩ : SwEdge) ∈ SwGraph.raw g x ↔ (o = d1 ∧ o = o1) ∨ (o = d2 ∧ o = o2) := by
    intro o
    have : (⟨o, some o⟩ : SwEdge) ∈ SwGraph.raw g x ↔ (⟨o, some o⟩ : SwEdge) ∈ (SwGraph.raw g x).filter SwEdge.isRoot := by
      rw [List.mem_filter]; simp [SwEdge.isRoot]
    rw [this, h1]; simp
  rw [← filter_long, h1]
  generalize (x + 1) % g.nextId = a at *
  generalize (x + 2) % g.nextId = b at *
  have hl : ∀ d o : Nat, SwEdge.isLongRangingRoot ⟨d, some o⟩ = decide (o ≠ d) := by
    intro d o; simp [SwEdge.isLongRangingRoot, bne, Bool.beq_eq_decide_eq]
  have hp : (o1 = a ∧ o2 = b) ∨ (o1 = b ∧ o2 = a) := by
    have m1 := h2.mem_iff (a := o1)
    have m2 := h2.mem_iff (a := o2)
    have m3 := h2.nodup_iff
    simp at m1 m2 m3
    have : ¬ o1 = o2 := m3.mpr hne
    rcases m1 with m1 | m1 <;> rcases m2 with m2 | m2
    · omega
    · exact .inl ⟨m1, m2⟩
    · exact .inr ⟨m1, m2⟩
    · omega
  rcases hp with ⟨rfl, rfl⟩ | ⟨rfl, rfl⟩
  · have k1 : (⟨o1, some o1⟩ : SwEdge) ∈ SwGraph.raw g x ↔ o1 = d1 := (hmem _).trans (by omega)
    have k2 : (⟨o2, some o2⟩ : SwEdge) ∈ SwGraph.raw g x ↔ o2 = d2 := (hmem _).trans (by omega)
    simp only [k1, k2]
    by_cases c1 : o1 = d1 <;> by_cases c2 : o2 = d2 <;> simp [List.filter_cons, hl, c1, c2]
  · have k1 : (⟨o1, some o1⟩ : SwEdge) ∈ SwGraph.raw g x ↔ o1 = d1 := (hmem _).trans (by omega)
    have k2 : (⟨o2, some o2⟩ : SwEdge) ∈ SwGraph.raw g x ↔ o2 = d2 := (hmem _).trans (by omega)
    simp only [k1, k2]
    by_cases c1 : o1 = d1 <;> by_cases c2 : o2 = d2 <;> simp [List.filter_cons, hl, c1, c2]

theorem countLong_away {g : SwGraph T} (h : SwValid g) : SwGraph.countLongRangingEdges g = (SwGraph.away g).card := by
  rw [countLong_sum h.wf]
  unfold SwGraph.away
  rw [Finset.card_filter, Finset.sum_product]
  apply Finset.sum_congr rfl
  intro x hx
  rw [h.long_vertex (Finset.mem_range.mp hx), Finset.sum_pair (by decide)]

/-- Moving a root edge changes the number of long-ranging edges accordingly. -/
theorem SwMoved.long {g g' : SwGraph T} {i j k o : Nat} (m : SwMoved g g' i j k o) (h : g.WF) :
    SwGraph.countLongRangingEdges g' + (if j ≠ o then 1 else 0) = SwGraph.countLongRangingEdges g + (if k ≠ o then 1 else 0) := by
  have hjn : j ∈ g.nbrs i := sw_mem_nbrs.mpr ⟨_, m.old_mem, rfl⟩
  have hi := h.lt_left hjn
  rw [countLong_sum h, countLong_sum (m.wf h), m.n]
  obtain ⟨L, h1, h2⟩ := m.pi
  have hx : ∀ x, ((SwGraph.raw g' x).filter SwEdge.isLongRangingRoot).length + (if x = i then (if j ≠ o then 1 else 0) else 0) =
      ((SwGraph.raw g x).filter SwEdge.isLongRangingRoot).length + (if x = i then (if k ≠ o then 1 else 0) else 0) := by
    intro x
    by_cases hxi : x = i
    · subst hxi
      rw [(h1.filter _).length_eq, (h2.filter _).length_eq]
      have hl : ∀ d : Nat, SwEdge.isLongRangingRoot ⟨d, some o⟩ = decide (d ≠ o) := by
        intro d
        by_cases hdo : d = o
        · subst hdo; simp [SwEdge.isLongRangingRoot]
        · have : o ≠ d := fun hc => hdo hc.symm
          simp [SwEdge.isLongRangingRoot, hdo, this]
      simp only [List.filter_cons, hl]
      by_cases c1 : j = o <;> by_cases c2 : k = o <;> simp [c1, c2]
    · simp only [hxi, if_false, Nat.add_zero]
      by_cases hxj : x = j
      · subst hxj
        rw [(m.pj.filter _).length_eq]; simp [List.filter_cons, SwEdge.isLongRangingRoot]
      · by_cases hxk : x = k
        · subst hxk
          rw [(m.pk.filter _).length_eq]; simp [List.filter_cons, SwEdge.isLongRangingRoot]
        · rw [m.fr x hxi hxj hxk]
  have := Finset.sum_congr (s₁ := Finset.range g.nextId) rfl (fun x _ => hx x)
  rw [Finset.sum_add_distrib, Finset.sum_add_distrib, Finset.sum_ite_eq', Finset.sum_ite_eq'] at this
  simpa [hi] using this

theorem SwSame.long {g g' : SwGraph T} (t : SwSame g g') (h : g.WF) (h' : g'.WF) :
    SwGraph.countLongRangingEdges g' = SwGraph.countLongRangingEdges g := by
  rw [countLong_sum h, countLong_sum h', t.n]
  exact Finset.sum_congr rfl (fun x _ => ((t.raw x).filter _).length_eq)

/-- Vertices at either end of a long-ranging root edge. -/
noncomputable def SwGraph.longEnds (g : SwGraph T) : Finset ℕ :=
  open Classical in
  (Finset.range g.nextId).filter (fun v => ∃ x, ∃ e ∈ SwGraph.raw g x, e.isLongRangingRoot = true ∧ (v = x ∨ v = e.dst))

theorem marks_inner {n : Nat} (index : Nat) (hi : index < n) : ∀ (l : List SwEdge) (marks : List Bool), marks.length = n →
    (∀ e ∈ l, e.dst < n) →
    ∃ marks', l.foldlM (fun marks e => do
      let marks ← Vec.put marks index true
      Vec.put marks e.dst true) marks = Res.ok marks' ∧ marks'.length = n ∧
      ∀ v, marks'[v]? = some true ↔ marks[v]? = some true ∨ ∃ e ∈ l, v = index ∨ v = e.dst := by
  intro l
  induction l with
  | nil => intro marks hl _; exact ⟨marks, rfl, hl, by simp⟩
  | cons e l ih =>
    intro marks hl hd
    have hde := hd e (by simp)
    obtain ⟨marks', a1, a2, a3⟩ := ih ((marks.set index true).set e.dst true) (by simpa using hl) (fun f hf => hd f (by simp [hf]))
    refine ⟨marks', ?_, a2, ?_⟩
    · rw [List.foldlM_cons, Vec.put_of_lt (by omega), Res.ok_bind, Vec.put_of_lt (by simp; omega), Res.ok_bind]
      exact a1
    · intro v
      rw [a3]
      have : ((marks.set index true).set e.dst true)[v]? = some true ↔ marks[v]? = some true ∨ v = index ∨ v = e.dst := by
        by_cases h1 : v = e.dst
        · subst h1; simp [hl, hde]
        · rw [List.getElem?_set_ne (Ne.symm h1)]
          by_cases h2 : v = index
          · subst h2; simp [hl, hi]
          · rw [List.getElem?_set_ne (Ne.symm h2)]; simp [h1, h2]
      rw [this]
      simp only [List.mem_cons, exists_eq_or_imp]
      constructor
      · rintro ((h1 | h1) | h1)
        · exact .inl h1
        · exact .inr (.inl h1)
        · exact .inr (.inr h1)
      · rintro (h1 | h1 | h1)
        · exact .inl (.inl h1)
        · exact .inl (.inr h1)
        · exact .inr h1

theorem marks_outer {g : SwGraph T} (h : g.WF) : ∀ (l : List (SwContainer T)) (s : Nat) (marks : List Bool),
    marks.length = g.nextId → (∀ k, l[k]? = g.vertices[s + k]?) →
    ∃ marks', (l.zipIdx s).foldlM (fun (marks : List Bool) (c, index) =>
      (c.iterRawEdges.filter SwEdge.isLongRangingRoot).foldlM (fun marks e => do
        let marks ← Vec.put marks index true
        Vec.put marks e.dst true) marks) marks = Res.ok marks' ∧ marks'.length = g.nextId ∧
      ∀ v, marks'[v]? = some true ↔ marks[v]? = some true ∨
        ∃ x, s ≤ x ∧ ∃ e ∈ SwGraph.raw g x, e.isLongRangingRoot = true ∧ (v = x ∨ v = e.dst) := by
  intro l
  induction l with
  | nil =>
    intro s marks hl hk
    refine ⟨marks, rfl, hl, fun v => ?_⟩
    constructor
    · exact .inl
    · rintro (h1 | ⟨x, h1, e, h2, _⟩)
      · exact h1
      · have := hk (x - s)
        rw [show s + (x - s) = x by omega] at this
        simp [SwGraph.raw, ← this] at h2
  | cons c l ih =>
    intro s marks hl hk
    have hs : g.vertices[s]? = some c := by have := hk 0; simpa using this.symm
    have hsl : s < g.nextId := by rw [← h.len]; exact (List.getElem?_eq_some_iff.mp hs).1
    have hr := sw_raw_of_some hs
    obtain ⟨m1, a1, a2, a3⟩ := marks_inner s hsl (c.iterRawEdges.filter SwEdge.isLongRangingRoot) marks hl (by
      intro e he
      exact h.lt s _ (sw_mem_nbrs.mpr ⟨e, by rw [hr]; exact (List.mem_filter.mp he).1, rfl⟩))
    obtain ⟨m2, b1, b2, b3⟩ := ih (s + 1) m1 a2 (fun k => by
      have := hk (k + 1)
      rw [show s + 1 + k = s + (k + 1) by omega, ← this]; simp)
    refine ⟨m2, ?_, b2, fun v => ?_⟩
    · rw [List.zipIdx_cons, List.foldlM_cons]
      simp only
      rw [a1, Res.ok_bind]; exact b1
    · rw [b3, a3]
      constructor
      · rintro ((h1 | ⟨e, h1, h2⟩) | ⟨x, h1, h2⟩)
        · exact .inl h1
        · rw [List.mem_filter] at h1
          exact .inr ⟨s, le_refl _, e, by rw [hr]; exact h1.1, h1.2, h2⟩
        · exact .inr ⟨x, by omega, h2⟩
      · rintro (h1 | ⟨x, h1, e, h2, h3, h4⟩)
        · exact .inl (.inl h1)
        · by_cases hx : x = s
          · subst hx
            rw [hr] at h2
            exact .inl (.inr ⟨e, List.mem_filter.mpr ⟨h2, h3⟩, h4⟩)
          · exact .inr ⟨x, by omega, e, h2, h3, h4⟩

theorem count_true_card : ∀ (l : List Bool), (l.filter (fun b => b)).length =
    ((Finset.range l.length).filter (fun v => l[v]? = some true)).card := by
  intro l
  induction l using List.reverseRecOn with
  | nil => rfl
  | append_singleton l b ih =>
    rw [List.filter_append, List.length_append, ih, List.length_append, List.length_singleton, Finset.range_add_one,
      Finset.filter_insert]
    have hc : (Finset.range l.length).filter (fun v => (l ++ [b])[v]? = some true) =
        (Finset.range l.length).filter (fun v => l[v]? = some true) := by
      apply Finset.filter_congr
      intro v hv
      rw [List.getElem?_append_left (Finset.mem_range.mp hv)]
    rw [hc]
    cases b with
    | false => simp
    | true => simp

theorem countNodes_spec {g : SwGraph T} (h : g.WF) :
    SwGraph.countNodesWithLongRangingEdges g = .ok (SwGraph.longEnds g).card := by
  obtain ⟨m, a1, a2, a3⟩ := marks_outer h g.vertices 0 (List.replicate g.nextId false) (by simp) (by simp)
  unfold SwGraph.countNodesWithLongRangingEdges
  have hvc : g.vertexCount = g.nextId := rfl
  rw [hvc, a1, Res.ok_bind, count_true_card, a2]
  show Res.ok _ = Res.ok _
  congr 2
  unfold SwGraph.longEnds
  classical
  apply Finset.filter_congr
  intro v hv
  rw [a3]
  simp [List.getElem?_replicate]

end Verif
