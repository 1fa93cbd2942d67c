import Verif.Model.Spacial
import Verif.Lemmas.ErC

/-!
# Lemmas about the spatial ensembles
-/

set_option linter.unusedSectionVars false
set_option linter.unusedSimpArgs false

namespace Verif
open AdjContainer GenericGraph

variable {T R : Type} [Rng R]

/-! ### Positions -/

/-- The positions of all vertices. -/
def coords (g : SpacialGraph T) : List Pos := g.vertices.map SpacialNodeContainer.pos

/-- The position of vertex `i`. -/
def posAt (l : List Pos) (i : Nat) : Pos := l.getD i (none, none)

theorem pos_of_idx {g : SpacialGraph T} {i : Nat} {c : SpacialNodeContainer T} (h : g.vertices[i]? = some c) :
    c.pos = posAt (coords g) i := by
  simp [posAt, coords, List.getD_eq_getElem?_getD, h]

theorem set_same {α : Type} {l : List α} {i : Nat} {a : α} (h : l[i]? = some a) : l.set i a = l := by
  apply List.ext_getElem?
  intro k
  by_cases hk : i = k
  · subst hk
    obtain ⟨h1, _⟩ := List.getElem?_eq_some_iff.mp h
    rw [List.getElem?_set_self h1, h]
  · rw [List.getElem?_set_ne hk]

theorem coords_put2 {g : SpacialGraph T} {i j : Nat} {a b a' b' : SpacialNodeContainer T} (ha : g.vertices[i]? = some a)
    (hb : g.vertices[j]? = some b) (h1 : a'.pos = a.pos) (h2 : b'.pos = b.pos) :
    ((g.vertices.set i a').set j b').map SpacialNodeContainer.pos = coords g := by
  unfold coords
  rw [List.map_set, List.map_set, h1, h2]
  have e1 : (g.vertices.map SpacialNodeContainer.pos)[i]? = some a.pos := by simp [ha]
  have e2 : (g.vertices.map SpacialNodeContainer.pos)[j]? = some b.pos := by simp [hb]
  rw [set_same e1, set_same e2]

theorem push_pos {a b a' b' : SpacialNodeContainer T} {r : Except GraphErr Unit}
    (h : push a b = Res.ok (r, a', b')) : a'.pos = a.pos ∧ b'.pos = b.pos := by
  change SpacialNodeContainer.push a b = _ at h
  unfold SpacialNodeContainer.push at h
  split at h <;> simp only [Res.ok.injEq, Prod.mk.injEq] at h <;> obtain ⟨_, rfl, rfl⟩ := h <;> exact ⟨rfl, rfl⟩

theorem swapRemoveElement_pos {a a' : SpacialNodeContainer T} {x : Nat} (h : a.swapRemoveElement x = .ok a') :
    a'.pos = a.pos := by
  unfold SpacialNodeContainer.swapRemoveElement at h
  simp only [Res.bind_eq_ok, Res.pure_eq, Res.ok.injEq] at h
  obtain ⟨_, _, _, _, rfl⟩ := h
  rfl

theorem remove_pos {a b a' b' : SpacialNodeContainer T} {r : Except GraphErr Unit}
    (h : remove a b = Res.ok (r, a', b')) : a'.pos = a.pos ∧ b'.pos = b.pos := by
  change SpacialNodeContainer.remove a b = _ at h
  unfold SpacialNodeContainer.remove at h
  split at h
  · simp only [Res.ok.injEq, Prod.mk.injEq] at h; obtain ⟨_, rfl, rfl⟩ := h; exact ⟨rfl, rfl⟩
  · simp only [Res.bind_eq_ok, Res.pure_eq, Res.ok.injEq, Prod.mk.injEq] at h
    obtain ⟨s, h1, o, h2, _, rfl, rfl⟩ := h
    exact ⟨swapRemoveElement_pos h1, swapRemoveElement_pos h2⟩

theorem get2_some {g : SpacialGraph T} {i j : Nat} {a b : SpacialNodeContainer T} (h : g.get2 i j = .ok (a, b)) :
    g.vertices[i]? = some a ∧ g.vertices[j]? = some b := by
  unfold get2 at h
  simp only [Res.bind_eq_ok, Res.pure_eq, Res.ok.injEq, Prod.mk.injEq] at h
  obtain ⟨_, _, _, _, a', h1, b', h2, rfl, rfl⟩ := h
  exact ⟨Vec.idx_eq_ok.mp h1, Vec.idx_eq_ok.mp h2⟩

theorem coords_addEdge {g g' : SpacialGraph T} {i j : Nat} {r : Except GraphErr Unit} (h : g.addEdge i j = .ok (r, g')) :
    coords g' = coords g := by
  unfold addEdge at h
  simp only [Res.bind_eq_ok, Prod.exists] at h
  obtain ⟨a, b, h1, r', a', b', h2, h3⟩ := h
  obtain ⟨g1, g2⟩ := get2_some h1
  obtain ⟨p1, p2⟩ := push_pos h2
  have := coords_put2 g1 g2 p1 p2
  cases r' <;> simp only [Res.pure_eq, Res.ok.injEq, Prod.mk.injEq] at h3 <;> obtain ⟨_, rfl⟩ := h3 <;> exact this

theorem coords_removeEdge {g g' : SpacialGraph T} {i j : Nat} {r : Except GraphErr Unit}
    (h : g.removeEdge i j = .ok (r, g')) : coords g' = coords g := by
  unfold removeEdge at h
  simp only [Res.bind_eq_ok, Prod.exists] at h
  obtain ⟨a, b, h1, r', a', b', h2, h3⟩ := h
  obtain ⟨g1, g2⟩ := get2_some h1
  obtain ⟨p1, p2⟩ := remove_pos h2
  have := coords_put2 g1 g2 p1 p2
  cases r' with
  | error => simp only [Res.pure_eq, Res.ok.injEq, Prod.mk.injEq] at h3; obtain ⟨_, rfl⟩ := h3; exact this
  | ok =>
    simp only [Res.bind_eq_ok, Res.pure_eq, Res.ok.injEq, Prod.mk.injEq] at h3
    obtain ⟨_, _, _, rfl⟩ := h3
    exact this

theorem coords_clearEdges (g : SpacialGraph T) : coords g.clearEdges = coords g := by
  unfold GenericGraph.clearEdges
  split
  · simp [coords, Function.comp_def, AdjContainer.clearEdges, SpacialNodeContainer.pos]
  · rfl

/-! ### Throws with a probability for each pair -/

/-- One throw for each pair, in order; `p` gives the probability of the pair. -/
def throws (p : Nat × Nat → ℚ) : List (Nat × Nat) → R → List Bool × R
  | [], r => ([], r)
  | q :: l, r => ((coin r (p q)).1 :: (throws p l (coin r (p q)).2).1, (throws p l (coin r (p q)).2).2)

namespace Spacial

/-- Probability for the edge between the vertices `i` and `j`. -/
def prob (e : Spacial T R) (i j : Nat) : ℚ := e.law (posAt (coords e.graph) i) (posAt (coords e.graph) j)

theorem probUnchecked_eq {g : SpacialGraph T} (h : g.WF) {i j : Nat} (hi : i < g.nextId) (hj : j < g.nextId)
    (law : Pos → Pos → ℚ) : probUnchecked law g i j = .ok (law (posAt (coords g) i) (posAt (coords g) j)) := by
  have hli := h.lt_length hi
  have hlj := h.lt_length hj
  unfold probUnchecked
  rw [Vec.idx_of_lt hli, Vec.idx_of_lt hlj]
  simp only [Res.ok_bind, Res.pure_eq]
  rw [pos_of_idx (List.getElem?_eq_getElem hli), pos_of_idx (List.getElem?_eq_getElem hlj)]

/-- The direct push of `randomize` is `add_edge` of a new edge. -/
theorem randBody_eq {g : SpacialGraph T} (h : g.WF) {i j : Nat} (hi : i < g.nextId) (hj : j < g.nextId) (hij : i ≠ j)
    (hnew : s(i, j) ∉ g.edges) (law : Pos → Pos → ℚ) (r : R) {p : ℚ}
    (hp : law (posAt (coords g) i) (posAt (coords g) j) = p) :
    ∃ g', randBody law i (g, r) j = .ok (if (coin r p).1 then g' else g, (coin r p).2) ∧ g'.WF ∧
      g'.nextId = g.nextId ∧ g'.data = g.data ∧ coords g' = coords g ∧ g'.edges = insert s(i, j) g.edges := by
  obtain ⟨g', a1, a2, a3, a4, a5, a6⟩ := addEdge_edges h hi hj hij hnew
  refine ⟨g', ?_, a2, a3, a6, coords_addEdge a1, a5⟩
  unfold randBody
  simp only [probUnchecked_eq h hi hj, hp, Res.ok_bind]
  by_cases hb : (coin r p).1 = true
  · simp only [hb, if_true]
    have hli := h.lt_length hi
    have hlj := h.lt_length hj
    have e1 : Vec.idx g.vertices i = .ok g.vertices[i] := Vec.idx_of_lt hli
    have e2 : Vec.idx (g.vertices.set i { g.vertices[i] with adj := g.vertices[i].adj ++ [j] }) j = .ok g.vertices[j] := by
      rw [Vec.idx_eq_ok, List.getElem?_set_ne hij, List.getElem?_eq_getElem hlj]
    simp only [e1, e2, Res.ok_bind, Res.pure_eq]
    have ida : (g.vertices[i]).id = i := h.ids i _ (List.getElem?_eq_getElem hli)
    have idb : (g.vertices[j]).id = j := h.ids j _ (List.getElem?_eq_getElem hlj)
    have hna : SpacialNodeContainer.isAdjacent g.vertices[i] j = false := by
      by_contra hc
      apply hnew
      rw [h.mem_edges, nbrs_getElem hli]
      show j ∈ g.vertices[i].adj
      simpa [SpacialNodeContainer.isAdjacent] using hc
    obtain ⟨a, b, ha, hb', hg⟩ := get2_of_lt h.len hi hj hij
    rw [List.getElem?_eq_getElem hli] at ha
    rw [List.getElem?_eq_getElem hlj] at hb'
    simp only [Option.some.injEq] at ha hb'
    subst ha hb'
    rw [GenericGraph.addEdge, hg] at a1
    simp only [Res.ok_bind] at a1
    have hp : push g.vertices[i] g.vertices[j] = Res.ok (.ok (),
        { g.vertices[i] with adj := g.vertices[i].adj ++ [j] }, { g.vertices[j] with adj := g.vertices[j].adj ++ [i] }) := by
      show SpacialNodeContainer.push _ _ = _
      simp [SpacialNodeContainer.push, idb, ida, hna]
    rw [hp] at a1
    simp only [Res.ok_bind, Res.pure_eq, Res.ok.injEq, Prod.mk.injEq, true_and] at a1
    rw [← a1]
    rfl
  · simp [hb]

theorem rand_loop (law : Pos → Pos → ℚ) (cs : List Pos) : ∀ (l : List (Nat × Nat)) {g : SpacialGraph T} (r : R), g.WF →
    coords g = cs →
    (∀ p ∈ l, p.1 < g.nextId ∧ p.2 < g.nextId ∧ p.1 ≠ p.2) → (l.map toEdge).Nodup → (∀ p ∈ l, toEdge p ∉ g.edges) →
    ∃ g', l.foldlM (fun s p => randBody law p.1 s p.2) (g, r) =
        .ok (g', (throws (fun p => law (posAt cs p.1) (posAt cs p.2)) l r).2) ∧ g'.WF ∧
      g'.nextId = g.nextId ∧ g'.data = g.data ∧ coords g' = cs ∧
      g'.edges = g.edges ∪ chosen l (throws (fun p => law (posAt cs p.1) (posAt cs p.2)) l r).1 := by
  intro l
  induction l with
  | nil => intro g r h hc _ _ _; exact ⟨g, rfl, h, rfl, rfl, hc, by simp [chosen]⟩
  | cons p l ih =>
    intro g r h hcs hlt hnd hnew
    obtain ⟨a1, a2, a3⟩ := hlt p (by simp)
    obtain ⟨g1, b1, b2, b3, b4, b6, b5⟩ := randBody_eq h a1 a2 a3 (hnew p (by simp)) law r (by rw [hcs])
    simp only [List.map_cons, List.nodup_cons] at hnd
    by_cases hb : (coin r (law (posAt cs p.1) (posAt cs p.2))).1 = true
    · simp only [hb, if_true] at b1
      obtain ⟨g', c1, c2, c3, c4, c6, c5⟩ := ih (coin r (law (posAt cs p.1) (posAt cs p.2))).2 b2 (b6.trans hcs)
        (fun q hq => by rw [b3]; exact hlt q (by simp [hq])) hnd.2 (by
        intro q hq hc
        rw [b5, Finset.mem_insert] at hc
        rcases hc with hc | hc
        · exact hnd.1 (List.mem_map.mpr ⟨q, hq, hc⟩)
        · exact hnew q (by simp [hq]) hc)
      refine ⟨g', ?_, c2, c3.trans b3, c4.trans b4, c6, ?_⟩
      · rw [List.foldlM_cons, b1]; exact c1
      · rw [c5, b5]
        ext x
        simp only [chosen, throws, hb, List.zip_cons_cons, List.filter_cons_of_pos, List.map_cons,
          List.toFinset_cons, Finset.mem_union, Finset.mem_insert, toEdge]
        tauto
    · simp only [hb] at b1
      obtain ⟨g', c1, c2, c3, c4, c6, c5⟩ := ih (coin r (law (posAt cs p.1) (posAt cs p.2))).2 h hcs
        (fun q hq => hlt q (by simp [hq])) hnd.2 (fun q hq => hnew q (by simp [hq]))
      refine ⟨g', ?_, c2, c3, c4, c6, ?_⟩
      · rw [List.foldlM_cons, b1]; exact c1
      · rw [c5]
        simp [chosen, throws, hb]

theorem randomize_spec {e : Spacial T R} (h : e.graph.WF) :
    ∃ e', e.randomize = .ok e' ∧ e'.graph.WF ∧ e'.graph.nextId = e.graph.nextId ∧ e'.graph.data = e.graph.data ∧
      coords e'.graph = coords e.graph ∧ e'.law = e.law ∧
      e'.rng = (throws (fun p => e.prob p.1 p.2) (allPairs e.graph.nextId) e.rng).2 ∧
      e'.graph.edges = chosen (allPairs e.graph.nextId) (throws (fun p => e.prob p.1 p.2) (allPairs e.graph.nextId) e.rng).1 := by
  obtain ⟨g', c1, c2, c3, c4, c6, c5⟩ := rand_loop e.law (coords e.graph) (allPairs e.graph.nextId) e.rng (clearEdges_wf h)
      (coords_clearEdges _) (by
      intro p hpp
      have := mem_allPairs.mp hpp
      rw [clearEdges_nextId]; omega) (by
      apply List.Nodup.map_on _ (nodup_allPairs _)
      intro p hpp q hqq hpq
      exact toEdge_injOn hpp hqq hpq) (by simp [clearEdges_edges h])
  rw [clearEdges_nextId] at c3
  rw [clearEdges_data] at c4
  rw [clearEdges_edges h, Finset.empty_union] at c5
  refine ⟨{ e with graph := g', rng := _ }, ?_, c2, c3, c4, c6, rfl, rfl, c5⟩
  unfold randomize
  simp only [foldlM_allPairs, GenericGraph.vertexCount, clearEdges_nextId]
  rw [c1]; rfl

/-- What one step does, given the drawn pair and the coin. -/
theorem mStep_cases {e : Spacial T R} (h : e.graph.WF) {x y : Nat} {r : R}
    (hd : drawTwoFromRange e.rng e.graph.nextId = .ok ((x, y), r)) (hx : x < e.graph.nextId) (hy : y < e.graph.nextId)
    (hxy : x ≠ y) :
    ∃ s e', e.mStep = .ok (s, e') ∧ e'.graph.WF ∧ e'.graph.nextId = e.graph.nextId ∧ e'.graph.data = e.graph.data ∧
      coords e'.graph = coords e.graph ∧ e'.law = e.law ∧ e'.rng = (coin r (e.prob x y)).2 ∧
      s = (if (coin r (e.prob x y)).1 then (if s(x, y) ∈ e.graph.edges then .nothing else .addedEdge (x, y))
            else (if s(x, y) ∈ e.graph.edges then .removedEdge (x, y) else .nothing)) ∧
      e'.graph.edges = (if (coin r (e.prob x y)).1 then insert s(x, y) e.graph.edges else e.graph.edges.erase s(x, y)) := by
  unfold mStep
  simp only [GenericGraph.vertexCount, hd, Res.ok_bind, probUnchecked_eq h hx hy]
  change ∃ s e', (if (coin r (e.prob x y)).1 = true then _ else _) = _ ∧ _
  by_cases hb : (coin r (e.prob x y)).1 = true
  · simp only [hb, if_true]
    by_cases hex : s(x, y) ∈ e.graph.edges
    · simp only [addEdge_exists h (h.mem_edges.mp hex), Res.ok_bind, hex, if_true]
      exact ⟨_, _, rfl, h, rfl, rfl, rfl, rfl, rfl, rfl, by simp [hex]⟩
    · obtain ⟨g', a1, a2, a3, a4, a5, a6⟩ := addEdge_edges h hx hy hxy hex
      simp only [a1, Res.ok_bind, hex]
      exact ⟨_, _, rfl, a2, a3, a6, coords_addEdge a1, rfl, rfl, rfl, a5⟩
  · simp only [hb]
    by_cases hex : s(x, y) ∈ e.graph.edges
    · obtain ⟨g', a1, a2, a3, a4, a5, a6⟩ := removeEdge_edges h hex
      simp only [a1, Res.ok_bind, hex, if_true]
      exact ⟨_, _, rfl, a2, a3, a6, coords_removeEdge a1, rfl, rfl, rfl, a5⟩
    · simp only [removeEdge_absent h hx hy hxy (by rwa [h.mem_edges] at hex), Res.ok_bind, hex]
      refine ⟨_, _, rfl, h, rfl, rfl, rfl, rfl, rfl, rfl, ?_⟩
      simp [Finset.erase_eq_of_notMem hex]

/-- Equivalent states of `SpacialEnsemble`. -/
structure Sim (e x : Spacial T R) : Prop where
  n : x.graph.nextId = e.graph.nextId
  data : x.graph.data = e.graph.data
  edges : x.graph.edges = e.graph.edges
  coords : coords x.graph = coords e.graph
  law : x.law = e.law

theorem Sim.rfl {e : Spacial T R} : Sim e e := ⟨_root_.rfl, _root_.rfl, _root_.rfl, _root_.rfl, _root_.rfl⟩

theorem back {e e' x : Spacial T R} {s : SpacialStep} (h : e.graph.WF) (hn : 2 ≤ e.graph.nextId)
    (hs : e.mStep = .ok (s, e')) (hx : x.graph.WF) (hsim : e'.Sim x) :
    ∃ u x', x.undoStep s = .ok (u, x') ∧ x.undoStepQuiet s = .ok x' ∧ x'.graph.WF ∧ e.Sim x' ∧ x'.rng = x.rng ∧
      u ≠ .error := by
  obtain ⟨a, b, r, d1, d2, d3, d4⟩ := drawTwo_spec e.rng hn
  obtain ⟨s0, e0, m1, m2, m3, m4, m5, m6, m7, m8, m9⟩ := mStep_cases h d1 d2 d3 d4
  rw [m1] at hs
  simp only [Res.ok.injEq, Prod.mk.injEq] at hs
  obtain ⟨rfl, rfl⟩ := hs
  have hex' := hsim.edges
  rw [m9] at hex'
  have hnx : x.graph.nextId = e.graph.nextId := hsim.n.trans m3
  have simE : ∀ g : SpacialGraph T, g.nextId = x.graph.nextId → g.data = x.graph.data → g.edges = e.graph.edges →
      Verif.coords g = Verif.coords x.graph → e.Sim { x with graph := g } := by
    intro g h1 h2 h3 h4
    exact ⟨h1.trans hnx, h2.trans (hsim.data.trans m4), h3, h4.trans (hsim.coords.trans m5), hsim.law.trans m6⟩
  by_cases hb : (coin r (e.prob a b)).1 = true
  · simp only [hb, if_true] at m8 hex'
    by_cases hex : s(a, b) ∈ e.graph.edges
    · simp only [hex, if_true] at m8
      subst m8
      refine ⟨_, x, _root_.rfl, _root_.rfl, hx, ?_, _root_.rfl, by simp⟩
      exact simE x.graph _root_.rfl _root_.rfl (by rw [hex', Finset.insert_eq_of_mem hex]) _root_.rfl
    · simp only [hex] at m8
      subst m8
      obtain ⟨g', a1, a2, a3, a4, a5, a6⟩ := removeEdge_edges hx (i := a) (j := b) (by rw [hex']; simp)
      refine ⟨.removedEdge (a, b), { x with graph := g' }, ?_, ?_, a2, simE g' a3 a6 ?_ (coords_removeEdge a1), _root_.rfl, by simp⟩
      · simp [undoStep, a1]
      · simp [undoStepQuiet, a1, unwrapOk]
      · rw [a5, hex', Finset.erase_insert hex]
  · simp only [hb] at m8 hex'
    by_cases hex : s(a, b) ∈ e.graph.edges
    · simp only [hex, if_true] at m8
      subst m8
      obtain ⟨g', a1, a2, a3, a4, a5, a6⟩ := addEdge_edges hx (i := a) (j := b) (by omega) (by omega) d4 (by rw [hex']; simp)
      refine ⟨.addedEdge (a, b), { x with graph := g' }, ?_, ?_, a2, simE g' a3 a6 ?_ (coords_addEdge a1), _root_.rfl, by simp⟩
      · simp [undoStep, a1]
      · simp [undoStepQuiet, a1, unwrapOk]
      · rw [a5, hex']; simp [Finset.insert_erase hex]
    · simp only [hex] at m8
      subst m8
      refine ⟨_, x, _root_.rfl, _root_.rfl, hx, ?_, _root_.rfl, by simp⟩
      exact simE x.graph _root_.rfl _root_.rfl (by rw [hex']; simp [Finset.erase_eq_of_notMem hex]) _root_.rfl

end Spacial

end Verif
