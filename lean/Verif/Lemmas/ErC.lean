import Verif.Lemmas.ErM
import Verif.Lemmas.Connect2

/-!
# Lemmas about `ErEnsembleC`
-/

set_option linter.unusedSectionVars false
set_option linter.unusedSimpArgs false

namespace Verif
open AdjContainer GenericGraph

variable {T R : Type} [Rng R]

/-- `k` throws of the coin with probability `p`, one after the other. -/
def coins (p : ℚ) : Nat → R → List Bool × R
  | 0, r => ([], r)
  | k + 1, r => ((coin r p).1 :: (coins p k (coin r p).2).1, (coins p k (coin r p).2).2)

/-- The pairs whose throw succeeded. -/
def chosen (l : List (Nat × Nat)) (bs : List Bool) : Finset (Sym2 ℕ) :=
  (((l.zip bs).filter (fun x => x.2)).map (fun x => toEdge x.1)).toFinset

/-- The direct push of `randomize` is `add_edge` of a new edge. -/
theorem ErC.randBody_eq {g : Graph T} (h : g.WF) {i j : Nat} (hi : i < g.nextId) (hj : j < g.nextId) (hij : i ≠ j)
    (hnew : s(i, j) ∉ g.edges) (prob : ℚ) (r : R) :
    ∃ g', ErC.randBody prob i (g, r) j = .ok (if (coin r prob).1 then g' else g, (coin r prob).2) ∧ g'.WF ∧
      g'.nextId = g.nextId ∧ g'.data = g.data ∧ g'.edges = insert s(i, j) g.edges := by
  obtain ⟨g', a1, a2, a3, a4, a5, a6⟩ := addEdge_edges h hi hj hij hnew
  refine ⟨g', ?_, a2, a3, a6, a5⟩
  unfold ErC.randBody
  by_cases hb : (coin r prob).1 = true
  · simp only [hb, if_true]
    have hli := h.lt_length hi
    have hlj := h.lt_length hj
    have e1 : Vec.idx g.vertices i = .ok g.vertices[i] := Vec.idx_of_lt hli
    have e2 : Vec.idx (g.vertices.set i { g.vertices[i] with adj := g.vertices[i].adj ++ [j] }) j = .ok g.vertices[j] := by
      rw [Vec.idx_eq_ok, List.getElem?_set_ne hij, List.getElem?_eq_getElem hlj]
    simp only [e1, e2, Res.ok_bind, Res.pure_eq]
    have ida : (g.vertices[i]).id = i := h.ids i _ (List.getElem?_eq_getElem hli)
    have idb : (g.vertices[j]).id = j := h.ids j _ (List.getElem?_eq_getElem hlj)
    have hna : NodeContainer.isAdjacent g.vertices[i] j = false := by
      by_contra hc
      apply hnew
      rw [h.mem_edges, nbrs_getElem hli]
      show j ∈ g.vertices[i].adj
      simpa [NodeContainer.isAdjacent] using hc
    obtain ⟨a, b, ha, hb', hg⟩ := get2_of_lt h.len hi hj hij
    rw [List.getElem?_eq_getElem hli] at ha
    rw [List.getElem?_eq_getElem hlj] at hb'
    simp only [Option.some.injEq] at ha hb'
    subst ha hb'
    rw [GenericGraph.addEdge, hg] at a1
    simp only [Res.ok_bind] at a1
    have hp : push g.vertices[i] g.vertices[j] = Res.ok (.ok (),
        { g.vertices[i] with adj := g.vertices[i].adj ++ [j] }, { g.vertices[j] with adj := g.vertices[j].adj ++ [i] }) := by
      show NodeContainer.push _ _ = _
      simp [NodeContainer.push, idb, ida, hna]
    rw [hp] at a1
    simp only [Res.ok_bind, Res.pure_eq, Res.ok.injEq, Prod.mk.injEq, true_and] at a1
    rw [← a1]
    rfl
  · simp [hb]

theorem foldlM_allPairs {σ : Type} (f : Nat → σ → Nat → Res σ) (n : Nat) (s : σ) :
    (List.range n).foldlM (fun s i => (List.range' (i + 1) (n - (i + 1))).foldlM (f i) s) s =
      (allPairs n).foldlM (fun s p => f p.1 s p.2) s := by
  unfold allPairs
  generalize List.range n = l
  induction l generalizing s with
  | nil => rfl
  | cons a l ih =>
    rw [List.foldlM_cons, List.flatMap_cons, List.foldlM_append, List.foldlM_map]
    congr 1
    funext s'
    exact ih s'

theorem ErC.rand_loop (prob : ℚ) : ∀ (l : List (Nat × Nat)) {g : Graph T} (r : R), g.WF →
    (∀ p ∈ l, p.1 < g.nextId ∧ p.2 < g.nextId ∧ p.1 ≠ p.2) → (l.map toEdge).Nodup → (∀ p ∈ l, toEdge p ∉ g.edges) →
    ∃ g', l.foldlM (fun s p => ErC.randBody prob p.1 s p.2) (g, r) = .ok (g', (coins prob l.length r).2) ∧ g'.WF ∧
      g'.nextId = g.nextId ∧ g'.data = g.data ∧ g'.edges = g.edges ∪ chosen l (coins prob l.length r).1 := by
  intro l
  induction l with
  | nil => intro g r h _ _ _; exact ⟨g, rfl, h, rfl, rfl, by simp [chosen]⟩
  | cons p l ih =>
    intro g r h hlt hnd hnew
    obtain ⟨a1, a2, a3⟩ := hlt p (by simp)
    obtain ⟨g1, b1, b2, b3, b4, b5⟩ := ErC.randBody_eq h a1 a2 a3 (hnew p (by simp)) prob r
    simp only [List.map_cons, List.nodup_cons] at hnd
    by_cases hb : (coin r prob).1 = true
    · simp only [hb, if_true] at b1
      obtain ⟨g', c1, c2, c3, c4, c5⟩ := ih (coin r prob).2 b2 (fun q hq => by rw [b3]; exact hlt q (by simp [hq])) hnd.2 (by
        intro q hq hc
        rw [b5, Finset.mem_insert] at hc
        rcases hc with hc | hc
        · exact hnd.1 (List.mem_map.mpr ⟨q, hq, hc⟩)
        · exact hnew q (by simp [hq]) hc)
      refine ⟨g', ?_, c2, c3.trans b3, c4.trans b4, ?_⟩
      · rw [List.foldlM_cons, b1]; exact c1
      · rw [c5, b5]
        ext x
        simp only [chosen, List.length_cons, coins, hb, List.zip_cons_cons, List.filter_cons_of_pos, List.map_cons,
          List.toFinset_cons, Finset.mem_union, Finset.mem_insert, toEdge]
        tauto
    · simp only [hb] at b1
      obtain ⟨g', c1, c2, c3, c4, c5⟩ := ih (coin r prob).2 h (fun q hq => hlt q (by simp [hq])) hnd.2
        (fun q hq => hnew q (by simp [hq]))
      refine ⟨g', ?_, c2, c3, c4, ?_⟩
      · rw [List.foldlM_cons, b1]; exact c1
      · rw [c5]
        simp [chosen, List.length_cons, coins, hb]

theorem ErC.randomize_spec {e : ErC T R} (h : e.graph.WF) :
    ∃ e', e.randomize = .ok e' ∧ e'.graph.WF ∧ e'.graph.nextId = e.graph.nextId ∧ e'.graph.data = e.graph.data ∧
      e'.prob = e.prob ∧ e'.cTarget = e.cTarget ∧
      e'.rng = (coins e.prob (allPairs e.graph.nextId).length e.rng).2 ∧
      e'.graph.edges = chosen (allPairs e.graph.nextId) (coins e.prob (allPairs e.graph.nextId).length e.rng).1 := by
  obtain ⟨g', c1, c2, c3, c4, c5⟩ := ErC.rand_loop e.prob (allPairs e.graph.nextId) e.rng (clearEdges_wf h) (by
      intro p hpp
      have := mem_allPairs.mp hpp
      rw [clearEdges_nextId]; omega) (by
      apply List.Nodup.map_on _ (nodup_allPairs _)
      intro p hpp q hqq hpq
      exact toEdge_injOn hpp hqq hpq) (by simp [clearEdges_edges h])
  rw [clearEdges_nextId] at c3
  rw [clearEdges_data] at c4
  rw [clearEdges_edges h, Finset.empty_union] at c5
  refine ⟨{ e with graph := g', rng := (coins e.prob (allPairs e.graph.nextId).length e.rng).2 }, ?_, c2, c3, c4, rfl, rfl, rfl, c5⟩
  unfold ErC.randomize
  simp only [foldlM_allPairs, GenericGraph.vertexCount, clearEdges_nextId]
  rw [c1]; rfl

/-- Clearing the edges forgets everything but the data. -/
theorem clearEdges_eq_fromVec {g : Graph T} (h : g.WF) : g.clearEdges = fromVec g.data := by
  have hl : g.clearEdges.vertices = (fromVec g.data : Graph T).vertices := by
    apply List.ext_getElem?
    intro i
    by_cases hi : i < g.vertices.length
    · have h1 : (clearEdges_wf h).len = (clearEdges_wf h).len := rfl
      have hid : (g.vertices[i]).id = i := h.ids i _ (List.getElem?_eq_getElem hi)
      have hadj : g.edgeCount = 0 → (g.vertices[i]).adj = [] := by
        intro h0
        have := h.nbrs_nil_of_edgeCount h0 i
        rw [nbrs_getElem hi] at this; exact this
      simp only [GenericGraph.clearEdges, fromVec, GenericGraph.data]
      by_cases h0 : g.edgeCount = 0
      · simp [h0, hi, AdjContainer.new, contained]
        have := hadj h0
        cases hv : g.vertices[i]
        rw [hv] at hid this
        simp at hid this
        simp [hid, this]
      · simp [h0, hi, AdjContainer.new, contained, AdjContainer.clearEdges, hid]
    · rw [List.getElem?_eq_none (by rw [clearEdges_length]; omega), List.getElem?_eq_none]
      simp [fromVec, GenericGraph.data]; omega
  have hn := clearEdges_nextId g
  have hec := clearEdges_edgeCount g
  have : g.clearEdges = ⟨g.clearEdges.nextId, g.clearEdges.edgeCount, g.clearEdges.vertices⟩ := rfl
  rw [this, hl, hn, hec, ← h.len]
  simp [fromVec, GenericGraph.data]

theorem drawTwo_spec (r : R) {n : Nat} (hn : 2 ≤ n) :
    ∃ x y r', drawTwoFromRange r n = .ok ((x, y), r') ∧ x < n ∧ y < n ∧ x ≠ y := by
  obtain ⟨a, r1, a1, a2⟩ := genRange_ok r (show 0 < n by omega)
  obtain ⟨b, r2, b1, b2⟩ := genRange_ok r1 (show 0 < n - 1 by omega)
  unfold drawTwoFromRange
  simp only [a1, Res.ok_bind, Res.sub_of_le (show 1 ≤ n by omega), b1]
  split
  · exact ⟨a, b, r2, rfl, by omega, by omega, by omega⟩
  · exact ⟨a, b + 1, r2, rfl, by omega, by omega, by omega⟩

theorem drawTwo_script {a b n : Nat} {l : List Nat} (ha : a < n) (hb : b < n - 1) :
    drawTwoFromRange (⟨a :: b :: l⟩ : Script) n = .ok ((a, if b < a then b else b + 1), ⟨l⟩) := by
  unfold drawTwoFromRange
  rw [script_genRange ha]
  simp only [Res.ok_bind, Res.sub_of_le (show 1 ≤ n by omega)]
  rw [script_genRange hb]
  simp only [Res.ok_bind]
  split <;> rfl

/-- What one step does, given the drawn pair and the coin. -/
theorem ErC.mStep_cases {e : ErC T R} (h : e.graph.WF) {x y : Nat} {r : R}
    (hd : drawTwoFromRange e.rng e.graph.nextId = .ok ((x, y), r)) (hx : x < e.graph.nextId) (hy : y < e.graph.nextId)
    (hxy : x ≠ y) :
    ∃ s e', e.mStep = .ok (s, e') ∧ e'.graph.WF ∧ e'.graph.nextId = e.graph.nextId ∧ e'.graph.data = e.graph.data ∧
      e'.prob = e.prob ∧ e'.cTarget = e.cTarget ∧ e'.rng = (coin r e.prob).2 ∧
      s = (if (coin r e.prob).1 then (if s(x, y) ∈ e.graph.edges then .nothing else .addedEdge (x, y))
            else (if s(x, y) ∈ e.graph.edges then .removedEdge (x, y) else .nothing)) ∧
      e'.graph.edges = (if (coin r e.prob).1 then insert s(x, y) e.graph.edges else e.graph.edges.erase s(x, y)) := by
  unfold ErC.mStep
  simp only [GenericGraph.vertexCount, hd, Res.ok_bind]
  by_cases hb : (coin r e.prob).1 = true
  · simp only [hb, if_true]
    by_cases hex : s(x, y) ∈ e.graph.edges
    · simp only [addEdge_exists h (h.mem_edges.mp hex), Res.ok_bind, hex, if_true]
      exact ⟨_, _, rfl, h, rfl, rfl, rfl, rfl, rfl, rfl, by simp [hex]⟩
    · obtain ⟨g', a1, a2, a3, a4, a5, a6⟩ := addEdge_edges h hx hy hxy hex
      simp only [a1, Res.ok_bind, hex]
      exact ⟨_, _, rfl, a2, a3, a6, rfl, rfl, rfl, rfl, a5⟩
  · simp only [hb]
    by_cases hex : s(x, y) ∈ e.graph.edges
    · obtain ⟨g', a1, a2, a3, a4, a5, a6⟩ := removeEdge_edges h hex
      simp only [a1, Res.ok_bind, hex, if_true]
      exact ⟨_, _, rfl, a2, a3, a6, rfl, rfl, rfl, rfl, a5⟩
    · simp only [removeEdge_absent h hx hy hxy (by rwa [h.mem_edges] at hex), Res.ok_bind, hex]
      refine ⟨_, _, rfl, h, rfl, rfl, rfl, rfl, rfl, rfl, ?_⟩
      simp [Finset.erase_eq_of_notMem hex]

/-- Equivalent states of `ErEnsembleC`. -/
structure ErC.Sim (e x : ErC T R) : Prop where
  n : x.graph.nextId = e.graph.nextId
  data : x.graph.data = e.graph.data
  edges : x.graph.edges = e.graph.edges
  prob : x.prob = e.prob
  cTarget : x.cTarget = e.cTarget

theorem ErC.back {e e' x : ErC T R} {s : ErStepC} (h : e.graph.WF) (hn : 2 ≤ e.graph.nextId) (hs : e.mStep = .ok (s, e'))
    (hx : x.graph.WF) (hsim : e'.Sim x) :
    ∃ u x', x.undoStep s = .ok (u, x') ∧ x.undoStepQuiet s = .ok x' ∧ x'.graph.WF ∧ e.Sim x' ∧ x'.rng = x.rng ∧
      (∀ err, u ≠ .gError err) := by
  obtain ⟨a, b, r, d1, d2, d3, d4⟩ := drawTwo_spec e.rng hn
  obtain ⟨s0, e0, m1, m2, m3, m4, m5, m6, m7, m8, m9⟩ := ErC.mStep_cases h d1 d2 d3 d4
  rw [m1] at hs
  simp only [Res.ok.injEq, Prod.mk.injEq] at hs
  obtain ⟨rfl, rfl⟩ := hs
  have hex' := hsim.edges
  rw [m9] at hex'
  have hnx : x.graph.nextId = e.graph.nextId := hsim.n.trans m3
  have simE : ∀ g : Graph T, g.nextId = x.graph.nextId → g.data = x.graph.data → g.edges = e.graph.edges →
      e.Sim { x with graph := g } := by
    intro g h1 h2 h3
    exact ⟨h1.trans hnx, h2.trans (hsim.data.trans m4), h3, hsim.prob.trans m5, hsim.cTarget.trans m6⟩
  by_cases hb : (coin r e.prob).1 = true
  · simp only [hb, if_true] at m8 hex'
    by_cases hex : s(a, b) ∈ e.graph.edges
    · simp only [hex, if_true] at m8
      subst m8
      refine ⟨_, x, rfl, rfl, hx, ?_, rfl, by simp⟩
      exact simE x.graph rfl rfl (by rw [hex', Finset.insert_eq_of_mem hex])
    · simp only [hex] at m8
      subst m8
      obtain ⟨g', a1, a2, a3, a4, a5, a6⟩ := removeEdge_edges hx (i := a) (j := b) (by rw [hex']; simp)
      refine ⟨.removedEdge (a, b), { x with graph := g' }, ?_, ?_, a2, simE g' a3 a6 ?_, rfl, by simp⟩
      · simp [ErC.undoStep, a1]
      · simp [ErC.undoStepQuiet, a1, unwrapOk]
      · rw [a5, hex', Finset.erase_insert hex]
  · simp only [hb] at m8 hex'
    by_cases hex : s(a, b) ∈ e.graph.edges
    · simp only [hex, if_true] at m8
      subst m8
      obtain ⟨g', a1, a2, a3, a4, a5, a6⟩ := addEdge_edges hx (i := a) (j := b) (by omega) (by omega) d4 (by rw [hex']; simp)
      refine ⟨.addedEdge (a, b), { x with graph := g' }, ?_, ?_, a2, simE g' a3 a6 ?_, rfl, by simp⟩
      · simp [ErC.undoStep, a1]
      · simp [ErC.undoStepQuiet, a1, unwrapOk]
      · rw [a5, hex']; simp [Finset.insert_erase hex]
    · simp only [hex] at m8
      subst m8
      refine ⟨_, x, rfl, rfl, hx, ?_, rfl, by simp⟩
      exact simE x.graph rfl rfl (by rw [hex']; simp [Finset.erase_eq_of_notMem hex])

/-! ### make_connected -/

/-- Paths after adding the edge `u-v`. -/
theorem reachable_addEdge {G G' : SimpleGraph ℕ} {u v : ℕ}
    (hadj : ∀ a b, G'.Adj a b → G.Adj a b ∨ (a = u ∧ b = v) ∨ (a = v ∧ b = u)) {a b : ℕ} (h : G'.Reachable a b) :
    G.Reachable a b ∨ (G.Reachable a u ∧ G.Reachable v b) ∨ (G.Reachable a v ∧ G.Reachable u b) := by
  obtain ⟨w⟩ := h
  induction w with
  | nil => exact .inl (SimpleGraph.Reachable.refl _)
  | cons hac _ ih =>
    rcases hadj _ _ hac with h1 | ⟨rfl, rfl⟩ | ⟨rfl, rfl⟩
    · rcases ih with ih | ⟨ih1, ih2⟩ | ⟨ih1, ih2⟩
      · exact .inl (h1.reachable.trans ih)
      · exact .inr (.inl ⟨h1.reachable.trans ih1, ih2⟩)
      · exact .inr (.inr ⟨h1.reachable.trans ih1, ih2⟩)
    · rcases ih with ih | ⟨ih1, ih2⟩ | ⟨ih1, ih2⟩
      · exact .inr (.inl ⟨SimpleGraph.Reachable.refl _, ih⟩)
      · exact .inr (.inl ⟨SimpleGraph.Reachable.refl _, ih2⟩)
      · exact .inl ih2
    · rcases ih with ih | ⟨ih1, ih2⟩ | ⟨ih1, ih2⟩
      · exact .inr (.inr ⟨SimpleGraph.Reachable.refl _, ih⟩)
      · exact .inl ih2
      · exact .inr (.inr ⟨SimpleGraph.Reachable.refl _, ih2⟩)

theorem toSimple_le_of_edges {g g' : Graph T} (h : g.WF) (h' : g'.WF) (hsub : g.edges ⊆ g'.edges) : g.toSimple ≤ g'.toSimple := by
  intro a b hab
  rw [h.adj_iff, ← h.mem_edges] at hab
  rw [h'.adj_iff, ← h'.mem_edges]
  exact hsub hab

theorem ErC.connectLoop_spec : ∀ (rest : List Nat) (last : Nat) {g : Graph T}, g.WF → (∀ r ∈ last :: rest, r < g.nextId) →
    (last :: rest).Pairwise (fun a b => ¬ g.toSimple.Reachable a b) →
    ∃ g', ErC.connectLoop rest last g = .ok g' ∧ g'.WF ∧ g'.nextId = g.nextId ∧ g'.data = g.data ∧
      g'.edgeCount = g.edgeCount + rest.length ∧ g.edges ⊆ g'.edges ∧ ∀ r ∈ rest, g'.toSimple.Reachable last r := by
  intro rest
  induction rest with
  | nil => intro last g h _ _; exact ⟨g, rfl, h, rfl, rfl, rfl, fun _ h => h, by simp⟩
  | cons s rest ih =>
    intro last g h hlt hpw
    rw [List.pairwise_cons] at hpw
    have hls := hpw.1 s (by simp)
    have hne : last ≠ s := by rintro rfl; exact hls (SimpleGraph.Reachable.refl _)
    have hnew : s(last, s) ∉ g.edges := by
      intro hc
      rw [h.mem_edges, ← h.adj_iff] at hc
      exact hls hc.reachable
    obtain ⟨g1, a1, a2, a3, a4, a5, a6⟩ := addEdge_edges h (hlt last (by simp)) (hlt s (by simp)) hne hnew
    have hadj : ∀ a b, g1.toSimple.Adj a b → g.toSimple.Adj a b ∨ (a = last ∧ b = s) ∨ (a = s ∧ b = last) := by
      intro a b hab
      rw [a2.adj_iff, ← a2.mem_edges, a5, Finset.mem_insert, Sym2.eq_iff, h.mem_edges, ← h.adj_iff] at hab
      rcases hab with hab | hab
      · exact .inr hab
      · exact .inl hab
    have hpw1 : (s :: rest).Pairwise (fun a b => ¬ g1.toSimple.Reachable a b) := by
      have hpw2 := List.Pairwise.and_mem.mp hpw.2
      refine hpw2.imp ?_
      rintro a b ⟨ha, hb, hab⟩ hc
      rcases reachable_addEdge hadj hc with h1 | ⟨h1, _⟩ | ⟨_, h2⟩
      · exact hab h1
      · exact hpw.1 a ha h1.symm
      · exact hpw.1 b hb h2
    obtain ⟨g', c1, c2, c3, c4, c5, c6, c7⟩ := ih s a2 (fun r hr => by rw [a3]; exact hlt r (by simp at hr ⊢; tauto)) hpw1
    have hle : g1.toSimple ≤ g'.toSimple := toSimple_le_of_edges a2 c2 c6
    have hl : g'.toSimple.Reachable last s := by
      apply SimpleGraph.Adj.reachable
      rw [c2.adj_iff, ← c2.mem_edges]
      apply c6; rw [a5]; simp
    refine ⟨g', ?_, c2, c3.trans a3, c4.trans a6, ?_, ?_, ?_⟩
    · simp [ErC.connectLoop, a1, unwrapOk, c1]
    · rw [c5, a4, List.length_cons]; omega
    · intro x hx; apply c6; rw [a5]; simp [hx]
    · intro r hr
      rcases List.mem_cons.mp hr with rfl | hr
      · exact hl
      · exact hl.trans (c7 r hr)

end Verif
