import Verif.Lemmas.EdgeSet

/-!
# `init_ring`
-/

set_option linter.unusedSectionVars false
set_option linter.unusedSimpArgs false

namespace Verif
open AdjContainer
open scoped BigOperators

namespace GenericGraph
variable {T A : Type} [AdjContainer T A] [LawfulAdj T A]

/-- Invariant of the ring loops: the edges are exactly those of the processed `(vertex, distance)` pairs. -/
structure RingInv (g0 g : GenericGraph T A) (P : Nat → Nat → Prop) : Prop where
  wf : g.WF
  n : g.nextId = g0.nextId
  data : g.data = g0.data
  adj : ∀ k l, l ∈ g.nbrs k ↔ ∃ x a, P x a ∧ ((k = x ∧ l = (x + a) % g0.nextId) ∨ (l = x ∧ k = (x + a) % g0.nextId))

theorem ringIndex {n i a : Nat} (hi : i < n) (ha : a < n) :
    (if i + a ≥ n then i + a - n else i + a) = (i + a) % n := by
  split
  · rename_i h
    rw [Nat.mod_eq_sub_mod h, Nat.mod_eq_of_lt (by omega)]
  · rw [Nat.mod_eq_of_lt (by omega)]

theorem add_mod_cases {n i a : Nat} (hi : i < n) (ha : a < n) :
    ((i + a) % n = i + a ∧ i + a < n) ∨ ((i + a) % n + n = i + a ∧ n ≤ i + a) := by
  rw [← ringIndex hi ha]
  split <;> omega

theorem initRingInner_inv {g0 : GenericGraph T A} {n d i : Nat} (hn : g0.nextId = n) (hd : 2 * d + 1 ≤ n) (hi : i < n) :
    ∀ (k s : Nat) (g : GenericGraph T A), 1 ≤ s → s + k = d + 1 →
      RingInv g0 g (fun x a => (x < i ∧ 1 ≤ a ∧ a ≤ d) ∨ (x = i ∧ 1 ≤ a ∧ a < s)) →
      ∃ g', initRingInner n i (List.range' s k) g = .ok (.ok (), g') ∧
        RingInv g0 g' (fun x a => x < i + 1 ∧ 1 ≤ a ∧ a ≤ d) ∧ g'.edgeCount = g.edgeCount + k := by
  intro k
  induction k with
  | zero =>
    intro s g hs hsk hinv
    refine ⟨g, by simp [initRingInner], ⟨hinv.wf, hinv.n, hinv.data, ?_⟩, by simp⟩
    intro k l
    rw [hinv.adj]
    constructor
    · rintro ⟨x, a, hP, h⟩; exact ⟨x, a, by omega, h⟩
    · rintro ⟨x, a, hP, h⟩; exact ⟨x, a, by omega, h⟩
  | succ k ih =>
    intro s g hs hsk hinv
    have hsn : s < n := by omega
    have hidx := ringIndex hi hsn
    have hlt : (i + s) % n < n := Nat.mod_lt _ (by omega)
    have hne : i ≠ (i + s) % n := by rcases add_mod_cases hi hsn with h | h <;> omega
    have hnew : (i + s) % n ∉ g.nbrs i := by
      rw [hinv.adj, hn]
      rintro ⟨x, a, hP, ⟨h1, h2⟩ | ⟨h1, h2⟩⟩
      · subst h1
        have hal : a < n := by omega
        rcases add_mod_cases hi hsn with h | h <;> rcases add_mod_cases hi hal with h' | h' <;> omega
      · have hal : a < n := by omega
        have hx : x < n := by omega
        rcases add_mod_cases hi hsn with h | h <;> rcases add_mod_cases hx hal with h' | h' <;> omega
    obtain ⟨g1, h1, h2, h3, h4, h5, h6⟩ := addEdge_spec hinv.wf (by rw [hinv.n, hn]; exact hi)
      (by rw [hinv.n, hn]; exact hlt) hne hnew
    obtain ⟨g', e1, e2, e3⟩ := ih (s + 1) g1 (by omega) (by omega)
      ⟨h2, h3.trans hinv.n, h6.trans hinv.data, by
        intro k l
        rw [h5, hinv.adj, hn]
        constructor
        · rintro (⟨x, a, hP, h⟩ | h | h)
          · exact ⟨x, a, by omega, h⟩
          · exact ⟨i, s, by omega, Or.inl h⟩
          · exact ⟨i, s, by omega, Or.inr ⟨h.2, h.1⟩⟩
        · rintro ⟨x, a, hP, h⟩
          by_cases hxa : x = i ∧ a = s
          · obtain ⟨rfl, rfl⟩ := hxa
            rcases h with h | h
            · exact Or.inr (Or.inl h)
            · exact Or.inr (Or.inr ⟨h.2, h.1⟩)
          · exact Or.inl ⟨x, a, by omega, h⟩⟩
    refine ⟨g', ?_, e2, by rw [e3, h4]; omega⟩
    simp [List.range'_succ, initRingInner, hidx, h1, e1]

theorem initRingOuter_inv {g0 : GenericGraph T A} {n d : Nat} (hn : g0.nextId = n) (hd : 2 * d + 1 ≤ n) :
    ∀ (k s : Nat) (g : GenericGraph T A), s + k = n →
      RingInv g0 g (fun x a => x < s ∧ 1 ≤ a ∧ a ≤ d) →
      ∃ g', initRingOuter n d (List.range' s k) g = .ok (.ok (), g') ∧
        RingInv g0 g' (fun x a => x < n ∧ 1 ≤ a ∧ a ≤ d) ∧ g'.edgeCount = g.edgeCount + k * d := by
  intro k
  induction k with
  | zero =>
    intro s g hs hinv
    have : s = n := by omega
    subst this
    exact ⟨g, by simp [initRingOuter], hinv, by simp⟩
  | succ k ih =>
    intro s g hs hinv
    obtain ⟨g1, h1, h2, h3⟩ := initRingInner_inv (i := s) hn hd (by omega) d 1 g (by omega) (by omega)
      ⟨hinv.wf, hinv.n, hinv.data, by
        intro k l
        rw [hinv.adj]
        constructor
        · rintro ⟨x, a, hP, h⟩; exact ⟨x, a, by omega, h⟩
        · rintro ⟨x, a, hP, h⟩; exact ⟨x, a, by omega, h⟩⟩
    obtain ⟨g', e1, e2, e3⟩ := ih (s + 1) g1 (by omega) h2
    refine ⟨g', ?_, e2, ?_⟩
    · simp [List.range'_succ, initRingOuter, h1, e1]
    · rw [e3, h3]; ring

theorem initRing_inv {g : GenericGraph T A} (h : g.WF) {d : Nat} (hd : 2 * d + 1 ≤ g.nextId) :
    ∃ g', g.initRing d = .ok (.ok (), g') ∧ g'.WF ∧ g'.nextId = g.nextId ∧ g'.data = g.data ∧
      g'.edgeCount = g.nextId * d ∧
      ∀ k l, l ∈ g'.nbrs k ↔ ∃ x a, x < g.nextId ∧ 1 ≤ a ∧ a ≤ d ∧
        ((k = x ∧ l = (x + a) % g.nextId) ∨ (l = x ∧ k = (x + a) % g.nextId)) := by
  obtain ⟨g', h1, h2, h3⟩ := initRingOuter_inv (g0 := g) rfl hd g.nextId 0 g.clearEdges (by omega)
    ⟨clearEdges_wf h, clearEdges_nextId g, clearEdges_data g, by
      intro k l; rw [clearEdges_nbrs h]; simp⟩
  refine ⟨g', ?_, h2.wf, h2.n, h2.data, by rw [h3, clearEdges_edgeCount]; omega, ?_⟩
  · simpa [initRing, vertexCount, clearEdges_nextId, List.range_eq_range'] using h1
  · intro k l
    rw [h2.adj]
    constructor
    · rintro ⟨x, a, ⟨p1, p2, p3⟩, h⟩; exact ⟨x, a, p1, p2, p3, h⟩
    · rintro ⟨x, a, p1, p2, p3, h⟩; exact ⟨x, a, ⟨p1, p2, p3⟩, h⟩

/-- Whatever `add_edge` returns, the graph stays valid. -/
theorem addEdge_wp {g g' : GenericGraph T A} (h : g.WF) {i j : Nat} {r : Except GraphErr Unit}
    (e : g.addEdge i j = .ok (r, g')) : g'.WF ∧ g'.nextId = g.nextId ∧ g'.data = g.data ∧
      (r = .ok () → g'.edgeCount = g.edgeCount + 1) := by
  by_cases hv : i < g.nextId ∧ j < g.nextId ∧ i ≠ j
  · by_cases hex : j ∈ g.nbrs i
    · rw [addEdge_exists h hex] at e
      simp at e; obtain ⟨rfl, rfl⟩ := e
      exact ⟨h, rfl, rfl, by intro hc; cases hc⟩
    · obtain ⟨g2, h1, h2, h3, h4, _, h6⟩ := addEdge_spec h hv.1 hv.2.1 hv.2.2 hex
      rw [h1] at e; simp at e; obtain ⟨rfl, rfl⟩ := e
      exact ⟨h2, h3, h6, fun _ => h4⟩
  · rw [addEdge_panic hv] at e; cases e

theorem initRingInner_wp {n i : Nat} : ∀ (l : List Nat) {g g' : GenericGraph T A} {r : Except GraphErr Unit}, g.WF →
    initRingInner n i l g = .ok (r, g') →
    g'.WF ∧ g'.nextId = g.nextId ∧ g'.data = g.data ∧ (r = .ok () → g'.edgeCount = g.edgeCount + l.length) := by
  intro l
  induction l with
  | nil => intro g g' r h e; simp [initRingInner] at e; obtain ⟨rfl, rfl⟩ := e; simp [h]
  | cons a l ih =>
    intro g g' r h e
    rw [initRingInner] at e
    simp only [Res.bind_eq_ok] at e
    obtain ⟨⟨r1, g1⟩, e1, e2⟩ := e
    obtain ⟨w1, w2, w3, w4⟩ := addEdge_wp h e1
    cases r1 with
    | error er => simp at e2; obtain ⟨rfl, rfl⟩ := e2; exact ⟨w1, w2, w3, by intro hc; cases hc⟩
    | ok u =>
      obtain ⟨x1, x2, x3, x4⟩ := ih w1 e2
      exact ⟨x1, x2.trans w2, x3.trans w3, fun hr => by rw [x4 hr, w4 rfl]; simp; omega⟩

theorem initRingOuter_wp {n d : Nat} : ∀ (l : List Nat) {g g' : GenericGraph T A} {r : Except GraphErr Unit}, g.WF →
    initRingOuter n d l g = .ok (r, g') →
    g'.WF ∧ g'.nextId = g.nextId ∧ g'.data = g.data ∧ (r = .ok () → g'.edgeCount = g.edgeCount + l.length * d) := by
  intro l
  induction l with
  | nil => intro g g' r h e; simp [initRingOuter] at e; obtain ⟨rfl, rfl⟩ := e; simp [h]
  | cons a l ih =>
    intro g g' r h e
    rw [initRingOuter] at e
    simp only [Res.bind_eq_ok] at e
    obtain ⟨⟨r1, g1⟩, e1, e2⟩ := e
    obtain ⟨w1, w2, w3, w4⟩ := initRingInner_wp _ h e1
    cases r1 with
    | error er => simp at e2; obtain ⟨rfl, rfl⟩ := e2; exact ⟨w1, w2, w3, by intro hc; cases hc⟩
    | ok u =>
      obtain ⟨x1, x2, x3, x4⟩ := ih w1 e2
      refine ⟨x1, x2.trans w2, x3.trans w3, fun hr => ?_⟩
      rw [x4 hr, w4 rfl]; simp; ring

theorem initRing_wp {d : Nat} {g g' : GenericGraph T A} {r : Except GraphErr Unit} (h : g.WF)
    (e : g.initRing d = .ok (r, g')) :
    g'.WF ∧ g'.nextId = g.nextId ∧ g'.data = g.data ∧ (r = .ok () → g'.edgeCount = g.nextId * d) := by
  obtain ⟨w1, w2, w3, w4⟩ := initRingOuter_wp _ (clearEdges_wf h) e
  refine ⟨w1, w2.trans (clearEdges_nextId g), w3.trans (clearEdges_data g), fun hr => ?_⟩
  rw [w4 hr, clearEdges_edgeCount]
  simp [vertexCount, clearEdges_nextId]

end GenericGraph
end Verif
