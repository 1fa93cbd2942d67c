import Verif.Lemmas.Check
import Mathlib.Data.Set.Card

/-!
# C01–C09, C27: editing operations, constructors, conversions
-/

set_option linter.unusedSectionVars false
set_option linter.unusedSimpArgs false

namespace Verif
open AdjContainer GenericGraph
open scoped BigOperators

/-! ## Specification: histories of edge operations on a set of unordered pairs -/

/-- A call of `add_edge` or `remove_edge`. -/
inductive EdgeOp where
  | add (i j : Nat)
  | remove (i j : Nat)
deriving DecidableEq, Repr

/-- The call refers to two different vertices below `n`. -/
def EdgeOp.valid (n : Nat) : EdgeOp → Prop
  | add i j => i < n ∧ j < n ∧ i ≠ j
  | remove i j => i < n ∧ j < n ∧ i ≠ j

/-- What the call should do on a set of pairs. -/
def EdgeOp.onSet : EdgeOp → Finset (Sym2 ℕ) → Except GraphErr Unit × Finset (Sym2 ℕ)
  | add i j, S => if s(i, j) ∈ S then (.error .edgeExists, S) else (.ok (), insert s(i, j) S)
  | remove i j, S => if s(i, j) ∈ S then (.ok (), S.erase s(i, j)) else (.error .edgeDoesNotExist, S)

/-- A history on a set: the list of results and the final set. -/
def setRun : List EdgeOp → Finset (Sym2 ℕ) → List (Except GraphErr Unit) × Finset (Sym2 ℕ)
  | [], S => ([], S)
  | op :: ops, S =>
    let p := op.onSet S
    let q := setRun ops p.2
    (p.1 :: q.1, q.2)

section
variable {T A : Type} [AdjContainer T A]

/-- The call on the modelled graph. -/
def EdgeOp.onGraph : EdgeOp → GenericGraph T A → Res (Except GraphErr Unit × GenericGraph T A)
  | add i j, g => g.addEdge i j
  | remove i j, g => g.removeEdge i j

/-- A history on the modelled graph. -/
def graphRun : List EdgeOp → GenericGraph T A → Res (List (Except GraphErr Unit) × GenericGraph T A)
  | [], g => .ok ([], g)
  | op :: ops, g => do
    let (r, g) ← op.onGraph g
    let (rs, g) ← graphRun ops g
    return (r :: rs, g)

variable [LawfulAdj T A]

theorem edgeOp_refines {g : GenericGraph T A} (h : g.WF) {op : EdgeOp} (hv : op.valid g.nextId) :
    ∃ r g', op.onGraph g = .ok (r, g') ∧ g'.WF ∧ g'.nextId = g.nextId ∧ g'.data = g.data ∧
      op.onSet g.edges = (r, g'.edges) := by
  cases op with
  | add i j =>
    obtain ⟨hi, hj, hij⟩ := hv
    by_cases hex : s(i, j) ∈ g.edges
    · exact ⟨_, g, addEdge_exists h (h.mem_edges.mp hex), h, rfl, rfl, by simp [EdgeOp.onSet, hex]⟩
    · obtain ⟨g', h1, h2, h3, h4, h5, h6⟩ := addEdge_edges h hi hj hij hex
      exact ⟨_, g', h1, h2, h3, h6, by simp [EdgeOp.onSet, hex, h5]⟩
  | remove i j =>
    obtain ⟨hi, hj, hij⟩ := hv
    by_cases hex : s(i, j) ∈ g.edges
    · obtain ⟨g', h1, h2, h3, h4, h5, h6⟩ := removeEdge_edges h hex
      exact ⟨_, g', h1, h2, h3, h6, by simp [EdgeOp.onSet, hex, h5]⟩
    · exact ⟨_, g, removeEdge_absent h hi hj hij (by rwa [h.mem_edges] at hex), h, rfl, rfl,
        by simp [EdgeOp.onSet, hex]⟩

theorem graphRun_refines : ∀ (ops : List EdgeOp) {g : GenericGraph T A}, g.WF → (∀ op ∈ ops, op.valid g.nextId) →
    ∃ g', graphRun ops g = .ok ((setRun ops g.edges).1, g') ∧ g'.WF ∧ g'.nextId = g.nextId ∧ g'.data = g.data ∧
      g'.edges = (setRun ops g.edges).2 := by
  intro ops
  induction ops with
  | nil => intro g h _; exact ⟨g, rfl, h, rfl, rfl, rfl⟩
  | cons op ops ih =>
    intro g h hv
    obtain ⟨r, g1, h1, h2, h3, h4, h5⟩ := edgeOp_refines h (hv op (by simp))
    obtain ⟨g', e1, e2, e3, e4, e5⟩ := ih h2 (fun o ho => by rw [h3]; exact hv o (by simp [ho]))
    refine ⟨g', ?_, e2, e3.trans h3, e4.trans h4, ?_⟩
    · simp [graphRun, h1, e1, setRun, h5]
    · simp [e5, setRun, h5]

theorem edges_eq_empty {g : GenericGraph T A} (hnb : ∀ i, g.nbrs i = []) : g.edges = ∅ := by
  ext e; rw [mem_edges_iff]; simp [hnb]

/-- `is_adjacent` of the container of an existing vertex. -/
theorem isAdjacent_container {g : GenericGraph T A} (h : g.WF) {i : Nat} (hi : i < g.nextId) (j : Nat) :
    ∃ a, g.container i = .ok a ∧ (isAdjacent a j = true ↔ s(i, j) ∈ g.edges) := by
  refine ⟨g.vertices[i]'(h.lt_length hi), Vec.idx_of_lt (h.lt_length hi), ?_⟩
  rw [LawfulAdj.isAdjacent_iff, h.mem_edges, nbrs_getElem (h.lt_length hi)]

theorem degree_spec {g : GenericGraph T A} (h : g.WF) {i : Nat} (hi : i < g.nextId) :
    g.degree i = some (g.nbrs i).length := by
  have hl := h.lt_length hi
  simp [GenericGraph.degree, hl, LawfulAdj.degree_eq, nbrs_getElem hl]

/-- **C01.** Any history of `add_edge`/`remove_edge` calls on pairs of distinct existing vertices, started
from a freshly built graph, returns exactly the results of the same history on a set of unordered pairs, and
`is_adjacent`, `edge_count` and `degree` are those of that set.  For every lawful container. -/
theorem C01_edge_history_refines_set [Node T] (n : Nat) (ops : List EdgeOp) (hv : ∀ op ∈ ops, op.valid n) :
    ∃ g : GenericGraph T A, graphRun ops (GenericGraph.new n) = .ok ((setRun ops ∅).1, g) ∧
      g.vertexCount = n ∧ g.edgeCount = (setRun ops ∅).2.card ∧
      (∀ i < n, ∃ a, g.container i = .ok a ∧ ∀ j, (isAdjacent a j = true ↔ s(i, j) ∈ (setRun ops ∅).2)) ∧
      (∀ i < n, g.degree i = some ((setRun ops ∅).2.filter (fun e => i ∈ e)).card) := by
  have h0 : (GenericGraph.new n : GenericGraph T A).WF := new_wf n
  have hn : (GenericGraph.new n : GenericGraph T A).nextId = n := rfl
  have he : (GenericGraph.new n : GenericGraph T A).edges = ∅ := edges_eq_empty (fun i => new_nbrs n i)
  obtain ⟨g, h1, h2, h3, _, h5⟩ := graphRun_refines ops h0 (by rwa [hn])
  rw [he] at h1 h5
  rw [hn] at h3
  refine ⟨g, h1, h3, by rw [h2.edgeCount_eq_card, h5], ?_, ?_⟩
  · intro i hi
    have hl := h2.lt_length (show i < g.nextId by omega)
    refine ⟨g.vertices[i], Vec.idx_of_lt hl, fun j => ?_⟩
    rw [LawfulAdj.isAdjacent_iff, ← h5, h2.mem_edges, nbrs_getElem hl]
  · intro i hi
    rw [degree_spec h2 (by omega), h2.degree_eq_card, h5]

/-- The same from any valid graph (used by the ensembles). -/
theorem C01_history_from_any_graph {g0 : GenericGraph T A} (h0 : g0.WF) (ops : List EdgeOp)
    (hv : ∀ op ∈ ops, op.valid g0.nextId) :
    ∃ g, graphRun ops g0 = .ok ((setRun ops g0.edges).1, g) ∧ g.WF ∧ g.edges = (setRun ops g0.edges).2 ∧
      g.edgeCount = (setRun ops g0.edges).2.card ∧ g.data = g0.data := by
  obtain ⟨g, h1, h2, h3, h4, h5⟩ := graphRun_refines ops h0 hv
  exact ⟨g, h1, h2, h5, by rw [h2.edgeCount_eq_card, h5], h4⟩

-- the hypotheses are met by a history with successes and both kinds of failures
example : ∀ op ∈ [EdgeOp.add 0 1, .add 1 2, .add 1 0, .remove 2 1, .remove 2 1], op.valid 3 := by
  simp [EdgeOp.valid]
example : (setRun [EdgeOp.add 0 1, .add 1 2, .add 1 0, .remove 2 1, .remove 2 1] ∅).1
    = [.ok (), .ok (), .error .edgeExists, .ok (), .error .edgeDoesNotExist] := by decide

/-! ## C03 -/

/-- **C03.** `add_edge` fails exactly on present edges and `remove_edge` exactly on absent ones; a failing call
returns the identical graph; equal or out-of-range indices panic (debug build). -/
theorem C03_failed_calls_change_nothing {g : GenericGraph T A} (h : g.WF) (i j : Nat) :
    (∀ e g', g.addEdge i j = .ok (.error e, g') → e = .edgeExists ∧ g' = g ∧ g.toSimple.Adj i j) ∧
    (∀ e g', g.removeEdge i j = .ok (.error e, g') → e = .edgeDoesNotExist ∧ g' = g ∧ ¬ g.toSimple.Adj i j) ∧
    (∀ u g', g.addEdge i j = .ok (.ok u, g') → ¬ g.toSimple.Adj i j) ∧
    (∀ u g', g.removeEdge i j = .ok (.ok u, g') → g.toSimple.Adj i j) ∧
    ((∃ x, g.addEdge i j = .ok x) ↔ (i < g.vertexCount ∧ j < g.vertexCount ∧ i ≠ j)) ∧
    ((∃ x, g.removeEdge i j = .ok x) ↔ (i < g.vertexCount ∧ j < g.vertexCount ∧ i ≠ j)) := by
  rw [h.adj_iff]
  unfold vertexCount
  by_cases hv : i < g.nextId ∧ j < g.nextId ∧ i ≠ j
  · by_cases hex : j ∈ g.nbrs i
    · obtain ⟨g', h1, _⟩ := removeEdge_spec h hex
      simp [addEdge_exists h hex, h1, hv, hex]
    · obtain ⟨g', h1, _⟩ := addEdge_spec h hv.1 hv.2.1 hv.2.2 hex
      simp [removeEdge_absent h hv.1 hv.2.1 hv.2.2 hex, h1, hv, hex]
  · simp [addEdge_panic hv, removeEdge_panic hv]
    intro a b; by_contra hc; exact hv ⟨a, b, hc⟩

example : exTail.WF ∧ exTail.toSimple.Adj 0 1 ∧ ¬ exTail.toSimple.Adj 0 3 ∧ exTail.vertexCount = 5 := by
  refine ⟨exTail_wf, ?_, ?_, rfl⟩ <;> rw [exTail_wf.adj_iff] <;> decide

/-! ## C04 -/

/-- **C04 (first half).** After a successful `add_edge(i,j)`, both `remove_edge(i,j)` and `remove_edge(j,i)`
succeed and give back the previous adjacency relation, edge count and data; after a successful `remove_edge(i,j)`,
both `add_edge(i,j)` and `add_edge(j,i)` do. -/
theorem C04_remove_add_inverse {g : GenericGraph T A} (h : g.WF) (i j : Nat) :
    (∀ g1, g.addEdge i j = .ok (.ok (), g1) →
      (∃ g2, g1.removeEdge i j = .ok (.ok (), g2) ∧ g2.toSimple = g.toSimple ∧ g2.edgeCount = g.edgeCount ∧
        g2.data = g.data) ∧
      (∃ g2, g1.removeEdge j i = .ok (.ok (), g2) ∧ g2.toSimple = g.toSimple ∧ g2.edgeCount = g.edgeCount ∧
        g2.data = g.data)) ∧
    (∀ g1, g.removeEdge i j = .ok (.ok (), g1) →
      (∃ g2, g1.addEdge i j = .ok (.ok (), g2) ∧ g2.toSimple = g.toSimple ∧ g2.edgeCount = g.edgeCount ∧
        g2.data = g.data) ∧
      (∃ g2, g1.addEdge j i = .ok (.ok (), g2) ∧ g2.toSimple = g.toSimple ∧ g2.edgeCount = g.edgeCount ∧
        g2.data = g.data)) := by
  constructor
  · intro g1 e
    obtain ⟨_, _, c3, _, c5, _⟩ := C03_failed_calls_change_nothing h i j
    obtain ⟨hi, hj, hij⟩ := c5.mp ⟨_, e⟩
    have hn := c3 _ _ e
    rw [h.adj_iff] at hn
    obtain ⟨g1', a1, a2, a3, a4, a5, a6⟩ := addEdge_spec h hi hj hij hn
    rw [a1] at e; simp at e; subst e
    have key : ∀ x y, ((x = i ∧ y = j) ∨ (x = j ∧ y = i)) → ∃ g2, g1'.removeEdge x y = .ok (.ok (), g2) ∧
        g2.toSimple = g.toSimple ∧ g2.edgeCount = g.edgeCount ∧ g2.data = g.data := by
      intro x y hxy
      obtain ⟨g2, b1, b2, b3, b4, b5, b6⟩ := removeEdge_spec a2 (i := x) (j := y) (by rw [a5]; tauto)
      refine ⟨g2, b1, ?_, by omega, b6.trans a6⟩
      ext k l
      rw [b2.adj_iff, h.adj_iff, b5, a5]
      have hn' : i ∉ g.nbrs j := fun hc => hn (h.symm _ _ hc)
      clear a1 a2 a3 a4 a5 a6 b1 b2 b3 b4 b5 b6 c3 c5
      constructor
      · rintro ⟨h1 | h1 | h1, h2, h3⟩
        · exact h1
        · rcases hxy with ⟨rfl, rfl⟩ | ⟨rfl, rfl⟩
          · exact absurd h1 h2
          · exact absurd h1 h3
        · rcases hxy with ⟨rfl, rfl⟩ | ⟨rfl, rfl⟩
          · exact absurd h1 h3
          · exact absurd h1 h2
      · intro h1
        refine ⟨Or.inl h1, ?_, ?_⟩ <;> rintro ⟨rfl, rfl⟩ <;> rcases hxy with ⟨rfl, rfl⟩ | ⟨rfl, rfl⟩ <;>
          first | exact hn h1 | exact hn' h1
    exact ⟨key i j (Or.inl ⟨rfl, rfl⟩), key j i (Or.inr ⟨rfl, rfl⟩)⟩
  · intro g1 e
    obtain ⟨_, _, _, c4, _, c6⟩ := C03_failed_calls_change_nothing h i j
    obtain ⟨hi, hj, hij⟩ := c6.mp ⟨_, e⟩
    have hn := c4 _ _ e
    rw [h.adj_iff] at hn
    obtain ⟨g1', a1, a2, a3, a4, a5, a6⟩ := removeEdge_spec h hn
    rw [a1] at e; simp at e; subst e
    have hn' : i ∈ g.nbrs j := h.symm _ _ hn
    unfold vertexCount at hi hj
    have key : ∀ x y, ((x = i ∧ y = j) ∨ (x = j ∧ y = i)) → ∃ g2, g1'.addEdge x y = .ok (.ok (), g2) ∧
        g2.toSimple = g.toSimple ∧ g2.edgeCount = g.edgeCount ∧ g2.data = g.data := by
      intro x y hxy
      obtain ⟨g2, b1, b2, b3, b4, b5, b6⟩ := addEdge_spec a2 (i := x) (j := y) (by omega) (by omega) (by omega)
        (by rw [a5]; tauto)
      refine ⟨g2, b1, ?_, by omega, b6.trans a6⟩
      ext k l
      rw [b2.adj_iff, h.adj_iff, b5, a5]
      constructor
      · rintro (h1 | ⟨rfl, rfl⟩ | ⟨rfl, rfl⟩)
        · exact h1.1
        · rcases hxy with ⟨rfl, rfl⟩ | ⟨rfl, rfl⟩ <;> assumption
        · rcases hxy with ⟨rfl, rfl⟩ | ⟨rfl, rfl⟩ <;> assumption
      · intro h1
        by_cases p : k = i ∧ l = j
        · rcases hxy with ⟨rfl, rfl⟩ | ⟨rfl, rfl⟩
          · exact Or.inr (Or.inl p)
          · exact Or.inr (Or.inr p)
        · by_cases q : k = j ∧ l = i
          · rcases hxy with ⟨rfl, rfl⟩ | ⟨rfl, rfl⟩
            · exact Or.inr (Or.inr q)
            · exact Or.inr (Or.inl q)
          · exact Or.inl ⟨h1, p, q⟩
    exact ⟨key i j (Or.inl ⟨rfl, rfl⟩), key j i (Or.inr ⟨rfl, rfl⟩)⟩

/-- **C04 (second half).** Two histories with the same net effect give graphs that agree on every adjacency
query, every degree and the edge count. -/
theorem C04_only_net_effect_matters {g0 : GenericGraph T A} (h0 : g0.WF) (ops ops' : List EdgeOp)
    (hv : ∀ op ∈ ops, op.valid g0.nextId) (hv' : ∀ op ∈ ops', op.valid g0.nextId)
    (hnet : (setRun ops g0.edges).2 = (setRun ops' g0.edges).2) :
    ∃ rs rs' g g', graphRun ops g0 = .ok (rs, g) ∧ graphRun ops' g0 = .ok (rs', g') ∧
      g.toSimple = g'.toSimple ∧ g.edgeCount = g'.edgeCount ∧ ∀ i, g.degree i = g'.degree i := by
  obtain ⟨g, a1, a2, a3, a4, a5⟩ := graphRun_refines ops h0 hv
  obtain ⟨g', b1, b2, b3, b4, b5⟩ := graphRun_refines ops' h0 hv'
  have t : TopoEq g g' := a2.topoEq_of_edges b2 (b3.trans a3.symm) (by rw [a5, b5, hnet])
  refine ⟨_, _, g, g', a1, b1, ?_, t.ec.symm, ?_⟩
  · ext k l; rw [a2.adj_iff, b2.adj_iff, t.adj]
  · intro i
    by_cases hi : i < g.nextId
    · rw [degree_spec a2 hi, degree_spec b2 (by rw [t.n]; exact hi), (a2.nbrs_perm b2 t i).length_eq]
    · have h1 : g.vertices[i]? = none := by simp [a2.len]; omega
      have h2 : g'.vertices[i]? = none := by simp [b2.len, t.n]; omega
      simp [GenericGraph.degree, h1, h2]

example : ∃ ops ops' : List EdgeOp, ops ≠ ops' ∧ (∀ op ∈ ops, op.valid 5) ∧ (∀ op ∈ ops', op.valid 5) ∧
    (setRun ops exTail.edges).2 = (setRun ops' exTail.edges).2 :=
  ⟨[.add 3 4, .remove 0 1], [.remove 1 0, .add 4 3], by decide, by simp [EdgeOp.valid], by simp [EdgeOp.valid],
    by decide⟩

/-! ## C02, C05: all generic mutators -/

/-- The mutating calls offered by `GenericGraph` (random ones carry the generator state they are given). -/
inductive GraphOp (T R : Type) where
  | addEdge (i j : Nat)
  | removeEdge (i j : Nat)
  | clearEdges
  | initRing (d : Nat)
  | sortAdj
  | shuffleAdjs (r : R)
  | shuffleAdj (r : R) (i : Nat)
  | setAt (i : Nat) (t : T)

/-- Running one mutating call (whatever result it returns). -/
def GraphOp.run {R : Type} [Rng R] : GraphOp T R → GenericGraph T A → Res (GenericGraph T A)
  | .addEdge i j, g => do let (_, g) ← g.addEdge i j; return g
  | .removeEdge i j, g => do let (_, g) ← g.removeEdge i j; return g
  | .clearEdges, g => .ok g.clearEdges
  | .initRing d, g => do let (_, g) ← g.initRing d; return g
  | .sortAdj, g => g.sortAdj
  | .shuffleAdjs r, g => do let (g, _) ← g.shuffleAdjs r; return g
  | .shuffleAdj r i, g => do let (g, _) ← g.shuffleAdj r i; return g
  | .setAt i t, g => g.setAt i t

/-- The effect of a call on the stored data. -/
def GraphOp.onData {R : Type} : GraphOp T R → List T → List T
  | .setAt i t, l => l.set i t
  | _, l => l

theorem setAt_panic {g : GenericGraph T A} (h : g.WF) {i : Nat} (hi : ¬ i < g.nextId) (t : T) : g.setAt i t = .panic := by
  have : Vec.idx g.vertices i = .panic := by
    simp [Vec.idx, List.getElem?_eq_none (show g.vertices.length ≤ i by rw [h.len]; omega)]
  simp [GenericGraph.setAt, GenericGraph.container, this]

theorem shuffleAdj_panic {R : Type} [Rng R] {g : GenericGraph T A} (h : g.WF) {i : Nat} (hi : ¬ i < g.nextId) (r : R) :
    g.shuffleAdj r i = .panic := by
  have : Vec.idx g.vertices i = .panic := by
    simp [Vec.idx, List.getElem?_eq_none (show g.vertices.length ≤ i by rw [h.len]; omega)]
  simp [GenericGraph.shuffleAdj, this]

/-- **C02 / C05, one call.** Every mutating call that returns leaves a valid graph with the same vertex count;
the stored data changes only where `at_mut` was used, and a data write changes no neighbour list. -/
theorem C02_C05_step {R : Type} [Rng R] {g g' : GenericGraph T A} (h : g.WF) (op : GraphOp T R)
    (e : op.run g = .ok g') :
    g'.WF ∧ g'.vertexCount = g.vertexCount ∧ g'.data = op.onData g.data ∧
      (∀ i t, op = .setAt i t → (∀ k, g'.nbrs k = g.nbrs k) ∧ g'.edgeCount = g.edgeCount) := by
  cases op with
  | addEdge i j =>
    simp only [GraphOp.run, Res.bind_eq_ok] at e
    obtain ⟨⟨r, g1⟩, e1, e2⟩ := e
    simp at e2; subst e2
    obtain ⟨w1, w2, w3, _⟩ := addEdge_wp h e1
    exact ⟨w1, w2, w3, by simp⟩
  | removeEdge i j =>
    simp only [GraphOp.run, Res.bind_eq_ok] at e
    obtain ⟨⟨r, g1⟩, e1, e2⟩ := e
    simp at e2; subst e2
    by_cases hv : i < g.nextId ∧ j < g.nextId ∧ i ≠ j
    · obtain ⟨r', g2, a1, a2, a3, a4, _⟩ := edgeOp_refines h (op := .remove i j) hv
      have : g.removeEdge i j = .ok (r', g2) := a1
      rw [e1] at this; simp at this; obtain ⟨rfl, rfl⟩ := this
      exact ⟨a2, a3, a4, by simp⟩
    · rw [removeEdge_panic hv] at e1; cases e1
  | clearEdges =>
    simp [GraphOp.run] at e; subst e
    exact ⟨clearEdges_wf h, clearEdges_nextId g, clearEdges_data g, by simp⟩
  | initRing d =>
    simp only [GraphOp.run, Res.bind_eq_ok] at e
    obtain ⟨⟨r, g1⟩, e1, e2⟩ := e
    simp at e2; subst e2
    obtain ⟨w1, w2, w3, _⟩ := initRing_wp h e1
    exact ⟨w1, w2, w3, by simp⟩
  | sortAdj =>
    obtain ⟨g1, a1, a2, a3, a4, _⟩ := sortAdj_spec h
    simp only [GraphOp.run] at e
    rw [a1] at e; simp at e; subst e
    exact ⟨a2, a3.n, a4, by simp⟩
  | shuffleAdjs r =>
    obtain ⟨g1, r1, a1, a2, a3, a4, _⟩ := shuffleAdjs_spec h r
    simp [GraphOp.run, a1] at e; subst e
    exact ⟨a2, a3.n, a4, by simp⟩
  | shuffleAdj r i =>
    by_cases hi : i < g.nextId
    · obtain ⟨g1, r1, a1, a2, a3, a4, _⟩ := shuffleAdj_spec h r hi
      simp [GraphOp.run, a1] at e; subst e
      exact ⟨a2, a3.n, a4, by simp⟩
    · simp [GraphOp.run, shuffleAdj_panic h hi r] at e
  | setAt i t =>
    by_cases hi : i < g.nextId
    · obtain ⟨g1, a1, a2, a3, a4, a5, a6⟩ := setAt_spec h hi t
      simp [GraphOp.run, a1] at e; subst e
      exact ⟨a2, a3, a6, fun _ _ _ => ⟨a5, a4⟩⟩
    · simp [GraphOp.run, setAt_panic h hi t] at e

/-- **C02.** After any history of mutating calls on a freshly built graph that did not panic, the graph is a
simple undirected graph: lists mention existing vertices only, no duplicates, no self loops, symmetric, ids in
order, degree sum twice the edge count; and (C05) the data is the initial data with the writes applied. -/
theorem C02_history_wf {R : Type} [Rng R] (payload : List T) (ops : List (GraphOp T R)) {g : GenericGraph T A}
    (e : ops.foldlM (fun g op => GraphOp.run op g) (GenericGraph.fromVec payload : GenericGraph T A) = .ok g) :
    g.WF ∧ g.vertexCount = payload.length ∧ g.data = ops.foldl (fun l op => op.onData l) payload := by
  have key : ∀ (ops : List (GraphOp T R)) (g0 g : GenericGraph T A), g0.WF →
      ops.foldlM (fun g op => GraphOp.run op g) g0 = .ok g →
      g.WF ∧ g.vertexCount = g0.vertexCount ∧ g.data = ops.foldl (fun l op => op.onData l) g0.data := by
    intro ops
    induction ops with
    | nil => intro g0 g h e; simp at e; subst e; exact ⟨h, rfl, rfl⟩
    | cons op ops ih =>
      intro g0 g h e
      simp only [List.foldlM_cons, Res.bind_eq_ok] at e
      obtain ⟨g1, e1, e2⟩ := e
      obtain ⟨w1, w2, w3, _⟩ := C02_C05_step h op e1
      obtain ⟨x1, x2, x3⟩ := ih g1 g w1 e2
      exact ⟨x1, x2.trans w2, by rw [x3, w3]; rfl⟩
  obtain ⟨x1, x2, x3⟩ := key ops _ g (fromVec_wf payload) e
  rw [fromVec_data] at x3
  refine ⟨x1, ?_, x3⟩
  rw [x2]
  simp [GenericGraph.fromVec, GenericGraph.vertexCount]

/-- **C05** (topology edits keep the data): a consequence of the above for histories without data writes. -/
theorem C05_topology_edits_keep_data {R : Type} [Rng R] (payload : List T) (ops : List (GraphOp T R))
    {g : GenericGraph T A} (hno : ∀ op ∈ ops, ∀ i t, op ≠ .setAt i t)
    (e : ops.foldlM (fun g op => GraphOp.run op g) (GenericGraph.fromVec payload : GenericGraph T A) = .ok g) :
    g.data = payload ∧ ∀ i, g.getContained i = payload[i]? := by
  obtain ⟨_, _, h3⟩ := C02_history_wf payload ops e
  have : ∀ (ops : List (GraphOp T R)) (l : List T), (∀ op ∈ ops, ∀ i t, op ≠ .setAt i t) →
      ops.foldl (fun l op => op.onData l) l = l := by
    intro ops
    induction ops with
    | nil => intro l _; rfl
    | cons op ops ih =>
      intro l hl
      have : op.onData l = l := by
        cases op with
        | setAt i t => exact absurd rfl (hl (.setAt i t) List.mem_cons_self i t)
        | _ => rfl
      rw [List.foldl_cons, this]
      exact ih l (fun o ho => hl o (by simp [ho]))
  rw [this ops payload hno] at h3
  refine ⟨h3, fun i => ?_⟩
  rw [← h3]
  simp [GenericGraph.getContained, GenericGraph.data]

-- a history with several kinds of calls that does not panic
example : ([.addEdge 0 1, .setAt 2 7, .initRing 1, .removeEdge 0 1, .sortAdj] : List (GraphOp Nat Tape)).foldlM
    (fun g op => GraphOp.run op g) (GenericGraph.fromVec [5, 6, 8] : Graph Nat)
    = .ok ⟨3, 2, [⟨0, [2], 5⟩, ⟨1, [2], 6⟩, ⟨2, [0, 1], 7⟩]⟩ := by decide

/-! ## C06 -/

/-- **C06.** `clear_edges` yields the edgeless graph with the same vertices and data. -/
theorem C06_clear_edges {g : GenericGraph T A} (h : g.WF) :
    g.clearEdges.WF ∧ g.clearEdges.toSimple = ⊥ ∧ g.clearEdges.edgeCount = 0 ∧
    (∀ i < g.vertexCount, g.clearEdges.degree i = some 0) ∧ g.clearEdges.vertexCount = g.vertexCount ∧
    g.clearEdges.data = g.data := by
  have w := clearEdges_wf h
  refine ⟨w, ?_, clearEdges_edgeCount g, ?_, clearEdges_nextId g, clearEdges_data g⟩
  · ext i j; rw [w.adj_iff, clearEdges_nbrs h]; simp
  · intro i hi
    rw [degree_spec w (by rw [clearEdges_nextId]; exact hi), clearEdges_nbrs h]; rfl

example : exTail.WF ∧ exTail.edgeCount = 4 ∧ exTail.vertexCount = 5 := ⟨exTail_wf, rfl, rfl⟩

/-! ## C07 -/

/-- Distance of two positions on a ring of `n` places. -/
def circDist (n i j : Nat) : Nat := min ((j + n - i) % n) ((i + n - j) % n)

theorem ring_adj_iff {n d k l : Nat} (hd : 2 * d + 1 ≤ n) :
    (∃ x a, x < n ∧ 1 ≤ a ∧ a ≤ d ∧ ((k = x ∧ l = (x + a) % n) ∨ (l = x ∧ k = (x + a) % n))) ↔
      (k < n ∧ l < n ∧ k ≠ l ∧ circDist n k l ≤ d) := by
  have key : ∀ x a, x < n → a < n → ((x + a) % n + n - x) % n = a := by
    intro x a hx ha
    rcases add_mod_cases hx ha with h | h
    · rw [h.1, show x + a + n - x = a + n by omega, Nat.add_mod_right, Nat.mod_eq_of_lt ha]
    · have : (x + a) % n + n - x = a := by omega
      rw [this, Nat.mod_eq_of_lt ha]
  have key2 : ∀ x y, x < n → y < n → (x + (y + n - x) % n) % n = y := by
    intro x y hx hy
    rw [Nat.add_mod_mod, show x + (y + n - x) = y + n by omega, Nat.add_mod_right, Nat.mod_eq_of_lt hy]
  constructor
  · rintro ⟨x, a, hx, ha1, ha2, ⟨rfl, rfl⟩ | ⟨rfl, rfl⟩⟩
    · have := key k a hx (by omega)
      refine ⟨hx, Nat.mod_lt _ (by omega), ?_, ?_⟩
      · rcases add_mod_cases hx (show a < n by omega) with h | h <;> omega
      · unfold circDist; rw [this]; omega
    · have := key l a hx (by omega)
      refine ⟨Nat.mod_lt _ (by omega), hx, ?_, ?_⟩
      · rcases add_mod_cases hx (show a < n by omega) with h | h <;> omega
      · unfold circDist; rw [this]; omega
  · rintro ⟨hk, hl, hkl, hc⟩
    unfold circDist at hc
    rcases min_le_iff.mp hc with h | h
    · refine ⟨k, (l + n - k) % n, hk, ?_, h, Or.inl ⟨rfl, (key2 k l hk hl).symm⟩⟩
      by_contra hc0
      have h0 : (l + n - k) % n = 0 := by omega
      have := key2 k l hk hl
      rw [h0, Nat.add_zero, Nat.mod_eq_of_lt hk] at this
      exact hkl this
    · refine ⟨l, (k + n - l) % n, hl, ?_, h, Or.inr ⟨rfl, (key2 l k hl hk).symm⟩⟩
      by_contra hc0
      have h0 : (k + n - l) % n = 0 := by omega
      have := key2 l k hl hk
      rw [h0, Nat.add_zero, Nat.mod_eq_of_lt hl] at this
      exact hkl this.symm

theorem mod_add_inj {n i a b : Nat} (hi : i < n) (ha : a < n) (hb : b < n) (h : (i + a) % n = (i + b) % n) : a = b := by
  rcases add_mod_cases hi ha with h1 | h1 <;> rcases add_mod_cases hi hb with h2 | h2 <;> omega

/-- **C07.** `init_ring(d)` on `n ≥ 2d+1` vertices succeeds whatever edges existed before and builds exactly the
ring: `i` and `j` are adjacent iff they are different and at circular distance at most `d`; `n*d` edges, every
degree `2d`, data unchanged. -/
theorem C07_init_ring {g : GenericGraph T A} (h : g.WF) (d : Nat) (hd : 2 * d + 1 ≤ g.vertexCount) :
    ∃ g', g.initRing d = .ok (.ok (), g') ∧ g'.WF ∧ g'.vertexCount = g.vertexCount ∧
      g'.edgeCount = g.vertexCount * d ∧ g'.data = g.data ∧
      (∀ i j, g'.toSimple.Adj i j ↔
        (i < g.vertexCount ∧ j < g.vertexCount ∧ i ≠ j ∧ circDist g.vertexCount i j ≤ d)) ∧
      (∀ i < g.vertexCount, g'.degree i = some (2 * d)) := by
  unfold vertexCount at *
  obtain ⟨g', h1, h2, h3, h4, h5, h6⟩ := initRing_inv h hd
  refine ⟨g', h1, h2, h3, h5, h4, ?_, ?_⟩
  · intro i j; rw [h2.adj_iff, h6, ring_adj_iff hd]
  · intro i hi
    rw [degree_spec h2 (by omega)]
    congr 1
    set n := g.nextId with hn
    let L := (List.range' 1 d).map (fun a => (i + a) % n) ++ (List.range' 1 d).map (fun a => (i + (n - a)) % n)
    have hL : L.Nodup := by
      rw [List.nodup_append]
      refine ⟨?_, ?_, ?_⟩
      · apply List.Nodup.map_on _ List.nodup_range'
        intro a ha b hb hab
        rw [List.mem_range'_1] at ha hb
        exact mod_add_inj hi (by omega) (by omega) hab
      · apply List.Nodup.map_on _ List.nodup_range'
        intro a ha b hb hab
        rw [List.mem_range'_1] at ha hb
        have := mod_add_inj hi (by omega) (by omega) hab
        omega
      · intro x hx y hy hxy
        subst hxy
        obtain ⟨a, ha, rfl⟩ := List.mem_map.mp hx
        obtain ⟨b, hb, hab⟩ := List.mem_map.mp hy
        rw [List.mem_range'_1] at ha hb
        have := mod_add_inj hi (by omega) (by omega) hab
        omega
    have hmem : ∀ x, x ∈ g'.nbrs i ↔ x ∈ L := by
      intro x
      rw [h6]
      simp only [L, List.mem_append, List.mem_map, List.mem_range'_1]
      constructor
      · rintro ⟨y, a, hy, ha1, ha2, ⟨rfl, rfl⟩ | ⟨rfl, rfl⟩⟩
        · exact Or.inl ⟨a, by omega, rfl⟩
        · refine Or.inr ⟨a, by omega, ?_⟩
          rcases add_mod_cases hy (show a < n by omega) with h | h
          · rw [h.1, show x + a + (n - a) = x + n by omega, Nat.add_mod_right, Nat.mod_eq_of_lt hy]
          · rw [show (x + a) % n + (n - a) = x by omega, Nat.mod_eq_of_lt hy]
      · rintro (⟨a, ha, rfl⟩ | ⟨a, ha, rfl⟩)
        · exact ⟨i, a, hi, by omega, by omega, Or.inl ⟨rfl, rfl⟩⟩
        · refine ⟨(i + (n - a)) % n, a, Nat.mod_lt _ (by omega), by omega, by omega, Or.inr ⟨rfl, ?_⟩⟩
          rw [Nat.mod_add_mod, show i + (n - a) + a = i + n by omega, Nat.add_mod_right, Nat.mod_eq_of_lt hi]
    have := ((List.perm_ext_iff_of_nodup (h2.nodup i) hL).mpr hmem).length_eq
    rw [this]
    simp [L]; omega

/-- **C07 (converse).** For `1 ≤ n ≤ 2d` vertices (`d ≥ 1`) `init_ring(d)` does not succeed. -/
theorem C07_init_ring_too_small {g g' : GenericGraph T A} (h : g.WF) (d : Nat) (hn : 1 ≤ g.vertexCount)
    (hd : g.vertexCount ≤ 2 * d) : g.initRing d ≠ .ok (.ok (), g') := by
  unfold vertexCount at *
  intro e
  obtain ⟨w1, w2, _, w4⟩ := initRing_wp h e
  have := w1.edgeCount_le
  rw [w4 rfl, w2] at this
  have h1 : g.nextId * (2 * d) ≤ g.nextId * (g.nextId - 1) := by
    calc g.nextId * (2 * d) = 2 * (g.nextId * d) := by ring
      _ ≤ _ := this
  have := Nat.le_of_mul_le_mul_left h1 hn
  omega

example : exTail.WF ∧ 2 * 2 + 1 ≤ exTail.vertexCount := ⟨exTail_wf, by decide⟩
example : exPath.WF ∧ 1 ≤ exPath.vertexCount ∧ exPath.vertexCount ≤ 2 * 2 := ⟨exPath_wf, by decide, by decide⟩

/-! ## C08 -/

/-- **C08.** `complete_graph(n)`, `n ≥ 1`, is a valid graph on `n` vertices in which any two different vertices
are adjacent, with `n(n-1)/2` edges; `complete_graph(0)` panics (debug build). -/
theorem C08_complete_graph [Node T] (n : Nat) :
    (1 ≤ n → ∃ g : Graph T, completeGraph n = .ok g ∧ g.WF ∧ g.vertexCount = n ∧ g.edgeCount = n * (n - 1) / 2 ∧
      (∀ i j, g.toSimple.Adj i j ↔ (i < n ∧ j < n ∧ i ≠ j)) ∧
      (∀ i < n, g.getContained i = some (Node.newFromIndex i))) ∧
    (n = 0 → (completeGraph n : Res (Graph T)) = .panic) := by
  constructor
  · intro hn
    obtain ⟨g, h1, h2, h3, h4, h5, h6⟩ := completeGraph_spec (T := T) hn
    refine ⟨g, h1, h2, h3, h4, fun i j => by rw [h2.adj_iff, h5], fun i hi => ?_⟩
    have : g.getContained i = g.data[i]? := by simp [GenericGraph.getContained, GenericGraph.data]
    rw [this, h6]; simp [hi]
  · rintro rfl; exact completeGraph_zero

example : (completeGraph 3 : Res (Graph Nat)) = .ok ⟨3, 3, [⟨0, [1, 2], 0⟩, ⟨1, [0, 2], 1⟩, ⟨2, [0, 1], 2⟩]⟩ := by decide

/-! ## C09 -/

/-- **C09.** `sort_adj` keeps adjacency, edge count and data and sorts each neighbour list. -/
theorem C09_sort_adj {g : GenericGraph T A} (h : g.WF) :
    ∃ g', g.sortAdj = .ok g' ∧ g'.WF ∧ g'.toSimple = g.toSimple ∧ g'.edgeCount = g.edgeCount ∧ g'.data = g.data ∧
      (∀ i, (g'.nbrs i).Perm (g.nbrs i) ∧ (g'.nbrs i).Pairwise (· < ·)) := by
  obtain ⟨g', h1, h2, h3, h4, h5, h6⟩ := sortAdj_spec h
  refine ⟨g', h1, h2, ?_, h3.ec, h4, fun i => ⟨h5 i, ?_⟩⟩
  · ext i j; rw [h2.adj_iff, h.adj_iff, h3.adj]
  · have := (h6 i).and (h2.nodup i)
    exact this.imp (fun h => by omega)

/-- **C09.** `shuffle_adjs` and `shuffle_adj` keep adjacency, edge count and data for every behaviour of the
generator; each list is only permuted. -/
theorem C09_shuffle {R : Type} [Rng R] {g : GenericGraph T A} (h : g.WF) (r : R) :
    (∃ g' r', g.shuffleAdjs r = .ok (g', r') ∧ g'.WF ∧ g'.toSimple = g.toSimple ∧ g'.edgeCount = g.edgeCount ∧
      g'.data = g.data ∧ ∀ i, (g'.nbrs i).Perm (g.nbrs i)) ∧
    (∀ k < g.vertexCount, ∃ g' r', g.shuffleAdj r k = .ok (g', r') ∧ g'.WF ∧ g'.toSimple = g.toSimple ∧
      g'.edgeCount = g.edgeCount ∧ g'.data = g.data ∧ ∀ i, (g'.nbrs i).Perm (g.nbrs i)) := by
  constructor
  · obtain ⟨g', r', h1, h2, h3, h4, h5⟩ := shuffleAdjs_spec h r
    exact ⟨g', r', h1, h2, by ext i j; rw [h2.adj_iff, h.adj_iff, h3.adj], h3.ec, h4, h5⟩
  · intro k hk
    obtain ⟨g', r', h1, h2, h3, h4, h5⟩ := shuffleAdj_spec h r hk
    exact ⟨g', r', h1, h2, by ext i j; rw [h2.adj_iff, h.adj_iff, h3.adj], h3.ec, h4, h5⟩

end

/-- **C09** for the small-world container: sorting and shuffling permute whole edges, so the root information
stays attached to its edge. -/
theorem C09_sw_container {T R : Type} [Rng R] (c : SwContainer T) (r : R) :
    (∃ c' : SwContainer T, AdjContainer.sortAdj c = .ok c' ∧ c'.adj.Perm c.adj ∧ c'.id = c.id) ∧
    (∃ (c' : SwContainer T) (r' : R), AdjContainer.shuffleAdj c r = .ok (c', r') ∧ c'.adj.Perm c.adj ∧ c'.id = c.id) := by
  constructor
  · exact ⟨{ c with adj := sortBy (·.dst) c.adj }, rfl, sortBy_perm _ _, rfl⟩
  · exact ⟨{ c with adj := (Rng.shuffle r c.adj).1 }, (Rng.shuffle r c.adj).2, rfl, Rng.shuffle_perm _ _, rfl⟩

theorem mapM_idx_eq {α : Type} (v : List α) : ∀ (p : List Nat), (∀ i ∈ p, i < v.length) →
    p.mapM (fun i => Vec.idx v i) = .ok (p.filterMap (fun i => v[i]?)) := by
  intro p
  induction p with
  | nil => intro _; rfl
  | cons a p ih =>
    intro h
    have ha := h a (by simp)
    simp [List.mapM_cons, Vec.idx_of_lt ha, ih (fun i hi => h i (by simp [hi])), List.filterMap_cons, ha]

theorem filterMap_zip {α β : Type} (v : List α) (w : List β) (hl : v.length = w.length) :
    ∀ p : List Nat, (∀ i ∈ p, i < v.length) →
    (p.filterMap (fun i => v[i]?)).zip (p.filterMap (fun i => w[i]?)) = p.filterMap (fun i => (v.zip w)[i]?) := by
  intro p
  induction p with
  | nil => intro _; rfl
  | cons a p ih =>
    intro h
    have ha := h a (by simp)
    have hb : a < w.length := by omega
    have hc : a < (v.zip w).length := by simp; omega
    simp only [List.filterMap_cons, List.getElem?_eq_getElem ha, List.getElem?_eq_getElem hb,
      List.getElem?_eq_getElem hc, List.zip_cons_cons, List.getElem_zip]
    rw [ih (fun i hi => h i (by simp [hi]))]

theorem filterMap_range_perm {α : Type} (v : List α) {p : List Nat} (hp : p.Perm (List.range v.length)) :
    (p.filterMap (fun i => v[i]?)).Perm v := by
  refine (hp.filterMap _).trans ?_
  have : (List.range v.length).filterMap (fun i => v[i]?) = v := by
    clear hp
    induction v using List.reverseRecOn with
    | nil => rfl
    | append_singleton v x ih =>
      rw [List.length_append, List.length_singleton, List.range_succ, List.filterMap_append]
      have h1 : (List.range v.length).filterMap (fun i => (v ++ [x])[i]?) =
          (List.range v.length).filterMap (fun i => v[i]?) := by
        apply List.filterMap_congr
        intro i hi
        simp at hi
        rw [List.getElem?_append_left hi]
      rw [h1, ih]; simp
  rw [this]

/-- **C09** for the Watts–Strogatz container: the pairs (neighbour, origin record) are only permuted. -/
theorem C09_ws_container {T R : Type} [Rng R] (c : WSContainer T) (hc : c.dst.length = c.original.length) (r : R) :
    (∃ c' : WSContainer T, AdjContainer.sortAdj c = .ok c' ∧
      (c'.dst.zip c'.original).Perm (c.dst.zip c.original) ∧ c'.id = c.id) ∧
    (∃ (c' : WSContainer T) (r' : R), AdjContainer.shuffleAdj c r = .ok (c', r') ∧
      (c'.dst.zip c'.original).Perm (c.dst.zip c.original) ∧ c'.id = c.id) := by
  have key : ∀ p : List Nat, p.Perm (List.range c.dst.length) →
      ∃ d o, WSContainer.applySlice p c.dst = .ok d ∧ WSContainer.applySlice p c.original = .ok o ∧
        (d.zip o).Perm (c.dst.zip c.original) := by
    intro p hp
    have hlt : ∀ i ∈ p, i < c.dst.length := fun i hi => by simpa using hp.mem_iff.mp hi
    refine ⟨_, _, mapM_idx_eq c.dst p hlt, mapM_idx_eq c.original p (by rw [← hc]; exact hlt), ?_⟩
    rw [filterMap_zip _ _ hc p hlt]
    exact filterMap_range_perm _ (by simpa [← hc] using hp)
  constructor
  · obtain ⟨d, o, h1, h2, h3⟩ := key (WSContainer.sortPerm c.dst) (sortBy_perm _ _)
    exact ⟨{ c with dst := d, original := o }, by simp [AdjContainer.sortAdj, WSContainer.sortAdj, h1, h2], h3, rfl⟩
  · obtain ⟨d, o, h1, h2, h3⟩ := key (Rng.shuffle r (List.range c.original.length)).1
      (by rw [hc]; exact Rng.shuffle_perm _ _)
    exact ⟨{ c with dst := d, original := o }, (Rng.shuffle r (List.range c.original.length)).2,
      by simp [AdjContainer.shuffleAdj, WSContainer.shuffleAdj, h1, h2], h3, rfl⟩

example : ∃ c : WSContainer Nat, c.dst.length = c.original.length ∧ c.dst = [2, 1] :=
  ⟨⟨0, 0, [2, 1], [⟨0, 2, true⟩, ⟨0, 1, false⟩]⟩, rfl, rfl⟩

/-! ## C27 -/

section
variable {T A : Type} [AdjContainer T A] [LawfulAdj T A]

/-- **C27.** `From<&GenericGraph>` and `clone_topology` produce valid graphs with the same vertex count, edge
count, and neighbour lists in the same order; `From` keeps the data, `clone_topology` maps it. -/
theorem C27_conversions {g : GenericGraph T A} (h : g.WF) {T2 : Type} (f : T → T2) :
    (g.toGraph.WF ∧ g.toGraph.vertexCount = g.vertexCount ∧ g.toGraph.edgeCount = g.edgeCount ∧
      (∀ i, g.toGraph.nbrs i = g.nbrs i) ∧ g.toGraph.data = g.data ∧ g.toGraph.toSimple = g.toSimple) ∧
    ((g.cloneTopology f).WF ∧ (g.cloneTopology f).vertexCount = g.vertexCount ∧
      (g.cloneTopology f).edgeCount = g.edgeCount ∧
      (∀ i, (g.cloneTopology f).nbrs i = g.nbrs i) ∧ (g.cloneTopology f).data = g.data.map f ∧
      (g.cloneTopology f).toSimple = g.toSimple) := by
  refine ⟨⟨toGraph_wf h, rfl, rfl, toGraph_nbrs g, toGraph_data g, ?_⟩,
    ⟨cloneTopology_wf h f, ?_, rfl, cloneTopology_nbrs g f, cloneTopology_data g f, ?_⟩⟩
  · ext i j; rw [(toGraph_wf h).adj_iff, h.adj_iff, toGraph_nbrs]
  · simp [GenericGraph.vertexCount, GenericGraph.cloneTopology, h.len]
  · ext i j; rw [(cloneTopology_wf h f).adj_iff, h.adj_iff, cloneTopology_nbrs]

end

theorem resetLoop_spec {T : Type} (other : List (NodeContainer T)) : ∀ (k s : Nat) (vs : List (NodeContainer T)),
    s + k ≤ other.length → s + k ≤ vs.length →
    ∃ vs', GenericGraph.resetLoop other (List.range' s k) vs = .ok vs' ∧ vs'.length = vs.length ∧
      ∀ i, vs'[i]? = if s ≤ i ∧ i < s + k then
        (vs[i]?).map (fun a => { a with adj := a.adj ++ ((other[i]?).map (·.adj)).getD [] }) else vs[i]? := by
  intro k
  induction k with
  | zero => intro s vs _ _; exact ⟨vs, rfl, rfl, fun i => by rw [if_neg (by omega)]⟩
  | succ k ih =>
    intro s vs h1 h2
    have hs : s < vs.length := by omega
    have ho : s < other.length := by omega
    obtain ⟨vs', e1, e2, e3⟩ := ih (s + 1) (vs.set s { vs[s] with adj := vs[s].adj ++ other[s].adj }) (by omega)
      (by simp; omega)
    refine ⟨vs', ?_, by simpa using e2, ?_⟩
    · simp [List.range'_succ, GenericGraph.resetLoop, Vec.idx_of_lt hs, Vec.idx_of_lt ho, e1]
    · intro i
      rw [e3]
      by_cases hi : i = s
      · subst hi
        have : ¬ (i + 1 ≤ i ∧ i < i + 1 + k) := by omega
        have h' : i ≤ i ∧ i < i + (k + 1) := by omega
        simp [this, h', hs, ho]
      · by_cases hc : s + 1 ≤ i ∧ i < s + 1 + k
        · have h' : s ≤ i ∧ i < s + (k + 1) := by omega
          rw [if_pos hc, if_pos h']; simp [Ne.symm hi]
        · have h' : ¬ (s ≤ i ∧ i < s + (k + 1)) := by omega
          rw [if_neg hc, if_neg h']; simp [Ne.symm hi]

/-- **C27 (`reset_from_graph`).** If the source is not larger, the topology becomes that of the source (same
order of neighbours, further vertices isolated), the data of the target stays; if the source is larger the
call panics. -/
theorem C27_reset_from_graph {T : Type} {g other : Graph T} (h : g.WF) (ho : other.WF) :
    (other.vertexCount ≤ g.vertexCount → ∃ g', g.resetFromGraph other = .ok g' ∧ g'.WF ∧
      g'.vertexCount = g.vertexCount ∧ g'.edgeCount = other.edgeCount ∧ (∀ i, g'.nbrs i = other.nbrs i) ∧
      g'.data = g.data ∧ g'.toSimple = other.toSimple) ∧
    (g.vertexCount < other.vertexCount → g.resetFromGraph other = .panic) := by
  unfold GenericGraph.vertexCount
  constructor
  · intro hle
    have hlc : g.clearEdges.vertices.length = g.nextId := by rw [clearEdges_length, h.len]
    obtain ⟨vs, e1, e2, e3⟩ := resetLoop_spec other.vertices other.nextId 0 g.clearEdges.vertices
      (by rw [ho.len]; omega) (by rw [hlc]; omega)
    have hclr : ∀ (i : Nat) (a : NodeContainer T), g.clearEdges.vertices[i]? = some a → a.adj = [] := by
      intro i a ha
      have := clearEdges_nbrs h i
      rw [nbrs_of_some ha] at this; exact this
    let g' : Graph T := { g.clearEdges with vertices := vs, edgeCount := other.edgeCount }
    have hn' : g'.nextId = g.nextId := clearEdges_nextId g
    have hnb : ∀ i, g'.nbrs i = other.nbrs i := by
      intro i
      unfold nbrs
      have : g'.vertices[i]? = vs[i]? := rfl
      rw [this, e3]
      by_cases hi : i < other.nextId
      · have h1 : i < g.clearEdges.vertices.length := by omega
        have h2 : i < other.vertices.length := by rw [ho.len]; exact hi
        have h3 := hclr i _ (List.getElem?_eq_getElem h1)
        simp [hi, h1, h2, neighbors, h3]
      · have : ¬ (0 ≤ i ∧ i < 0 + other.nextId) := by omega
        rw [if_neg this]
        have h2 : other.vertices[i]? = none := by simp [ho.len]; omega
        rw [h2]
        cases hv : g.clearEdges.vertices[i]? with
        | none => rfl
        | some a => exact hclr i a hv
    have hdat : g'.data = g.data := by
      rw [← clearEdges_data g]
      unfold GenericGraph.data
      apply List.ext_getElem?
      intro i
      show (vs.map contained)[i]? = _
      rw [List.getElem?_map, List.getElem?_map, e3]
      split
      · cases g.clearEdges.vertices[i]? <;> rfl
      · rfl
    have wf : g'.WF := by
      have wc := clearEdges_wf h
      refine ⟨by show vs.length = _; rw [e2, wc.len], ?_, fun _ _ => trivial, ?_, ?_, ?_, ?_, ?_⟩
      · intro i a ha
        have ha : vs[i]? = some a := ha
        rw [e3] at ha
        split at ha
        · cases hv : g.clearEdges.vertices[i]? with
          | none => simp [hv] at ha
          | some b => simp [hv] at ha; subst ha; exact wc.ids _ b hv
        · exact wc.ids _ _ ha
      · intro i j hj; rw [hnb] at hj; rw [hn']; have := ho.lt _ _ hj; omega
      · intro i; rw [hnb]; exact ho.irrefl i
      · intro i; rw [hnb]; exact ho.nodup i
      · intro i j; rw [hnb, hnb]; exact ho.symm i j
      · show _ = 2 * other.edgeCount
        rw [hn', ← ho.count]
        symm
        have hsub : Finset.range other.nextId ⊆ Finset.range g.nextId := by
          intro x; simp only [Finset.mem_range]; omega
        have h0 : ∀ x ∈ Finset.range g.nextId, x ∉ Finset.range other.nextId → (g'.nbrs x).length = 0 := by
          intro x _ hx
          rw [hnb, nbrs_of_ge (by rw [ho.len]; simpa using hx)]; rfl
        rw [← Finset.sum_subset hsub h0]
        exact Finset.sum_congr rfl (fun x _ => by rw [hnb])
    refine ⟨g', ?_, wf, hn', rfl, hnb, hdat, ?_⟩
    · have e1' : GenericGraph.resetLoop other.vertices (List.range other.nextId) g.clearEdges.vertices = .ok vs := by
        rw [List.range_eq_range']; exact e1
      simp [GenericGraph.resetFromGraph, GenericGraph.vertexCount, hle, e1', g']
    · ext i j; rw [wf.adj_iff, ho.adj_iff, hnb]
  · intro hlt
    have : ¬ other.nextId ≤ g.nextId := by omega
    simp [GenericGraph.resetFromGraph, GenericGraph.vertexCount, this]

example : exTail.WF ∧ exPath.WF ∧ exPath.vertexCount ≤ exTail.vertexCount := ⟨exTail_wf, exPath_wf, by decide⟩

end Verif
