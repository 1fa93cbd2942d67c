import Verif.Lemmas.Sw4
import Verif.Lemmas.Check
import Verif.Props.Edit
import Verif.Props.Er
import Mathlib.Data.Set.Function
import Mathlib.Algebra.Order.Field.Basic

/-!
# C29 (small-world draws), C35 - C39, C54 for the small-world ensemble
-/

set_option linter.unusedSectionVars false
set_option linter.unusedSimpArgs false

namespace Verif
open AdjContainer GenericGraph

variable {T R : Type} [Rng R]

/-! ### A concrete small-world network -/

/-- Seven vertices; the edge `0 → 1` was rewired to `4`, all others are in place. -/
def exSw : SwGraph Nat where
  nextId := 7
  edgeCount := 14
  vertices := [
    ⟨0, [⟨4, some 1⟩, ⟨2, some 2⟩, ⟨5, none⟩, ⟨6, none⟩], 10⟩,
    ⟨1, [⟨2, some 2⟩, ⟨3, some 3⟩, ⟨6, none⟩], 11⟩,
    ⟨2, [⟨0, none⟩, ⟨1, none⟩, ⟨3, some 3⟩, ⟨4, some 4⟩], 12⟩,
    ⟨3, [⟨1, none⟩, ⟨2, none⟩, ⟨4, some 4⟩, ⟨5, some 5⟩], 13⟩,
    ⟨4, [⟨2, none⟩, ⟨3, none⟩, ⟨5, some 5⟩, ⟨6, some 6⟩, ⟨0, none⟩], 14⟩,
    ⟨5, [⟨3, none⟩, ⟨4, none⟩, ⟨6, some 6⟩, ⟨0, some 0⟩], 15⟩,
    ⟨6, [⟨4, none⟩, ⟨5, none⟩, ⟨0, some 0⟩, ⟨1, some 1⟩], 16⟩]

theorem exSw_valid : SwValid exSw := by
  have hz : ∀ i, ¬ i < 7 → SwGraph.raw exSw i = [] := by
    intro i hi
    unfold SwGraph.raw
    rw [List.getElem?_eq_none (by simp [exSw]; omega)]
  refine ⟨GenericGraph.wf_of_check _ (fun _ _ => trivial) (by decide), by decide, by decide, ?_, ?_⟩
  · have : ∀ i < 7, ((SwGraph.raw exSw i).filterMap (·.originallyTo)).Perm [(i + 1) % 7, (i + 2) % 7] := by decide
    exact this
  · intro i e he
    by_cases hi : i < 7
    · have : ∀ i < 7, ∀ e ∈ SwGraph.raw exSw i, ∀ e' ∈ SwGraph.raw exSw e.dst, e'.dst = i → e.isRoot = !e'.isRoot := by decide
      exact this i hi e he
    · rw [hz i hi] at he; simp at he

/-! ### C29: the draws of the small-world ensemble -/

/-- `draw_remaining(index, high)`: the draws below `high` correspond one-to-one to the numbers up to `high` except `index`. -/
theorem C29_draw_remaining_bijective {index high : Nat} (hi : index ≤ high) :
    ∃ f : Nat → Nat, (∀ x < high, ∀ l, drawRemaining (⟨x :: l⟩ : Script) index high = .ok (f x, ⟨l⟩)) ∧
      Set.BijOn f {x | x < high} {y | y ≤ high ∧ y ≠ index} := by
  refine ⟨fun x => if x < index then x else x + 1, fun x hx l => drawRemaining_script hx, ?_, ?_, ?_⟩
  · intro x hx
    simp only [Set.mem_ofPred_eq] at hx ⊢
    split <;> omega
  · intro x hx y hy heq
    simp only at heq
    split at heq <;> split at heq <;> omega
  · rintro y ⟨h1, h2⟩
    rcases Nat.lt_or_gt_of_ne h2 with h3 | h3
    · exact ⟨y, by simp only [Set.mem_ofPred_eq]; omega, by simp [h3]⟩
    · refine ⟨y - 1, by simp only [Set.mem_ofPred_eq]; omega, ?_⟩
      simp only
      rw [if_neg (by omega)]; omega

/-- For every generator the target drawn for vertex `index` is another vertex. -/
theorem C29_draw_remaining_range (r : R) {index high : Nat} (hh : 0 < high) :
    ∃ k r', drawRemaining r index high = .ok (k, r') ∧ k ≤ high ∧ k ≠ index := drawRemaining_spec r hh

/-- `draw_edge`: the draws below `edge_count` correspond one-to-one to the rooted edges (owner, target). -/
theorem C29_draw_edge_bijective {e : SwEns T Script} (h : SwValid e.graph) :
    ∃ f : Nat → Nat × Nat,
      (∀ x < e.graph.edgeCount, ∀ l, ({ e with rng := ⟨x :: l⟩ } : SwEns T Script).drawEdge = .ok (f x, { e with rng := ⟨l⟩ })) ∧
      Set.BijOn f {x | x < e.graph.edgeCount}
        {p | ∃ edge ∈ SwGraph.raw e.graph p.1, edge.isRoot = true ∧ edge.dst = p.2} := by
  have hd : ∀ x < e.graph.edgeCount, ∃ j : Nat, ∀ l,
      ({ e with rng := ⟨x :: l⟩ } : SwEns T Script).drawEdge = .ok ((x / 2, j), { e with rng := ⟨l⟩ }) ∧ x / 2 < e.graph.nextId ∧
        ∃ o, ((SwGraph.raw e.graph (x / 2)).filter SwEdge.isRoot)[x % 2]? = some ⟨j, some o⟩ := by
    intro x hx
    obtain ⟨j, o, _, _, a3⟩ := SwEns.drawEdge_eq (e := ({ e with rng := ⟨x :: []⟩ } : SwEns T Script)) h (script_genRange (l := []) hx)
    refine ⟨j, fun l => ?_⟩
    obtain ⟨j', o', b1, b2, b3⟩ := SwEns.drawEdge_eq (e := ({ e with rng := ⟨x :: l⟩ } : SwEns T Script)) h (script_genRange (l := l) hx)
    have hjj : j' = j := by
      rw [a3] at b3; simp at b3; exact b3.1.symm
    subst hjj
    exact ⟨b1, b2, o', b3⟩
  choose! j hj using hd
  refine ⟨fun x => (x / 2, j x), fun x hx l => (hj x hx l).1, ?_, ?_, ?_⟩
  · intro x hx
    obtain ⟨_, _, o, h3⟩ := hj x hx []
    have := List.mem_of_getElem? h3
    rw [List.mem_filter] at this
    exact ⟨_, this.1, this.2, rfl⟩
  · intro x hx y hy heq
    simp only [Prod.mk.injEq] at heq
    obtain ⟨_, b1, o, h3⟩ := hj x hx []
    obtain ⟨_, b2, o', h4⟩ := hj y hy []
    rw [← heq.1, ← heq.2] at h4
    obtain ⟨d1, o1, d2, o2, r1, r2, r3⟩ := h.rootPair b1
    rw [r1] at h3 h4
    have : x % 2 = y % 2 := by
      have hx2 : x % 2 = 0 ∨ x % 2 = 1 := by omega
      have hy2 : y % 2 = 0 ∨ y % 2 = 1 := by omega
      rcases hx2 with hx2 | hx2 <;> rcases hy2 with hy2 | hy2 <;> rw [hx2] at h3 <;> rw [hy2] at h4 <;> simp at h3 h4 <;> omega
    omega
  · rintro ⟨i, d⟩ ⟨edge, h1, h2, h3⟩
    simp only at h1 h3
    have hi : i < e.graph.nextId := h.wf.lt_left (sw_mem_nbrs.mpr ⟨edge, h1, rfl⟩)
    obtain ⟨d1, o1, d2, o2, r1, r2, r3⟩ := h.rootPair hi
    have hmem : edge ∈ (SwGraph.raw e.graph i).filter SwEdge.isRoot := List.mem_filter.mpr ⟨h1, h2⟩
    rw [r1] at hmem
    have hc := h.count
    simp only [List.mem_cons, List.not_mem_nil, or_false] at hmem
    rcases hmem with rfl | rfl
    · refine ⟨2 * i, by simp only [Set.mem_ofPred_eq]; omega, ?_⟩
      obtain ⟨_, _, o, h4⟩ := hj (2 * i) (by omega) []
      have e1 : 2 * i / 2 = i := by omega
      have e2 : 2 * i % 2 = 0 := by omega
      rw [e1, e2, r1] at h4
      simp at h4
      simp only at h3
      simp [← h3, ← h4.1]
    · refine ⟨2 * i + 1, by simp only [Set.mem_ofPred_eq]; omega, ?_⟩
      obtain ⟨_, _, o, h4⟩ := hj (2 * i + 1) (by omega) []
      have e1 : (2 * i + 1) / 2 = i := by omega
      have e2 : (2 * i + 1) % 2 = 1 := by omega
      rw [e1, e2, r1] at h4
      simp at h4
      simp only at h3
      simp [← h3, ← h4.1, e1]

example : SwValid exSw ∧ ({ graph := exSw, rProb := 0, rng := ⟨[1]⟩ } : SwEns Nat Script).drawEdge.bind
    (fun p => .ok p.1) = .ok (0, 2) := ⟨exSw_valid, by decide⟩

/-! ### C35 -/

theorem SwSame.valid {g g' : SwGraph T} (t : SwSame g g') (h : SwValid g) (w : g'.WF) : SwValid g' := by
  refine ⟨w, by rw [t.n]; exact h.size, by rw [t.count, t.n]; exact h.count, ?_, ?_⟩
  · intro i hi
    rw [t.n] at hi ⊢
    exact ((t.raw i).filterMap _).trans (h.roots i hi)
  · intro i e he e' he' hd
    exact h.oneEnd i e (t.mem.mp he) e' (t.mem.mp he') hd

theorem sw_sortAdj {g g' : SwGraph T} (h : g.WF) (e : g.sortAdj = .ok g') : SwSame g g' ∧ g'.WF := by
  obtain ⟨g2, a1, a2, a3, a4, _⟩ := sortAdj_spec h
  rw [e] at a1
  simp only [Res.ok.injEq] at a1
  subst a1
  refine ⟨⟨a3.n, a3.ec, a4, ?_⟩, a2⟩
  obtain ⟨vs, h1, h2⟩ := mapM_forall₂ (f := (AdjContainer.sortAdj : SwContainer T → Res (SwContainer T)))
    (P := fun a a' => a'.adj.Perm a.adj) g.vertices (fun a _ => ⟨_, rfl, sortBy_perm _ _⟩)
  unfold GenericGraph.sortAdj at e
  rw [h1, Res.ok_bind] at e
  simp only [Res.pure_eq, Res.ok.injEq] at e
  subst e
  intro i
  unfold SwGraph.raw
  rcases forall₂_getElem? h2 i with ⟨h3, h4⟩ | ⟨a, b, h3, h4, h5⟩
  · simp [h3, h4]
  · simp [h3, h4]; exact h5

/-- Everything a user can do to a small-world ensemble, in any order: randomizing, Markov steps, undoing *any* step value,
connecting, sorting the adjacency lists, exchanging the random number generator or the rewiring probability. -/
inductive SwHist : SwEns T R → SwEns T R → Prop
  | refl (e : SwEns T R) : SwHist e e
  | randomize {e x y : SwEns T R} : SwHist e x → x.randomize = .ok y → SwHist e y
  | mStep {e x y : SwEns T R} {s : SwChange} : SwHist e x → x.mStep = .ok (s, y) → SwHist e y
  | undo {e x y : SwEns T R} {s u : SwChange} : SwHist e x → x.undoStep s = .ok (u, y) → SwHist e y
  | undoQuiet {e x y : SwEns T R} {s : SwChange} : SwHist e x → x.undoStepQuiet s = .ok y → SwHist e y
  | connect {e x y : SwEns T R} : SwHist e x → x.makeConnected = .ok y → SwHist e y
  | sort {e x : SwEns T R} {g : SwGraph T} : SwHist e x → x.graph.sortAdj = .ok g → SwHist e { x with graph := g }
  | setRng {e x : SwEns T R} (r : R) : SwHist e x → SwHist e { x with rng := r }
  | setProb {e x : SwEns T R} (p : ℚ) : SwHist e x → SwHist e { x with rProb := p }

theorem SwEns.undo_any {x y : SwEns T R} {s u : SwChange} (h : SwValid x.graph) (e : x.undoStep s = .ok (u, y)) :
    SwValid y.graph ∧ y.graph.nextId = x.graph.nextId ∧ y.graph.data = x.graph.data := by
  have key : ∀ a b c, (do let (s, graph) ← SwGraph.rewireEdge x.graph a c b; return (s, { x with graph }) : Res (SwChange × SwEns T R)) =
      .ok (u, y) → SwValid y.graph ∧ y.graph.nextId = x.graph.nextId ∧ y.graph.data = x.graph.data := by
    intro a b c hc
    simp only [Res.bind_eq_ok] at hc
    obtain ⟨⟨s', g'⟩, h1, h2⟩ := hc
    simp only [Res.pure_eq, Res.ok.injEq, Prod.mk.injEq] at h2
    rw [← h2.2]
    exact rewireEdge_any h h1
  cases s with
  | rewire a b c => exact key a b c e
  | reset a b c => exact key a b c e
  | invalidAdjecency => simp [SwEns.undoStep] at e; rw [← e.2]; exact ⟨h, rfl, rfl⟩
  | blockedByExistingEdge => simp [SwEns.undoStep] at e; rw [← e.2]; exact ⟨h, rfl, rfl⟩
  | nothing => simp [SwEns.undoStep] at e; rw [← e.2]; exact ⟨h, rfl, rfl⟩
  | gError g => simp [SwEns.undoStep] at e; rw [← e.2]; exact ⟨h, rfl, rfl⟩

theorem SwEns.undoQuiet_any {x y : SwEns T R} {s : SwChange} (e : x.undoStepQuiet s = .ok y) :
    ∃ u, x.undoStep s = .ok (u, y) := by
  have key : ∀ a b c, (do let (s, graph) ← SwGraph.rewireEdge x.graph a c b; Res.assert s.isValid; return { x with graph } : Res (SwEns T R)) =
      .ok y → ∃ u, (do let (s, graph) ← SwGraph.rewireEdge x.graph a c b; return (s, { x with graph }) : Res (SwChange × SwEns T R)) =
      .ok (u, y) := by
    intro a b c hc
    simp only [Res.bind_eq_ok] at hc
    obtain ⟨⟨s', g'⟩, h1, _, _, h2⟩ := hc
    simp only [Res.pure_eq, Res.ok.injEq] at h2
    exact ⟨s', by rw [h1, ← h2]; rfl⟩
  cases s with
  | rewire a b c => exact key a b c e
  | reset a b c => exact key a b c e
  | invalidAdjecency => simp [SwEns.undoStepQuiet] at e
  | blockedByExistingEdge => simp [SwEns.undoStepQuiet] at e; exact ⟨_, by rw [← e]; rfl⟩
  | nothing => simp [SwEns.undoStepQuiet] at e; exact ⟨_, by rw [← e]; rfl⟩
  | gError g => simp [SwEns.undoStepQuiet] at e

theorem SwHist.valid {e x : SwEns T R} (hh : SwHist e x) (h : SwValid e.graph) :
    SwValid x.graph ∧ x.graph.nextId = e.graph.nextId ∧ x.graph.data = e.graph.data := by
  induction hh with
  | refl => exact ⟨h, rfl, rfl⟩
  | randomize _ he ih =>
    obtain ⟨i1, i2, i3⟩ := ih
    obtain ⟨y, a1, a2, a3, a4, _⟩ := SwEns.randomize_spec i1
    rw [he] at a1; simp only [Res.ok.injEq] at a1; subst a1
    exact ⟨a2, a3.trans i2, a4.trans i3⟩
  | mStep _ he ih =>
    obtain ⟨i1, i2, i3⟩ := ih
    obtain ⟨s, y, a1, a2, _⟩ := SwEns.mStep_spec i1
    rw [he] at a1; simp only [Res.ok.injEq, Prod.mk.injEq] at a1; obtain ⟨rfl, rfl⟩ := a1
    exact ⟨a2.valid i1, a2.n.1.trans i2, a2.n.2.trans i3⟩
  | undo _ he ih =>
    obtain ⟨i1, i2, i3⟩ := ih
    obtain ⟨a1, a2, a3⟩ := SwEns.undo_any i1 he
    exact ⟨a1, a2.trans i2, a3.trans i3⟩
  | undoQuiet _ he ih =>
    obtain ⟨i1, i2, i3⟩ := ih
    obtain ⟨u, he⟩ := SwEns.undoQuiet_any he
    obtain ⟨a1, a2, a3⟩ := SwEns.undo_any i1 he
    exact ⟨a1, a2.trans i2, a3.trans i3⟩
  | @connect x y _ he ih =>
    obtain ⟨i1, i2, i3⟩ := ih
    obtain ⟨g', a1, a2, a3, a4, _⟩ := connectLoop_sw_spec (x.graph.vertexCount + 1) i1 (by
      show x.graph.nextId + 1 ≤ x.graph.nextId + 1 + _; omega)
    unfold SwEns.makeConnected at he
    rw [a1, Res.ok_bind] at he
    simp only [Res.pure_eq, Res.ok.injEq] at he; subst he
    exact ⟨a2, a3.trans i2, a4.trans i3⟩
  | sort _ he ih =>
    obtain ⟨i1, i2, i3⟩ := ih
    obtain ⟨a1, a2⟩ := sw_sortAdj i1.wf he
    exact ⟨a1.valid i1 a2, a1.n.trans i2, a1.data.trans i3⟩
  | setRng r _ ih => exact ih
  | setProb p _ ih => exact ih

theorem SwEns.new_spec [Node T] {n : Nat} (hn : 5 ≤ n) (p : ℚ) (r : R) :
    ∃ e : SwEns T R, SwEns.new n p r = .ok e ∧ SwValid e.graph ∧ e.graph.nextId = n ∧
      e.graph.data = (GenericGraph.new n : SwGraph T).data ∧ e.rProb = p := by
  obtain ⟨g, a1, a2, a3, a4, _⟩ := SwGraph.initRing2_spec (T := T) hn
  obtain ⟨e, b1, b2, b3, b4, b5⟩ := SwEns.randomize_spec (e := { graph := g, rProb := p, rng := r }) a2
  exact ⟨e, by simp [-Res.bind_eq_ok, SwEns.new, a1, b1], b2, b3.trans a3, b4.trans a4, b5⟩

/-- Construction with at least five vertices succeeds and establishes the invariant, and every history of calls keeps it: two
root edges per vertex with the ring targets as origins, every edge rooted at exactly one end, `2n` edges, no vertex of degree
below two, number of vertices and vertex data as constructed. -/
theorem C35_sw_invariant [Node T] {n : Nat} (hn : 5 ≤ n) (p : ℚ) (r : R) :
    ∃ e0 : SwEns T R, SwEns.new n p r = .ok e0 ∧ ∀ e, SwHist e0 e →
      SwValid e.graph ∧ e.graph.vertexCount = n ∧ e.graph.edgeCount = 2 * n ∧ e.graph.edges.card = 2 * n ∧
      (∀ i < n, ∃ d, e.graph.degree i = some d ∧ 2 ≤ d) ∧ e.graph.data = (GenericGraph.new n : SwGraph T).data := by
  obtain ⟨e0, a1, a2, a3, a4, _⟩ := SwEns.new_spec (T := T) hn p r
  refine ⟨e0, a1, fun e he => ?_⟩
  obtain ⟨v, b2, b3⟩ := he.valid a2
  have hc : e.graph.edgeCount = 2 * n := by rw [v.count, b2, a3]
  refine ⟨v, b2.trans a3, hc, by rw [← v.wf.edgeCount_eq_card, hc], ?_, b3.trans a4⟩
  intro i hi
  have hi' : i < e.graph.nextId := by rw [b2, a3]; exact hi
  refine ⟨_, degree_spec v.wf hi', ?_⟩
  obtain ⟨d1, o1, d2, o2, r1, _⟩ := v.rootPair hi'
  have := (List.filter_sublist (p := SwEdge.isRoot) (l := SwGraph.raw e.graph i)).length_le
  rw [r1] at this
  rw [sw_nbrs, List.length_map]
  simpa using this

/-- The sizes for which `new` returns. -/
theorem C35_sw_new_iff [Node T] (n : Nat) (p : ℚ) (r : R) :
    (∃ e : SwEns T R, SwEns.new n p r = .ok e) ↔ n = 0 ∨ 5 ≤ n := by
  constructor
  · rintro ⟨e, he⟩
    by_contra hc
    unfold SwEns.new SwGraph.initRing2 at he
    simp only [Res.bind_eq_ok] at he
    obtain ⟨g, ⟨⟨q, g1⟩, h1, h2⟩, _⟩ := he
    cases q with
    | error er => simp [unwrapOk] at h2
    | ok u =>
      exact C07_init_ring_too_small (new_wf n) 2 (by show 1 ≤ n; omega) (by show n ≤ 4; omega) h1
  · rintro (rfl | hn)
    · exact ⟨⟨GenericGraph.new 0, p, r⟩, rfl⟩
    · obtain ⟨e, a1, _⟩ := SwEns.new_spec (T := T) hn p r
      exact ⟨e, a1⟩

/-- `new_with_distance` documents arbitrary distances; it returns an ensemble exactly for distance two (or no vertices): with
any other distance on a large enough ring the randomizing of the first vertex panics. -/
theorem C35_sw_new_with_distance_iff [Node T] (n d : Nat) (hd : 1 ≤ d) (p : ℚ) (r : R) :
    (∃ e : SwEns T R, SwEns.newWithDistance n d p r = .ok (.ok e)) ↔ n = 0 ∨ (d = 2 ∧ 5 ≤ n) := by
  by_cases hn0 : n = 0
  · subst hn0
    simp only [true_or, iff_true]
    exact ⟨⟨GenericGraph.new 0, p, r⟩, rfl⟩
  by_cases hsmall : n ≤ 2 * d
  · constructor
    · rintro ⟨e, he⟩
      exfalso
      unfold SwEns.newWithDistance at he
      simp only [Res.bind_eq_ok] at he
      obtain ⟨⟨q, g1⟩, h1, h2⟩ := he
      cases q with
      | error er => simp at h2
      | ok u => exact C07_init_ring_too_small (new_wf n) d (by show 1 ≤ n; omega) hsmall h1
    · rintro (h1 | ⟨rfl, h2⟩) <;> omega
  · obtain ⟨g, h1, h2, h3, h4, h5, h6, h7⟩ := sw_ring (T := T) (n := n) (d := d) (by omega)
    have hnew : (SwEns.newWithDistance n d p r : Res (Except GraphErr (SwEns T R))) =
        (SwEns.randomize { graph := g, rProb := p, rng := r }).bind (fun e => .ok (.ok e)) := by
      unfold SwEns.newWithDistance
      simp only []
      rw [h1]
      rfl
    by_cases hd2 : d = 2
    · subst hd2
      simp only [hn0, false_or, true_and]
      refine ⟨fun _ => by omega, fun _ => ?_⟩
      obtain ⟨g', b1, b2, _⟩ := SwGraph.initRing2_spec (T := T) (n := n) (by omega)
      have : g' = g := by
        unfold SwGraph.initRing2 at b1
        rw [h1] at b1
        simpa [unwrapOk] using b1.symm
      subst this
      obtain ⟨e, c1, _⟩ := SwEns.randomize_spec (e := { graph := g', rProb := p, rng := r }) b2
      exact ⟨e, by rw [hnew, c1]; rfl⟩
    · have hp : SwEns.randomize { graph := g, rProb := p, rng := r } = .panic := by
        have hlen := h7 0 (by omega)
        have hlen2 : ((SwGraph.raw g 0).filter SwEdge.isRoot).length = d := by
          rw [filter_root_length, hlen]; simp
        obtain ⟨c, c1, c2, c3, _⟩ := sw_container h2 (i := 0) (by omega)
        rw [c3] at hlen2
        have hbody : SwEns.randomizeVertex { graph := g, rProb := p, rng := r } 0 = .panic := by
          unfold SwEns.randomizeVertex
          simp only [Vec.idx_of_some c1, Res.ok_bind, SwContainer.iterRawEdges]
          match hm : c.adj.filter SwEdge.isRoot with
          | [] => rw [hm] at hlen2; simp at hlen2; omega
          | [a] => simp
          | [a, b] => rw [hm] at hlen2; simp at hlen2; omega
          | a :: b :: x :: l => simp
        unfold SwEns.randomize
        have hvc : ({ graph := g, rProb := p, rng := r } : SwEns T R).graph.vertexCount = (n - 1) + 1 := by
          show g.nextId = _; omega
        rw [hvc, List.range_succ_eq_map, List.foldlM_cons, hbody]
        rfl
      rw [hnew, hp]
      simp [Res.bind, hn0, hd2]

example : ∃ e : SwEns Nat Script, SwEns.new 7 (1/2) (⟨[3, 1, 4]⟩ : Script) = .ok e ∧ SwValid e.graph := by
  obtain ⟨e, h1, h2, _⟩ := SwEns.new_spec (T := Nat) (n := 7) (by decide) (1/2) (⟨[3, 1, 4]⟩ : Script)
  exact ⟨e, h1, h2⟩

/-! ### C36 -/

/-- A Markov step of a valid small-world state returns, keeps the state valid and reports truthfully what it did. -/
theorem C36_sw_step {e : SwEns T R} (h : SwValid e.graph) :
    ∃ s e', e.mStep = .ok (s, e') ∧ SwValid e'.graph ∧ e'.graph.vertexCount = e.graph.vertexCount ∧
      e'.graph.edgeCount = e.graph.edgeCount ∧ e'.graph.data = e.graph.data ∧ e'.rProb = e.rProb ∧
      (((s = .nothing ∨ s = .blockedByExistingEdge) ∧ e'.graph = e.graph) ∨
       (∃ a b c o, s = .rewire a b c ∧ (⟨b, some o⟩ : SwEdge) ∈ SwGraph.raw e.graph a ∧ b ≠ c ∧ a ≠ c ∧
          s(a, b) ∈ e.graph.edges ∧ s(a, c) ∉ e.graph.edges ∧ c < e.graph.vertexCount ∧
          e'.graph.edges = insert s(a, c) (e.graph.edges.erase s(a, b)) ∧ (⟨c, some o⟩ : SwEdge) ∈ SwGraph.raw e'.graph a) ∨
       (∃ a b c, s = .reset a b c ∧ (⟨b, some c⟩ : SwEdge) ∈ SwGraph.raw e.graph a ∧ b ≠ c ∧
          s(a, b) ∈ e.graph.edges ∧ s(a, c) ∉ e.graph.edges ∧
          (c = (a + 1) % e.graph.vertexCount ∨ c = (a + 2) % e.graph.vertexCount) ∧
          e'.graph.edges = insert s(a, c) (e.graph.edges.erase s(a, b)) ∧ (⟨c, some c⟩ : SwEdge) ∈ SwGraph.raw e'.graph a)) := by
  obtain ⟨s, e', a1, a2, a3⟩ := SwEns.mStep_spec h
  have hv := a2.valid h
  have hcount : e'.graph.edgeCount = e.graph.edgeCount := by rw [hv.count, h.count, a2.n.1]
  refine ⟨s, e', a1, hv, a2.n.1, hcount, a2.n.2, a3, ?_⟩
  generalize e'.graph = g' at a2
  cases a2 with
  | nothing => exact .inl ⟨.inl rfl, rfl⟩
  | blocked => exact .inl ⟨.inr rfl, rfl⟩
  | rewire m =>
    exact .inr (.inl ⟨_, _, _, _, rfl, m.old_mem, m.jk, m.ik, h.wf.mem_edges.mpr (sw_mem_nbrs.mpr ⟨_, m.old_mem, rfl⟩),
      fun hc => m.free (h.wf.mem_edges.mp hc), m.hk, m.edges h.wf, (m.mem h.wf).mpr (.inl ⟨rfl, rfl⟩)⟩)
  | reset m =>
    exact .inr (.inr ⟨_, _, _, rfl, m.old_mem, m.jk, h.wf.mem_edges.mpr (sw_mem_nbrs.mpr ⟨_, m.old_mem, rfl⟩),
      fun hc => m.free (h.wf.mem_edges.mp hc), (h.orig_mem m.old_mem).2, m.edges h.wf, (m.mem h.wf).mpr (.inl ⟨rfl, rfl⟩)⟩)

/-- `randomize` returns for every valid state and every generator. -/
theorem C36_sw_randomize {e : SwEns T R} (h : SwValid e.graph) :
    ∃ e', e.randomize = .ok e' ∧ SwValid e'.graph ∧ e'.graph.vertexCount = e.graph.vertexCount ∧ e'.graph.data = e.graph.data ∧
      e'.rProb = e.rProb := SwEns.randomize_spec h

/-- `count_root` of every vertex of a valid small-world network is two (its two edges of the ring, rewired or not), and the counts
of all vertices add up to the number of edges. -/
theorem C36_count_root {g : SwGraph T} (h : SwValid g) :
    (∀ (i : Nat) (c : SwContainer T), g.vertices[i]? = some c → c.countRoot = 2) ∧ (g.vertices.map SwContainer.countRoot).sum = g.edgeCount := by
  have key : ∀ (i : Nat) (c : SwContainer T), g.vertices[i]? = some c → c.countRoot = 2 := by
    intro i c hc
    have hi : i < g.nextId := by rw [← h.wf.len]; exact (List.getElem?_eq_some_iff.mp hc).1
    have hr := h.roots i hi
    have hraw : SwGraph.raw g i = c.adj := sw_raw_of_some hc
    show (c.adj.filter SwEdge.isRoot).length = 2
    rw [filter_root_length, ← hraw, hr.length_eq]
    rfl
  refine ⟨key, ?_⟩
  have : g.vertices.map SwContainer.countRoot = List.replicate g.vertices.length 2 := by
    apply List.ext_getElem?
    intro k
    rw [List.getElem?_map, List.getElem?_replicate]
    cases hk : g.vertices[k]? with
    | none => rw [if_neg (by simpa using hk)]; rfl
    | some c => rw [if_pos (List.getElem?_eq_some_iff.mp hk).1, Option.map_some, key k c hk]
  rw [this, h.count, ← h.wf.len]
  simp [Nat.mul_comm]

example : ∃ e : SwEns Nat Script, SwEns.new 7 1 (⟨[3, 1, 4, 1, 5]⟩ : Script) = .ok e ∧
    (e.graph.vertices.map SwContainer.countRoot).sum = 14 := by
  obtain ⟨e, h1, h2, h3, _⟩ := SwEns.new_spec (T := Nat) (n := 7) (by decide) 1 (⟨[3, 1, 4, 1, 5]⟩ : Script)
  exact ⟨e, h1, by rw [(C36_count_root h2).2, h2.count]; have : e.graph.nextId = 7 := h3; omega⟩

/-- On five vertices the `2n` edges are all pairs, so no step and no randomizing ever changes the network. -/
theorem C36_five_frozen {e : SwEns T R} (h : SwValid e.graph) (h5 : e.graph.vertexCount = 5) :
    (∀ s e', e.mStep = .ok (s, e') → e'.graph = e.graph) ∧ ∀ e', e.randomize = .ok e' → e'.graph = e.graph := by
  have h5' : e.graph.nextId = 5 := h5
  have frozen : ∀ {g g' : SwGraph T} {s : SwChange}, SwValid g → g.nextId = 5 → SwStep g s g' → g' = g := by
    intro g g' s hg hn5 st
    have full : ∀ i k, i < 5 → k < 5 → i ≠ k → k ∈ g.nbrs i := by
      have hcard : g.edges.card = 10 := by rw [← hg.wf.edgeCount_eq_card, hg.count, hn5]
      have hsub : g.edges ⊆ ((allPairs 5).map toEdge).toFinset := by
        intro x hx
        induction x with
        | _ a b =>
          have hab := hg.wf.mem_edges.mp hx
          have h1 := hg.wf.lt_left hab
          have h2 := hg.wf.lt _ _ hab
          have h3 := hg.wf.ne hab
          rw [List.mem_toFinset, List.mem_map]
          rcases Nat.lt_or_gt_of_ne h3 with h4 | h4
          · exact ⟨(a, b), mem_allPairs.mpr ⟨h4, by simp only; omega⟩, rfl⟩
          · exact ⟨(b, a), mem_allPairs.mpr ⟨h4, by simp only; omega⟩, Sym2.eq_swap⟩
      have heq := Finset.eq_of_subset_of_card_le hsub (by rw [hcard]; decide)
      intro i k hi hk hik
      apply hg.wf.mem_edges.mp
      rw [heq, List.mem_toFinset, List.mem_map]
      rcases Nat.lt_or_gt_of_ne hik with h4 | h4
      · exact ⟨(i, k), mem_allPairs.mpr ⟨h4, hk⟩, rfl⟩
      · exact ⟨(k, i), mem_allPairs.mpr ⟨h4, hi⟩, Sym2.eq_swap⟩
    have no : ∀ i j k o, ¬ SwMoved g g' i j k o := by
      intro i j k o m
      have hi := hg.wf.lt_left (sw_mem_nbrs.mpr ⟨_, m.old_mem, rfl⟩)
      have hk := m.hk
      exact m.free (full i k (by omega) (by omega) m.ik)
    cases st with
    | nothing => rfl
    | blocked => rfl
    | rewire m => exact absurd m (no _ _ _ _)
    | reset m => exact absurd m (no _ _ _ _)
  constructor
  · intro s e' he
    obtain ⟨s', e'', a1, a2, _⟩ := SwEns.mStep_spec h
    rw [he] at a1; simp only [Res.ok.injEq, Prod.mk.injEq] at a1; obtain ⟨rfl, rfl⟩ := a1
    exact frozen h h5' a2
  · intro e' he
    obtain ⟨x, b1, b2⟩ := foldlM_range (f := SwEns.randomizeVertex (T := T) (R := R)) e.graph.nextId
      (fun _ x => x.graph = e.graph)
      (by
        rintro i x hi hx
        obtain ⟨x', g1, s1, s2, a1, a2, a3, _⟩ := SwEns.randomizeVertex_spec (e := x) (by rw [hx]; exact h) (i := i) (by rw [hx]; exact hi)
        rw [hx] at a2
        have e1 := frozen h h5' a2
        subst e1
        exact ⟨x', a1, frozen h h5' a3⟩)
      (s := e) rfl
    have : e.randomize = .ok x := b1
    rw [he] at this; simp only [Res.ok.injEq] at this; subst this
    exact b2

example : SwValid exSw ∧ 0 < exSw.vertexCount := ⟨exSw_valid, by decide⟩

/-! ### C37 -/

/-- Undoing the step just made restores the adjacency relation and the origin of every edge; a rewiring or reset is undone by
the rewiring back, an empty or blocked step by nothing. -/
theorem C37_sw_undo {e e' : SwEns T R} {s : SwChange} (h : SwValid e.graph) (hs : e.mStep = .ok (s, e')) :
    ∃ u x, e'.undoStep s = .ok (u, x) ∧ e'.undoStepQuiet s = .ok x ∧ SwValid x.graph ∧ SwSame e.graph x.graph ∧
      x.graph.edges = e.graph.edges ∧ x.rProb = e.rProb ∧ x.rng = e'.rng ∧
      (∀ a b c, s = .rewire a b c ∨ s = .reset a b c → u = .rewire a c b) ∧
      ((s = .nothing ∨ s = .blockedByExistingEdge) → u = s ∧ x = e') := by
  obtain ⟨s', e'', a1, a2, a3⟩ := SwEns.mStep_spec h
  rw [hs] at a1; simp only [Res.ok.injEq, Prod.mk.injEq] at a1; obtain ⟨rfl, rfl⟩ := a1
  obtain ⟨u, x, b1, b2, b3, b4, b5, b6, b7, b8⟩ := SwEns.back h a2 (a2.valid h) (SwSame.refl _)
  refine ⟨u, x, b1, b2, b3, b4, ?_, b5.trans a3, b6, b7, b8⟩
  apply b3.wf.edges_eq_of
  intro i j
  rw [h.wf.mem_edges, (b4.nbrs i).mem_iff]

/-- Similarity used for chains. -/
structure SwEns.Sim (e x : SwEns T R) : Prop where
  same : SwSame e.graph x.graph
  prob : x.rProb = e.rProb

theorem SwSame.trans {a b c : SwGraph T} (h : SwSame a b) (k : SwSame b c) : SwSame a c :=
  ⟨k.n.trans h.n, k.count.trans h.count, k.data.trans h.data, fun i => (k.raw i).trans (h.raw i)⟩

/-- A chain of steps and its undoing restore adjacency relation, origins, vertex data and probability. -/
theorem C37_C54_sw_chain {e : SwEns T R} (h : SwValid e.graph) (k : Nat) :
    ∃ steps e' us x, mSteps SwEns.mStep k e = .ok (steps, e') ∧ steps.length = k ∧
      undoSteps SwEns.undoStep steps e' = .ok (us, x) ∧ undoStepsQuiet SwEns.undoStepQuiet steps e' = .ok x ∧
      SwValid x.graph ∧ SwSame e.graph x.graph ∧ x.graph.edges = e.graph.edges ∧ x.rProb = e.rProb := by
  have hu : Undoable (SwEns.mStep (T := T) (R := R)) SwEns.undoStep (fun x => SwValid x.graph) SwEns.Sim := by
    refine ⟨?_, ?_, fun _ => ⟨SwSame.refl _, rfl⟩⟩
    · intro x hx
      obtain ⟨s, e', b1, b2, _⟩ := SwEns.mStep_spec hx
      exact ⟨s, e', b1, b2.valid hx⟩
    · intro x s x' y hx hs hy hsim
      obtain ⟨s', x'', a1, a2, a3⟩ := SwEns.mStep_spec hx
      rw [hs] at a1; simp only [Res.ok.injEq, Prod.mk.injEq] at a1; obtain ⟨rfl, rfl⟩ := a1
      obtain ⟨u, y', c1, _, c3, c4, c5, _⟩ := SwEns.back hx a2 hy hsim.same
      exact ⟨u, y', c1, c3, ⟨c4, by rw [c5, hsim.prob, a3]⟩⟩
  obtain ⟨steps, e', a1, a2, a3, a4⟩ := hu.chain_quiet (quiet := SwEns.undoStepQuiet) (by
    intro x s x' y u y' hx hs hy hsim hun
    obtain ⟨s', x'', a1, a2, a3⟩ := SwEns.mStep_spec hx
    rw [hs] at a1; simp only [Res.ok.injEq, Prod.mk.injEq] at a1; obtain ⟨rfl, rfl⟩ := a1
    obtain ⟨u', y'', c1, c2, _⟩ := SwEns.back hx a2 hy hsim.same
    rw [hun] at c1; simp only [Res.ok.injEq, Prod.mk.injEq] at c1; obtain ⟨rfl, rfl⟩ := c1
    exact c2) k e h
  obtain ⟨us, x, b1, b2, _, b3, b4⟩ := a4 e' a3 ⟨SwSame.refl _, rfl⟩
  refine ⟨steps, e', us, x, a1, a2, b1, b2, b3, b4.same, ?_, b4.prob⟩
  · apply b3.wf.edges_eq_of
    intro i j
    rw [h.wf.mem_edges, (b4.same.nbrs i).mem_iff]

example : ∃ s e', ({ graph := exSw, rProb := -1, rng := ⟨[0, 0]⟩ } : SwEns Nat Script).mStep = .ok (s, e') ∧
    SwGraph.resetEdge exSw 0 4 = .ok (.reset 0 4 1, e'.graph) := by
  obtain ⟨s, e', h1, _⟩ := C36_sw_step (e := ({ graph := exSw, rProb := -1, rng := ⟨[0, 0]⟩ } : SwEns Nat Script)) exSw_valid
  refine ⟨s, e', h1, ?_⟩
  have hcoin : ∀ r : Script, coin r (-1) = (false, (Rng.genUnit r).2) := by
    intro r
    have : ¬ ((Rng.genUnit r).1 : ℚ) / 2 ^ 53 ≤ -1 := by
      have : (0 : ℚ) ≤ ((Rng.genUnit r).1 : ℚ) / 2 ^ 53 := div_nonneg (Nat.cast_nonneg _) (pow_nonneg (by norm_num) _)
      linarith
    simp only [coin, this, decide_false]
  have hdraw : ({ graph := exSw, rProb := -1, rng := ⟨[0, 0]⟩ } : SwEns Nat Script).drawEdge =
    .ok ((0, 4), { graph := exSw, rProb := -1, rng := ⟨[0]⟩ }) := by rfl
  unfold SwEns.mStep SwEns.randomizeEdge at h1
  rw [hdraw, Res.ok_bind] at h1
  simp only [hcoin] at h1
  simp only [Res.bind_eq_ok, Bool.false_eq_true, if_false, Res.pure_eq, Res.ok.injEq, Prod.mk.injEq] at h1
  obtain ⟨⟨s', g'⟩, h3, h4, h5⟩ := h1
  rw [← h5]
  have h6 : (SwGraph.resetEdge exSw 0 4).bind (fun p => .ok p.1) = .ok (.reset 0 4 1) := by decide
  rw [h3] at h6 ⊢
  have h7 : s' = .reset 0 4 1 := by simpa [Res.bind] using h6
  rw [h7]

/-! ### C38 -/

/-- `make_connected` terminates for every valid small-world state; the result is a valid, connected small-world network whose
root edges are either untouched or back at their original target.  A connected network is left alone. -/
theorem C38_sw_make_connected {e : SwEns T R} (h : SwValid e.graph) :
    ∃ e', e.makeConnected = .ok e' ∧ SwValid e'.graph ∧ e'.graph.vertexCount = e.graph.vertexCount ∧
      e'.graph.edgeCount = e.graph.edgeCount ∧ e'.graph.data = e.graph.data ∧ e'.rProb = e.rProb ∧ e'.rng = e.rng ∧
      (∀ v w, v < e.graph.vertexCount → w < e.graph.vertexCount → e'.graph.toSimple.Reachable v w) ∧
      e'.graph.isConnected = .ok (some true) ∧
      (∀ x, ∀ edge ∈ SwGraph.raw e'.graph x, edge.isRoot = true →
        edge ∈ SwGraph.raw e.graph x ∨ edge.originallyTo = some edge.dst) ∧
      ((∀ v w, v < e.graph.vertexCount → w < e.graph.vertexCount → e.graph.toSimple.Reachable v w) → e' = e) := by
  have hvc : e.graph.vertexCount = e.graph.nextId := rfl
  obtain ⟨g', a1, a2, a3, a4, a5, a6, a7⟩ := connectLoop_sw_spec (e.graph.vertexCount + 1) h (by rw [hvc]; omega)
  refine ⟨{ e with graph := g' }, by simp [-Res.bind_eq_ok, SwEns.makeConnected, a1], a2, a3, ?_, a4, rfl, rfl, a5, ?_, a6, ?_⟩
  · show g'.edgeCount = _
    rw [a2.count, h.count, a3]
  · obtain ⟨b, hb1, hb2⟩ := isConnected_spec a2.wf (by have := a2.size; omega)
    show g'.isConnected = _
    rw [hb1, hb2.mpr (by rw [a3]; exact a5)]
  · intro hc
    rw [a7 hc]

/-- Two triangle-like halves of a disconnected valid network: five vertices are always complete, so take ten vertices in two
blocks of five; all edges of one block stay within it. -/
def exSwSplit : SwGraph Nat where
  nextId := 10
  edgeCount := 20
  vertices := [
    ⟨0, [⟨1, some 1⟩, ⟨2, some 2⟩, ⟨4, none⟩, ⟨3, none⟩], 0⟩,
    ⟨1, [⟨2, some 2⟩, ⟨3, some 3⟩, ⟨0, none⟩, ⟨4, none⟩], 0⟩,
    ⟨2, [⟨3, some 3⟩, ⟨4, some 4⟩, ⟨0, none⟩, ⟨1, none⟩], 0⟩,
    ⟨3, [⟨4, some 4⟩, ⟨0, some 5⟩, ⟨1, none⟩, ⟨2, none⟩], 0⟩,
    ⟨4, [⟨0, some 5⟩, ⟨1, some 6⟩, ⟨2, none⟩, ⟨3, none⟩], 0⟩,
    ⟨5, [⟨6, some 6⟩, ⟨7, some 7⟩, ⟨9, none⟩, ⟨8, none⟩], 0⟩,
    ⟨6, [⟨7, some 7⟩, ⟨8, some 8⟩, ⟨5, none⟩, ⟨9, none⟩], 0⟩,
    ⟨7, [⟨8, some 8⟩, ⟨9, some 9⟩, ⟨5, none⟩, ⟨6, none⟩], 0⟩,
    ⟨8, [⟨9, some 9⟩, ⟨5, some 0⟩, ⟨6, none⟩, ⟨7, none⟩], 0⟩,
    ⟨9, [⟨5, some 0⟩, ⟨6, some 1⟩, ⟨7, none⟩, ⟨8, none⟩], 0⟩]

theorem exSwSplit_valid : SwValid exSwSplit := by
  have hz : ∀ i, ¬ i < 10 → SwGraph.raw exSwSplit i = [] := by
    intro i hi
    unfold SwGraph.raw
    rw [List.getElem?_eq_none (by simp [exSwSplit]; omega)]
  refine ⟨GenericGraph.wf_of_check _ (fun _ _ => trivial) (by decide), by decide, by decide, ?_, ?_⟩
  · have : ∀ i < 10, ((SwGraph.raw exSwSplit i).filterMap (·.originallyTo)).Perm [(i + 1) % 10, (i + 2) % 10] := by decide
    exact this
  · intro i e he
    by_cases hi : i < 10
    · have : ∀ i < 10, ∀ e ∈ SwGraph.raw exSwSplit i, ∀ e' ∈ SwGraph.raw exSwSplit e.dst, e'.dst = i → e.isRoot = !e'.isRoot := by
        decide
      exact this i hi e he
    · rw [hz i hi] at he; simp at he

/-- A disconnected valid network: `make_connected` has work to do. -/
example : SwValid exSwSplit ∧ exSwSplit.isConnected = .ok (some false) := ⟨exSwSplit_valid, by decide⟩

/-! ### C39 -/

/-- `count_long_ranging_edges` is the number of root edges, named by owner and ring distance, that are not at their original
target; `frac_long_ranging_edges` is its share of all edges. -/
theorem C39_long_ranging_edges {g : SwGraph T} (h : SwValid g) :
    SwGraph.countLongRangingEdges g = ((Finset.range g.vertexCount ×ˢ {1, 2}).filter (fun p : ℕ × ℕ =>
      (⟨(p.1 + p.2) % g.vertexCount, some ((p.1 + p.2) % g.vertexCount)⟩ : SwEdge) ∉ SwGraph.raw g p.1)).card ∧
    SwGraph.countLongRangingEdges g ≤ g.edgeCount ∧
    SwGraph.fracLongRangingEdges g = some ((SwGraph.countLongRangingEdges g : ℚ) / (2 * g.vertexCount : ℚ)) := by
  have h1 := countLong_away h
  refine ⟨h1, ?_, ?_⟩
  · rw [h1, h.count]
    refine (Finset.card_filter_le _ _).trans ?_
    rw [Finset.card_product, Finset.card_range]; simp; omega
  · have hn := h.size
    unfold SwGraph.fracLongRangingEdges
    rw [h.count, if_neg (by omega)]
    simp only [GenericGraph.vertexCount]
    push_cast
    rfl

/-- `count_nodes_with_long_ranging_edges` is the number of vertices at either end of a root edge that is not at its original
target. -/
theorem C39_nodes_with_long_ranging_edges {g : SwGraph T} (h : SwValid g) :
    ∃ S : Finset ℕ, SwGraph.countNodesWithLongRangingEdges g = .ok S.card ∧
      ∀ v, v ∈ S ↔ ∃ x j o, (⟨j, some o⟩ : SwEdge) ∈ SwGraph.raw g x ∧ j ≠ o ∧ (v = x ∨ v = j) := by
  refine ⟨SwGraph.longEnds g, countNodes_spec h.wf, fun v => ?_⟩
  unfold SwGraph.longEnds
  classical
  rw [Finset.mem_filter, Finset.mem_range]
  constructor
  · rintro ⟨_, x, ⟨j, o⟩, h1, h2, h3⟩
    cases o with
    | none => simp [SwEdge.isLongRangingRoot] at h2
    | some o =>
      refine ⟨x, j, o, h1, ?_, h3⟩
      rintro rfl
      simp [SwEdge.isLongRangingRoot] at h2
  · rintro ⟨x, j, o, h1, h2, h3⟩
    have hj : j ∈ g.nbrs x := sw_mem_nbrs.mpr ⟨_, h1, rfl⟩
    refine ⟨?_, x, _, h1, ?_, h3⟩
    · rcases h3 with rfl | rfl
      · exact h.wf.lt_left hj
      · exact h.wf.lt _ _ hj
    · simp [SwEdge.isLongRangingRoot]
      exact fun hc => h2 hc.symm

/-- `frac_nodes_wlre` is the share of the vertices at either end of a root edge that is not at its original target.  It lies
between 0 and 1, it is 0 exactly if there is no long-ranging edge, and otherwise `k` such edges give at least two and at
most `2 k` such vertices. -/
theorem C39_frac_nodes_wlre {g : SwGraph T} (h : SwValid g) :
    ∃ S : Finset ℕ, SwGraph.fracNodesWlre g = .ok (some ((S.card : ℚ) / (g.vertexCount : ℚ))) ∧
      (∀ v, v ∈ S ↔ ∃ x j o, (⟨j, some o⟩ : SwEdge) ∈ SwGraph.raw g x ∧ j ≠ o ∧ (v = x ∨ v = j)) ∧
      S ⊆ Finset.range g.vertexCount ∧ (S.card : ℚ) / (g.vertexCount : ℚ) ≤ 1 ∧
      ((S.card : ℚ) / (g.vertexCount : ℚ) = 0 ↔ SwGraph.countLongRangingEdges g = 0) ∧
      (SwGraph.countLongRangingEdges g ≠ 0 → 2 ≤ S.card) ∧ S.card ≤ 2 * SwGraph.countLongRangingEdges g := by
  obtain ⟨S, h1, h2⟩ := C39_nodes_with_long_ranging_edges h
  have hn : 0 < g.vertexCount := by have := h.size; show 0 < g.nextId; omega
  have hsub : S ⊆ Finset.range g.vertexCount := by
    intro v hv
    obtain ⟨x, j, o, a, b, c⟩ := (h2 v).mp hv
    have hj : j ∈ g.nbrs x := sw_mem_nbrs.mpr ⟨_, a, rfl⟩
    rw [Finset.mem_range]
    rcases c with rfl | rfl
    · exact h.wf.lt_left hj
    · exact h.wf.lt _ _ hj
  have hle : S.card ≤ g.vertexCount := by simpa using Finset.card_le_card hsub
  have hq : (0 : ℚ) < g.vertexCount := by exact_mod_cast hn
  -- the long-ranging edges as a list of pairs
  have hlong : ∀ e : SwEdge, e.isLongRangingRoot = true ↔ ∃ j o, e = ⟨j, some o⟩ ∧ j ≠ o := by
    rintro ⟨j, _ | o⟩
    · simp [SwEdge.isLongRangingRoot]
    · simp only [SwEdge.isLongRangingRoot, SwEdge.mk.injEq, Option.some.injEq]
      constructor
      · intro he; exact ⟨j, o, ⟨rfl, rfl⟩, by rintro rfl; simp at he⟩
      · rintro ⟨_, _, ⟨rfl, rfl⟩, hne⟩; simpa using fun hc => hne hc.symm
  let M : List (ℕ × SwEdge) := (List.range g.vertexCount).flatMap
    (fun x => ((SwGraph.raw g x).filter SwEdge.isLongRangingRoot).map (fun e => (x, e)))
  have hMlen : M.length = SwGraph.countLongRangingEdges g := by
    rw [countLong_sum h.wf]
    simp only [M, List.length_flatMap, List.length_map]
    rw [Finset.sum_eq_multiset_sum, Finset.range_val, ← Multiset.coe_range, Multiset.map_coe, Multiset.sum_coe]
    rfl
  have hM : ∀ x e, (x, e) ∈ M ↔ x < g.vertexCount ∧ e ∈ SwGraph.raw g x ∧ e.isLongRangingRoot = true := by
    intro x e; simp [M]
  have hS : S = (M.map (·.1)).toFinset ∪ (M.map (·.2.dst)).toFinset := by
    ext v
    rw [h2, Finset.mem_union, List.mem_toFinset, List.mem_toFinset, List.mem_map, List.mem_map]
    constructor
    · rintro ⟨x, j, o, a, b, c⟩
      have hx : x < g.vertexCount := h.wf.lt_left (sw_mem_nbrs.mpr ⟨_, a, rfl⟩)
      have hm := (hM x _).mpr ⟨hx, a, (hlong _).mpr ⟨j, o, rfl, b⟩⟩
      rcases c with rfl | rfl
      · exact .inl ⟨_, hm, rfl⟩
      · exact .inr ⟨_, hm, rfl⟩
    · rintro (⟨⟨x, e⟩, hm, rfl⟩ | ⟨⟨x, e⟩, hm, rfl⟩) <;>
        obtain ⟨_, a, b⟩ := (hM x e).mp hm <;> obtain ⟨j, o, rfl, c⟩ := (hlong e).mp b
      · exact ⟨x, j, o, a, c, .inl rfl⟩
      · exact ⟨x, j, o, a, c, .inr rfl⟩
  have hup : S.card ≤ 2 * SwGraph.countLongRangingEdges g := by
    rw [hS, ← hMlen]
    refine (Finset.card_union_le _ _).trans ?_
    have a := List.toFinset_card_le (M.map (·.1))
    have b := List.toFinset_card_le (M.map (·.2.dst))
    simp only [List.length_map] at a b
    omega
  have hlow : SwGraph.countLongRangingEdges g ≠ 0 → 2 ≤ S.card := by
    intro h0
    rw [← hMlen] at h0
    obtain ⟨⟨x, e⟩, hm⟩ := List.exists_mem_of_length_pos (Nat.pos_of_ne_zero h0)
    obtain ⟨_, a, b⟩ := (hM x e).mp hm
    obtain ⟨j, o, rfl, c⟩ := (hlong e).mp b
    have hne : x ≠ j := by
      rintro rfl
      exact h.wf.irrefl _ (sw_mem_nbrs.mpr ⟨_, a, rfl⟩)
    rw [← Finset.card_pair hne]
    refine Finset.card_le_card fun v hv => ?_
    rw [Finset.mem_insert, Finset.mem_singleton] at hv
    exact (h2 v).mpr ⟨x, j, o, a, c, hv⟩
  refine ⟨S, ?_, h2, hsub, ?_, ?_, hlow, hup⟩
  · have : g.vertexCount ≠ 0 := by omega
    simp [SwGraph.fracNodesWlre, h1, this]
  · rw [div_le_one hq]; exact_mod_cast hle
  · rw [div_eq_zero_iff]
    constructor
    · rintro (h0 | h0)
      · by_contra hc
        have := hlow hc
        have : S.card = 0 := by exact_mod_cast h0
        omega
      · exact absurd h0 hq.ne'
    · intro h0
      left
      have : S.card = 0 := by omega
      rw [this]; simp

/-- Without long-ranging edges the network is the ring with next and next-but-one neighbours. -/
theorem C39_no_long_ranging_is_ring {g : SwGraph T} (h : SwValid g) (h0 : SwGraph.countLongRangingEdges g = 0) :
    ∀ i j, g.toSimple.Adj i j ↔ i < g.vertexCount ∧ j < g.vertexCount ∧ i ≠ j ∧ circDist g.vertexCount i j ≤ 2 := by
  have hn := h.size
  rw [countLong_away h, Finset.card_eq_zero] at h0
  have home : ∀ x < g.nextId, ∀ d, d = 1 ∨ d = 2 →
      (⟨(x + d) % g.nextId, some ((x + d) % g.nextId)⟩ : SwEdge) ∈ SwGraph.raw g x := by
    intro x hx d hd
    by_contra hc
    have : (x, d) ∈ SwGraph.away g := by
      unfold SwGraph.away
      rw [Finset.mem_filter, Finset.mem_product, Finset.mem_range]
      exact ⟨⟨hx, by simpa using hd⟩, hc⟩
    rw [h0] at this
    simp at this
  have root : ∀ x o j, (⟨j, some o⟩ : SwEdge) ∈ SwGraph.raw g x → j = o := by
    intro x o j hm
    obtain ⟨hx, ho⟩ := h.orig_mem hm
    by_contra hne
    have hlong : ((SwGraph.raw g x).filter SwEdge.isLongRangingRoot).length = 0 := by
      rw [h.long_vertex hx, if_neg (by simpa using home x hx 1 (.inl rfl)), if_neg (by simpa using home x hx 2 (.inr rfl))]
    rw [List.length_eq_zero_iff, List.filter_eq_nil_iff] at hlong
    apply hlong _ hm
    simp [SwEdge.isLongRangingRoot]
    exact fun hc => hne hc.symm
  intro i j
  rw [h.wf.adj_iff, ← ring_adj_iff (n := g.vertexCount) (d := 2) (by show 2 * 2 + 1 ≤ g.nextId; omega)]
  show _ ↔ ∃ x a, x < g.nextId ∧ 1 ≤ a ∧ a ≤ 2 ∧ ((i = x ∧ j = (x + a) % g.nextId) ∨ (j = x ∧ i = (x + a) % g.nextId))
  constructor
  · intro hj
    have key : ∀ u v, v ∈ g.nbrs u → (∃ o, (⟨v, some o⟩ : SwEdge) ∈ SwGraph.raw g u) →
        ∃ a, u < g.nextId ∧ 1 ≤ a ∧ a ≤ 2 ∧ v = (u + a) % g.nextId := by
      rintro u v hv ⟨o, ho⟩
      have := root _ _ _ ho
      subst this
      obtain ⟨hu, h1 | h1⟩ := h.orig_mem ho
      · exact ⟨1, hu, by omega, by omega, h1⟩
      · exact ⟨2, hu, by omega, by omega, h1⟩
    obtain ⟨⟨d, o⟩, h1, h2⟩ := sw_mem_nbrs.mp hj
    simp only at h2
    subst h2
    cases o with
    | some o =>
      obtain ⟨a, b1, b2, b3, b4⟩ := key i d hj ⟨o, h1⟩
      exact ⟨i, a, b1, b2, b3, .inl ⟨rfl, b4⟩⟩
    | none =>
      have hji := h.wf.symm _ _ hj
      obtain ⟨⟨d', o'⟩, h3, h4⟩ := sw_mem_nbrs.mp hji
      simp only at h4
      subst h4
      have := h.oneEnd _ _ h1 _ h3 rfl
      cases o' with
      | none => simp [SwEdge.isRoot] at this
      | some o' =>
        obtain ⟨a, b1, b2, b3, b4⟩ := key d d' hji ⟨o', h3⟩
        exact ⟨d, a, b1, b2, b3, .inr ⟨rfl, b4⟩⟩
  · rintro ⟨x, a, hx, ha1, ha2, hc⟩
    have hm : (x + a) % g.nextId ∈ g.nbrs x := sw_mem_nbrs.mpr ⟨_, home x hx a (by omega), rfl⟩
    rcases hc with ⟨rfl, rfl⟩ | ⟨rfl, rfl⟩
    · exact hm
    · exact h.wf.symm _ _ hm

/-- How a step changes the number of long-ranging edges: resetting removes exactly one, rewiring adds one if the edge was in
place and removes one if it is put in place. -/
theorem C39_step_bookkeeping {e e' : SwEns T R} {s : SwChange} (h : SwValid e.graph) (hs : e.mStep = .ok (s, e')) :
    ((s = .nothing ∨ s = .blockedByExistingEdge) → SwGraph.countLongRangingEdges e'.graph = SwGraph.countLongRangingEdges e.graph) ∧
    (∀ a b c, s = .reset a b c → SwGraph.countLongRangingEdges e'.graph + 1 = SwGraph.countLongRangingEdges e.graph) ∧
    (∀ a b c, s = .rewire a b c → ∃ o, (⟨b, some o⟩ : SwEdge) ∈ SwGraph.raw e.graph a ∧
      SwGraph.countLongRangingEdges e'.graph + (if b ≠ o then 1 else 0) =
        SwGraph.countLongRangingEdges e.graph + (if c ≠ o then 1 else 0)) := by
  obtain ⟨s', e'', a1, a2, a3⟩ := SwEns.mStep_spec h
  rw [hs] at a1; simp only [Res.ok.injEq, Prod.mk.injEq] at a1; obtain ⟨rfl, rfl⟩ := a1
  generalize e'.graph = g' at a2
  cases a2 with
  | nothing => exact ⟨fun _ => rfl, by simp, by simp⟩
  | blocked => exact ⟨fun _ => rfl, by simp, by simp⟩
  | rewire m =>
    refine ⟨by simp, by simp, ?_⟩
    intro a b c hc
    simp only [SwChange.rewire.injEq] at hc
    obtain ⟨rfl, rfl, rfl⟩ := hc
    exact ⟨_, m.old_mem, m.long h.wf⟩
  | reset m =>
    refine ⟨by simp, ?_, by simp⟩
    intro a b c hc
    have := m.long h.wf
    rw [if_pos m.jk] at this
    simpa using this

/-- A generator under which no draw asks for a rewiring (every draw resets; e.g. a negative probability): `randomize` never
increases the number of long-ranging edges, and leaves a network without any as it is. -/
theorem C39_reset_only {e : SwEns T R} (h : SwValid e.graph) (hp : e.rProb < 0) :
    ∃ e', e.randomize = .ok e' ∧ SwGraph.countLongRangingEdges e'.graph ≤ SwGraph.countLongRangingEdges e.graph ∧
      (SwGraph.countLongRangingEdges e.graph = 0 → e'.graph = e.graph) := by
  have hcoin : ∀ r : R, (coin r e.rProb).1 = false := by
    intro r
    have : (0 : ℚ) ≤ ((Rng.genUnit r).1 : ℚ) / 2 ^ 53 := div_nonneg (Nat.cast_nonneg _) (pow_nonneg (by norm_num) _)
    have : ¬ ((Rng.genUnit r).1 : ℚ) / 2 ^ 53 ≤ e.rProb := by linarith
    simp only [coin, this, decide_false]
  have one : ∀ {g g' : SwGraph T} {s : SwChange}, SwValid g → SwStep g s g' → (∀ a b c, s ≠ .rewire a b c) →
      SwGraph.countLongRangingEdges g' ≤ SwGraph.countLongRangingEdges g ∧
      (SwGraph.countLongRangingEdges g = 0 → g' = g) := by
    intro g g' s hg st hs
    cases st with
    | nothing => exact ⟨le_refl _, fun _ => rfl⟩
    | blocked => exact ⟨le_refl _, fun _ => rfl⟩
    | rewire m => exact absurd rfl (hs _ _ _)
    | reset m =>
      have := m.long hg.wf
      rw [if_pos m.jk] at this
      simp only [ne_eq, not_true_eq_false, if_false] at this
      exact ⟨by omega, fun h0 => by omega⟩
  obtain ⟨x, b1, b2, b3, b4, b5, b6⟩ := foldlM_range (f := SwEns.randomizeVertex (T := T) (R := R)) e.graph.nextId
    (fun _ x => SwValid x.graph ∧ x.graph.nextId = e.graph.nextId ∧ x.rProb = e.rProb ∧
      SwGraph.countLongRangingEdges x.graph ≤ SwGraph.countLongRangingEdges e.graph ∧
      (SwGraph.countLongRangingEdges e.graph = 0 → x.graph = e.graph))
    (by
      rintro i x hi ⟨v1, v2, v3, v4, v5⟩
      obtain ⟨x', g1, s1, s2, a1, a2, a3, a4, a5⟩ := SwEns.randomizeVertex_spec v1 (i := i) (by rw [v2]; exact hi)
      have a5 := a5 (by rw [v3]; exact hcoin)
      obtain ⟨c1, c2⟩ := one v1 a2 (fun a b c => (a5 a b c).1)
      obtain ⟨d1, d2⟩ := one (a2.valid v1) a3 (fun a b c => (a5 a b c).2)
      refine ⟨x', a1, a3.valid (a2.valid v1), by rw [a3.n.1, a2.n.1, v2], a4.trans v3, by omega, ?_⟩
      intro h0
      rw [d2 (by omega), c2 (by omega), v5 h0])
    (s := e) ⟨h, rfl, rfl, le_refl _, fun _ => rfl⟩
  exact ⟨x, b1, b5, b6⟩

/-- Every vertex owns exactly two root edges; each of them is either at its root or long-ranging, and no other edge of the
vertex is. -/
theorem C39_root_edges {g : SwGraph T} (h : SwValid g) {i : Nat} (hi : i < g.vertexCount) :
    (SwGraph.raw g i).countP SwEdge.isRoot = 2 ∧
    (SwGraph.raw g i).countP SwEdge.isAtRoot + (SwGraph.raw g i).countP SwEdge.isLongRangingRoot = 2 := by
  have h1 := (h.roots i hi).length_eq
  have key : ∀ l : List SwEdge, l.countP SwEdge.isRoot = (l.filterMap (·.originallyTo)).length ∧
      l.countP SwEdge.isAtRoot + l.countP SwEdge.isLongRangingRoot = (l.filterMap (·.originallyTo)).length := by
    intro l
    induction l with
    | nil => simp
    | cons a l ih =>
      obtain ⟨j, o⟩ := a
      obtain ⟨ih1, ih2⟩ := ih
      cases o with
      | none =>
        simp only [List.countP_cons, List.filterMap_cons, SwEdge.isRoot, SwEdge.isAtRoot, SwEdge.isLongRangingRoot]
        simpa using ⟨ih1, ih2⟩
      | some o =>
        by_cases hjo : o = j
        · subst hjo
          simp only [List.countP_cons, List.filterMap_cons, SwEdge.isRoot, SwEdge.isAtRoot, SwEdge.isLongRangingRoot]
          simp; omega
        · simp only [List.countP_cons, List.filterMap_cons, SwEdge.isRoot, SwEdge.isAtRoot, SwEdge.isLongRangingRoot]
          simp [hjo]; omega
  rw [(key _).1, (key _).2, h1]
  exact ⟨rfl, rfl⟩

/-- The concrete network has one long-ranging edge, with two ends. -/
example : SwValid exSw ∧ SwGraph.countLongRangingEdges exSw = 1 ∧ SwGraph.countNodesWithLongRangingEdges exSw = .ok 2 :=
  ⟨exSw_valid, by decide, by decide⟩

end Verif
