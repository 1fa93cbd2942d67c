import Verif.Props.Sw
import Verif.Props.Ws
import Verif.Props.Ba
import Verif.Props.Spacial
import Verif.Props.Config
import Verif.Lemmas.ErC

/-!
# C69: which `randomize` forgets the present network
-/

set_option linter.unusedSectionVars false
set_option linter.unusedSimpArgs false

namespace Verif
open AdjContainer GenericGraph

section
variable {T A : Type} [AdjContainer T A] [LawfulAdj T A]

/-- `clear_edges` in one formula, also when it does nothing because there are no edges. -/
theorem clearEdges_formula (hA : ∀ a : A, LawfulAdj.inv a → neighbors a = [] → AdjContainer.clearEdges a = a)
    {g : GenericGraph T A} (h : g.WF) : g.clearEdges = ⟨g.nextId, 0, g.vertices.map AdjContainer.clearEdges⟩ := by
  unfold GenericGraph.clearEdges
  by_cases h0 : g.edgeCount = 0
  · have hv : g.vertices.map AdjContainer.clearEdges = g.vertices := by
      apply List.ext_getElem?
      intro i
      rw [List.getElem?_map]
      cases hi : g.vertices[i]? with
      | none => rfl
      | some a =>
        have hm : a ∈ g.vertices := List.mem_of_getElem? hi
        have hnb := h.nbrs_nil_of_edgeCount h0 i
        rw [nbrs_of_some hi] at hnb
        simp [hA a (h.inv a hm) hnb]
    simp only [h0, bne_self_eq_false, Bool.false_eq_true, if_false, hv]
    cases g
    simp at h0 ⊢
    exact h0
  · have : (g.edgeCount != 0) = true := by simpa using h0
    simp [this]

theorem clearEdges_congr (hA : ∀ a : A, LawfulAdj.inv a → neighbors a = [] → AdjContainer.clearEdges a = a)
    {g g' : GenericGraph T A} (h : g.WF) (h' : g'.WF)
    (hv : g'.vertices.map AdjContainer.clearEdges = g.vertices.map AdjContainer.clearEdges) : g'.clearEdges = g.clearEdges := by
  rw [clearEdges_formula hA h, clearEdges_formula hA h', hv]
  have := congrArg List.length hv
  simp only [List.length_map] at this
  rw [← h.len, ← h'.len, this]

/-- Containers that consist of id, data and edges. -/
theorem cleared_of_data (hA : ∀ a b : A, AdjContainer.id a = AdjContainer.id b → contained a = contained b →
      AdjContainer.clearEdges a = AdjContainer.clearEdges b) {g g' : GenericGraph T A} (h : g.WF) (h' : g'.WF)
    (hd : g'.data = g.data) : g'.vertices.map AdjContainer.clearEdges = g.vertices.map AdjContainer.clearEdges := by
  apply List.ext_getElem?
  intro i
  have hi := congrArg (fun l => l[i]?) hd
  simp only [GenericGraph.data, List.getElem?_map] at hi ⊢
  cases h1 : g.vertices[i]? with
  | none => rw [h1] at hi; cases h2 : g'.vertices[i]? with
    | none => rfl
    | some b => rw [h2] at hi; cases hi
  | some a =>
    rw [h1] at hi
    cases h2 : g'.vertices[i]? with
    | none => rw [h2] at hi; cases hi
    | some b =>
      rw [h2] at hi
      simp only [Option.map_some, Option.some.injEq] at hi ⊢
      exact hA b a ((h'.ids i b h2).trans (h.ids i a h1).symm) hi

end

variable {T R : Type} [Rng R]

theorem graph_clear_congr {g g' : Graph T} (h : g.WF) (h' : g'.WF) (hd : g'.data = g.data) : g'.clearEdges = g.clearEdges :=
  clearEdges_congr (fun a _ hn => by
    cases a
    simp only [neighbors] at hn
    simp [AdjContainer.clearEdges, hn]) h h' (cleared_of_data (fun a b h1 h2 => by
      cases a; cases b
      simp only [AdjContainer.id, contained] at h1 h2
      simp [AdjContainer.clearEdges, h1, h2]) h h' hd)

/-- `ErEnsembleC::randomize`: the outcome, with all its details, is a function of the parameters, the node data and the
generator. -/
theorem C69_er_c_forgets {e e' : ErC T R} (h : e.graph.WF) (h' : e'.graph.WF) (hd : e'.graph.data = e.graph.data)
    (hp : e'.prob = e.prob) (hc : e'.cTarget = e.cTarget) (hr : e'.rng = e.rng) : e'.randomize = e.randomize := by
  unfold ErC.randomize
  rw [graph_clear_congr h h' hd, hp, hr, hc]

/-- `ErEnsembleM::randomize`: of the state only the order of the list of all pairs matters, which `m_step` and `undo_step` do not
change; the present graph and the two lists of present and absent edges do not matter. -/
theorem C69_er_m_forgets {e e' : ErM T R} (h : e.graph.WF) (h' : e'.graph.WF) (hd : e'.graph.data = e.graph.data)
    (hm : e'.m = e.m) (ha : e'.allEdges = e.allEdges) (hc : e'.currentEdges.length = e.currentEdges.length)
    (hp : e'.possibleEdges.length = e.possibleEdges.length) (hr : e'.rng = e.rng) : e'.randomize = e.randomize := by
  unfold ErM.randomize copyFromSlice
  rw [graph_clear_congr h h' hd, hm, ha, hr, hc, hp]

/-- `ConfigurationModel::randomize`: of the state only the order of the edge halves matters, which `m_step` and `undo_step` do not
change. -/
theorem C69_config_forgets {e e' : Config T R} (h : e.graph.WF) (h' : e'.graph.WF) (hd : e'.graph.data = e.graph.data)
    (hv : e'.degreeVec = e.degreeVec) (hb : e'.backup = e.backup) (hr : e'.rng = e.rng) (fuel : ℕ) :
    e'.randomize fuel = e.randomize fuel := by
  unfold Config.randomize
  rw [graph_clear_congr h h' hd, hv, hb, hr]

/-- `SmallWorldWS::randomize`. -/
theorem C69_ws_forgets {e e' : Ws T R} (h : e.graph.WF) (h' : e'.graph.WF) (hd : e'.graph.data = e.graph.data)
    (hp : e'.rewireProb = e.rewireProb) (hn : e'.neighborDistance = e.neighborDistance) (hr : e'.rng = e.rng) (fuel : ℕ) :
    e'.randomize fuel = e.randomize fuel := by
  have hc : e'.graph.clearEdges = e.graph.clearEdges :=
    clearEdges_congr (fun a hi hn => by
      cases a
      simp only [neighbors] at hn
      have hl : _ = _ := hi
      simp only [hn, List.length_nil] at hl
      simp [AdjContainer.clearEdges, hn, List.length_eq_zero_iff.mp hl.symm]) h h' (cleared_of_data (fun a b h1 h2 => by
        cases a; cases b
        simp only [AdjContainer.id, contained] at h1 h2
        simp [AdjContainer.clearEdges, h1, h2]) h h' hd)
  unfold Ws.randomize GenericGraph.initRing
  rw [hc, hp, hr, hn]

/-- `BAensemble::randomize`: the stored weights are forgotten, too. -/
theorem C69_ba_forgets {e e' : Ba T R} (h : e.Valid) (h' : e'.Valid) (hd : e'.graph.data = e.graph.data)
    (hs : e'.source = e.source) (hm : e'.m = e.m) (hr : e'.rng = e.rng) (fuel : ℕ) :
    e'.randomize fuel = e.randomize fuel := by
  have hc := graph_clear_congr h.graph h'.graph hd
  have hn : e'.graph.vertexCount = e.graph.vertexCount := by
    have := congrArg GenericGraph.nextId hc
    rwa [clearEdges_nextId, clearEdges_nextId] at this
  have hrs : e'.graph.resetFromGraph e'.source = e.graph.resetFromGraph e.source := by
    unfold GenericGraph.resetFromGraph
    rw [hc, hs, hn]
  obtain ⟨g0, a1, _, _, _, _, _, _, a8⟩ := Ba.prepare h
  obtain ⟨g1, b1, _, _, _, _, _, _, b8⟩ := Ba.prepare h'
  rw [hrs, a1] at b1
  cases b1
  unfold Ba.randomize
  rw [hrs, a1]
  simp only [Res.ok_bind]
  rw [a8, b8, hs, hm, hr]

theorem spacial_clear_congr {g g' : SpacialGraph T} (h : g.WF) (h' : g'.WF)
    (hd : g'.vertices.map (fun c => (c.node, c.x, c.y)) = g.vertices.map (fun c => (c.node, c.x, c.y))) :
    g'.clearEdges = g.clearEdges := by
  refine clearEdges_congr (fun a _ hn => by
    cases a
    simp only [neighbors] at hn
    simp [AdjContainer.clearEdges, hn]) h h' ?_
  apply List.ext_getElem?
  intro i
  have hi := congrArg (fun l => l[i]?) hd
  simp only [List.getElem?_map] at hi ⊢
  cases h1 : g.vertices[i]? with
  | none => rw [h1] at hi; cases h2 : g'.vertices[i]? with
    | none => rfl
    | some b => rw [h2] at hi; cases hi
  | some a =>
    rw [h1] at hi
    cases h2 : g'.vertices[i]? with
    | none => rw [h2] at hi; cases hi
    | some b =>
      rw [h2] at hi
      have i1 := h'.ids i b h2
      have i2 := h.ids i a h1
      cases a; cases b
      simp only [AdjContainer.id] at i1 i2
      simp only [Option.map_some, Option.some.injEq, Prod.mk.injEq] at hi
      simp [AdjContainer.clearEdges, i1, i2, hi]

/-- `SpacialEnsemble::randomize`: the positions count as part of the parameters. -/
theorem C69_spacial_forgets {e e' : Spacial T R} (h : e.graph.WF) (h' : e'.graph.WF)
    (hd : e'.graph.vertices.map (fun c => (c.node, c.x, c.y)) = e.graph.vertices.map (fun c => (c.node, c.x, c.y)))
    (hl : e'.law = e.law) (hr : e'.rng = e.rng) : e'.randomize = e.randomize := by
  unfold Spacial.randomize
  rw [spacial_clear_congr h h' hd, hl, hr]

/-- `DogEnsemble::randomize`. -/
theorem C69_dog_forgets {e e' : Dog T R} (h : e.graph.WF) (h' : e'.graph.WF)
    (hd : e'.graph.vertices.map (fun c => (c.node, c.x, c.y)) = e.graph.vertices.map (fun c => (c.node, c.x, c.y)))
    (hl : e'.law = e.law) (ht : e'.tau = e.tau) (hlam : e'.lambda = e.lambda) (hp : e'.poisson = e.poisson)
    (hr : e'.rng = e.rng) (fuel : ℕ) : e'.randomize fuel = e.randomize fuel := by
  unfold Dog.randomize
  rw [spacial_clear_congr h h' hd, hl, hr, ht, hlam, hp]

/-! ## SwEnsemble remembers -/

/-- What `randomize` does to vertex `i` if both throws fail. -/
def SwGraph.resetVertex (g : SwGraph T) (i : ℕ) : Res (SwGraph T) := do
  let vertex ← Vec.idx g.vertices i
  let roots := (vertex.iterRawEdges.filter SwEdge.isRoot).map (·.dst)
  let first ← Res.unwrap roots[0]?
  let second ← Res.unwrap roots[1]?
  Res.assert roots[2]?.isNone
  let (s, g) ← SwGraph.resetEdge g i first
  SwEns.debugErrorCheck s
  let (s, g) ← SwGraph.resetEdge g i second
  SwEns.debugErrorCheck s
  return g

theorem unitState_succ (k : ℕ) (r : R) : unitState (k + 1) r = unitState k (Rng.genUnit r).2 := rfl

theorem coin_snd (r : R) (p : ℚ) : (coin r p).2 = (Rng.genUnit r).2 := rfl

theorem SwEns.randomizeEdge_tails {e : SwEns T R} {a b : ℕ} (h : throwAt e.rProb e.rng 0 = false) :
    e.randomizeEdge a b = (do
      let (s, graph) ← SwGraph.resetEdge e.graph a b
      return (s, { e with graph, rng := unitState 1 e.rng })) := by
  have : (coin e.rng e.rProb).1 = false := h
  unfold SwEns.randomizeEdge
  simp only [this, Bool.false_eq_true, if_false]
  rfl

theorem SwEns.randomizeVertex_tails {e : SwEns T R} {i : ℕ} (h0 : throwAt e.rProb e.rng 0 = false)
    (h1 : throwAt e.rProb e.rng 1 = false) {g : SwGraph T} (hg : SwGraph.resetVertex e.graph i = .ok g) :
    e.randomizeVertex i = .ok { e with graph := g, rng := unitState 2 e.rng } := by
  unfold SwGraph.resetVertex at hg
  simp only [Res.bind_eq_ok] at hg
  obtain ⟨v, a1, f, a2, s, a3, _, a4, ⟨s1, g1⟩, a5, _, a6, ⟨s2, g2⟩, a7, _, a8, a9⟩ := hg
  simp only [Res.pure_eq, Res.ok.injEq] at a9
  subst a9
  unfold SwEns.randomizeVertex
  simp only [a1, a2, a3, a4, Res.ok_bind]
  rw [SwEns.randomizeEdge_tails h0]
  simp only [a5, a6, Res.ok_bind, Res.pure_eq]
  rw [SwEns.randomizeEdge_tails (e := { e with graph := g1, rng := unitState 1 e.rng }) h1]
  simp only at a7 a8
  simp only [a7, a8, Res.ok_bind, Res.pure_eq]
  rfl

theorem SwEns.sweep_tails : ∀ (l : List ℕ) {e : SwEns T R} {g : SwGraph T}, (∀ k < 2 * l.length, throwAt e.rProb e.rng k = false) →
    l.foldlM SwGraph.resetVertex e.graph = .ok g →
    l.foldlM SwEns.randomizeVertex e = .ok { e with graph := g, rng := unitState (2 * l.length) e.rng } := by
  intro l
  induction l with
  | nil => intro e g _ h; cases h; rfl
  | cons i l ih =>
    intro e g ht h
    rw [List.foldlM_cons, Res.bind_eq_ok] at h
    obtain ⟨g1, h1, h2⟩ := h
    simp only [List.length_cons] at ht ⊢
    rw [List.foldlM_cons, SwEns.randomizeVertex_tails (ht 0 (by omega)) (ht 1 (by omega)) h1]
    simp only [Res.ok_bind]
    rw [ih (e := { e with graph := g1, rng := unitState 2 e.rng }) (g := g) (by
      intro k hk
      have := ht (k + 2) (by omega)
      exact this) h2]
    rfl

/-- The ring of seven vertices. -/
def exRing : SwGraph Nat where
  nextId := 7
  edgeCount := 14
  vertices := [
    ⟨0, [⟨1, some 1⟩, ⟨2, some 2⟩, ⟨5, none⟩, ⟨6, none⟩], 10⟩,
    ⟨1, [⟨0, none⟩, ⟨2, some 2⟩, ⟨3, some 3⟩, ⟨6, none⟩], 11⟩,
    ⟨2, [⟨0, none⟩, ⟨1, none⟩, ⟨3, some 3⟩, ⟨4, some 4⟩], 12⟩,
    ⟨3, [⟨1, none⟩, ⟨2, none⟩, ⟨4, some 4⟩, ⟨5, some 5⟩], 13⟩,
    ⟨4, [⟨2, none⟩, ⟨3, none⟩, ⟨5, some 5⟩, ⟨6, some 6⟩], 14⟩,
    ⟨5, [⟨3, none⟩, ⟨4, none⟩, ⟨6, some 6⟩, ⟨0, some 0⟩], 15⟩,
    ⟨6, [⟨4, none⟩, ⟨5, none⟩, ⟨0, some 0⟩, ⟨1, some 1⟩], 16⟩]

/-- The ring after two steps: `0 → 1` was rewired to `4`, then `1 → 3` to the free place `0`. -/
def exBlocked : SwGraph Nat where
  nextId := 7
  edgeCount := 14
  vertices := [
    ⟨0, [⟨4, some 1⟩, ⟨2, some 2⟩, ⟨5, none⟩, ⟨6, none⟩, ⟨1, none⟩], 10⟩,
    ⟨1, [⟨6, none⟩, ⟨2, some 2⟩, ⟨0, some 3⟩], 11⟩,
    ⟨2, [⟨0, none⟩, ⟨1, none⟩, ⟨3, some 3⟩, ⟨4, some 4⟩], 12⟩,
    ⟨3, [⟨5, some 5⟩, ⟨2, none⟩, ⟨4, some 4⟩], 13⟩,
    ⟨4, [⟨2, none⟩, ⟨3, none⟩, ⟨5, some 5⟩, ⟨6, some 6⟩, ⟨0, none⟩], 14⟩,
    ⟨5, [⟨3, none⟩, ⟨4, none⟩, ⟨6, some 6⟩, ⟨0, some 0⟩], 15⟩,
    ⟨6, [⟨4, none⟩, ⟨5, none⟩, ⟨0, some 0⟩, ⟨1, some 1⟩], 16⟩]

/-- `exBlocked` is what two calls of `m_step` make of the ring. -/
theorem exBlocked_reached : ∃ s₁ e₁ s₂ e₂, (⟨exRing, 0, ⟨[0, 0, 3, 3, 0, 0]⟩⟩ : SwEns Nat Script).mStep = .ok (s₁, e₁) ∧
    e₁.mStep = .ok (s₂, e₂) ∧ e₂.graph = exBlocked := by
  have h : (do
      let (_, e) ← (⟨exRing, 0, ⟨[0, 0, 3, 3, 0, 0]⟩⟩ : SwEns Nat Script).mStep
      let (_, e) ← e.mStep
      return e.graph : Res (SwGraph Nat)) = .ok exBlocked := by decide +kernel
  simp only [Res.bind_eq_ok, Res.pure_eq, Res.ok.injEq] at h
  obtain ⟨⟨s₁, e₁⟩, h1, ⟨s₂, e₂⟩, h2, h3⟩ := h
  exact ⟨s₁, e₁, s₂, e₂, h1, h2, h3⟩

theorem exRing_valid : SwValid exRing := by
  have hz : ∀ i, ¬ i < 7 → SwGraph.raw exRing i = [] := by
    intro i hi
    unfold SwGraph.raw
    rw [List.getElem?_eq_none (by simp [exRing]; omega)]
  refine ⟨GenericGraph.wf_of_check _ (fun _ _ => trivial) (by decide), by decide, by decide, ?_, ?_⟩
  · have : ∀ i < 7, ((SwGraph.raw exRing i).filterMap (·.originallyTo)).Perm [(i + 1) % 7, (i + 2) % 7] := by decide
    exact this
  · intro i e he
    by_cases hi : i < 7
    · have : ∀ i < 7, ∀ e ∈ SwGraph.raw exRing i, ∀ e' ∈ SwGraph.raw exRing e.dst, e'.dst = i → e.isRoot = !e'.isRoot := by decide
      exact this i hi e he
    · rw [hz i hi] at he; simp at he

theorem exBlocked_valid : SwValid exBlocked := by
  have hz : ∀ i, ¬ i < 7 → SwGraph.raw exBlocked i = [] := by
    intro i hi
    unfold SwGraph.raw
    rw [List.getElem?_eq_none (by simp [exBlocked]; omega)]
  refine ⟨GenericGraph.wf_of_check _ (fun _ _ => trivial) (by decide), by decide, by decide, ?_, ?_⟩
  · have : ∀ i < 7, ((SwGraph.raw exBlocked i).filterMap (·.originallyTo)).Perm [(i + 1) % 7, (i + 2) % 7] := by decide
    exact this
  · intro i e he
    by_cases hi : i < 7
    · have : ∀ i < 7, ∀ e ∈ SwGraph.raw exBlocked i, ∀ e' ∈ SwGraph.raw exBlocked e.dst, e'.dst = i → e.isRoot = !e'.isRoot := by
        decide
      exact this i hi e he
    · rw [hz i hi] at he; simp at he

/-- `SwEnsemble::randomize` starts from the present network, so its outcome is not independent of it: there are two valid
networks, the second obtained from the first by two Markov steps, such that for every generator whose first throws all fail (for
small `r_prob` that is almost certain, and for negative `r_prob` certain) the first becomes the ring and the second keeps the
edge `(0, 4)` that is not in the ring. -/
theorem C69_sw_randomize_remembers_violation : ∃ g₁ g₂ : SwGraph Nat, SwValid g₁ ∧ SwValid g₂ ∧
    g₂.vertexCount = g₁.vertexCount ∧ g₂.data = g₁.data ∧
    (∃ (r : Script) (s₁ s₂ : SwChange) (e₁ e₂ : SwEns Nat Script), (⟨g₁, 0, r⟩ : SwEns Nat Script).mStep = .ok (s₁, e₁) ∧
      e₁.mStep = .ok (s₂, e₂) ∧ e₂.graph = g₂) ∧
    ∀ (R : Type) [Rng R] (p : ℚ) (r : R), (∀ k < 2 * g₁.vertexCount, throwAt p r k = false) →
      ∃ e₁ e₂, (⟨g₁, p, r⟩ : SwEns Nat R).randomize = .ok e₁ ∧ (⟨g₂, p, r⟩ : SwEns Nat R).randomize = .ok e₂ ∧
        e₂.rng = e₁.rng ∧ e₁.graph.edges = ringSet 7 2 ∧ s(0, 4) ∈ e₂.graph.edges ∧ s(0, 4) ∉ ringSet 7 2 := by
  obtain ⟨s₁, e₁, s₂, e₂, h1, h2, h3⟩ := exBlocked_reached
  refine ⟨exRing, exBlocked, exRing_valid, exBlocked_valid, rfl, rfl, ⟨_, s₁, s₂, e₁, e₂, h1, h2, h3⟩, ?_⟩
  intro R _ p r ht
  have r1 : (List.range 7).foldlM SwGraph.resetVertex exRing = .ok exRing := by decide
  have r2 : ∃ g, (List.range 7).foldlM SwGraph.resetVertex exBlocked = .ok g ∧ 4 ∈ g.nbrs 0 := by
    have h : (do
        let g ← (List.range 7).foldlM SwGraph.resetVertex exBlocked
        return decide (4 ∈ g.nbrs 0) : Res Bool) = .ok true := by decide +kernel
    simp only [Res.bind_eq_ok, Res.pure_eq, Res.ok.injEq, decide_eq_true_eq] at h
    exact h
  obtain ⟨g, r2, r3⟩ := r2
  have ht' : ∀ k < 2 * (List.range 7).length, throwAt p r k = false := by
    intro k hk
    exact ht k hk
  have t1 := SwEns.sweep_tails (R := R) (List.range 7) (e := ⟨exRing, p, r⟩) ht' r1
  have t2 := SwEns.sweep_tails (R := R) (List.range 7) (e := ⟨exBlocked, p, r⟩) ht' r2
  have hg := (C36_sw_randomize (e := (⟨exBlocked, p, r⟩ : SwEns Nat R)) exBlocked_valid)
  obtain ⟨x, x1, x2, _⟩ := hg
  have hx : x.graph = g := by
    have : (⟨exBlocked, p, r⟩ : SwEns Nat R).randomize = _ := t2
    rw [this] at x1
    cases x1
    rfl
  refine ⟨_, _, t1, t2, rfl, ?_, ?_, by decide⟩
  · show exRing.edges = _
    decide
  · rw [← hx] at r3 ⊢
    show s(0, 4) ∈ x.graph.edges
    rw [x2.wf.mem_edges]
    exact r3

/-- The generator that always draws `1 - 2^-53` meets the hypothesis for `r_prob = 0`. -/
example : ∀ k < 14, throwAt 0 (⟨List.replicate 14 (2 ^ 53 - 1)⟩ : Script) k = false := by decide +kernel

/-- Two different states with the same data, parameters and generator. -/
example : ∃ e e' : ErC Nat Script, e.graph.WF ∧ e'.graph.WF ∧ e'.graph.data = e.graph.data ∧ e'.prob = e.prob ∧ e'.cTarget = e.cTarget ∧
    e'.rng = e.rng ∧ e'.graph.edges ≠ e.graph.edges :=
  ⟨⟨exPath, 1, 1, ⟨[]⟩⟩, ⟨exPath.clearEdges, 1, 1, ⟨[]⟩⟩, exPath_wf, clearEdges_wf exPath_wf, by rw [clearEdges_data], rfl, rfl, rfl, by
    decide⟩

/-- Two different states of the configuration model. -/
example : ∃ e e' : Config Nat Script, e.Inv ∧ e'.graph.WF ∧ e'.graph.data = e.graph.data ∧ e'.degreeVec = e.degreeVec ∧
    e'.backup = e.backup ∧ e'.rng = e.rng ∧ e'.graph.edges ≠ e.graph.edges := by
  refine ⟨exConfigPath [], { exConfigPath [] with graph := (exConfigPath []).graph.clearEdges }, exConfigPath_inv [],
    clearEdges_wf (exConfigPath_inv []).wf, by rw [clearEdges_data], rfl, rfl, rfl, ?_⟩
  show ((exConfigPath []).graph.clearEdges).edges ≠ _
  decide

/-- Two different states of the Barabási-Albert ensemble; the stored weights differ, too. -/
example : ∃ e e' : Ba Nat Script, e.Valid ∧ e'.Valid ∧ e'.graph.data = e.graph.data ∧ e'.source = e.source ∧ e'.m = e.m ∧
    e'.rng = e.rng ∧ e'.weights ≠ e.weights :=
  ⟨exBa [], { exBa [] with weights := [1, 2, 3, 4, 5, 6] }, exBa_valid [],
    ⟨(exBa_valid []).source, (exBa_valid []).graph, (exBa_valid []).le, rfl⟩, rfl, rfl, rfl, rfl, by decide⟩

end Verif
