import Verif.Lemmas.Agree
import Verif.Props.Config
import Verif.Props.Ws
import Verif.Props.Ba

/-!
# C67: the Erdős–Rényi ensembles do not look at node data or at the order of adjacency lists
-/

set_option linter.unusedSectionVars false
set_option linter.unusedSimpArgs false

namespace Verif
open AdjContainer GenericGraph

variable {T R : Type} [Rng R]

/-! ## ErEnsembleC -/

/-- Two states that no sampling call can tell apart. -/
structure ErC.Alike (e : ErC T R) (n : ℕ) (e' : ErC T R) : Prop where
  graph : Like n e.graph e'.graph
  prob : e'.prob = e.prob
  cTarget : e'.cTarget = e.cTarget
  rng : e'.rng = e.rng

namespace ErC.Alike
variable {n : ℕ} {e e' : ErC T R}

theorem setGraph (s : e.Alike n e') {g g' : Graph T} (h : Like n g g') : ({ e with graph := g } : ErC T R).Alike n { e' with graph := g' } :=
  ⟨h, s.prob, s.cTarget, s.rng⟩

theorem mStep (s : e.Alike n e') : Res.Agree (fun p q => q.1 = p.1 ∧ p.2.Alike n q.2) e.mStep e'.mStep := by
  unfold ErC.mStep
  rw [s.rng, s.graph.same.n, s.prob]
  refine Res.Agree.bind (Res.Agree.of_eq _) ?_
  rintro ⟨edge, r⟩ _ rfl
  simp only
  split
  · refine Res.Agree.bind (s.graph.addEdge edge.1 edge.2) ?_
    rintro ⟨x, g⟩ ⟨x', g'⟩ ⟨h1, h2⟩
    simp only at h1 h2
    subst h1
    cases x'
    · exact ⟨rfl, h2, rfl, s.cTarget, rfl⟩
    · exact ⟨rfl, h2, rfl, s.cTarget, rfl⟩
  · refine Res.Agree.bind (s.graph.removeEdge edge.1 edge.2) ?_
    rintro ⟨x, g⟩ ⟨x', g'⟩ ⟨h1, h2⟩
    simp only at h1 h2
    subst h1
    cases x'
    · exact ⟨rfl, h2, rfl, s.cTarget, rfl⟩
    · exact ⟨rfl, h2, rfl, s.cTarget, rfl⟩

theorem undoStep (s : e.Alike n e') (st : ErStepC) :
    Res.Agree (fun p q => q.1 = p.1 ∧ p.2.Alike n q.2) (e.undoStep st) (e'.undoStep st) := by
  cases st with
  | nothing => exact ⟨rfl, s⟩
  | gError _ => exact ⟨rfl, s⟩
  | addedEdge edge =>
    refine Res.Agree.bind (s.graph.removeEdge edge.1 edge.2) ?_
    rintro ⟨x, g⟩ ⟨x', g'⟩ ⟨h1, h2⟩
    simp only at h1 h2
    subst h1
    cases x'
    · exact ⟨rfl, s.setGraph h2⟩
    · exact ⟨rfl, s.setGraph h2⟩
  | removedEdge edge =>
    refine Res.Agree.bind (s.graph.addEdge edge.1 edge.2) ?_
    rintro ⟨x, g⟩ ⟨x', g'⟩ ⟨h1, h2⟩
    simp only at h1 h2
    subst h1
    cases x'
    · exact ⟨rfl, s.setGraph h2⟩
    · exact ⟨rfl, s.setGraph h2⟩

theorem undoStepQuiet (s : e.Alike n e') (st : ErStepC) :
    Res.Agree (fun x y => ErC.Alike x n y) (e.undoStepQuiet st) (e'.undoStepQuiet st) := by
  cases st with
  | nothing => exact s
  | gError _ => trivial
  | addedEdge edge =>
    refine Res.Agree.bind (s.graph.removeEdge edge.1 edge.2) (fun p q h => ?_)
    refine Res.Agree.bind (Like.unwrap h) (fun g g' h => ?_)
    exact s.setGraph h
  | removedEdge edge =>
    refine Res.Agree.bind (s.graph.addEdge edge.1 edge.2) (fun p q h => ?_)
    refine Res.Agree.bind (Like.unwrap h) (fun g g' h => ?_)
    exact s.setGraph h

theorem randomize (s : e.Alike n e') : Res.Agree (fun x y => ErC.Alike x n y) e.randomize e'.randomize := by
  have hn : e'.graph.nextId = e.graph.nextId := s.graph.same.n
  obtain ⟨x, a1, a2, a3, _, a5, a6, a7, a8⟩ := ErC.randomize_spec s.graph.wf
  obtain ⟨y, b1, b2, b3, _, b5, b6, b7, b8⟩ := ErC.randomize_spec s.graph.wf'
  rw [a1, b1]
  rw [hn, s.prob, s.rng, ← a7] at b7
  rw [hn, s.prob, s.rng, ← a8] at b8
  exact ⟨⟨a2, b2, a3.trans s.graph.n1, b3.trans s.graph.n2, b8⟩, by rw [b5, a5, s.prob], by rw [b6, a6, s.cTarget], b7⟩

theorem connectLoop : ∀ (rest : List ℕ) (last : ℕ) {g g' : Graph T}, Like n g g' →
    Res.Agree (Like n) (ErC.connectLoop rest last g) (ErC.connectLoop rest last g') := by
  intro rest
  induction rest with
  | nil => intro last g g' h; exact h
  | cons a rest ih =>
    intro last g g' h
    refine Res.Agree.bind (h.addEdge last a) (fun p q h => ?_)
    exact Res.Agree.bind (Like.unwrap h) (fun g g' h => ih a h)

theorem makeConnected (s : e.Alike n e') : Res.Agree (fun x y => ErC.Alike x n y) e.makeConnected e'.makeConnected := by
  unfold ErC.makeConnected
  rw [s.graph.same.suggestConnections s.graph.wf s.graph.wf']
  refine Res.Agree.bind (Res.Agree.of_eq _) ?_
  rintro l _ rfl
  cases l.reverse with
  | nil => trivial
  | cons last rest => exact Res.Agree.bind (connectLoop rest last s.graph) (fun g g' h => s.setGraph h)

theorem setTargetConnectivity (s : e.Alike n e') (c : ℚ) :
    Res.Agree (fun x y => ErC.Alike x n y) (e.setTargetConnectivity c) (e'.setTargetConnectivity c) := by
  unfold ErC.setTargetConnectivity
  rw [s.graph.same.n]
  refine Res.Agree.bind (Res.Agree.of_eq _) ?_
  rintro n1 _ rfl
  exact ⟨s.graph, rfl, rfl, s.rng⟩

end ErC.Alike

/-- Writes hit a vertex that exists. -/
def ErCCall.inRange (n : ℕ) : ErCCall T R → Prop
  | .write i _ => i < n
  | _ => True

theorem agree_wrap {E S O : Type} {P : E → E → Prop} {x y : Res (S × E)} (f : S → O)
    (h : Res.Agree (fun p q => q.1 = p.1 ∧ P p.2 q.2) x y) :
    Res.Agree (fun (p q : Option O × E) => q.1 = p.1 ∧ P p.2 q.2) (do let (s, e) ← x; return (some (f s), e))
      (do let (s, e) ← y; return (some (f s), e)) := by
  refine Res.Agree.bind h ?_
  rintro ⟨s, e⟩ ⟨s', e'⟩ ⟨h1, h2⟩
  simp only at h1 h2
  subst h1
  exact ⟨rfl, h2⟩

theorem agree_unit {E O : Type} {P : E → E → Prop} {x y : Res E} (o : O) (h : Res.Agree P x y) :
    Res.Agree (fun (p q : Option O × E) => q.1 = p.1 ∧ P p.2 q.2) (do let e ← x; return (some o, e))
      (do let e ← y; return (some o, e)) :=
  Res.Agree.bind h (fun _ _ h => ⟨rfl, h⟩)

/-- Two `ErEnsembleC` with the same vertices, edges, parameters and generator, but possibly other node data and another order of
the adjacency lists.  One of them runs any list of calls, the other the same list without `sort_adj` and data writes.  All
sampling calls return the same, and in the end the edges, the parameters and the generators are still the same; or both panic. -/
theorem C67_er_c_ignores_order_and_data {e e' : ErC T R} (h : e.graph.WF) (h' : e'.graph.WF)
    (hn : e'.graph.vertexCount = e.graph.vertexCount) (he : e'.graph.edges = e.graph.edges) (hp : e'.prob = e.prob)
    (hc : e'.cTarget = e.cTarget) (hr : e'.rng = e.rng) (cs : List (ErCCall T R))
    (hw : ∀ i t, ErCCall.write i t ∈ cs → i < e.graph.vertexCount) :
    Res.Agree (fun (p q : List (ErObs ErStepC R) × ErC T R) => q.1 = p.1 ∧ p.2.graph.WF ∧ q.2.graph.WF ∧
        p.2.graph.vertexCount = e.graph.vertexCount ∧ q.2.graph.vertexCount = e.graph.vertexCount ∧
        q.2.graph.edges = p.2.graph.edges ∧ q.2.prob = p.2.prob ∧ q.2.cTarget = p.2.cTarget ∧ q.2.rng = p.2.rng)
      (runCalls ErCCall.run cs e) (runCalls ErCCall.run (cs.filter (fun c => !c.cosmetic)) e') := by
  have main := runCalls_agree (run := ErCCall.run (T := T) (R := R)) (cos := ErCCall.cosmetic)
    (L := fun x y => x.Alike e.graph.vertexCount y) (keep := ErCCall.inRange e.graph.vertexCount)
    (by
      intro x y c s hcos
      cases c with
      | mStep => exact agree_wrap (P := fun x y => ErC.Alike x e.graph.vertexCount y) _ s.mStep
      | undoStep st => exact agree_wrap (P := fun x y => ErC.Alike x e.graph.vertexCount y) _ (s.undoStep st)
      | undoStepQuiet st => exact agree_unit (P := fun x y => ErC.Alike x e.graph.vertexCount y) _ (s.undoStepQuiet st)
      | randomize => exact agree_unit (P := fun x y => ErC.Alike x e.graph.vertexCount y) _ s.randomize
      | makeConnected => exact agree_unit (P := fun x y => ErC.Alike x e.graph.vertexCount y) _ s.makeConnected
      | setTargetConnectivity c => exact agree_unit (P := fun x y => ErC.Alike x e.graph.vertexCount y) _ (s.setTargetConnectivity c)
      | swapRng r => exact ⟨by simp [ErC.swapRng, s.rng], s.graph, s.prob, s.cTarget, rfl⟩
      | _ => cases hcos)
    (by
      intro x y c s hcos hk
      cases c with
      | sortAdj =>
        obtain ⟨g, a1, a2⟩ := s.graph.sortAdj
        exact ⟨{ x with graph := g }, by simp [ErCCall.run, ErC.sortAdj, a1], a2, s.prob, s.cTarget, s.rng⟩
      | write i t =>
        obtain ⟨g, a1, a2⟩ := s.graph.setAt hk t
        exact ⟨{ x with graph := g }, by simp [ErCCall.run, ErC.setAt, a1], a2, s.prob, s.cTarget, s.rng⟩
      | _ => cases hcos)
    cs e e' ⟨⟨h, h', rfl, hn, he⟩, hp, hc, hr⟩ (by
      intro c hcc
      cases c with
      | write i t => exact hw i t hcc
      | _ => trivial)
  refine main.mono ?_
  rintro ⟨os, x⟩ ⟨os', y⟩ ⟨h1, h2⟩
  exact ⟨h1, h2.graph.wf, h2.graph.wf', h2.graph.n1, h2.graph.n2, h2.graph.edges, h2.prob, h2.cTarget, h2.rng⟩

/-! ## ErEnsembleM -/

/-- Two states that no sampling call can tell apart. -/
structure ErM.Alike (e : ErM T R) (n : ℕ) (e' : ErM T R) : Prop where
  graph : Like n e.graph e'.graph
  m : e'.m = e.m
  rng : e'.rng = e.rng
  all : e'.allEdges = e.allEdges
  possible : e'.possibleEdges = e.possibleEdges
  current : e'.currentEdges = e.currentEdges

namespace ErM.Alike
variable {n : ℕ} {e e' : ErM T R}

theorem step (s : e.Alike n e') (st : ErStepM) : Res.Agree (fun x y => ErM.Alike x n y) (e.step st) (e'.step st) := by
  unfold ErM.step
  refine Res.Agree.bind (s.graph.removeEdge _ _) (fun p q h => ?_)
  refine Res.Agree.bind (Like.unwrap h) (fun g g' h => ?_)
  refine Res.Agree.bind (h.addEdge _ _) (fun p q h => ?_)
  refine Res.Agree.bind (Like.unwrap h) (fun g g' h => ?_)
  rw [s.current, s.possible]
  refine Res.Agree.bind (Res.Agree.of_eq _) ?_
  rintro a _ rfl
  refine Res.Agree.bind (Res.Agree.of_eq _) ?_
  rintro b _ rfl
  exact ⟨h, s.m, s.rng, s.all, rfl, rfl⟩

theorem undoStep (s : e.Alike n e') (st : ErStepM) :
    Res.Agree (fun p q => q.1 = p.1 ∧ p.2.Alike n q.2) (e.undoStep st) (e'.undoStep st) :=
  Res.Agree.bind (s.step st.inverted) (fun _ _ h => ⟨rfl, h⟩)

theorem mStep (s : e.Alike n e') : Res.Agree (fun p q => q.1 = p.1 ∧ p.2.Alike n q.2) e.mStep e'.mStep := by
  unfold ErM.mStep
  rw [s.rng, s.current, s.possible]
  refine Res.Agree.bind (Res.Agree.of_eq _) ?_
  rintro ⟨a, r⟩ _ rfl
  refine Res.Agree.bind (Res.Agree.of_eq _) ?_
  rintro ⟨b, r⟩ _ rfl
  simp only [s.current, s.possible]
  refine Res.Agree.bind (Res.Agree.of_eq _) ?_
  rintro c _ rfl
  refine Res.Agree.bind (Res.Agree.of_eq _) ?_
  rintro d _ rfl
  refine Res.Agree.bind (ErM.Alike.step (e := { e with rng := r }) 
    (e' := { e' with rng := r, possibleEdges := e.possibleEdges, currentEdges := e.currentEdges })
    ⟨s.graph, s.m, rfl, s.all, rfl, rfl⟩ _) ?_
  intro x y h
  exact ⟨rfl, h⟩

theorem addEdges : ∀ (l : List (ℕ × ℕ)) {g g' : Graph T}, Like n g g' →
    Res.Agree (Like n) (l.foldlM (fun g edge => do
      let p ← g.addEdge edge.1 edge.2
      unwrapOk p) g) (l.foldlM (fun g edge => do
      let p ← g.addEdge edge.1 edge.2
      unwrapOk p) g') := by
  intro l
  induction l with
  | nil => intro g g' h; exact h
  | cons a l ih =>
    intro g g' h
    rw [List.foldlM_cons, List.foldlM_cons]
    refine Res.Agree.bind (P := Like n) ?_ (fun g g' h => ih h)
    exact Res.Agree.bind (h.addEdge _ _) (fun p q h => Like.unwrap h)

theorem randomize (s : e.Alike n e') : Res.Agree (fun x y => ErM.Alike x n y) e.randomize e'.randomize := by
  unfold ErM.randomize
  rw [s.rng, s.all, s.m]
  simp only [s.current, s.possible]
  refine Res.Agree.bind (Res.Agree.of_eq _) ?_
  rintro _ _ rfl
  refine Res.Agree.bind (Res.Agree.of_eq _) ?_
  rintro c _ rfl
  refine Res.Agree.bind (addEdges c s.graph.clearEdges) (fun g g' h => ?_)
  refine Res.Agree.bind (Res.Agree.of_eq _) ?_
  rintro d _ rfl
  exact ⟨h, rfl, rfl, rfl, rfl, rfl⟩

end ErM.Alike

/-- Writes hit a vertex that exists. -/
def ErMCall.inRange (n : ℕ) : ErMCall T R → Prop
  | .write i _ => i < n
  | _ => True

/-- The same for `ErEnsembleM`. -/
theorem C67_er_m_ignores_order_and_data {e e' : ErM T R} (h : e.graph.WF) (h' : e'.graph.WF)
    (hn : e'.graph.vertexCount = e.graph.vertexCount) (he : e'.graph.edges = e.graph.edges) (hm : e'.m = e.m)
    (hr : e'.rng = e.rng) (ha : e'.allEdges = e.allEdges) (hp : e'.possibleEdges = e.possibleEdges)
    (hc : e'.currentEdges = e.currentEdges) (cs : List (ErMCall T R))
    (hw : ∀ i t, ErMCall.write i t ∈ cs → i < e.graph.vertexCount) :
    Res.Agree (fun (p q : List (ErObs ErStepM R) × ErM T R) => q.1 = p.1 ∧ p.2.graph.WF ∧ q.2.graph.WF ∧
        p.2.graph.vertexCount = e.graph.vertexCount ∧ q.2.graph.vertexCount = e.graph.vertexCount ∧
        q.2.graph.edges = p.2.graph.edges ∧ q.2.m = p.2.m ∧ q.2.rng = p.2.rng)
      (runCalls ErMCall.run cs e) (runCalls ErMCall.run (cs.filter (fun c => !c.cosmetic)) e') := by
  have main := runCalls_agree (run := ErMCall.run (T := T) (R := R)) (cos := ErMCall.cosmetic)
    (L := fun x y => x.Alike e.graph.vertexCount y) (keep := ErMCall.inRange e.graph.vertexCount)
    (by
      intro x y c s hcos
      cases c with
      | mStep => exact agree_wrap (P := fun x y => ErM.Alike x e.graph.vertexCount y) _ s.mStep
      | undoStep st => exact agree_wrap (P := fun x y => ErM.Alike x e.graph.vertexCount y) _ (s.undoStep st)
      | undoStepQuiet st => exact agree_unit (P := fun x y => ErM.Alike x e.graph.vertexCount y) _ (s.step st.inverted)
      | randomize => exact agree_unit (P := fun x y => ErM.Alike x e.graph.vertexCount y) _ s.randomize
      | swapRng r => exact ⟨by simp [ErM.swapRng, s.rng], s.graph, s.m, rfl, s.all, s.possible, s.current⟩
      | _ => cases hcos)
    (by
      intro x y c s hcos hk
      cases c with
      | sortAdj =>
        obtain ⟨g, a1, a2⟩ := s.graph.sortAdj
        exact ⟨{ x with graph := g }, by simp [ErMCall.run, ErM.sortAdj, a1], a2, s.m, s.rng, s.all, s.possible, s.current⟩
      | write i t =>
        obtain ⟨g, a1, a2⟩ := s.graph.setAt hk t
        exact ⟨{ x with graph := g }, by simp [ErMCall.run, ErM.setAt, a1], a2, s.m, s.rng, s.all, s.possible, s.current⟩
      | _ => cases hcos)
    cs e e' ⟨⟨h, h', rfl, hn, he⟩, hm, hr, ha, hp, hc⟩ (by
      intro c hcc
      cases c with
      | write i t => exact hw i t hcc
      | _ => trivial)
  refine main.mono ?_
  rintro ⟨os, x⟩ ⟨os', y⟩ ⟨h1, h2⟩
  exact ⟨h1, h2.graph.wf, h2.graph.wf', h2.graph.n1, h2.graph.n2, h2.graph.edges, h2.m, h2.rng⟩

/-- Two different states of `ErEnsembleC` (the second graph is the sorted first one) and a history that meet the hypotheses;
the history runs to its end. -/
example : ∃ (e e' : ErC Nat Script) (cs : List (ErCCall Nat Script)), e ≠ e' ∧ e.graph.WF ∧ e'.graph.WF ∧
    e'.graph.vertexCount = e.graph.vertexCount ∧ e'.graph.edges = e.graph.edges ∧ e'.prob = e.prob ∧ e'.cTarget = e.cTarget ∧
    e'.rng = e.rng ∧ (∀ i t, ErCCall.write i t ∈ cs → i < e.graph.vertexCount) ∧ cs.length = 5 ∧
    (∃ p, runCalls ErCCall.run cs e = .ok p) := by
  obtain ⟨g', a1, a2, a3, a4⟩ := (C68_harmless_calls (R := Tape) exBi_wf).1
  have hne : g' ≠ exBi := by
    rintro rfl
    revert a1
    decide
  refine ⟨⟨exBi, 0, 0, ⟨[1, 2, 0]⟩⟩, ⟨g', 0, 0, ⟨[1, 2, 0]⟩⟩, [.sortAdj, .mStep, .write 3 7, .makeConnected, .undoStepQuiet (.addedEdge (1, 3))],
    fun h => hne (by injection h with h1; exact h1.symm), exBi_wf, a2, a3, a4, rfl, rfl, rfl, ?_, rfl, ?_⟩
  · intro i t h
    simp only [List.mem_cons, reduceCtorEq, false_or, or_false, ErCCall.write.injEq, List.not_mem_nil] at h
    rw [h.1]
    decide
  · cases hr : runCalls ErCCall.run ([.sortAdj, .mStep, .write 3 7, .makeConnected, .undoStepQuiet (.addedEdge (1, 3))] :
      List (ErCCall Nat Script)) (⟨exBi, 0, 0, ⟨[1, 2, 0]⟩⟩ : ErC Nat Script) with
    | ok p => exact ⟨p, rfl⟩
    | panic =>
      have : (match runCalls ErCCall.run ([.sortAdj, .mStep, .write 3 7, .makeConnected, .undoStepQuiet (.addedEdge (1, 3))] :
        List (ErCCall Nat Script)) (⟨exBi, 0, 0, ⟨[1, 2, 0]⟩⟩ : ErC Nat Script) with | .panic => true | _ => false) = false := by decide +kernel
      rw [hr] at this
      cases this
    | diverge =>
      have : (match runCalls ErCCall.run ([.sortAdj, .mStep, .write 3 7, .makeConnected, .undoStepQuiet (.addedEdge (1, 3))] :
        List (ErCCall Nat Script)) (⟨exBi, 0, 0, ⟨[1, 2, 0]⟩⟩ : ErC Nat Script) with | .diverge => true | _ => false) = false := by decide +kernel
      rw [hr] at this
      cases this

/-! ## The other ensembles -/

/-- `ConfigurationModel`: the calls that do not take part in the sampling keep the state valid, the edges, the degrees and the
edge halves. -/
theorem C67_config_cosmetic {e : Config T R} (h : e.Inv) :
    (∃ x, e.sortAdj = .ok x ∧ x.Inv ∧ x.graph.edges = e.graph.edges ∧ x.backup = e.backup ∧ x.rng = e.rng) ∧
    (∀ i t, i < e.graph.vertexCount → ∃ x, e.setAt i t = .ok x ∧ x.Inv ∧ x.graph.edges = e.graph.edges ∧ x.backup = e.backup ∧
      x.rng = e.rng) ∧
    (∀ r, (e.swapRng r).1 = e.rng ∧ (e.swapRng r).2.Inv ∧ (e.swapRng r).2.graph = e.graph ∧ (e.swapRng r).2.backup = e.backup) := by
  have s0 : Like e.graph.nextId e.graph e.graph := ⟨h.wf, h.wf, rfl, rfl, rfl⟩
  refine ⟨?_, ?_, ?_⟩
  · obtain ⟨g, a1, a2⟩ := s0.sortAdj
    refine ⟨{ e with graph := g }, by simp [Config.sortAdj, a1], ⟨⟨a2.wf, a2.n1.trans h.n, h.halves⟩, ?_⟩, a2.edges.symm, rfl, rfl⟩
    exact (a2.same.degreeVec a2.wf a2.wf').symm.trans h.deg
  · intro i t hi
    obtain ⟨g, a1, a2⟩ := s0.setAt (show i < e.graph.nextId from hi) t
    refine ⟨{ e with graph := g }, by simp [Config.setAt, a1], ⟨⟨a2.wf, a2.n1.trans h.n, h.halves⟩, ?_⟩, a2.edges.symm, rfl, rfl⟩
    exact (a2.same.degreeVec a2.wf a2.wf').symm.trans h.deg
  · intro r
    exact ⟨rfl, ⟨⟨h.wf, h.n, h.halves⟩, h.deg⟩, rfl, rfl⟩

/-- `BAensemble`. -/
theorem C67_ba_cosmetic {e : Ba T R} (h : e.Valid) :
    (∃ x, e.sortAdj = .ok x ∧ x.Valid ∧ x.graph.edges = e.graph.edges ∧ x.source = e.source ∧ x.m = e.m) ∧
    (∀ i t, i < e.graph.vertexCount → ∃ x, e.setAt i t = .ok x ∧ x.Valid ∧ x.graph.edges = e.graph.edges ∧ x.source = e.source ∧
      x.m = e.m) := by
  have s0 : Like e.graph.nextId e.graph e.graph := ⟨h.graph, h.graph, rfl, rfl, rfl⟩
  refine ⟨?_, ?_⟩
  · obtain ⟨g, a1, a2⟩ := s0.sortAdj
    have hn : g.vertexCount = e.graph.vertexCount := a2.n1
    exact ⟨{ e with graph := g }, by simp [Ba.sortAdj, a1],
      ⟨h.source, a2.wf, by rw [hn]; exact h.le, by rw [hn]; exact h.len⟩, a2.edges.symm, rfl, rfl⟩
  · intro i t hi
    obtain ⟨g, a1, a2⟩ := s0.setAt (show i < e.graph.nextId from hi) t
    have hn : g.vertexCount = e.graph.vertexCount := a2.n1
    exact ⟨{ e with graph := g }, by simp [Ba.setAt, a1],
      ⟨h.source, a2.wf, by rw [hn]; exact h.le, by rw [hn]; exact h.len⟩, a2.edges.symm, rfl, rfl⟩

theorem WsValid.of_entries {d : ℕ} {g x : WSGraph T} (h : WsValid d g) (hx : x.WF) (hn : x.vertexCount = g.vertexCount)
    (hc : x.edgeCount = g.edgeCount) (he : ∀ u z, z ∈ WSGraph.entries x u ↔ z ∈ WSGraph.entries g u) : WsValid d x where
  wf := hx
  count := by rw [hc, hn]; exact h.count
  flag u z hz := h.flag u z ((he u z).mp hz)
  mirror u z hz z' hz' := h.mirror u z ((he u z).mp hz) z' ((he _ z').mp hz')
  origin u z hz := by rw [hn]; exact h.origin u z ((he u z).mp hz)
  onto r hr := by
    rw [hn] at hr
    obtain ⟨u, z, hz, h1⟩ := h.onto r hr
    exact ⟨u, z, (he u z).mpr hz, h1⟩
  inj u z hz u' z' hz' := h.inj u z ((he u z).mp hz) u' z' ((he u' z').mp hz')

/-- `SmallWorldWS`: sorting moves the stored original edges together with the edges. -/
theorem C67_ws_cosmetic {e : Ws T R} {d : ℕ} (h : WsValid d e.graph) :
    (∃ x, e.sortAdj = .ok x ∧ WsValid d x.graph ∧ (∀ u, (WSGraph.entries x.graph u).Perm (WSGraph.entries e.graph u)) ∧
      (∀ u, (x.graph.nbrs u).Pairwise (· < ·)) ∧ x.graph.data = e.graph.data ∧
      x.rng = e.rng ∧ x.rewireProb = e.rewireProb ∧ x.neighborDistance = e.neighborDistance) ∧
    (∀ i t, i < e.graph.vertexCount → ∃ x, e.setAt i t = .ok x ∧ WsValid d x.graph ∧
      (∀ u, WSGraph.entries x.graph u = WSGraph.entries e.graph u) ∧ x.graph.data = e.graph.data.set i t ∧
      x.rng = e.rng ∧ x.rewireProb = e.rewireProb ∧ x.neighborDistance = e.neighborDistance) := by
  refine ⟨?_, ?_⟩
  · obtain ⟨g, a1, a2, a3, a4, a5, a6⟩ := sortAdj_spec h.wf
    obtain ⟨vs, b1, b2⟩ := mapM_forall₂ (f := AdjContainer.sortAdj)
      (P := fun (a a' : WSContainer T) => (a'.dst.zip a'.original).Perm (a.dst.zip a.original)) e.graph.vertices (fun a ha => by
        obtain ⟨c', c1, c2, _⟩ := (C09_ws_container a (h.wf.inv a ha) (⟨[]⟩ : Script)).1
        exact ⟨c', c1, c2⟩)
    have hg : g = { e.graph with vertices := vs } := by
      have := a1
      simp [GenericGraph.sortAdj, b1] at this
      exact this.symm
    have he : ∀ u, (WSGraph.entries g u).Perm (WSGraph.entries e.graph u) := by
      intro u
      rw [hg]
      unfold WSGraph.entries
      rcases forall₂_getElem? b2 u with ⟨h1, h2⟩ | ⟨a, b, h1, h2, h3⟩
      · simp [h1, h2]
      · simp [h1, h2, h3]
    refine ⟨{ e with graph := g }, by simp [Ws.sortAdj, a1], h.of_entries a2 a3.n a3.ec (fun u z => (he u).mem_iff), he, ?_, a4,
      rfl, rfl, rfl⟩
    intro u
    exact ((a6 u).and (a2.nodup u)).imp (fun h => by omega)
  · intro i t hi
    obtain ⟨g, a1, a2, a3, a4, a5, a6⟩ := setAt_spec h.wf (show i < e.graph.nextId from hi) t
    have he : ∀ u, WSGraph.entries g u = WSGraph.entries e.graph u := by
      intro u
      have hl := h.wf.lt_length (show i < e.graph.nextId from hi)
      have hg : g = { e.graph with vertices := e.graph.vertices.set i (setContained e.graph.vertices[i] t) } := by
        have := a1
        simp [GenericGraph.setAt, GenericGraph.container, Vec.idx_of_lt hl] at this
        exact this.symm
      rw [hg]
      unfold WSGraph.entries
      simp only [List.getElem?_set]
      by_cases hk : i = u
      · subst hk
        simp [hl]
        rfl
      · simp [hk]
    exact ⟨{ e with graph := g }, by simp [Ws.setAt, a1], h.of_entries a2 a3 a4 (fun u z => by rw [he u]), he, a6, rfl, rfl, rfl⟩

end Verif
