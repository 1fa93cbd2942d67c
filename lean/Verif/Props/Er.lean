import Verif.Lemmas.ErC
import Mathlib.Data.Set.Function

/-!
# C28 (make_connected), C29 (pairs), C30 - C34, C54 for the Erdős–Rényi ensembles
-/

set_option linter.unusedSectionVars false
set_option linter.unusedSimpArgs false

namespace Verif
open AdjContainer GenericGraph

variable {T R : Type} [Rng R]

/-! ### C28: make_connected -/

/-- `make_connected` on a non-empty graph: keeps all edges, adds as many as there are components but one, and the result is
connected. -/
theorem C28_make_connected {e : ErC T R} (h : e.graph.WF) (hn : 0 < e.graph.vertexCount) :
    ∃ e', e.makeConnected = .ok e' ∧ e'.graph.WF ∧ e'.graph.vertexCount = e.graph.vertexCount ∧
      e'.graph.data = e.graph.data ∧ e.graph.edges ⊆ e'.graph.edges ∧
      e'.graph.edgeCount + 1 = e.graph.edgeCount + (componentSet e.graph).card ∧
      (∀ v w, v < e.graph.vertexCount → w < e.graph.vertexCount → e'.graph.toSimple.Reachable v w) ∧
      e'.graph.isConnected = .ok (some true) := by
  obtain ⟨k, comp, reps, h1, _, h3⟩ := suggestConnections_spec h
  obtain ⟨e1, e2, e3, e4⟩ := h3.reps_spec
  have hcard := congrArg Multiset.card h3.componentSet_val
  have hcard : reps.length = (componentSet e.graph).card := by simpa using hcard.symm
  obtain ⟨r0, hr0, _⟩ := e4 0 hn
  unfold ErC.makeConnected
  rw [h1, Res.ok_bind]
  cases hrev : reps.reverse with
  | nil =>
    have : reps = [] := by simpa using hrev
    rw [this] at hr0; simp at hr0
  | cons last rest =>
    have hmem : ∀ r, r ∈ last :: rest ↔ r ∈ reps := fun r => by rw [← hrev, List.mem_reverse]
    have hnd : (last :: rest).Nodup := by rw [← hrev, List.nodup_reverse]; exact e1
    have hpw : (last :: rest).Pairwise (fun a b => ¬ e.graph.toSimple.Reachable a b) := by
      have := List.Pairwise.and_mem.mp hnd
      refine this.imp ?_
      rintro a b ⟨ha, hb, hab⟩ hc
      exact hab (e3 a ((hmem a).mp ha) b ((hmem b).mp hb) hc)
    obtain ⟨g', c1, c2, c3, c4, c5, c6, c7⟩ := ErC.connectLoop_spec rest last h (fun r hr => e2 r ((hmem r).mp hr)) hpw
    have hle : e.graph.toSimple ≤ g'.toSimple := toSimple_le_of_edges h c2 c6
    have hall : ∀ v, v < e.graph.vertexCount → g'.toSimple.Reachable last v := by
      intro v hv
      obtain ⟨r, hr, hrv⟩ := e4 v hv
      refine SimpleGraph.Reachable.trans ?_ (hrv.mono hle)
      rcases List.mem_cons.mp ((hmem r).mpr hr) with rfl | hr
      · exact SimpleGraph.Reachable.refl _
      · exact c7 r hr
    have hconn : ∀ v w, v < e.graph.vertexCount → w < e.graph.vertexCount → g'.toSimple.Reachable v w :=
      fun v w hv hw => (hall v hv).symm.trans (hall w hw)
    refine ⟨{ e with graph := g' }, by simp [c1], c2, c3, c4, c6, ?_, hconn, ?_⟩
    · have : reps.length = rest.length + 1 := by
        rw [← List.length_reverse, hrev, List.length_cons]
      show g'.edgeCount + 1 = _
      rw [c5, ← hcard, this]; omega
    · obtain ⟨b, hb1, hb2⟩ := isConnected_spec c2 (by rw [c3]; exact hn)
      show g'.isConnected = _
      rw [hb1, hb2.mpr (by rw [c3]; exact hconn)]

/-- An empty graph makes `make_connected` panic. -/
theorem C28_make_connected_empty {e : ErC T R} (hn : e.graph.vertexCount = 0) :
    e.makeConnected = .panic := by
  have : e.graph.suggestConnections = .ok [] := by
    unfold GenericGraph.suggestConnections
    rw [hn]; rfl
  simp [ErC.makeConnected, this]

example : exTail.WF ∧ 0 < exTail.vertexCount ∧
    (ErC.makeConnected ⟨exTail, 1, 1, (⟨[]⟩ : Script)⟩).bind (fun e => .ok e.graph.edgeCount) = .ok 5 :=
  ⟨exTail_wf, by decide, by decide⟩

/-! ### C29: drawing two indices -/

/-- The outcomes `(a, b)` of the two uniform draws of `draw_two_from_range(h)` (`a < h`, `b < h - 1`) correspond one-to-one
to the ordered pairs of distinct numbers below `h`. -/
theorem C29_draw_two_bijective (h : Nat) :
    ∃ f : Nat × Nat → Nat × Nat,
      (∀ a < h, ∀ b < h - 1, ∀ l, drawTwoFromRange (⟨a :: b :: l⟩ : Script) h = .ok (f (a, b), ⟨l⟩)) ∧
      Set.BijOn f {p | p.1 < h ∧ p.2 < h - 1} {p | p.1 < h ∧ p.2 < h ∧ p.1 ≠ p.2} := by
  refine ⟨fun p => (p.1, if p.2 < p.1 then p.2 else p.2 + 1), fun a ha b hb l => drawTwo_script ha hb, ?_, ?_, ?_⟩
  · rintro ⟨a, b⟩ ⟨ha, hb⟩
    simp only at ha hb
    simp only [Set.mem_ofPred_eq]
    split <;> omega
  · rintro ⟨a, b⟩ ⟨ha, hb⟩ ⟨a', b'⟩ ⟨ha', hb'⟩ heq
    simp only [Prod.mk.injEq] at heq ⊢
    obtain ⟨rfl, h2⟩ := heq
    refine ⟨rfl, ?_⟩
    split at h2 <;> split at h2 <;> omega
  · rintro ⟨x, y⟩ ⟨hx, hy, hxy⟩
    simp only at hx hy hxy
    rcases Nat.lt_or_gt_of_ne hxy with hlt | hlt
    · refine ⟨(x, y - 1), ⟨hx, by simp only; omega⟩, ?_⟩
      simp only [Prod.mk.injEq, true_and]
      rw [if_neg (by omega)]; omega
    · exact ⟨(x, y), ⟨hx, by simp only; omega⟩, by simp [hlt]⟩

/-- For every generator the drawn pair consists of two distinct numbers below the bound; with fewer than two numbers the call
panics. -/
theorem C29_draw_two_range (r : R) (h : Nat) :
    (2 ≤ h → ∃ x y r', drawTwoFromRange r h = .ok ((x, y), r') ∧ x < h ∧ y < h ∧ x ≠ y) ∧
    (h < 2 → drawTwoFromRange r h = .panic) := by
  refine ⟨fun hh => drawTwo_spec r hh, fun hh => ?_⟩
  unfold drawTwoFromRange
  by_cases h0 : h = 0
  · subst h0; simp [genRange]
  · have : h = 1 := by omega
    subst this
    obtain ⟨i, r', h1, _⟩ := genRange_ok r (show 0 < 1 by omega)
    simp [h1, Res.sub, genRange]

/-! ### C30, C31 -/

/-- What a user can do to an `ErEnsembleM`. -/
inductive ErMOp where
  | randomize
  | mStep
  | undoLast

/-- Histories: the steps made since the last `randomize` are kept on a stack for undoing. -/
def erMRun : List ErMOp → ErM T R × List ErStepM → Res (ErM T R × List ErStepM)
  | [], s => .ok s
  | .randomize :: ops, (e, _) => do
    let e ← e.randomize
    erMRun ops (e, [])
  | .mStep :: ops, (e, st) => do
    let (s, e) ← e.mStep
    erMRun ops (e, s :: st)
  | .undoLast :: ops, (e, []) => erMRun ops (e, [])
  | .undoLast :: ops, (e, s :: st) => do
    let (_, e) ← e.undoStep s
    erMRun ops (e, st)

/-- The steps on the stack were made from good states and lead back to them. -/
def ErM.Stack (Good : ErM T R → Prop) : ErM T R → List ErStepM → Prop
  | _, [] => True
  | e, s :: st => ∃ e1 e2 : ErM T R, Good e1 ∧ e1.mStep = .ok (s, e2) ∧ e2.Sim e ∧ ErM.Stack Good e1 st

/-- `ErEnsembleM::new(n, m)` followed by any history never fails (for `0 < m < n(n-1)/2`), and afterwards the graph is a
well-formed simple graph with exactly `m` edges, the list of present edges lists exactly the edges, and present and absent
edges together are exactly all pairs, each once. -/
theorem C30_er_m_invariant [Node T] {n m : Nat} (hm : 0 < m) (hm' : m < n * (n - 1) / 2) (r : R) (ops : List ErMOp) :
    ∃ (e0 e : ErM T R) (st : List ErStepM), ErM.new n m r = .ok e0 ∧ erMRun ops (e0, []) = .ok (e, st) ∧ e.graph.WF ∧
      e.graph.vertexCount = n ∧ e.graph.edgeCount = m ∧ e.graph.edges.card = m ∧
      (∀ i j, (i, j) ∈ e.currentEdges ↔ i < j ∧ e.graph.toSimple.Adj i j) ∧
      (∀ i j, (i, j) ∈ e.possibleEdges ↔ i < j ∧ j < n ∧ ¬ e.graph.toSimple.Adj i j) ∧
      e.currentEdges.Nodup ∧ e.possibleEdges.Nodup ∧ e.currentEdges.length = m ∧
      e.possibleEdges.length = n * (n - 1) / 2 - m ∧
      e.graph.data = (List.range n).map Node.newFromIndex := by
  have hn : 1 ≤ n := by
    rcases Nat.eq_zero_or_pos n with rfl | h
    · simp at hm'
    · exact h
  obtain ⟨e0, a1, a2, a3, a4, a5⟩ := ErM.new_spec (T := T) hn (Nat.le_of_lt hm') r
  -- the stack can always be undone
  let Good : ErM T R → Prop := fun e => e.Inv ∧ e.graph.nextId = n ∧ e.m = m ∧ e.graph.data = e0.graph.data
  have hpos : ∀ e : ErM T R, Good e → 0 < e.possibleEdges.length := by
    rintro e ⟨h1, h2, h3, _⟩
    have := h1.possible_len
    rw [h2, h3, length_allPairs] at this; omega
  let Stack := ErM.Stack Good
  have stackSim : ∀ st (e x : ErM T R), Stack e st → e.Sim x → Stack x st := by
    intro st
    cases st with
    | nil => intro _ _ _ _; trivial
    | cons s st =>
      rintro e x ⟨e1, e2, h1, h2, h3, h4⟩ hs
      exact ⟨e1, e2, h1, h2, ⟨hs.n.trans h3.n, hs.data.trans h3.data, hs.edges.trans h3.edges, hs.m.trans h3.m,
        hs.cur.trans h3.cur, hs.pos.trans h3.pos, hs.all.trans h3.all⟩, h4⟩
  have key : ∀ (ops : List ErMOp) (e : ErM T R) (st : List ErStepM), Good e → Stack e st →
      ∃ e' st', erMRun ops (e, st) = .ok (e', st') ∧ Good e' := by
    intro ops
    induction ops with
    | nil => intro e st hg _; exact ⟨e, st, rfl, hg⟩
    | cons op ops ih =>
      intro e st hg hst
      cases op with
      | randomize =>
        obtain ⟨e', b1, b2, b3, b4, b5, _⟩ := ErM.randomize_spec hg.1.wf hg.1.all hg.1.len hg.1.possible_len
        obtain ⟨e2, st2, c1, c2⟩ := ih e' [] ⟨b2, b3.trans hg.2.1, b5.trans hg.2.2.1, b4.trans hg.2.2.2⟩ trivial
        exact ⟨e2, st2, by simp [erMRun, b1, c1], c2⟩
      | mStep =>
        obtain ⟨s, e', b1, b2, b3, b4, b5, b6, _⟩ := ErM.mStep_spec hg.1 (by rw [hg.2.2.1]; exact hm) (hpos e hg)
        obtain ⟨e2, st2, c1, c2⟩ := ih e' (s :: st) ⟨b2, b3.trans hg.2.1, b5.trans hg.2.2.1, b4.trans hg.2.2.2⟩
          ⟨e, e', hg, b1, ⟨rfl, rfl, rfl, rfl, rfl, rfl, rfl⟩, hst⟩
        exact ⟨e2, st2, by simp [erMRun, b1, c1], c2⟩
      | undoLast =>
        cases st with
        | nil => exact ih e [] hg trivial
        | cons s st =>
          obtain ⟨e1, e2, h1, h2, h3, h4⟩ := hst
          obtain ⟨x', b1, _, b3, b4, _⟩ := ErM.back h1.1 h2 hg.1 h3
          obtain ⟨e3, st3, c1, c2⟩ := ih x' st ⟨b3, b4.n.trans h1.2.1, b4.m.trans h1.2.2.1, b4.data.trans h1.2.2.2⟩
            (stackSim st e1 x' h4 b4)
          exact ⟨e3, st3, by simp [erMRun, b1, c1], c2⟩
  obtain ⟨e, st, b1, b2, b3, b4, b5⟩ := key ops e0 [] ⟨a2, a3, a4, rfl⟩ trivial
  have hec : e.graph.edgeCount = m := b2.edgeCount.trans b4
  have hnd := b2.nodup
  rw [List.nodup_append] at hnd
  have hcur : ∀ i j, (i, j) ∈ e.currentEdges ↔ i < j ∧ e.graph.toSimple.Adj i j := by
    intro i j
    rw [b2.wf.adj_iff, ← b2.wf.mem_edges]
    constructor
    · intro hc
      have := b2.mem_lt (.inl hc)
      exact ⟨(mem_allPairs.mp this).1, (b2.mem_edges_iff this).mpr hc⟩
    · rintro ⟨h1, h2⟩
      have hp : (i, j) ∈ allPairs e.graph.nextId := mem_allPairs.mpr ⟨h1, b2.wf.lt i j (b2.wf.mem_edges.mp h2)⟩
      exact (b2.mem_edges_iff hp).mp h2
  refine ⟨e0, e, st, a1, b1, b2.wf, b3, hec, by rw [← b2.wf.edgeCount_eq_card, hec], hcur, ?_, hnd.1, hnd.2.1,
    b2.len.trans b4, ?_, b5.trans a5⟩
  · intro i j
    constructor
    · intro hp
      have hm := b2.mem_lt (.inr hp)
      have h1 := mem_allPairs.mp hm
      rw [b3] at h1
      refine ⟨h1.1, h1.2, fun hc => ?_⟩
      exact hnd.2.2 _ ((hcur i j).mpr ⟨h1.1, hc⟩) _ hp rfl
    · rintro ⟨h1, h2, h3⟩
      have : (i, j) ∈ e.currentEdges ++ e.possibleEdges := by
        rw [b2.split.mem_iff, mem_allPairs, b3]; exact ⟨h1, h2⟩
      rcases List.mem_append.mp this with h4 | h4
      · exact absurd ((hcur i j).mp h4).2 h3
      · exact h4
  · have := b2.possible_len
    rw [b3, b4, length_allPairs] at this; omega

/-- The sizes for which construction fails: no vertices, or more edges than pairs. -/
theorem C30_er_m_new_panics [Node T] (n m : Nat) (r : R) :
    (ErM.new n m r : Res (ErM T R)) = .panic ↔ n = 0 ∨ n * (n - 1) / 2 < m := by
  by_cases hn : n = 0
  · subst hn; simp [ErM.new, Res.sub]
  · by_cases hm : m ≤ n * (n - 1) / 2
    · obtain ⟨e, h1, _⟩ := ErM.new_spec (T := T) (show 1 ≤ n by omega) hm r
      rw [h1]; simp [hn]; omega
    · have : ¬ (n * (n - 1) / 2 < m) ↔ False := by simp; omega
      simp only [hn, false_or]
      constructor
      · intro _; omega
      · intro _
        simp [ErM.new, Res.sub_of_le (show 1 ≤ n by omega), hm]

/-- A step panics exactly if no edge or no free pair is left (`gen_range` of an empty range). -/
theorem C30_er_m_step_panics {e : ErM T R} (h : e.Inv) :
    e.mStep = .panic ↔ e.m = 0 ∨ e.m = e.graph.vertexCount * (e.graph.vertexCount - 1) / 2 := by
  have hpl := h.possible_len
  rw [length_allPairs] at hpl
  have hvc : e.graph.vertexCount = e.graph.nextId := rfl
  rw [hvc]
  by_cases h0 : e.m = 0
  · simp only [h0, true_or, iff_true]
    have hl : e.currentEdges.length = 0 := by rw [h.len, h0]
    simp [ErM.mStep, genRange, hl]
  · by_cases h1 : e.possibleEdges.length = 0
    · rw [h1] at hpl
      have : e.m = e.graph.nextId * (e.graph.nextId - 1) / 2 := by omega
      rw [← this]
      simp only [or_true, iff_true]
      obtain ⟨i, r1, a1, a2⟩ := genRange_ok e.rng (show 0 < e.currentEdges.length by rw [h.len]; omega)
      unfold ErM.mStep
      rw [a1]
      simp [genRange, h1]
    · obtain ⟨s, e', a, _⟩ := ErM.mStep_spec h (by omega) (by omega)
      rw [a]
      have : e.m ≠ e.graph.nextId * (e.graph.nextId - 1) / 2 := by omega
      simp [h0, this]

/-- Undoing a step of `ErEnsembleM` restores the edge set, the data and both index lists exactly; `undo_step` reports the
inverse step, `undo_step_quiet` does the same. -/
theorem C31_er_m_undo {e e' : ErM T R} {s : ErStepM} (h : e.Inv) (hs : e.mStep = .ok (s, e')) :
    e'.graph.edges = insert (toEdge s.inserted) (e.graph.edges.erase (toEdge s.removed)) ∧ e'.graph.edges ≠ e.graph.edges ∧
    ∃ x, e'.undoStep s = .ok (⟨s.inserted, s.iRemoved, s.removed, s.iInserted⟩, x) ∧ e'.undoStepQuiet s = .ok x ∧
      x.graph.WF ∧ x.graph.edges = e.graph.edges ∧ x.graph.edgeCount = e.graph.edgeCount ∧ x.graph.data = e.graph.data ∧
      x.currentEdges = e.currentEdges ∧ x.possibleEdges = e.possibleEdges ∧ x.m = e.m := by
  have h0 : 0 < e.m ∧ 0 < e.possibleEdges.length := by
    obtain ⟨i, j, c, q, r1, r2, hi, hj, _⟩ := ErM.mStep_eq hs
    exact ⟨by rw [← h.len]; have := (List.getElem?_eq_some_iff.mp hi).1; omega,
      by have := (List.getElem?_eq_some_iff.mp hj).1; omega⟩
  obtain ⟨s0, e0, b1, b2, b3, b4, b5, b6, b7, b8, b9⟩ := ErM.mStep_spec h h0.1 h0.2
  rw [hs] at b1
  simp only [Res.ok.injEq, Prod.mk.injEq] at b1
  obtain ⟨rfl, rfl⟩ := b1
  obtain ⟨x, c1, c2, c3, c4, _⟩ := ErM.back h hs b2 ⟨rfl, rfl, rfl, rfl, rfl, rfl, rfl⟩
  refine ⟨b9, ?_, x, c1, c2, c3.wf, c4.edges, ?_, c4.data, c4.cur, c4.pos, c4.m⟩
  · intro hc
    rw [hc] at b9
    exact b8 (by rw [b9]; simp)
  · rw [c3.edgeCount, c4.m, h.edgeCount]

/-- A chain of steps and the list of undone steps restore the initial state. -/
theorem C31_C54_er_m_chain {e : ErM T R} (h : e.Inv) (h0 : 0 < e.m)
    (h1 : e.m < e.graph.vertexCount * (e.graph.vertexCount - 1) / 2) (k : Nat) :
    ∃ steps e' us x, mSteps ErM.mStep k e = .ok (steps, e') ∧ steps.length = k ∧
      undoSteps ErM.undoStep steps e' = .ok (us, x) ∧ undoStepsQuiet ErM.undoStepQuiet steps e' = .ok x ∧
      x.graph.WF ∧ x.graph.edges = e.graph.edges ∧ x.graph.data = e.graph.data ∧
      x.currentEdges = e.currentEdges ∧ x.possibleEdges = e.possibleEdges := by
  have hu : Undoable (ErM.mStep (T := T) (R := R)) ErM.undoStep
      (fun x => x.Inv ∧ x.m = e.m ∧ x.graph.nextId = e.graph.nextId) ErM.Sim := by
    refine ⟨?_, ?_, fun _ => ⟨rfl, rfl, rfl, rfl, rfl, rfl, rfl⟩⟩
    · rintro x ⟨i1, i2, i3⟩
      have := i1.possible_len
      rw [i2, i3, length_allPairs] at this
      have hvc : e.graph.vertexCount = e.graph.nextId := rfl
      obtain ⟨s, e', b1, b2, b3, b4, b5, _⟩ := ErM.mStep_spec i1 (by omega) (by rw [hvc] at h1; omega)
      exact ⟨s, e', b1, b2, b5.trans i2, b3.trans i3⟩
    · rintro x s x' y ⟨i1, i2, i3⟩ hs ⟨j1, _, _⟩ hsim
      obtain ⟨y', c1, _, c3, c4, _⟩ := ErM.back i1 hs j1 hsim
      exact ⟨_, y', c1, ⟨c3, c4.m.trans i2, c4.n.trans i3⟩, c4⟩
  obtain ⟨steps, e', a1, a2, a3, a4⟩ := hu.chain k e ⟨h, rfl, rfl⟩
  obtain ⟨us, x, b1, _, b3, b4⟩ := a4 e' a3 ⟨rfl, rfl, rfl, rfl, rfl, rfl, rfl⟩
  refine ⟨steps, e', us, x, a1, a2, b1, ?_, b3.1.wf, b4.edges, b4.data, b4.cur, b4.pos⟩
  refine undoStepsQuiet_eq ?_ steps e' us x b1
  intro y s u y' hy
  unfold ErM.undoStep at hy
  simp only [Res.bind_eq_ok, Res.pure_eq, Res.ok.injEq, Prod.mk.injEq] at hy
  obtain ⟨z, hz, _, rfl⟩ := hy
  exact hz

/-- A concrete ensemble with 5 vertices and 4 edges meets the hypotheses. -/
example : ∃ e : ErM Nat Tape, ErM.new 5 4 ⟨0, fun k => k⟩ = .ok e ∧ e.Inv ∧ 0 < e.m ∧
    e.m < e.graph.vertexCount * (e.graph.vertexCount - 1) / 2 := by
  obtain ⟨e, h1, h2, h3, h4, _⟩ := ErM.new_spec (T := Nat) (n := 5) (m := 4) (by decide) (by decide) (⟨0, fun k => k⟩ : Tape)
  exact ⟨e, h1, h2, by omega, by simp [GenericGraph.vertexCount, h3, h4]⟩

/-! ### C32 -/

/-- A step of `ErEnsembleC` changes at most the pair it drew and reports truthfully what it did. -/
theorem C32_er_c_step {e : ErC T R} (h : e.graph.WF) (hn : 2 ≤ e.graph.vertexCount) :
    ∃ s e', e.mStep = .ok (s, e') ∧ e'.graph.WF ∧ e'.graph.vertexCount = e.graph.vertexCount ∧ e'.graph.data = e.graph.data ∧
      e'.prob = e.prob ∧
      ((s = .nothing ∧ e'.graph.edges = e.graph.edges) ∨
       (∃ x y, s = .addedEdge (x, y) ∧ s(x, y) ∉ e.graph.edges ∧ e'.graph.edges = insert s(x, y) e.graph.edges) ∨
       (∃ x y, s = .removedEdge (x, y) ∧ s(x, y) ∈ e.graph.edges ∧ e'.graph.edges = e.graph.edges.erase s(x, y))) := by
  obtain ⟨a, b, r, d1, d2, d3, d4⟩ := drawTwo_spec e.rng hn
  obtain ⟨s, e', m1, m2, m3, m4, m5, m6, m7, m8, m9⟩ := ErC.mStep_cases h d1 d2 d3 d4
  refine ⟨s, e', m1, m2, m3, m4, m5, ?_⟩
  rw [m8, m9]
  by_cases hb : (coin r e.prob).1 = true <;> by_cases hex : s(a, b) ∈ e.graph.edges <;> simp only [hb, hex, if_true]
  · exact .inl ⟨trivial, Finset.insert_eq_of_mem hex⟩
  · exact .inr (.inl ⟨a, b, rfl, hex, rfl⟩)
  · exact .inr (.inr ⟨a, b, rfl, hex, rfl⟩)
  · exact .inl ⟨rfl, by simp [Finset.erase_eq_of_notMem hex]⟩

/-- Undoing a step restores the edge set. -/
theorem C32_er_c_undo {e e' : ErC T R} {s : ErStepC} (h : e.graph.WF) (hn : 2 ≤ e.graph.vertexCount)
    (hs : e.mStep = .ok (s, e')) :
    ∃ u x, e'.undoStep s = .ok (u, x) ∧ e'.undoStepQuiet s = .ok x ∧ (∀ err, u ≠ .gError err) ∧ x.graph.WF ∧
      x.graph.edges = e.graph.edges ∧ x.graph.edgeCount = e.graph.edgeCount ∧ x.graph.data = e.graph.data ∧
      x.prob = e.prob := by
  obtain ⟨s0, e0, m1, m2, _⟩ := C32_er_c_step h hn
  rw [hs] at m1
  simp only [Res.ok.injEq, Prod.mk.injEq] at m1
  obtain ⟨rfl, rfl⟩ := m1
  obtain ⟨u, x, c1, c2, c3, c4, _, c6⟩ := ErC.back h hn hs m2 ⟨rfl, rfl, rfl, rfl, rfl⟩
  refine ⟨u, x, c1, c2, c6, c3, c4.edges, ?_, c4.data, c4.prob⟩
  rw [c3.edgeCount_eq_card, h.edgeCount_eq_card, c4.edges]

/-- `randomize`: one throw of the coin for every pair, in the order `(0,1), (0,2), …`; the edges are exactly the pairs whose
throw succeeded. -/
theorem C32_er_c_randomize {e : ErC T R} (h : e.graph.WF) :
    ∃ e', e.randomize = .ok e' ∧ e'.graph.WF ∧ e'.graph.vertexCount = e.graph.vertexCount ∧
      e'.graph.data = e.graph.data ∧ e'.prob = e.prob ∧
      e'.graph.edges = chosen (allPairs e.graph.vertexCount) (coins e.prob (allPairs e.graph.vertexCount).length e.rng).1 ∧
      e'.rng = (coins e.prob (allPairs e.graph.vertexCount).length e.rng).2 := by
  obtain ⟨e', h1, h2, h3, h4, h5, h6, h7, h8⟩ := ErC.randomize_spec h
  exact ⟨e', h1, h2, h3, h4, h5, h8, h7⟩

/-- `randomize` does not depend on the previous topology. -/
theorem C32_er_c_randomize_forgets {e1 e2 : ErC T R} (h1 : e1.graph.WF) (h2 : e2.graph.WF) (hd : e1.graph.data = e2.graph.data)
    (hp : e1.prob = e2.prob) (hc : e1.cTarget = e2.cTarget) (hr : e1.rng = e2.rng) : e1.randomize = e2.randomize := by
  unfold ErC.randomize
  rw [clearEdges_eq_fromVec h1, clearEdges_eq_fromVec h2, hd, hp, hc, hr]

/-- `new(n, c)` succeeds exactly for `n > 0`; the coin probability is `c / (n - 1)`. -/
theorem C32_er_c_new [Node T] (n : Nat) (c : ℚ) (r : R) :
    ((ErC.new n c r : Res (ErC T R)) = .panic ↔ n = 0) ∧
    (0 < n → ∃ e : ErC T R, ErC.new n c r = .ok e ∧ e.graph.WF ∧ e.graph.vertexCount = n ∧ e.cTarget = c ∧
      e.prob = c / ((n : ℚ) - 1) ∧ e.graph.data = (List.range n).map Node.newFromIndex ∧
      e.graph.edges = chosen (allPairs n) (coins (c / ((n : ℚ) - 1)) (allPairs n).length r).1) := by
  by_cases hn : n = 0
  · subst hn; simp [ErC.new, Res.sub]
  · have hc : ((n - 1 : Nat) : ℚ) = (n : ℚ) - 1 := by
      rw [Nat.cast_sub (by omega)]; simp
    obtain ⟨e', h1, h2, h3, h4, h5, h6, h7, h8⟩ := ErC.randomize_spec
      (e := (⟨GenericGraph.new n, c / ((n - 1 : Nat) : ℚ), c, r⟩ : ErC T R)) (new_wf n)
    have hnew : (ErC.new n c r : Res (ErC T R)) = .ok e' := by
      unfold ErC.new
      rw [Res.sub_of_le (by omega)]
      exact h1
    rw [hnew]
    refine ⟨by simp [hn], fun _ => ⟨e', rfl, h2, h3, h6, ?_, ?_, ?_⟩⟩
    · rw [h5]; simp only; rw [hc]
    · rw [h4]
      show (GenericGraph.new n : Graph T).data = _
      rw [new_eq_fromVec, fromVec_data]
    · rw [h8, ← hc]; rfl

/-- `set_target_connectivity(c)` panics exactly for the empty graph; otherwise it only changes the parameters, the new coin
probability times `n - 1` is `c`, and the next `randomize` throws coins of that probability. -/
theorem C32_set_target_connectivity {e : ErC T R} (h : e.graph.WF) (c : ℚ) :
    (e.setTargetConnectivity c = .panic ↔ e.graph.vertexCount = 0) ∧
    (2 ≤ e.graph.vertexCount → ∃ e' e'', e.setTargetConnectivity c = .ok e' ∧ e'.graph = e.graph ∧ e'.rng = e.rng ∧
      e'.cTarget = c ∧ e'.prob * ((e.graph.vertexCount : ℚ) - 1) = c ∧ e'.randomize = .ok e'' ∧
      e''.cTarget = c ∧ e''.graph.edges = chosen (allPairs e.graph.vertexCount)
        (coins (c / ((e.graph.vertexCount : ℚ) - 1)) (allPairs e.graph.vertexCount).length e.rng).1) := by
  by_cases hn : e.graph.vertexCount = 0
  · constructor
    · simp [ErC.setTargetConnectivity, Res.sub, hn]
    · intro h2; omega
  · have hc : ((e.graph.vertexCount - 1 : Nat) : ℚ) = (e.graph.vertexCount : ℚ) - 1 := by
      rw [Nat.cast_sub (by omega)]; simp
    have hset : e.setTargetConnectivity c = .ok { e with prob := c / ((e.graph.vertexCount : ℚ) - 1), cTarget := c } := by
      unfold ErC.setTargetConnectivity
      rw [Res.sub_of_le (by omega), ← hc]; rfl
    rw [hset]
    refine ⟨by simp [hn], fun h2 => ?_⟩
    obtain ⟨e'', h1, _, _, _, _, h6, _, h8⟩ := ErC.randomize_spec
      (e := { e with prob := c / ((e.graph.vertexCount : ℚ) - 1), cTarget := c }) h
    refine ⟨_, e'', rfl, rfl, rfl, rfl, ?_, h1, h6, h8⟩
    have : (e.graph.vertexCount : ℚ) - 1 ≠ 0 := by
      rw [← hc]; exact_mod_cast (by omega : e.graph.vertexCount - 1 ≠ 0)
    exact div_mul_cancel₀ c this

/-- A chain of steps and the undone steps restore the edge set, with both variants. -/
theorem C32_C54_er_c_chain {e : ErC T R} (h : e.graph.WF) (hn : 2 ≤ e.graph.vertexCount) (k : Nat) :
    ∃ steps e' us x, mSteps ErC.mStep k e = .ok (steps, e') ∧ steps.length = k ∧
      undoSteps ErC.undoStep steps e' = .ok (us, x) ∧ undoStepsQuiet ErC.undoStepQuiet steps e' = .ok x ∧ x.graph.WF ∧ x.graph.edges = e.graph.edges ∧
      x.graph.data = e.graph.data ∧ x.prob = e.prob := by
  have hu : Undoable (ErC.mStep (T := T) (R := R)) ErC.undoStep
      (fun x => x.graph.WF ∧ x.graph.nextId = e.graph.nextId) ErC.Sim := by
    refine ⟨?_, ?_, fun _ => ⟨rfl, rfl, rfl, rfl, rfl⟩⟩
    · rintro x ⟨i1, i2⟩
      obtain ⟨s, e', b1, b2, b3, _⟩ := C32_er_c_step i1 (by show 2 ≤ x.graph.nextId; rw [i2]; exact hn)
      exact ⟨s, e', b1, b2, Eq.trans b3 i2⟩
    · rintro x s x' y ⟨i1, i2⟩ hs ⟨j1, _⟩ hsim
      obtain ⟨u, y', c1, _, c3, c4, _⟩ := ErC.back i1 (by rw [i2]; exact hn) hs j1 hsim
      exact ⟨_, y', c1, ⟨c3, c4.n.trans i2⟩, c4⟩
  obtain ⟨steps, e', a1, a2, a3, a4⟩ := hu.chain_quiet (quiet := ErC.undoStepQuiet) (by
    rintro x s x' y u y' ⟨i1, i2⟩ hs ⟨j1, _⟩ hsim hy
    obtain ⟨u', y'', c1, c2, _⟩ := ErC.back i1 (by rw [i2]; exact hn) hs j1 hsim
    rw [c1] at hy
    simp only [Res.ok.injEq, Prod.mk.injEq] at hy
    rw [c2, hy.2]) k e ⟨h, rfl⟩
  obtain ⟨us, x, b1, b2, _, b3, b4⟩ := a4 e' a3 ⟨rfl, rfl, rfl, rfl, rfl⟩
  exact ⟨steps, e', us, x, a1, a2, b1, b2, b3.1, b4.edges, b4.data, b4.prob⟩

/-- A draw that adds the edge `4-0` to the concrete graph. -/
example : exTail.WF ∧ 2 ≤ exTail.vertexCount ∧
    ∃ e', ErC.mStep ⟨exTail, 1, 1, (⟨[4, 0, 0]⟩ : Script)⟩ = .ok (.addedEdge (4, 0), e') := by
  refine ⟨exTail_wf, by decide, ?_⟩
  obtain ⟨s, e', h1, _, _, _, _, _, _, h8, _⟩ := ErC.mStep_cases (e := ⟨exTail, 1, 1, (⟨[4, 0, 0]⟩ : Script)⟩) exTail_wf
    (drawTwo_script (a := 4) (b := 0) (n := 5) (l := [0]) (by decide) (by decide)) (by decide) (by decide) (by decide)
  refine ⟨e', ?_⟩
  rw [h1, h8]
  have : s(4, 0) ∉ exTail.edges := by decide
  simp [coin, Rng.genUnit, Script.next, this]

end Verif
