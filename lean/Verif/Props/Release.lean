import Verif.Lemmas.Release
import Verif.Props.Er
import Verif.Props.Dual
import Verif.Props.Iter
import Verif.Props.Sw
import Verif.Props.Spacial
import Verif.Props.Config
import Verif.Props.Ws
import Verif.Props.Ba
import Verif.Props.Dog

/-!
# C73: release builds

The other theorems speak about debug builds, in which debug assertions and overflow checks are active.  Here the functions with
unchecked memory accesses, debug assertions or `unreachable_unchecked` are compared with what they do in a release build.
-/

set_option linter.unusedSectionVars false
set_option linter.unusedSimpArgs false

namespace Verif
open AdjContainer GenericGraph

/-! ### Editing -/

section
variable {T A : Type} [AdjContainer T A]

/-- Every call of an editing function that does not panic in a debug build does the same in a release build, whatever the graph. -/
theorem C73_edit_same {R : Type} [Rng R] (g : GenericGraph T A) (w : SwGraph T) (e : SwEns T R) (i j k : Nat) (s : SwChange) :
    SameUnlessPanic (g.addEdge i j) (g.addEdgeR i j) ∧ SameUnlessPanic (g.removeEdge i j) (g.removeEdgeR i j) ∧
    SameUnlessPanic (SwGraph.rewireEdge w i j k) (SwGraph.rewireEdgeR w i j k) ∧
    SameUnlessPanic (SwGraph.resetEdge w i j) (SwGraph.resetEdgeR w i j) ∧
    SameUnlessPanic e.mStep e.mStepR ∧ SameUnlessPanic (e.undoStep s) (e.undoStepR s) ∧
    SameUnlessPanic e.randomize e.randomizeR :=
  ⟨addEdge_same g i j, removeEdge_same g i j, rewireEdge_same w i j k, resetEdge_same w i j, sw_mStep_same e,
    sw_undoStep_same e s, sw_randomize_same e⟩

/-- `add_edge` and `remove_edge` have undefined behaviour in a release build exactly if an index is out of range or both are
equal - whatever the graph. -/
theorem C73_edit_ub (g : GenericGraph T A) (i j : Nat) :
    (g.addEdgeR i j = .ub ↔ g.vertices.length ≤ i ∨ g.vertices.length ≤ j ∨ i = j) ∧
    (g.removeEdgeR i j = .ub ↔ g.vertices.length ≤ i ∨ g.vertices.length ≤ j ∨ i = j) := by
  unfold GenericGraph.addEdgeR GenericGraph.removeEdgeR
  rcases get2R_cases g i j with ⟨a, b, h1, h2, h3, h4, _⟩ | ⟨h1, h2⟩
  · have hno : ¬ (g.vertices.length ≤ i ∨ g.vertices.length ≤ j ∨ i = j) := by omega
    rw [h4]
    simp only [Rel.ok_bind, hno, iff_false]
    refine ⟨Rel.bind_ne_ub (Rel.ofRes_ne_ub _) fun q _ => ?_, Rel.bind_ne_ub (Rel.ofRes_ne_ub _) fun q _ => ?_⟩
    all_goals
      obtain ⟨res, r1, r2⟩ := q
      cases res <;> simp
  · simp [h1, h2]

/-- The documentation of `add_edge` and `remove_edge` promises a panic for indices out of range.  A debug build panics there, a
release build has undefined behaviour. -/
theorem C73_edit_out_of_range [LawfulAdj T A] {g : GenericGraph T A} (h : g.WF) {i j : Nat}
    (hij : g.vertexCount ≤ i ∨ g.vertexCount ≤ j ∨ i = j) :
    g.addEdge i j = .panic ∧ g.removeEdge i j = .panic ∧ g.addEdgeR i j = .ub ∧ g.removeEdgeR i j = .ub := by
  have hl : g.vertices.length = g.vertexCount := h.len
  have hp : g.get2 i j = .panic := by
    rcases get2_same g i j with hp | hp
    · exact hp
    · exfalso
      rcases get2R_cases g i j with ⟨a, b, h1, h2, h3, _⟩ | ⟨_, h2⟩
      · omega
      · rw [h2] at hp; exact Rel.ofRes_ne_ub _ hp.symm
  refine ⟨by simp [GenericGraph.addEdge, hp], by simp [GenericGraph.removeEdge, hp], ?_, ?_⟩
  · rw [(C73_edit_ub g i j).1, hl]; exact hij
  · rw [(C73_edit_ub g i j).2, hl]; exact hij

end

section
variable {T A : Type} [AdjContainer T A]

/-- Non-trivial cases: a graph with five vertices, an edge added, an index out of range, a self-loop. -/
example : (exTail.addEdgeR 0 4).bind (fun p => .ok (p.1, p.2.degreeVec)) = .ok (.ok (), [3, 2, 3, 1, 1]) ∧
    exTail.addEdgeR 0 5 = .ub ∧ exTail.addEdge 0 5 = .panic ∧ exTail.removeEdgeR 2 2 = .ub := by
  refine ⟨by decide, ?_, ?_, ?_⟩
  · exact (C73_edit_out_of_range exTail_wf (.inr (.inl (by decide)))).2.2.1
  · exact (C73_edit_out_of_range exTail_wf (.inr (.inl (by decide)))).1
  · exact ((C73_edit_ub exTail 2 2).2).mpr (.inr (.inr rfl))

/-- A piece of safe code that uses a graph only through `add_edge`, `remove_edge`, `clear_edges` and functions that only read: if
it does not panic in a debug build, it does the same in a release build.  A `panic` here is any panic: an `unwrap`, a failed
`assert!` or a `debug_assert!`. -/
theorem C73_client {α : Type} (c : Client (GraphCall T A) GraphCall.Ret α) (g : GenericGraph T A) :
    SameUnlessPanic (c.debug GraphCall.debug g) (c.release GraphCall.release g) := by
  refine client_same (fun o g => ?_) c g
  cases o with
  | addEdge i j => exact addEdge_same g i j
  | removeEdge i j => exact removeEdge_same g i j
  | clearEdges => exact .ok _
  | read => exact .ok _

end

section
/-- Connect two vertices of least degree: code of a user. -/
def exClient : Client (GraphCall Nat (NodeContainer Nat)) GraphCall.Ret Nat :=
  .call .read fun (g : Graph Nat) =>
    .call (.addEdge 0 (g.degreeVec.idxOf 0)) fun (r : Except GraphErr Unit) =>
      match r with
      | .ok () => .done 1
      | .error _ => .panic

example : (exClient.release GraphCall.release exTail).bind (fun p => .ok (p.1, p.2.degreeVec)) = .ok (1, [3, 2, 3, 1, 1]) ∧
    exClient.debug GraphCall.debug exPath = .panic ∧ exClient.release GraphCall.release exPath = .ub := by
  refine ⟨by decide, by decide, by decide⟩
end

section
variable {T : Type}

theorem resetR_ne_ub (a b : SwContainer T) : a.resetR b ≠ .ub := by
  unfold SwContainer.resetR
  cases h1 : a.adjPosition b.id with
  | none => simp
  | some k =>
    simp only
    refine Rel.bind_ne_ub (Rel.ofRes_ne_ub _) fun i hi => ?_
    have hi' : b.adjPosition a.id = some i := by
      cases h : b.adjPosition a.id with
      | none => rw [h] at hi; simp [Res.unwrap] at hi
      | some x => rw [h] at hi; simp [Res.unwrap] at hi; rw [hi]
    refine Rel.bind_ne_ub (Rel.ofRes_ne_ub _) fun _ _ => Rel.bind_ne_ub (Rel.ofRes_ne_ub _) fun _ _ => ?_
    rw [Rel.deref_of_lt (adjPosition_lt h1), Rel.ok_bind, Rel.deref_of_lt (adjPosition_lt hi'), Rel.ok_bind]
    split
    · simp
    · refine Rel.bind_ne_ub (Rel.ofRes_ne_ub _) fun _ _ => ?_
      split
      · simp
      · exact Rel.bind_ne_ub (Rel.ofRes_ne_ub _) fun _ _ => Rel.bind_ne_ub (Rel.ofRes_ne_ub _) fun _ _ => by simp

theorem rewireR_ne_ub (a b c : SwContainer T) : a.rewireR b c ≠ .ub := by
  unfold SwContainer.rewireR
  cases a.adjPosition b.id with
  | none => simp
  | some k =>
    simp only
    split
    · simp
    · exact Rel.bind_ne_ub (Rel.ofRes_ne_ub _) fun _ _ => Rel.bind_ne_ub (Rel.ofRes_ne_ub _) fun _ _ =>
        Rel.bind_ne_ub (Rel.ofRes_ne_ub _) fun _ _ => Rel.bind_ne_ub (Rel.ofRes_ne_ub _) fun _ _ => by simp

/-- `reset_edge` and `rewire_edge` have undefined behaviour in a release build exactly if an index is out of range or two indices
coincide; only `rewire_edge(a, b, b)` is a safe no-operation for all `a`, `b`. -/
theorem C73_sw_edit_ub (g : SwGraph T) (i j k : Nat) :
    (SwGraph.resetEdgeR g i j = .ub ↔ g.vertices.length ≤ i ∨ g.vertices.length ≤ j ∨ i = j) ∧
    (SwGraph.rewireEdgeR g i j k = .ub ↔ j ≠ k ∧
      (g.vertices.length ≤ i ∨ g.vertices.length ≤ j ∨ g.vertices.length ≤ k ∨ i = j ∨ i = k)) ∧
    SwGraph.rewireEdgeR g i j j = .ok (.nothing, g) := by
  refine ⟨?_, ?_, by simp [SwGraph.rewireEdgeR]⟩
  · unfold SwGraph.resetEdgeR
    rcases get2R_cases g i j with ⟨a, b, h1, h2, h3, h4, _⟩ | ⟨h1, h2⟩
    · have hno : ¬ (g.vertices.length ≤ i ∨ g.vertices.length ≤ j ∨ i = j) := by omega
      rw [h4]
      simp only [Rel.ok_bind, hno, iff_false]
      refine Rel.bind_ne_ub (resetR_ne_ub _ _) fun q _ => ?_
      obtain ⟨res, r1, r2⟩ := q
      cases res with
      | error s => simp
      | ok v => exact Rel.bind_ne_ub (Rel.ofRes_ne_ub _) fun _ _ => by simp
    · simp [h1, h2]
  · unfold SwGraph.rewireEdgeR
    by_cases hjk : j = k
    · simp [hjk]
    · rw [if_neg hjk]
      rcases get3R_cases g i j k with ⟨a, b, c, h1, h2, h3, h4, h5, h6, h7, _⟩ | ⟨h1, h2⟩
      · have hno : ¬ (j ≠ k ∧ (g.vertices.length ≤ i ∨ g.vertices.length ≤ j ∨ g.vertices.length ≤ k ∨ i = j ∨ i = k)) := by omega
        rw [h7]
        simp only [Rel.ok_bind, hno, iff_false]
        exact Rel.bind_ne_ub (rewireR_ne_ub _ _ _) fun _ _ => by simp
      · rw [h2]
        simp only [Rel.ub_bind, true_iff]
        exact ⟨hjk, by omega⟩

end

example : SwGraph.resetEdgeR exSw 0 9 = .ub ∧ SwGraph.rewireEdgeR exSw 0 4 0 = .ub ∧ SwGraph.rewireEdgeR exSw 9 8 8 = .ok (.nothing, exSw) ∧
    (∃ g, SwGraph.resetEdgeR exSw 0 4 = .ok (.reset 0 4 1, g)) :=
  ⟨((C73_sw_edit_ub exSw 0 9 0).1).mpr (.inr (.inl (by decide))),
    ((C73_sw_edit_ub exSw 0 4 0).2.1).mpr ⟨by decide, by simp⟩, (C73_sw_edit_ub exSw 9 8 8).2.2, _, rfl⟩

/-! ### Ensembles -/

section
variable {T R : Type} [Rng R]

/-- Steps, undoing them and randomizing a valid small-world ensemble: defined behaviour, same results as in a debug build. -/
theorem C73_sw {e : SwEns T R} (h : SwValid e.graph) :
    (∃ s e', e.mStep = .ok (s, e') ∧ e.mStepR = .ok (s, e') ∧
      ∃ u x, e'.undoStep s = .ok (u, x) ∧ e'.undoStepR s = .ok (u, x)) ∧
    ∃ e', e.randomize = .ok e' ∧ e.randomizeR = .ok e' := by
  obtain ⟨s, e', h1, _⟩ := C36_sw_step h
  obtain ⟨u, x, h2, _⟩ := C37_sw_undo h h1
  obtain ⟨y, h3, _⟩ := C36_sw_randomize h
  exact ⟨⟨s, e', h1, (sw_mStep_same e).eq_ok h1, u, x, h2, (sw_undoStep_same e' s).eq_ok h2⟩,
    y, h3, (sw_randomize_same e).eq_ok h3⟩

example : ∃ e : SwEns Nat Script, SwEns.new 7 (1/2) (⟨[3, 1, 4]⟩ : Script) = .ok e ∧ ∃ s e', e.mStepR = .ok (s, e') := by
  obtain ⟨e, h1, h2, _⟩ := SwEns.new_spec (T := Nat) (n := 7) (by decide) (1/2) (⟨[3, 1, 4]⟩ : Script)
  obtain ⟨⟨s, e', _, h, _⟩, _⟩ := C73_sw h2
  exact ⟨e, h1, s, e', h⟩

/-- Steps and randomizing of a spatial ensemble: with at least two vertices the same results as in a debug build; with fewer, a
step panics in both builds (no pair can be drawn) before any unchecked access. -/
theorem C73_spacial {e : Spacial T R} (h : e.graph.WF) :
    (∃ e', e.randomize = .ok e' ∧ e.randomizeR = .ok e') ∧
    (2 ≤ e.graph.vertexCount → ∃ s e', e.mStep = .ok (s, e') ∧ e.mStepR = .ok (s, e')) ∧
    (e.graph.vertexCount < 2 → e.mStep = .panic ∧ e.mStepR = .panic) := by
  refine ⟨?_, ?_, ?_⟩
  · obtain ⟨e', h1, _⟩ := C47_spacial_randomize h
    exact ⟨e', h1, (spacial_randomize_same e).eq_ok h1⟩
  · intro hn
    obtain ⟨s, e', h1, _⟩ := C47_spacial_step h hn
    exact ⟨s, e', h1, (spacial_mStep_same e).eq_ok h1⟩
  · intro hn
    have hd := (C29_draw_two_range e.rng e.graph.vertexCount).2 hn
    simp [Spacial.mStep, Spacial.mStepR, hd]

example : exSpacial.graph.WF ∧ ∃ s e', exSpacial.mStepR = .ok (s, e') := by
  obtain ⟨_, h2, _⟩ := C73_spacial exSpacial_wf
  obtain ⟨s, e', _, h⟩ := h2 (by decide)
  exact ⟨exSpacial_wf, s, e', h⟩

end

/-! ### The other ensembles -/

theorem SameUnlessPanic.eq {α : Type} {d : Res α} {r : Rel α} (h : SameUnlessPanic d r) (hd : d ≠ .panic) : r = Rel.ofRes d := by
  rcases h with h | h
  · exact absurd h hd
  · exact h

section
variable {T R : Type} [Rng R]

/-- `ErEnsembleC`: with at least two vertices a step and its undoing do the same in both builds (`randomize` uses checked
accesses only). -/
theorem C73_er_c {e : ErC T R} (h : e.graph.WF) (hn : 2 ≤ e.graph.vertexCount) :
    ∃ s e' u x, e.mStep = .ok (s, e') ∧ e.mStepR = .ok (s, e') ∧ e'.undoStep s = .ok (u, x) ∧ e'.undoStepR s = .ok (u, x) := by
  obtain ⟨s, e', h1, _⟩ := C32_er_c_step h hn
  obtain ⟨u, x, h2, _⟩ := C32_er_c_undo h hn h1
  exact ⟨s, e', u, x, h1, (erC_mStep_same e).eq_ok h1, h2, (erC_undoStep_same e' s).eq_ok h2⟩

/-- `ErEnsembleM`: whenever a step is possible, it, its undoing and `randomize` do the same in both builds; where the debug build
panics, the release build panics as well (there is no edge to draw), before any unchecked access. -/
theorem C73_er_m {e : ErM T R} (h : e.Inv) :
    e.mStepR = Rel.ofRes e.mStep ∧ e.randomizeR = Rel.ofRes e.randomize ∧
    ∀ s e', e.mStep = .ok (s, e') → ∃ x, e'.undoStep s = .ok x ∧ e'.undoStepR s = .ok x := by
  refine ⟨?_, ?_, fun s e' hs => ?_⟩
  · by_cases hp : e.mStep = .panic
    · rw [hp]
      have hcl := h.len
      have hpl := h.possible_len
      have hz : e.currentEdges.length = 0 ∨ e.possibleEdges.length = 0 := by
        rcases (C30_er_m_step_panics h).mp hp with h0 | h0
        · omega
        · have := length_allPairs e.graph.nextId
          have hvc : e.graph.vertexCount = e.graph.nextId := rfl
          rw [hvc] at h0
          omega
      unfold ErM.mStepR
      rcases hz with hz | hz
      · rw [hz]; rfl
      · cases hg : genRange e.rng e.currentEdges.length with
        | panic => rfl
        | diverge => simp [genRange] at hg; split at hg <;> simp at hg
        | ok p => simp only [Rel.ofRes_ok, Rel.ok_bind]; rw [hz]; rfl
    · exact (erM_mStep_same e).eq hp
  · obtain ⟨e', h1, _⟩ := ErM.randomize_spec h.wf h.all h.len h.possible_len
    rw [(erM_randomize_same e).eq_ok h1, h1]; rfl
  · obtain ⟨_, _, x, h1, _⟩ := C31_er_m_undo h hs
    exact ⟨_, h1, (erM_undoStep_same e' s).eq_ok h1⟩

/-- Configuration model: `init_edge_halfs` never reads outside of the degree vector, whatever the vector; `randomize` with an even
sum of degrees, steps and undoing them do the same in both builds. -/
theorem C73_config (e : Config T R) :
    e.initEdgeHalfsR = .ok e.initEdgeHalfs ∧
    (e.Base → e.degreeVec.sum % 2 = 0 → ∀ fuel, e.randomizeR fuel = Rel.ofRes (e.randomize fuel)) ∧
    (e.Inv → 1 ≤ e.graph.edgeCount → ∀ fuel, e.mStepR fuel = Rel.ofRes (e.mStep fuel) ∧
      ∀ s e', e.mStep fuel = .ok (s, e') → ∃ x, e'.undoStepQuiet s = .ok x ∧ e'.undoStepQuietR s = .ok x) := by
  refine ⟨config_initEdgeHalfsR_eq e, fun h hev fuel => (config_randomize_same fuel e).eq (C40_config_randomize h hev fuel).1,
    fun h hE fuel => ⟨(config_mStep_same fuel e).eq (C42_config_step h hE fuel).1, fun s e' hs => ?_⟩⟩
  obtain ⟨x, _, h2, _⟩ := C43_config_undo h hE hs
  exact ⟨x, h2, (config_undoStepQuiet_same e' s).eq_ok h2⟩

/-- Barabási-Albert: `randomize` does the same in both builds. -/
theorem C73_ba {e : Ba T R} (hv : e.Valid) (hE : 1 ≤ e.source.edgeCount) (fuel : Nat) :
    e.randomizeR fuel = Rel.ofRes (e.randomize fuel) := (ba_randomize_same fuel e).eq (C44_ba_randomize hv hE fuel).1

/-- Watts-Strogatz: `randomize` does the same in both builds; the debug assertion on the lengths of the two lists is never needed. -/
theorem C73_ws {e : Ws T R} (h : e.graph.WF) (hd : 2 * e.neighborDistance + 1 ≤ e.graph.vertexCount)
    (hn : e.graph.vertexCount < 2 ^ 32) (fuel : Nat) : e.randomizeR fuel = Rel.ofRes (e.randomize fuel) :=
  (ws_randomize_same fuel e).eq (C45_ws_randomize h hd hn fuel).1

/-- Dog ensemble: `randomize` does the same in both builds whenever the parameters allow it to run at all. -/
theorem C73_dog {e : Dog T R} (h : e.graph.WF) (fuel : Nat) (hn : 0 < e.graph.vertexCount) (hl : 0 < e.lambda)
    (htau : - (1 / 2) < e.tau * e.graph.vertexCount) : e.randomizeR fuel = Rel.ofRes (e.randomize fuel) :=
  (dog_randomize_same fuel e).eq (fun hc => by
    rcases (C58_dog_panics_iff h fuel).mp hc with hc | hc | hc
    · omega
    · omega
    · exact absurd hc (not_le.mpr htau))

example : ∃ s e', (⟨exTail, 1 / 3, 4 / 3, ⟨[7, 1, 2]⟩⟩ : ErC Nat Script).mStepR = .ok (s, e') := by
  obtain ⟨s, e', _, _, _, h, _⟩ := C73_er_c (e := (⟨exTail, 1 / 3, 4 / 3, ⟨[7, 1, 2]⟩⟩ : ErC Nat Script)) exTail_wf
    (show 2 ≤ exTail.vertexCount by decide)
  exact ⟨s, e', h⟩

example : ∃ (e e' : ErM Nat Script) (s : ErStepM), ErM.new 5 4 ⟨[3, 1, 4]⟩ = .ok e ∧ e.Inv ∧ e.mStepR = .ok (s, e') := by
  obtain ⟨e, h1, h2, h3, h4, _⟩ := ErM.new_spec (T := Nat) (n := 5) (m := 4) (by decide) (by decide) (⟨[3, 1, 4]⟩ : Script)
  have hne : e.mStep ≠ .panic := by
    rw [Ne, C30_er_m_step_panics h2]
    have : e.graph.vertexCount = 5 := h3
    rw [this]
    omega
  have hr := (C73_er_m h2).1
  cases hm : e.mStep with
  | panic => exact absurd hm hne
  | diverge =>
    exfalso
    obtain ⟨s, e', hs, _⟩ := ErM.mStep_spec h2 (by omega) (by
      have := h2.possible_len; rw [length_allPairs, show e.graph.nextId = 5 from h3] at this; omega)
    rw [hm] at hs; simp at hs
  | ok p =>
    rw [hm] at hr
    exact ⟨e, p.2, p.1, h1, h2, hr⟩

example : ((exConfigPath []).mStepR 3).bind (fun p => .ok p.2.graph.edgeCount) =
    (Rel.ofRes ((exConfigPath []).mStep 3)).bind (fun p => .ok p.2.graph.edgeCount) := by
  rw [((C73_config (exConfigPath [])).2.2 (exConfigPath_inv []) (show 1 ≤ exPath.edgeCount by decide) 3).1]

example : ((exBa [0, 0, 1, 9, 0]).randomizeR 4).bind (fun e => .ok (e.graph.degreeVec, e.graph.edgeCount)) =
    .ok ([3, 3, 2, 1, 3, 2], 7) := by
  rw [C73_ba (exBa_valid _) (by decide)]
  decide

example : (⟨GenericGraph.new 9, 1 / 2, ⟨[]⟩, 2⟩ : Ws Nat Script).graph.WF ∧ ∀ fuel,
    (⟨GenericGraph.new 9, 1 / 2, ⟨[]⟩, 2⟩ : Ws Nat Script).randomizeR fuel ≠ .ub := by
  refine ⟨new_wf 9, fun fuel => ?_⟩
  rw [C73_ws (e := (⟨GenericGraph.new 9, 1 / 2, ⟨[]⟩, 2⟩ : Ws Nat Script)) (new_wf 9) (show 2 * 2 + 1 ≤ 9 by decide)
    (show 9 < 2 ^ 32 by decide)]
  exact Rel.ofRes_ne_ub _

example (fuel : Nat) : exDog.randomizeR fuel = Rel.ofRes (exDog.randomize fuel) := by
  refine C73_dog exSpacial_wf fuel (by decide) (by decide) ?_
  have h0 : (0 : ℚ) ≤ exDog.tau * exDog.graph.vertexCount := by
    have h1 : exDog.tau = 1 / 2 := rfl
    rw [h1]; positivity
  linarith

/-- `undo_step` with a step that this ensemble has not returned (the variants of `ErStepC` are public, a value of `ErStepM` may come
from a larger ensemble), with an index out of range or two equal indices: a panic in a debug build, undefined behaviour in a release
build. -/
theorem C73_forged_step {e : ErC T R} (h : e.graph.WF) {m : ErM T R} (hm : m.graph.WF) {i j : Nat}
    (hij : e.graph.vertexCount ≤ i ∨ e.graph.vertexCount ≤ j ∨ i = j) {s : ErStepM}
    (hs : m.graph.vertexCount ≤ s.inserted.1 ∨ m.graph.vertexCount ≤ s.inserted.2 ∨ s.inserted.1 = s.inserted.2) :
    e.undoStep (.addedEdge (i, j)) = .panic ∧ e.undoStepR (.addedEdge (i, j)) = .ub ∧
    e.undoStep (.removedEdge (i, j)) = .panic ∧ e.undoStepR (.removedEdge (i, j)) = .ub ∧
    m.undoStep s = .panic ∧ m.undoStepR s = .ub := by
  obtain ⟨h1, h2, h3, h4⟩ := C73_edit_out_of_range h hij
  obtain ⟨_, h6, _, h8⟩ := C73_edit_out_of_range hm hs
  have hi1 : s.inverted.removed = s.inserted := rfl
  simp [ErC.undoStep, ErC.undoStepR, ErM.undoStep, ErM.undoStepR, ErM.step, ErM.stepR, h1, h2, h3, h4, h6, h8, hi1]

end

example : (⟨exTail, 1 / 3, 4 / 3, ⟨[]⟩⟩ : ErC Nat Script).undoStepR (.addedEdge (0, 7)) = .ub := by
  have hm : (⟨exTail, 4, ⟨[]⟩, [], [], []⟩ : ErM Nat Script).graph.WF := exTail_wf
  exact (C73_forged_step (e := (⟨exTail, 1 / 3, 4 / 3, ⟨[]⟩⟩ : ErC Nat Script)) exTail_wf hm (i := 0) (j := 7)
    (.inr (.inl (show exTail.vertexCount ≤ 7 by decide))) (s := ⟨(0, 1), 0, (3, 3), 0⟩) (.inr (.inr rfl))).2.1

/-! ### Searches that hand out `&mut` -/

/-- The vertices waiting and the vertices already handed out are pairwise different and all marked as handled. -/
structure RelMarked (handled : List Bool) (waiting live : List Nat) : Prop where
  nodup : (waiting ++ live).Nodup
  mark : ∀ x ∈ waiting ++ live, handled[x]? = some true

namespace RelMarked

theorem lt {handled : List Bool} {w l : List Nat} (h : RelMarked handled w l) {x : Nat} (hx : x ∈ w ++ l) : x < handled.length :=
  (List.getElem?_eq_some_iff.mp (h.mark x hx)).1

theorem perm {handled : List Bool} {w w' l l' : List Nat} (h : RelMarked handled w l) (p : (w' ++ l').Perm (w ++ l)) :
    RelMarked handled w' l' where
  nodup := p.nodup_iff.mpr h.nodup
  mark x hx := h.mark x (p.mem_iff.mp hx)

theorem add {handled : List Bool} {w l : List Nat} (h : RelMarked handled w l) {i : Nat} (hi : handled[i]? = some false) :
    RelMarked (handled.set i true) (i :: w) l where
  nodup := by
    rw [List.cons_append, List.nodup_cons]
    exact ⟨fun hm => by rw [h.mark i hm] at hi; simp at hi, h.nodup⟩
  mark x hx := by
    rw [List.cons_append, List.mem_cons] at hx
    have hlt := (List.getElem?_eq_some_iff.mp hi).1
    rw [List.getElem?_set]
    split
    · simp [hlt]
    · rename_i hne
      rcases hx with rfl | hx
      · exact absurd rfl hne
      · exact h.mark x hx

end RelMarked

theorem idx_eq_ok_iff {α : Type} {l : List α} {i : Nat} {a : α} : Vec.idx l i = .ok a ↔ l[i]? = some a := by
  unfold Vec.idx
  cases l[i]? <;> simp

theorem visitStack_marked : ∀ (nb : List Nat) (handled : List Bool) (stack live : List Nat) (h' : List Bool) (s' : List Nat),
    visitStack nb handled stack = .ok (h', s') → RelMarked handled stack live →
    RelMarked h' s' live ∧ h'.length = handled.length
  | [], handled, stack, live, h', s', e, hm => by
    simp only [visitStack, Res.ok.injEq, Prod.mk.injEq] at e
    obtain ⟨rfl, rfl⟩ := e
    exact ⟨hm, rfl⟩
  | i :: nb, handled, stack, live, h', s', e, hm => by
    unfold visitStack at e
    rw [Res.bind_eq_ok] at e
    obtain ⟨b, hb, e⟩ := e
    rw [idx_eq_ok_iff] at hb
    cases b with
    | true => exact visitStack_marked nb handled stack live h' s' (by simpa using e) hm
    | false =>
      have hlt := (List.getElem?_eq_some_iff.mp hb).1
      simp only [Bool.not_false, if_true, Vec.put_of_lt hlt, Res.ok_bind] at e
      obtain ⟨a1, a2⟩ := visitStack_marked nb _ _ live h' s' e (hm.add hb)
      exact ⟨a1, by rw [a2, List.length_set]⟩

theorem visitQueue_marked : ∀ (nb : List Nat) (handled : List Bool) (q0 queue live : List Nat) (h' : List Bool) (q' : List Nat),
    visitQueue nb handled queue = .ok (h', q') → RelMarked handled (q0 ++ queue) live →
    RelMarked h' (q0 ++ q') live ∧ h'.length = handled.length
  | [], handled, q0, queue, live, h', q', e, hm => by
    simp only [visitQueue, Res.ok.injEq, Prod.mk.injEq] at e
    obtain ⟨rfl, rfl⟩ := e
    exact ⟨hm, rfl⟩
  | i :: nb, handled, q0, queue, live, h', q', e, hm => by
    unfold visitQueue at e
    rw [Res.bind_eq_ok] at e
    obtain ⟨b, hb, e⟩ := e
    rw [idx_eq_ok_iff] at hb
    cases b with
    | true => exact visitQueue_marked nb handled q0 queue live h' q' (by simpa using e) hm
    | false =>
      have hlt := (List.getElem?_eq_some_iff.mp hb).1
      simp only [Bool.not_false, if_true, Vec.put_of_lt hlt, Res.ok_bind] at e
      have hp : RelMarked (handled.set i true) (q0 ++ (queue ++ [i])) live := by
        refine (hm.add hb).perm ?_
        rw [← List.append_assoc]
        exact (List.perm_append_singleton i (q0 ++ queue)).append_right live
      obtain ⟨a1, a2⟩ := visitQueue_marked nb _ q0 _ live h' q' e hp
      exact ⟨a1, by rw [a2, List.length_set]⟩

/-- Two iterators that agree step by step as long as an invariant holds agree when run to the end. -/
theorem collectR_eq {σ ℓ ι : Type} {nd : σ → Res (Option ι × σ)} {nr : σ × ℓ → Rel (Option ι × (σ × ℓ))} (Inv : σ → ℓ → Prop)
    (step : ∀ s l, Inv s l → (∃ o s' l', nd s = .ok (o, s') ∧ nr (s, l) = .ok (o, (s', l')) ∧ Inv s' l') ∨
      (nd s = .panic ∧ nr (s, l) = .panic) ∨ (nd s = .diverge ∧ nr (s, l) = .diverge)) :
    ∀ (fuel : Nat) (s : σ) (l : ℓ), Inv s l →
      (collectR nr fuel (s, l) >>= fun p => Rel.ok (p.1, p.2.1)) = Rel.ofRes (collect nd fuel s)
  | 0, s, l, _ => rfl
  | fuel + 1, s, l, h => by
    unfold collectR collect
    rcases step s l h with ⟨o, s', l', e1, e2, h'⟩ | ⟨e1, e2⟩ | ⟨e1, e2⟩
    · rw [e1, e2]
      cases o with
      | none => rfl
      | some x =>
        have ih := collectR_eq Inv step fuel s' l' h'
        simp only [Rel.ok_bind, Res.ok_bind]
        rw [Rel.ofRes_bind, ← ih]
        cases collectR nr fuel (s', l') <;> rfl
    · rw [e1, e2]; rfl
    · rw [e1, e2]; rfl

section
variable {T A : Type} [AdjContainer T A]

theorem visitStack_cases (nb : List Nat) (h : List Bool) (s : List Nat) :
    (∃ p, visitStack nb h s = .ok p) ∨ visitStack nb h s = .panic ∨ visitStack nb h s = .diverge := by
  cases visitStack nb h s with
  | ok p => exact .inl ⟨p, rfl⟩
  | panic => exact .inr (.inl rfl)
  | diverge => exact .inr (.inr rfl)

theorem visitQueue_cases (nb : List Nat) (h : List Bool) (s : List Nat) :
    (∃ p, visitQueue nb h s = .ok p) ∨ visitQueue nb h s = .panic ∨ visitQueue nb h s = .diverge := by
  cases visitQueue nb h s with
  | ok p => exact .inl ⟨p, rfl⟩
  | panic => exact .inr (.inl rfl)
  | diverge => exact .inr (.inr rfl)

/-- What the unchecked accesses of `DfsMut` rely on. -/
def DfsMutInv (s : DfsMutState A) (live : List Nat) : Prop :=
  s.handled.length ≤ s.vertices.length ∧ RelMarked s.handled s.stack live

theorem dfsMut_step (upd : Nat → T → T) (s : DfsMutState A) (live : List Nat) (h : DfsMutInv s live) :
    (∃ o s' l', dfsMutNext upd s = .ok (o, s') ∧ dfsMutNextR upd (s, live) = .ok (o, (s', l')) ∧ DfsMutInv s' l') ∨
    (dfsMutNext upd s = .panic ∧ dfsMutNextR upd (s, live) = .panic) ∨
    (dfsMutNext upd s = .diverge ∧ dfsMutNextR upd (s, live) = .diverge) := by
  obtain ⟨vs, handled, stack, calls⟩ := s
  obtain ⟨hlen, hm⟩ := h
  simp only at hlen hm
  unfold dfsMutNext dfsMutNextR
  cases stack with
  | nil => exact .inl ⟨none, _, live, rfl, rfl, hlen, hm⟩
  | cons index stack =>
    have hlt : index < vs.length := lt_of_lt_of_le (hm.lt (by simp)) hlen
    have hnl : index ∉ live := by
      have := hm.nodup
      rw [List.cons_append, List.nodup_cons] at this
      exact fun hc => this.1 (List.mem_append_right _ hc)
    simp only [Vec.idx_of_lt hlt, Rel.derefMut_ok hlt hnl, Res.ok_bind, Rel.ok_bind]
    rcases visitStack_cases (neighbors vs[index]) handled stack with ⟨⟨h', s'⟩, e⟩ | e | e
    · rw [e]
      refine .inl ⟨_, _, index :: live, rfl, rfl, ?_⟩
      have hm' : RelMarked handled stack (index :: live) := hm.perm (by simp)
      obtain ⟨a1, a2⟩ := visitStack_marked _ _ _ _ _ _ e hm'
      exact ⟨by simp only [List.length_set]; omega, a1⟩
    · rw [e]; exact .inr (.inl ⟨rfl, rfl⟩)
    · rw [e]; exact .inr (.inr ⟨rfl, rfl⟩)

/-- What the unchecked accesses of `BfsMut` rely on. -/
def BfsMutInv (s : BfsMutState A) (live : List Nat) : Prop :=
  s.st.handled.length ≤ s.vertices.length ∧ RelMarked s.st.handled (s.st.queue0 ++ s.st.queue1) live

theorem bfsMutVisit_step (upd : Nat → T → T) (vs : List A) (calls : Nat) (st : BfsState) (live : List Nat) (index : Nat)
    (q0 : List Nat) (hlen : st.handled.length ≤ vs.length) (hm : RelMarked st.handled (index :: (q0 ++ st.queue1)) live)
    (d : Res (Option (Nat × T × Nat) × BfsMutState A))
    (hd : d = (bfsVisit vs st index q0 >>= fun p => match p with
      | (none, st) => pure (none, { vertices := vs, st := st, calls := calls })
      | (some (index, t, dep), st) => do
        let container ← Vec.idx vs index
        pure (some (index, t, dep),
          { vertices := vs.set index (setContained container (upd calls t)), st := st, calls := calls + 1 }))) :
    (∃ o s' l', d = .ok (o, s') ∧ bfsMutVisitR upd vs calls live st index q0 = .ok (o, (s', l')) ∧ BfsMutInv s' l') ∨
    (d = .panic ∧ bfsMutVisitR upd vs calls live st index q0 = .panic) ∨
    (d = .diverge ∧ bfsMutVisitR upd vs calls live st index q0 = .diverge) := by
  subst hd
  have hlt : index < vs.length := lt_of_lt_of_le (hm.lt (by simp)) hlen
  have hnl : index ∉ live := by
    have := hm.nodup
    rw [List.cons_append, List.nodup_cons] at this
    exact fun hc => this.1 (List.mem_append_right _ hc)
  unfold bfsVisit bfsMutVisitR
  simp only [Vec.idx_of_lt hlt, Rel.derefMut_ok hlt hnl, Res.ok_bind, Rel.ok_bind]
  rcases visitQueue_cases (neighbors vs[index]) st.handled st.queue1 with ⟨⟨h', q'⟩, e⟩ | e | e
  · rw [e]
    refine .inl ⟨_, _, index :: live, ?_, rfl, ?_⟩
    · simp only [Res.ok_bind, Res.pure_eq, Vec.idx_of_lt hlt]
    · have hm' : RelMarked st.handled (q0 ++ st.queue1) (index :: live) := hm.perm (by
        rw [List.cons_append]; exact List.perm_middle)
      obtain ⟨a1, a2⟩ := visitQueue_marked _ _ _ _ _ _ _ e hm'
      exact ⟨by simp only [List.length_set]; omega, a1⟩
  · rw [e]; exact .inr (.inl ⟨rfl, rfl⟩)
  · rw [e]; exact .inr (.inr ⟨rfl, rfl⟩)

theorem bfsMut_step (upd : Nat → T → T) (s : BfsMutState A) (live : List Nat) (h : BfsMutInv s live) :
    (∃ o s' l', bfsMutNext upd s = .ok (o, s') ∧ bfsMutNextR upd (s, live) = .ok (o, (s', l')) ∧ BfsMutInv s' l') ∨
    (bfsMutNext upd s = .panic ∧ bfsMutNextR upd (s, live) = .panic) ∨
    (bfsMutNext upd s = .diverge ∧ bfsMutNextR upd (s, live) = .diverge) := by
  obtain ⟨vs, ⟨handled, q0, q1, depth⟩, calls⟩ := s
  obtain ⟨hlen, hm⟩ := h
  simp only at hlen hm
  unfold bfsMutNext bfsMutNextR bfsNext
  cases q0 with
  | cons index q0 => exact bfsMutVisit_step upd vs calls _ live index q0 hlen hm _ (by
      simp only
      congr 1
      funext p
      rcases p with ⟨_ | ⟨a, b, c⟩, st⟩ <;> rfl)
  | nil =>
    cases q1 with
    | nil => exact .inl ⟨none, _, live, rfl, rfl, hlen, hm⟩
    | cons index q0 =>
      exact bfsMutVisit_step upd vs calls ⟨handled, [], [], depth + 1⟩ live index q0 hlen (by simpa using hm) _ (by
        simp only
        congr 1
        funext p
        rcases p with ⟨_ | ⟨a, b, c⟩, st⟩ <;> rfl)

/-- `dfs_mut` and `bfs_index_depth_mut` never have undefined behaviour: on every graph, even one with a broken adjacency list, for
every start and everything the user writes, the release build does what the debug build does.  In particular no vertex is handed
out twice and no access is out of range. -/
theorem C73_searches (g : GenericGraph T A) (hlen : g.nextId ≤ g.vertices.length) (upd : Nat → T → T) (index fuel : Nat) :
    g.dfsMutR upd index fuel = Rel.ofRes (g.dfsMut upd index fuel) ∧
    g.bfsMutR upd index fuel = Rel.ofRes (g.bfsMut upd index fuel) := by
  have hstart : ∀ i : Nat, i < g.nextId → RelMarked ((List.replicate g.nextId false).set i true) [i] [] := by
    intro i hi
    refine RelMarked.add (handled := List.replicate g.nextId false) (w := []) (l := []) ⟨by simp, by simp⟩ ?_
    simp [hi]
  constructor
  · have hi : DfsMutInv (DfsMutState.new g index) [] := by
      unfold DfsMutState.new DfsMutInv
      simp only [GenericGraph.vertexCount, List.length_replicate]
      split
      · rename_i h
        exact ⟨by simpa using hlen, hstart index h⟩
      · exact ⟨by simpa using hlen, ⟨by simp, by simp⟩⟩
    have := collectR_eq DfsMutInv (dfsMut_step upd) fuel _ _ hi
    unfold GenericGraph.dfsMutR GenericGraph.dfsMut
    rw [Rel.ofRes_bind, ← this]
    cases collectR (dfsMutNextR upd) fuel (DfsMutState.new g index, []) <;> rfl
  · have hi : BfsMutInv (BfsMutState.new g index) [] := by
      unfold BfsMutState.new BfsMutInv BfsState.new
      by_cases h : index < g.vertexCount
      · simp only [if_pos h]
        exact ⟨by simpa [GenericGraph.vertexCount] using hlen, hstart index h⟩
      · simp only [if_neg h]
        exact ⟨by simpa [GenericGraph.vertexCount] using hlen, ⟨by simp, by simp⟩⟩
    have := collectR_eq BfsMutInv (bfsMut_step upd) fuel _ _ hi
    unfold GenericGraph.bfsMutR GenericGraph.bfsMut
    rw [Rel.ofRes_bind, ← this]
    cases collectR (bfsMutNextR upd) fuel (BfsMutState.new g index, []) <;> rfl

end

/-- A valid graph, and one whose lists are broken: a neighbour named twice, a missing vertex. -/
example : (exTail.dfsMutR (fun k t => k + 10 * t) 0 6).bind (fun p => .ok (p.1, p.2.data)) = .ok ([0, 20, 30, 10], [0, 103, 201, 302, 40]) ∧
    ((exGraph 2 [[1, 1], [0]]).bfsMutR (fun _ t => t + 5) 0 6).bind (fun p => .ok p.2.data) = .ok [5, 15] ∧
    (exGraph 2 [[1, 8], [0]]).bfsMutR (fun _ t => t + 5) 0 6 = .panic := by
  refine ⟨by decide, by decide, by decide⟩

/-! ### Mutable neighbour iterators -/

section
variable {T A : Type} [AdjContainer T A]

theorem mutCall_inner (c : MutCall) (s : IterWrapper) : ∃ o s', c.inner wrapperIter s = .ok (o, s') ∧
    (∀ x, o = some x → (x :: s'.items).Subperm s.items) ∧ s'.items.Subperm s.items := by
  cases c with
  | next =>
    obtain ⟨s', e, h⟩ := wrapperIter_sim.next s _ rfl
    refine ⟨_, s', e, fun x hx => ?_, ?_⟩
    · have := listStep_item (l := s.items) (op := .next) (x := x) (by simp [listStep, hx])
      simpa [listStep, h] using this
    · rw [h]; exact listStep_rest s.items .next
  | nth n =>
    obtain ⟨s', e, h⟩ := wrapperIter_sim.nth s _ n rfl
    refine ⟨_, s', e, fun x hx => ?_, ?_⟩
    · have := listStep_item (l := s.items) (op := .nth n) (x := x) (by simp only [listStep, hx])
      simpa only [listStep, ← h] using this
    · rw [h]; exact listStep_rest s.items (.nth n)
  | nextBack =>
    obtain ⟨s', e, h⟩ := wrapperIter_sim.nextBack s _ rfl
    refine ⟨_, s', e, fun x hx => ?_, ?_⟩
    · have := listStep_item (l := s.items) (op := .nextBack) (x := x) (by simp only [listStep, hx])
      simpa only [listStep, ← h] using this
    · rw [h]; exact listStep_rest s.items .nextBack

/-- The debug model of one call, reduced to the call on the inner iterator. -/
theorem mutStep_inner {S : Type} (I : IterImpl S Nat) (c : MutCall) (upd : T → T) (vs : List A) (s : S) :
    mutStep I c.op upd (vs, s) = (c.inner I s >>= fun p => match p with
      | (none, s') => .ok (.item none, (vs, s'))
      | (some i, s') => do
        let a ← Vec.idx vs i
        pure (.item (some (i, contained a)), (vs.set i (setContained a (upd (contained a))), s'))) := by
  have fin : ∀ i (s' : S), (do
        let p ← (do
          let a ← (Vec.idx vs i : Res A)
          pure ((some (i, contained a) : Option (Nat × T)), s'))
        let q ← (pure (IterObs.item p.1, p.2) : Res (IterObs (Nat × T) × S))
        match q with
        | (.item (some (i, t)), s') => do
          let c ← Vec.idx vs i
          pure (IterObs.item (some (i, t)), (vs.set i (setContained c (upd t)), s'))
        | (o, s') => pure (o, (vs, s'))) =
      (do
        let a ← Vec.idx vs i
        pure (IterObs.item (some (i, contained a)), (vs.set i (setContained a (upd (contained a))), s'))) := by
    intro i s'
    cases h : Vec.idx vs i with
    | panic => rfl
    | diverge => rfl
    | ok a => simp only [Res.ok_bind, Res.pure_eq, h]
  cases c with
  | next =>
    simp only [MutCall.op, MutCall.inner, mutStep, mutIter, IterImpl.step, neighbourIter]
    cases I.next s with
    | panic => rfl
    | diverge => rfl
    | ok p =>
      obtain ⟨o, s'⟩ := p
      cases o with
      | none => rfl
      | some i =>
        simp only [Res.ok_bind]
        rw [← fin i s']
        cases Vec.idx vs i <;> rfl
  | nth n =>
    simp only [MutCall.op, MutCall.inner, mutStep, mutIter, IterImpl.step, neighbourIter]
    cases I.nth s n with
    | panic => rfl
    | diverge => rfl
    | ok p =>
      obtain ⟨o, s'⟩ := p
      cases o with
      | none => rfl
      | some i =>
        simp only [Res.ok_bind]
        rw [← fin i s']
        cases Vec.idx vs i <;> rfl
  | nextBack =>
    simp only [MutCall.op, MutCall.inner, mutStep, mutIter, IterImpl.step, neighbourIter]
    cases I.nextBack s with
    | panic => rfl
    | diverge => rfl
    | ok p =>
      obtain ⟨o, s'⟩ := p
      cases o with
      | none => rfl
      | some i =>
        simp only [Res.ok_bind]
        rw [← fin i s']
        cases Vec.idx vs i <;> rfl

theorem mutCall_same (c : MutCall) (upd : T → T) (vs : List A) (s : IterWrapper) (live : List Nat)
    (hn : (s.items ++ live).Nodup) (hlt : ∀ x ∈ s.items, x < vs.length) :
    ∃ o vs' s' live', mutStep wrapperIter c.op upd (vs, s) = .ok (.item o, (vs', s')) ∧
      nMutCallR wrapperIter c upd (vs, s, live) = .ok (o, (vs', s', live')) ∧
      inMutCallR wrapperIter c upd (vs, s, live) = .ok (o, (vs', s', live')) ∧
      (s'.items ++ live').Nodup ∧ (∀ x ∈ s'.items, x < vs'.length) := by
  obtain ⟨o, s', e, h1, h2⟩ := mutCall_inner c s
  rw [mutStep_inner]
  unfold nMutCallR inMutCallR
  simp only [e, Res.ok_bind, Rel.ofRes_ok, Rel.ok_bind]
  cases o with
  | none =>
    refine ⟨none, vs, s', live, rfl, rfl, rfl, ?_, fun x hx => hlt x (h2.subset hx)⟩
    exact subperm_nodup (List.Subperm.append h2 (List.Subperm.refl live)) hn
  | some i =>
    have hsub := h1 i rfl
    have hi : i < vs.length := hlt i (hsub.subset List.mem_cons_self)
    have hn' : ((i :: s'.items) ++ live).Nodup := subperm_nodup (List.Subperm.append hsub (List.Subperm.refl live)) hn
    have hnl : i ∉ live := by
      rw [List.cons_append, List.nodup_cons] at hn'
      exact fun hc => hn'.1 (List.mem_append_right _ hc)
    refine ⟨some (i, contained vs[i]), vs.set i (setContained vs[i] (upd (contained vs[i]))), s', i :: live, ?_, ?_, ?_, ?_, ?_⟩
    · simp [-Res.bind_eq_ok, Vec.idx_of_lt hi]
    · cases c <;> simp [Res.assert, hi, Rel.derefMut_ok hi hnl]
    · simp [Res.assert, hi, Rel.derefMut_ok hi hnl]
    · exact (List.perm_middle.nodup_iff).mpr hn'
    · intro x hx
      rw [List.length_set]
      exact hlt x (h2.subset hx)

theorem mutCalls_same : ∀ (cs : List (MutCall × (T → T))) (vs : List A) (s : IterWrapper) (live : List Nat),
    (s.items ++ live).Nodup → (∀ x ∈ s.items, x < vs.length) →
    ∃ os vs' s' live', mutRun wrapperIter (cs.map fun c => (c.1.op, c.2)) (vs, s) = .ok (os.map .item, (vs', s')) ∧
      mutCallsR (nMutCallR wrapperIter) cs (vs, s, live) = .ok (os, (vs', s', live')) ∧
      mutCallsR (inMutCallR wrapperIter) cs (vs, s, live) = .ok (os, (vs', s', live'))
  | [], vs, s, live, _, _ => ⟨[], vs, s, live, rfl, rfl, rfl⟩
  | (c, upd) :: cs, vs, s, live, hn, hlt => by
    obtain ⟨o, vs1, s1, live1, a1, a2, a3, a4, a5⟩ := mutCall_same c upd vs s live hn hlt
    obtain ⟨os, vs2, s2, live2, b1, b2, b3⟩ := mutCalls_same cs vs1 s1 live1 a4 a5
    refine ⟨o :: os, vs2, s2, live2, ?_, ?_, ?_⟩
    · simp only [List.map_cons, mutRun, a1, b1, Res.ok_bind, Res.pure_eq]
    · simp only [mutCallsR, a2, b2, Rel.ok_bind, Rel.pure_eq]
    · simp only [mutCallsR, a3, b3, Rel.ok_bind, Rel.pure_eq]

variable [LawfulAdj T A] [NeighborIter A] [LawfulNeighborIter A]

/-- The mutable neighbour iterators of a valid graph: for every vertex, every history of `next`, `nth`, `next_back` in any order and
everything the user writes through the references, the release build has defined behaviour and does what the debug build does; no
neighbour is handed out twice and the vertex whose list is read is never handed out.  Out of range both builds panic. -/
theorem C73_neighbors_mut {g : GenericGraph T A} (h : g.WF) (i : Nat) (cs : List (MutCall × (T → T))) :
    (i < g.vertexCount → ∃ w os vs s', g.neighborsIter i = .ok w ∧
      mutRun wrapperIter (cs.map fun c => (c.1.op, c.2)) (g.vertices, w) = .ok (os.map .item, (vs, s')) ∧
      g.neighborsMutR i cs = .ok (os, vs) ∧ g.neighborsMutIndexR i cs = .ok (os, vs)) ∧
    (g.vertexCount ≤ i → g.neighborsIter i = .panic ∧ g.neighborsMutR i cs = .panic ∧ g.neighborsMutIndexR i cs = .panic) := by
  have hl : g.vertices.length = g.vertexCount := h.len
  constructor
  · intro hi
    have hi' : i < g.vertices.length := by omega
    have hitems : (NeighborIter.iter g.vertices[i]).items = g.nbrs i := by
      rw [LawfulNeighborIter.items_iter, (idx_nbrs hi').2]
    have hn : ((NeighborIter.iter g.vertices[i]).items ++ [i]).Nodup := by
      rw [hitems]
      rw [(List.perm_append_singleton i (g.nbrs i)).nodup_iff, List.nodup_cons]
      exact ⟨h.irrefl i, h.nodup i⟩
    obtain ⟨os, vs, s', live', a1, a2, a3⟩ := mutCalls_same cs g.vertices (NeighborIter.iter g.vertices[i]) [i] hn (by
      rw [hitems]; intro x hx; rw [hl]; exact h.lt _ _ hx)
    refine ⟨_, os, vs, s', ?_, a1, ?_, ?_⟩
    · simp [-Res.bind_eq_ok, GenericGraph.neighborsIter, Vec.idx_of_lt hi']
    · simp [GenericGraph.neighborsMutR, Res.assert, hi', Rel.derefMut_ok hi' (List.not_mem_nil), a2]
    · simp [GenericGraph.neighborsMutIndexR, Res.assert, hi', Rel.derefMut_ok hi' (List.not_mem_nil), a3]
  · intro hi
    have hi' : ¬ i < g.vertices.length := by omega
    refine ⟨?_, ?_, ?_⟩
    · simp [GenericGraph.neighborsIter, Vec.idx, List.getElem?_eq_none (by omega : g.vertices.length ≤ i)]
    · simp [GenericGraph.neighborsMutR, Res.assert, hi']
    · simp [GenericGraph.neighborsMutIndexR, Res.assert, hi']

end

example : (exTail.neighborsMutR 2 [(.next, (· + 1)), (.nextBack, (· + 7)), (.nth 0, (· * 2)), (.next, id)]).bind
    (fun p => .ok (p.1, p.2.map contained)) =
    .ok ([some (1, 10), some (3, 30), some (0, 0), none], [0, 11, 20, 37, 40]) := by decide

/-! ### Dual graphs -/

theorem foldlM_ofRes {σ ι : Type} {f : σ → ι → Res σ} {g : σ → ι → Rel σ} : ∀ (l : List ι), (∀ i ∈ l, ∀ s, g s i = Rel.ofRes (f s i)) →
    ∀ s, l.foldlM g s = Rel.ofRes (l.foldlM f s)
  | [], _, _ => rfl
  | i :: l, h, s => by
    rw [List.foldlM_cons, List.foldlM_cons, h i List.mem_cons_self, Rel.ofRes_bind]
    congr 1
    funext s'
    exact foldlM_ofRes l (fun j hj => h j (List.mem_cons_of_mem _ hj)) s'

section
variable {J T1 A1 T2 A2 : Type} [AdjTrait J]

/-- `add_edge` of dual graphs: no undefined behaviour for any dual graph and any indices. -/
theorem C73_dual_add_edge (d : DualGraph J T1 A1 T2 A2) (i j : Nat) : d.addEdgeR i j = Rel.ofRes (d.addEdge i j) := by
  unfold DualGraph.addEdgeR DualGraph.addEdge
  split
  · rfl
  · rename_i h
    have h1 : i < d.adj1.length := by omega
    have h2 : j < d.adj2.length := by omega
    simp only [Rel.derefMut_ok h1 (List.not_mem_nil), Vec.idx_of_lt h1, Rel.ok_bind, Res.ok_bind, Vec.put_of_lt h1,
      Rel.derefMut_ok h2 (List.not_mem_nil), Vec.idx_of_lt h2, Vec.put_of_lt h2]
    split
    · rfl
    · split <;> rfl

variable [AdjContainer T1 A1] [AdjContainer T2 A2]

theorem unwrapUnchecked_isConnected {T A : Type} [AdjContainer T A] (g : GenericGraph T A) (h : g.vertexCount ≠ 0) :
    (Rel.ofRes g.isConnected >>= fun o => Rel.unwrapUnchecked o) = Rel.ofRes (g.isConnected >>= fun o => Res.unwrap o) := by
  unfold GenericGraph.isConnected
  rw [if_neg h]
  cases g.dfs 0 (g.vertexCount + 1) <;> rfl

/-- `is_connected` of dual graphs never reaches its `unreachable_unchecked`, for any dual graph. -/
theorem C73_dual_is_connected (d : DualGraph J T1 A1 T2 A2) : d.isConnectedR = Rel.ofRes d.isConnected := by
  unfold DualGraph.isConnectedR DualGraph.isConnected
  by_cases h1 : d.graph1.vertexCount = 0
  · rw [if_pos h1, if_pos h1]
    by_cases h2 : d.graph2.vertexCount = 0
    · rw [if_pos h2, if_pos h2]; rfl
    · rw [if_neg h2, if_neg h2]
      exact unwrapUnchecked_isConnected d.graph2 h2
  · rw [if_neg h1, if_neg h1]
    by_cases h2 : d.graph2.vertexCount = 0
    · rw [if_pos h2, if_pos h2]
      exact unwrapUnchecked_isConnected d.graph1 h1
    · rw [if_neg h2, if_neg h2, Rel.ofRes_bind]
      rfl

theorem bfsDualVisit_some (d : DualGraph J T1 A1 T2 A2) (s : BfsDual) (v : DualIndex) (q : List DualIndex) {o : Option (DualIndex × Nat)}
    {s' : BfsDual} (h : bfsDualVisit d s v q = .ok (o, s')) : o ≠ none := by
  unfold bfsDualVisit at h
  cases v with
  | graph1 i =>
    simp only [Res.bind_eq_ok, Prod.exists] at h
    obtain ⟨_, _, _, _, _, _, _, _, _, _, h⟩ := h
    simp only [Res.pure_eq, Res.ok.injEq, Prod.mk.injEq] at h
    rw [← h.1]; simp
  | graph2 i =>
    simp only [Res.bind_eq_ok, Prod.exists] at h
    obtain ⟨_, _, _, _, _, _, _, _, _, _, h⟩ := h
    simp only [Res.pure_eq, Res.ok.injEq, Prod.mk.injEq] at h
    rw [← h.1]; simp

/-- A search that has a start returns at least one item. -/
theorem collect_bfsDual_ne_nil (d : DualGraph J T1 A1 T2 A2) (s : BfsDual) (v : DualIndex) (hs : s.queue0 = [v]) (fuel : Nat)
    {l : List (DualIndex × Nat)} {s' : BfsDual} (h : collect (bfsDualNext d) fuel s = .ok (l, s')) : l ≠ [] := by
  cases fuel with
  | zero => simp [collect] at h
  | succ fuel =>
    unfold collect at h
    rw [Res.bind_eq_ok] at h
    obtain ⟨⟨o, s1⟩, h1, h2⟩ := h
    have ho : o ≠ none := by
      unfold bfsDualNext at h1
      rw [hs] at h1
      exact bfsDualVisit_some d _ _ _ h1
    cases o with
    | none => exact absurd rfl ho
    | some x =>
      simp only [Res.bind_eq_ok, Prod.exists] at h2
      obtain ⟨xs, s2, _, h3⟩ := h2
      simp only [Res.pure_eq, Res.ok.injEq, Prod.mk.injEq] at h3
      rw [← h3.1]; simp

/-- The vertices for which the vertex lists have an entry. -/
def DualGraph.InLists (d : DualGraph J T1 A1 T2 A2) : DualIndex → Prop
  | .graph1 i => i < d.graph1.vertices.length
  | .graph2 i => i < d.graph2.vertices.length

theorem reuse_queue (d : DualGraph J T1 A1 T2 A2) (s s' : BfsDual) (v : DualIndex) (hv : d.InLists v)
    (h : BfsDual.reuse d s v = .ok s') : s'.queue0 = [v] := by
  cases v with
  | graph1 i =>
    unfold BfsDual.reuse at h
    simp only [DualGraph.InLists] at hv
    simp only [if_pos hv, Res.bind_eq_ok, Res.pure_eq, Res.ok.injEq] at h
    obtain ⟨_, _, rfl⟩ := h
    rfl
  | graph2 i =>
    unfold BfsDual.reuse at h
    simp only [DualGraph.InLists] at hv
    simp only [if_pos hv, Res.bind_eq_ok, Res.pure_eq, Res.ok.injEq] at h
    obtain ⟨_, _, rfl⟩ := h
    rfl

theorem diamBodyR_eq (d : DualGraph J T1 A1 T2 A2) (mk : Nat → DualIndex) (i : Nat) (hv : d.InLists (mk i)) (s : BfsDual × Nat) :
    d.diamBodyR mk s i = Rel.ofRes (d.diamBody mk s i) := by
  unfold DualGraph.diamBodyR DualGraph.diamBody
  rw [Rel.ofRes_bind]
  cases hr : BfsDual.reuse d s.1 (mk i) with
  | panic => rfl
  | diverge => rfl
  | ok s1 =>
    simp only [Rel.ofRes_ok, Rel.ok_bind]
    rw [Rel.ofRes_bind]
    cases hc : collect (bfsDualNext d) (d.totalVertices + 1) s1 with
    | panic => rfl
    | diverge => rfl
    | ok p =>
      obtain ⟨l, s2⟩ := p
      have hne := collect_bfsDual_ne_nil d s1 _ (reuse_queue d _ _ _ hv hr) _ hc
      simp only [Rel.ofRes_ok, Rel.ok_bind, List.getLast?_eq_some_getLast hne, Rel.unwrapUnchecked, Res.unwrap, Res.ok_bind]
      rfl

/-- `diameter` of dual graphs never reaches its `unreachable_unchecked`: not even after one of the graphs was replaced, so that the
lists of cross edges do not fit any more (the hypotheses only say that the two counters of vertices are right). -/
theorem C73_dual_diameter (d : DualGraph J T1 A1 T2 A2) (h1 : d.graph1.nextId = d.graph1.vertices.length)
    (h2 : d.graph2.nextId = d.graph2.vertices.length) : d.diameterR = Rel.ofRes d.diameter := by
  unfold DualGraph.diameterR DualGraph.diameter
  split
  · rfl
  · rw [C73_dual_is_connected, Rel.ofRes_bind]
    congr 1
    funext c
    split
    · rfl
    · rw [Rel.ofRes_bind]
      rw [foldlM_ofRes (f := d.diamBody .graph1) _ (fun i hi s => diamBodyR_eq d .graph1 i (by
        simp only [GenericGraph.vertexCount, h1, List.mem_range] at hi
        exact hi) s)]
      congr 1
      funext s
      rw [Rel.ofRes_bind]
      rw [foldlM_ofRes (f := d.diamBody .graph2) _ (fun i hi s => diamBodyR_eq d .graph2 i (by
        simp only [GenericGraph.vertexCount, h2, List.mem_range'_1] at hi
        show i < d.graph2.vertices.length
        omega) s)]
      rfl

end

example : (exDual.addEdgeR 1 4).bind (fun p => .ok p.1) = .ok (.ok ()) ∧ exDual.isConnectedR = .ok false ∧ exDual.diameterR = .ok none ∧
    exSingle.isConnectedR = .ok true ∧ exSingle.diameterR = .ok (some 5) := by
  refine ⟨by decide, by decide, by decide, by decide, by decide⟩

section
variable {T A1 A2 : Type} [AdjContainer T A1] [AdjContainer T A2]

theorem nContainedMutR_eq {A : Type} [AdjContainer T A] (upd : Nat → T → T) : ∀ (l : List Nat) (k : Nat) (live : List Nat) (vs : List A),
    (l ++ live).Nodup → (∀ x ∈ l, x < vs.length) → nContainedMutR upd k live vs l = Rel.ofRes (nContainedMut upd k vs l)
  | [], _, _, _, _, _ => rfl
  | i :: l, k, live, vs, hn, hlt => by
    have hi := hlt i List.mem_cons_self
    have hn' := hn
    rw [List.cons_append, List.nodup_cons] at hn'
    unfold nContainedMutR nContainedMut
    simp only [Rel.derefMut_ok hi (fun hc => hn'.1 (List.mem_append_right _ hc)), Vec.idx_of_lt hi, Rel.ok_bind, Res.ok_bind]
    rw [nContainedMutR_eq upd l (k + 1) (i :: live) _ (List.perm_middle.nodup_iff.mpr hn)
      (by intro x hx; rw [List.length_set]; exact hlt x (List.mem_cons_of_mem _ hx)), Rel.ofRes_bind]
    rfl

variable [LawfulAdj T A1] [LawfulAdj T A2]

/-- The mutable iterators over the neighbours of a vertex of a valid `SingleDualGraph`.  With a valid index the release build does
what the debug build does.  With an index out of range the `_which_graph` functions panic in both builds, but `graph_1_contained_iter`,
`graph_2_contained_iter` and `graph_1_contained_iter_mut` read out of bounds in a release build, before any check. -/
theorem C73_dual_iter {d : DualGraph AdjSingle T A1 T A2} (h : d.WF) (upd : Nat → T → T) (i : Nat) :
    d.neighboursMutWhich1R upd i = Rel.ofRes (d.neighboursMut1 upd i) ∧
    d.neighboursMutWhich2R upd i = Rel.ofRes (d.neighboursMut2 upd i) ∧
    (i < d.graph1.vertexCount → d.neighboursMut1R upd i = Rel.ofRes (d.neighboursMut1 upd i) ∧
      d.containedIter1R i = Rel.ofRes (d.containedIter1 i)) ∧
    (i < d.graph2.vertexCount → d.containedIter2R i = Rel.ofRes (d.containedIter2 i)) ∧
    (d.graph1.vertexCount ≤ i → d.neighboursMut1 upd i = .panic ∧ d.containedIter1 i = .panic ∧
      d.neighboursMut1R upd i = .ub ∧ d.containedIter1R i = .ub) ∧
    (d.graph2.vertexCount ≤ i → d.containedIter2 i = .panic ∧ d.containedIter2R i = .ub) := by
  have l1 : d.graph1.vertices.length = d.graph1.vertexCount := h.wf1.len
  have l2 : d.graph2.vertices.length = d.graph2.vertexCount := h.wf2.len
  have key1 : ∀ hi : i < d.graph1.vertices.length, nContainedMutR upd 0 [i] d.graph1.vertices (neighbors d.graph1.vertices[i]) =
      Rel.ofRes (nContainedMut upd 0 d.graph1.vertices (neighbors d.graph1.vertices[i])) := by
    intro hi
    have hnb : neighbors d.graph1.vertices[i] = d.graph1.nbrs i := (idx_nbrs hi).2
    rw [hnb]
    refine nContainedMutR_eq upd _ _ _ _ ?_ ?_
    · rw [(List.perm_append_singleton i _).nodup_iff, List.nodup_cons]
      exact ⟨h.wf1.irrefl i, h.wf1.nodup i⟩
    · intro x hx; rw [l1]; exact h.wf1.lt _ _ hx
  have key2 : ∀ hi : i < d.graph2.vertices.length, nContainedMutR upd 0 [i] d.graph2.vertices (neighbors d.graph2.vertices[i]) =
      Rel.ofRes (nContainedMut upd 0 d.graph2.vertices (neighbors d.graph2.vertices[i])) := by
    intro hi
    have hnb : neighbors d.graph2.vertices[i] = d.graph2.nbrs i := (idx_nbrs hi).2
    rw [hnb]
    refine nContainedMutR_eq upd _ _ _ _ ?_ ?_
    · rw [(List.perm_append_singleton i _).nodup_iff, List.nodup_cons]
      exact ⟨h.wf2.irrefl i, h.wf2.nodup i⟩
    · intro x hx; rw [l2]; exact h.wf2.lt _ _ hx
  have main1 : i < d.graph1.vertices.length → d.neighboursMut1R upd i = Rel.ofRes (d.neighboursMut1 upd i) := by
    intro hi
    have ha : i < d.adj1.length := by rw [h.len1, ← l1]; exact hi
    unfold DualGraph.neighboursMut1R DualGraph.neighboursMut1
    simp only [Res.assert, hi, decide_true, if_true, Res.ok_bind, Vec.idx_of_lt hi, Vec.idx_of_lt ha,
      Rel.derefMut_ok hi (List.not_mem_nil), Rel.ok_bind, Rel.ofRes_ok, key1 hi]
    cases nContainedMut upd 0 d.graph1.vertices (neighbors d.graph1.vertices[i]) with
    | panic => rfl
    | diverge => rfl
    | ok p =>
      obtain ⟨ts, vs⟩ := p
      simp only [Rel.ofRes_ok, Rel.ok_bind, Res.ok_bind]
      cases AdjTrait.slice d.adj1[i] with
      | nil => rfl
      | cons j _ =>
        simp only
        cases Vec.idx d.graph2.vertices j <;> rfl
  refine ⟨?_, ?_, ?_, ?_, ?_, ?_⟩
  · unfold DualGraph.neighboursMutWhich1R
    by_cases hi : i < d.graph1.vertices.length
    · simp only [Res.assert, hi, decide_true, if_true, Rel.ofRes_ok, Rel.ok_bind]
      exact main1 hi
    · simp [Res.assert, hi, DualGraph.neighboursMut1]
  · unfold DualGraph.neighboursMutWhich2R DualGraph.neighboursMut2
    by_cases hi : i < d.graph2.vertices.length
    · have ha : i < d.adj2.length := by rw [h.len2, ← l2]; exact hi
      simp only [Res.assert, hi, decide_true, if_true, Res.ok_bind, Vec.idx_of_lt hi, Vec.idx_of_lt ha,
        Rel.derefMut_ok hi (List.not_mem_nil), Rel.ok_bind, Rel.ofRes_ok, key2 hi]
      cases nContainedMut upd 0 d.graph2.vertices (neighbors d.graph2.vertices[i]) with
      | panic => rfl
      | diverge => rfl
      | ok p =>
        obtain ⟨ts, vs⟩ := p
        simp only [Rel.ofRes_ok, Rel.ok_bind, Res.ok_bind]
        cases AdjTrait.slice d.adj2[i] with
        | nil => rfl
        | cons j _ =>
          simp only
          cases Vec.idx d.graph1.vertices j <;> rfl
    · simp [Res.assert, hi]
  · intro hi
    rw [← l1] at hi
    have ha : i < d.adj1.length := by rw [h.len1, ← l1]; exact hi
    refine ⟨main1 hi, ?_⟩
    unfold DualGraph.containedIter1R DualGraph.containedIter1
    simp only [Res.assert, hi, decide_true, if_true, Res.ok_bind, Vec.idx_of_lt hi, Vec.idx_of_lt ha,
      Rel.deref_of_lt hi, Rel.ok_bind, Rel.ofRes_ok]
    cases nContained (T := T) d.graph1.vertices (neighbors d.graph1.vertices[i]) with
    | panic => rfl
    | diverge => rfl
    | ok own =>
      simp only [Rel.ofRes_ok, Rel.ok_bind, Res.ok_bind]
      cases AdjTrait.slice d.adj1[i] with
      | nil => rfl
      | cons j _ =>
        simp only
        cases d.graph2.at_ j <;> rfl
  · intro hi
    rw [← l2] at hi
    have ha : i < d.adj2.length := by rw [h.len2, ← l2]; exact hi
    unfold DualGraph.containedIter2R DualGraph.containedIter2
    simp only [Res.assert, hi, decide_true, if_true, Res.ok_bind, Vec.idx_of_lt hi, Vec.idx_of_lt ha,
      Rel.deref_of_lt hi, Rel.ok_bind, Rel.ofRes_ok]
    cases nContained (T := T) d.graph2.vertices (neighbors d.graph2.vertices[i]) with
    | panic => rfl
    | diverge => rfl
    | ok own =>
      simp only [Rel.ofRes_ok, Rel.ok_bind, Res.ok_bind]
      cases AdjTrait.slice d.adj2[i] with
      | nil => rfl
      | cons j _ =>
        simp only
        cases d.graph1.at_ j <;> rfl
  · intro hi
    rw [← l1] at hi
    have hi' : ¬ i < d.graph1.vertices.length := by omega
    refine ⟨?_, ?_, ?_, ?_⟩
    · simp [DualGraph.neighboursMut1, Res.assert, hi']
    · simp [DualGraph.containedIter1, Res.assert, hi']
    · simp [DualGraph.neighboursMut1R, Rel.derefMut_ge hi]
    · simp [DualGraph.containedIter1R, Rel.deref_of_ge hi]
  · intro hi
    rw [← l2] at hi
    have hi' : ¬ i < d.graph2.vertices.length := by omega
    exact ⟨by simp [DualGraph.containedIter2, Res.assert, hi'], by simp [DualGraph.containedIter2R, Rel.deref_of_ge hi]⟩

end

section
variable {T A1 A2 : Type} [AdjContainer T A1] [AdjContainer T A2]

/-- `graph_1_contained_iter_neighbors_in_other_graph_mut(i)` on an arbitrary `SingleDualGraph`: undefined behaviour in a release
build exactly if `i` has a partner that the second graph does not have; the debug build panics there, and otherwise both builds do the
same. -/
theorem C73_dual_other_mut (d : DualGraph AdjSingle T A1 T A2) (upd : Nat → T → T) (i : Nat) :
    (d.otherMut1R upd i = .ub ↔ ∃ j, d.adj1[i]? = some (.something j) ∧ d.graph2.vertices.length ≤ j) ∧
    (d.otherMut1R upd i = .ub → d.otherMut1 upd i = .panic) ∧
    (d.otherMut1R upd i ≠ .ub → d.otherMut1R upd i = Rel.ofRes (d.otherMut1 upd i)) := by
  unfold DualGraph.otherMut1R DualGraph.otherMut1
  cases ha : d.adj1[i]? with
  | none => simp [Vec.idx, ha]
  | some a =>
    have hidx : Vec.idx d.adj1 i = .ok a := by simp [Vec.idx, ha]
    simp only [hidx, Rel.ofRes_ok, Rel.ok_bind, Res.ok_bind]
    cases a with
    | nothing => simp [AdjTrait.slice, nContainedMutR, nContainedMut]
    | something j =>
      simp only [AdjTrait.slice]
      by_cases hj : j < d.graph2.vertices.length
      · have := nContainedMutR_eq upd [j] 0 [] d.graph2.vertices (by simp) (by simpa using hj)
        rw [this]
        have hne : (Rel.ofRes (nContainedMut upd 0 d.graph2.vertices [j]) >>= fun p =>
            pure (p.1, ({ d with graph2 := { d.graph2 with vertices := p.2 } } : DualGraph AdjSingle T A1 T A2))) ≠ .ub :=
          Rel.bind_ne_ub (Rel.ofRes_ne_ub _) fun _ _ => by simp
        refine ⟨⟨fun hc => absurd hc hne, ?_⟩, fun hc => absurd hc hne, fun _ => ?_⟩
        · rintro ⟨k, hk, hk'⟩
          simp only [Option.some.injEq, AdjSingle.something.injEq] at hk
          omega
        · rw [Rel.ofRes_bind]; rfl
      · have hub : nContainedMutR (T := T) upd 0 [] d.graph2.vertices [j] = .ub := by
          simp [nContainedMutR, Rel.derefMut_ge (by omega : d.graph2.vertices.length ≤ j)]
        have hp : nContainedMut (T := T) upd 0 d.graph2.vertices [j] = .panic := by
          simp [nContainedMut, Vec.idx, List.getElem?_eq_none (by omega : d.graph2.vertices.length ≤ j)]
        rw [hub, hp]
        simp only [Rel.ub_bind, Res.panic_bind, true_iff, imp_self, ne_eq, not_true, false_implies, and_true, forall_const, true_and]
        exact ⟨j, rfl, by omega⟩

end

/-- A dual graph whose second member was exchanged for a smaller one (through `graph_2_mut`). -/
example : ({ exSingle with graph2 := exGraph 0 [[]] } : DualGraph AdjSingle Nat (NodeContainer Nat) Nat (NodeContainer Nat)).otherMut1R
      (fun _ t => t + 1) 3 = .ub ∧
    (exSingle.otherMut1R (fun _ t => t + 1) 3).bind (fun p => .ok (p.1, p.2.graph2.data)) = .ok ([10], [0, 11, 20, 30]) ∧
    exSingle.containedIter1R 9 = .ub ∧ exSingle.containedIter1R 3 = .ok [20, 10] := by
  refine ⟨?_, by decide, by decide, by decide⟩
  exact (C73_dual_other_mut _ _ 3).1.mpr ⟨1, rfl, by decide⟩

end Verif
