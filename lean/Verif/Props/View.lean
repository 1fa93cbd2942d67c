import Verif.Spec.View
import Verif.Props.Api
import Verif.Props.Connect
import Verif.Props.Load
import Verif.Props.Bicon
import Verif.Props.Traverse

/-!
# C85: what every ensemble shows after any history
-/

set_option linter.unusedSectionVars false
set_option linter.unusedSimpArgs false

namespace Verif
open AdjContainer GenericGraph

section
variable {E T A : Type} [AdjContainer T A] [LawfulAdj T A] [AsRefGraph E T A]

open Classical in
/-- Everything shown by an object with a well-formed graph is right. -/
theorem C85_shows (e : E) (h : (AsRefGraph.asRef e).WF) :
    Shows (AsRefGraph.asRef e).vertexCount (AsRefGraph.asRef e).toSimple (AsRefGraph.asRef e).data e := by
  have hreach := C15_is_connected h
  refine ⟨rfl, (C26_degrees h).2.2.2, (C26_degrees h).1, C26_average_degree h, C26_leaf_count h, ?_, C17_component_sizes h, ?_,
    fun v => C19_eccentricity h v, fun q => ⟨fun hq => C20_q_core_none q hq, fun hq hn => C20_q_core h hq hn⟩, ?_, ?_, ?_, ?_, ⟨rfl, ?_⟩,
    ?_, ?_⟩
  · obtain ⟨r, h1, h2, h3, _⟩ := hreach
    exact ⟨r, h1, h2, h3⟩
  · by_cases hc : (AsRefGraph.asRef e).vertexCount = 0 ∨
        ∃ v w, v < (AsRefGraph.asRef e).vertexCount ∧ w < (AsRefGraph.asRef e).vertexCount ∧ ¬ (AsRefGraph.asRef e).toSimple.Reachable v w
    · exact ⟨none, C18_diameter_none h hc, ⟨fun _ => hc, fun _ => rfl⟩, fun d hd => by cases hd⟩
    · have hn : 0 < (AsRefGraph.asRef e).vertexCount := by
        by_contra h0
        exact hc (Or.inl (by omega))
      obtain ⟨d, h1, h2, h3⟩ := C18_diameter h hn (fun v w hv hw => by
        by_contra h0
        exact hc (Or.inr ⟨v, w, hv, hw, h0⟩))
      exact ⟨some d, h1, ⟨fun hd => (by cases hd), fun h0 => absurd h0 hc⟩, fun d' hd => (by cases hd; exact ⟨h2, h3⟩)⟩
  · exact C24_transitivity h
  · obtain ⟨r, h1, _, h3, _⟩ := C21_count_partial h
    exact ⟨r, h1, h3, C21_alternative _ h1⟩
  · choose F hF using fun s => (C22_flow_exists_unique h s).1
    exact ⟨F, hF, fun incl => C22_vertex_load h hF incl⟩
  · intro v
    show GenericGraph.at_ _ v = _
    unfold GenericGraph.at_ GenericGraph.container Vec.idx GenericGraph.data
    rw [List.getElem?_map]
    cases (AsRefGraph.asRef e).vertices[v]? <;> rfl
  · rw [GenericGraph.data, List.length_map]
    exact h.len
  · intro v hv fuel hf
    obtain ⟨L, items, h1, h2, h3, h4, _⟩ := C10_dfs h hv hf
    obtain ⟨L', h1', _, h5⟩ := C10_dfs_with_index h hv hf
    rw [h1] at h1'
    cases h1'
    refine ⟨L, h1, by rw [← h3]; exact h2, h4.nodup, h4.mem, h4.head, fun p hp => ?_, h4.chain⟩
    rw [← getContained_eq]
    exact h5 p hp
  · intro v hv fuel hf
    obtain ⟨L, h1, h2⟩ := C11_bfs h hv hf
    refine ⟨L, h1, h2.nodup, h2.mem, h2.head, fun p hp => ⟨?_, h2.dist p hp⟩, h2.sorted⟩
    rw [← getContained_eq]
    exact h2.data p hp

theorem Shows.of {e : E} (h : (AsRefGraph.asRef e).WF) {n : ℕ} (h2 : (AsRefGraph.asRef e).vertexCount = n) {d : List T}
    (h3 : (AsRefGraph.asRef e).data = d) : Shows n (AsRefGraph.asRef e).toSimple d e := by
  subst h2 h3
  exact C85_shows e h

end

section
variable {T R : Type} [Rng R]

/-- `ErEnsembleC` after any history of calls and writes. -/
theorem C85_er_c [Node T] {n : Nat} (hn : 0 < n) (c : ℚ) (r : R) :
    ∃ e0 : ErC T R, ErC.new n c r = .ok e0 ∧ ∀ ws e, Hist ErC.Call ErC.setAt e0 ws e →
      Shows n e.graph.toSimple (written ((List.range n).map Node.newFromIndex) ws) e := by
  obtain ⟨e0, h0, h⟩ := C75_er_c (T := T) hn c r
  refine ⟨e0, h0, fun ws e he => ?_⟩
  obtain ⟨h1, h2, _, _, h3, _⟩ := h ws e he
  exact Shows.of h1 h2 h3

/-- `ErEnsembleM` after any history of calls and writes; `edge_count` is always `m`. -/
theorem C85_er_m [Node T] {n m : Nat} (hn : 1 ≤ n) (hm : m ≤ n * (n - 1) / 2) (r : R) :
    ∃ e0 : ErM T R, ErM.new n m r = .ok e0 ∧ ∀ ws e, Hist ErM.Call ErM.setAt e0 ws e →
      Shows n e.graph.toSimple (written ((List.range n).map Node.newFromIndex) ws) e ∧ View.edgeCount e = m := by
  obtain ⟨e0, h0, h⟩ := C75_er_m (T := T) hn hm r
  refine ⟨e0, h0, fun ws e he => ?_⟩
  obtain ⟨h1, h2, h4, _, h3, _⟩ := h ws e he
  exact ⟨Shows.of h1 h2 h3, h4⟩

/-- `SwEnsemble` after any history of calls and writes; `edge_count` is always `2 n`. -/
theorem C85_sw [Node T] {n : Nat} (hn : 5 ≤ n) (p : ℚ) (r : R) :
    ∃ e0 : SwEns T R, SwEns.new n p r = .ok e0 ∧ ∀ ws e, Hist SwHist SwEns.setAt e0 ws e →
      Shows n e.graph.toSimple (written ((List.range n).map Node.newFromIndex) ws) e ∧ View.edgeCount e = 2 * n := by
  obtain ⟨e0, h0, h⟩ := C75_sw (T := T) hn p r
  refine ⟨e0, h0, fun ws e he => ?_⟩
  obtain ⟨h1, h2, h4, h3, _⟩ := h ws e he
  refine ⟨Shows.of h1.wf h2 ?_, h4⟩
  rw [new_eq_fromVec, fromVec_data] at h3
  exact h3

/-- `ConfigurationModel` after any history of calls and writes; `degree` gives the degrees asked for. -/
theorem C85_config [Node T] (d : List Nat) (r : R) {fuel : Nat} {e0 : Config T R} (h0 : Config.fromVecUnchecked fuel d r = .ok e0)
    {ws : List (Nat × T)} {e : Config T R} (he : Hist (fun x y => ∃ b, Config.Call b x y) Config.setAt e0 ws e) :
    Shows d.length e.graph.toSimple (written ((List.range d.length).map Node.newFromIndex) ws) e ∧
      ∀ v, View.degree e v = e.degreeVec[v]? := by
  obtain ⟨h1, h2, h3, _⟩ := C75_config d r h0 he
  obtain ⟨hw, hd⟩ := realises_iff.mp h1
  have hs : Shows d.length e.graph.toSimple (written ((List.range d.length).map Node.newFromIndex) ws) e := Shows.of hw h2 h3
  refine ⟨hs, fun v => ?_⟩
  rw [← hd]
  show e.graph.degree v = _
  unfold GenericGraph.degree GenericGraph.degreeVec
  rw [List.getElem?_map]

/-- `SmallWorldWS` after any history of calls and writes; `edge_count` is always `n d`. -/
theorem C85_ws [Node T] {n d : Nat} (hn : n < 2 ^ 32) (p : ℚ) (r : R) {fuel : Nat} {e0 : Ws T R}
    (h0 : Ws.new fuel n d p r = .ok (.ok e0)) {ws : List (Nat × T)} {e : Ws T R} (he : Hist Ws.Call Ws.setAt e0 ws e) :
    Shows n e.graph.toSimple (written ((List.range n).map Node.newFromIndex) ws) e ∧ View.edgeCount e = n * d := by
  obtain ⟨h1, h2, h4, h3, _⟩ := C75_ws hn p r h0 he
  exact ⟨Shows.of h1.wf h2 h3, h4⟩

/-- `BAensemble` (constructor `new`) after any history of calls and writes. -/
theorem C85_ba [Node T] {n m s : Nat} (r : R) {fuel : Nat} {e0 : Ba T R} (h0 : Ba.new fuel n r m s = .ok e0)
    {ws : List (Nat × T)} {e : Ba T R} (he : Hist Ba.Call Ba.setAt e0 ws e) :
    Shows n e.graph.toSimple (written ((List.range n).map Node.newFromIndex) ws) e ∧
      View.edgeCount e = s * (s - 1) / 2 + m * (n - s) := by
  obtain ⟨h1, h2, h4, _, _, _, h3, _⟩ := C75_ba_new r h0 he
  exact ⟨Shows.of h1 h2 h3, h4⟩

/-- `SpacialEnsemble` after any history of calls. -/
theorem C85_spacial [Node T] (n : Nat) (r : R) (law : Pos → Pos → ℚ) :
    ∃ e0 : Spacial T R, Spacial.new n r law = .ok e0 ∧ ∀ e, Relation.ReflTransGen Spacial.Call e0 e →
      Shows n e.graph.toSimple ((List.range n).map Node.newFromIndex) e := by
  obtain ⟨e0, h0, h⟩ := C75_spacial (T := T) n r law
  refine ⟨e0, h0, fun e he => ?_⟩
  obtain ⟨h1, h2, h3, _⟩ := h e he
  exact Shows.of h1 h2 h3

end

/-- A case that meets the hypotheses: two vertices are attached to an edge, a value is written, the network is drawn again; the
ensemble then shows the star with the centre `0`. -/
example : ∃ e0 e : Ba Nat Script, Ba.new 3 4 ⟨[]⟩ 1 2 = .ok e0 ∧ Hist Ba.Call Ba.setAt e0 [(1, 7)] e ∧
    View.containedIter e = [0, 7, 2, 3] ∧ View.diameter e = .ok (some 2) ∧ View.leafCount e = 3 ∧ View.edgeCount e = 3 ∧
    View.bfsIndexDepth e 2 5 = .ok [(2, 2, 0), (0, 0, 1), (1, 7, 2), (3, 3, 2)] := by
  have key : ((Ba.new 3 4 ⟨[]⟩ 1 2 : Res (Ba Nat Script)).bind fun e => (e.setAt 1 7).bind fun e1 =>
      (e1.randomize 3).bind fun e2 => .ok (decide (View.containedIter e2 = [0, 7, 2, 3] ∧ View.diameter e2 = .ok (some 2) ∧
        View.leafCount e2 = 3 ∧ View.edgeCount e2 = 3 ∧
        View.bfsIndexDepth e2 2 5 = .ok [(2, 2, 0), (0, 0, 1), (1, 7, 2), (3, 3, 2)]))) = .ok true := by
    decide +kernel
  obtain ⟨e0, h0, h1⟩ := Res.bind_eq_ok.mp key
  obtain ⟨e1, h2, h3⟩ := Res.bind_eq_ok.mp h1
  obtain ⟨e2, h4, h5⟩ := Res.bind_eq_ok.mp h3
  simp only [Res.ok.injEq, decide_eq_true_eq] at h5
  exact ⟨e0, e2, h0, .call (.write .refl h2) (.randomize 3 h4), h5⟩

end Verif
