import Verif.Props.Delegate
import Verif.Props.Stale
import Verif.Props.Iter
import Verif.Props.Connect

/-!
# C75: whatever is done to an ensemble through its public interface, it stays valid

Histories of all public calls that change an ensemble, in any order and with any arguments, also step values that were made up.
-/

set_option linter.unusedSectionVars false
set_option linter.unusedSimpArgs false

namespace Verif
open AdjContainer GenericGraph

/-- The states reachable from `e`: `call x y` says that some call other than a write of node data leads from `x` to `y`; the list
collects the writes. -/
inductive Hist {E T : Type} (call : E → E → Prop) (write : E → Nat → T → Res E) (e : E) : List (Nat × T) → E → Prop
  | refl : Hist call write e [] e
  | call {ws : List (Nat × T)} {x y : E} : Hist call write e ws x → call x y → Hist call write e ws y
  | write {ws : List (Nat × T)} {x y : E} {i : Nat} {t : T} : Hist call write e ws x → write x i t = .ok y →
      Hist call write e (ws ++ [(i, t)]) y

/-- Node data after writes. -/
def written {T : Type} (d : List T) (ws : List (Nat × T)) : List T := ws.foldl (fun d p => d.set p.1 p.2) d

theorem Hist.keeps {E T : Type} {call : E → E → Prop} {write : E → Nat → T → Res E} {I : E → Prop} {data : E → List T}
    (hc : ∀ x y, I x → call x y → I y ∧ data y = data x)
    (hw : ∀ x y i t, I x → write x i t = .ok y → I y ∧ data y = (data x).set i t) {e x : E} {ws : List (Nat × T)}
    (h : Hist call write e ws x) (he : I e) : I x ∧ data x = written (data e) ws := by
  induction h with
  | refl => exact ⟨he, rfl⟩
  | call _ h1 ih =>
    obtain ⟨a, b⟩ := hc _ _ ih.1 h1
    exact ⟨a, b.trans ih.2⟩
  | write _ h1 ih =>
    obtain ⟨a, b⟩ := hw _ _ _ _ ih.1 h1
    refine ⟨a, ?_⟩
    rw [b, ih.2, written, written, List.foldl_append]
    rfl

section
variable {T A : Type} [AdjContainer T A] [LawfulAdj T A]

/-- `add_edge` with any arguments, if it returns. -/
theorem addEdge_ret {g g' : GenericGraph T A} {r : Except GraphErr Unit} {i j : Nat} (h : g.WF) (e : g.addEdge i j = .ok (r, g')) :
    (r = .ok () ∧ s(i, j) ∉ g.edges ∧ i ≠ j ∧ g'.WF ∧ g'.nextId = g.nextId ∧ g'.data = g.data ∧ g'.edgeCount = g.edgeCount + 1 ∧
      g'.edges = insert s(i, j) g.edges) ∨ ((∃ err, r = .error err) ∧ g' = g) := by
  by_cases hv : i < g.nextId ∧ j < g.nextId ∧ i ≠ j
  · by_cases hex : s(i, j) ∈ g.edges
    · rw [addEdge_exists h (h.mem_edges.mp hex)] at e
      cases e
      exact .inr ⟨⟨_, rfl⟩, rfl⟩
    · obtain ⟨g1, h1, h2, h3, h4, h5, h6⟩ := addEdge_edges h hv.1 hv.2.1 hv.2.2 hex
      rw [h1] at e
      cases e
      exact .inl ⟨rfl, hex, hv.2.2, h2, h3, h6, h4, h5⟩
  · rw [addEdge_panic hv] at e
    cases e

/-- `remove_edge` with any arguments, if it returns. -/
theorem removeEdge_ret {g g' : GenericGraph T A} {r : Except GraphErr Unit} {i j : Nat} (h : g.WF)
    (e : g.removeEdge i j = .ok (r, g')) :
    (r = .ok () ∧ s(i, j) ∈ g.edges ∧ i ≠ j ∧ g'.WF ∧ g'.nextId = g.nextId ∧ g'.data = g.data ∧ g'.edgeCount + 1 = g.edgeCount ∧
      g'.edges = g.edges.erase s(i, j)) ∨ ((∃ err, r = .error err) ∧ g' = g) := by
  by_cases hv : i < g.nextId ∧ j < g.nextId ∧ i ≠ j
  · by_cases hex : s(i, j) ∈ g.edges
    · obtain ⟨g1, h1, h2, h3, h4, h5, h6⟩ := removeEdge_edges h hex
      rw [h1] at e
      cases e
      exact .inl ⟨rfl, hex, hv.2.2, h2, h3, h6, h4, h5⟩
    · rw [removeEdge_absent h hv.1 hv.2.1 hv.2.2 (fun hc => hex (h.mem_edges.mpr hc))] at e
      cases e
      exact .inr ⟨⟨_, rfl⟩, rfl⟩
  · rw [removeEdge_panic hv] at e
    cases e

/-- Writing node data with any index, if it returns. -/
theorem setAt_ret {g g' : GenericGraph T A} {i : Nat} {t : T} (h : g.WF) (e : g.setAt i t = .ok g') :
    g'.WF ∧ g'.nextId = g.nextId ∧ g'.edgeCount = g.edgeCount ∧ g'.edges = g.edges ∧ g'.degreeVec = g.degreeVec ∧
      g'.data = g.data.set i t := by
  by_cases hi : i < g.nextId
  · obtain ⟨g1, h1, h2, h3, h4, h5, h6⟩ := setAt_spec h hi t
    rw [h1] at e
    cases e
    refine ⟨h2, h3, h4, h2.edges_eq_of (fun a b => ?_), ?_, h6⟩
    · rw [h.mem_edges, h5]
    · rw [degreeVec_eq_iff h2]
      refine ⟨?_, fun k hk => ?_⟩
      · rw [GenericGraph.degreeVec, List.length_map, h.len]; exact h3
      · rw [h5]
        have hk' : k < g.vertices.length := by rw [h.len, ← h3]; exact hk
        have := degree_spec h (show k < g.nextId by rw [← h3]; exact hk)
        rw [List.getD_eq_getElem?_getD, GenericGraph.degreeVec, List.getElem?_map]
        rw [GenericGraph.degree] at this
        rw [this]
        rfl
  · rw [setAt_panic h hi] at e
    cases e

/-- Sorting, if it returns. -/
theorem sortAdj_ret {g g' : GenericGraph T A} (h : g.WF) (e : g.sortAdj = .ok g') :
    g'.WF ∧ g'.nextId = g.nextId ∧ g'.edgeCount = g.edgeCount ∧ g'.edges = g.edges ∧ g'.data = g.data := by
  obtain ⟨g1, h1, h2, h3, h4, h5, _⟩ := sortAdj_spec h
  rw [h1] at e
  cases e
  exact ⟨h2, h3.n, h3.ec, h2.edges_eq_of (fun a b => by rw [h.mem_edges, (h5 a).mem_iff]), h4⟩

/-- A mutable iterator can do nothing but write: every history of calls on it, with writes through the references it hands out, has the
effect of a list of writes through `at_mut` at existing vertices. -/
theorem C75_iterators_write {S : Type} (I : IterImpl S Nat) :
    ∀ (ops : List (IterOp (Nat × T) × (T → T))) (g : GenericGraph T A) (s : S) (os : List (IterObs (Nat × T))) (vs : List A) (s' : S),
      mutRun I ops (g.vertices, s) = .ok (os, (vs, s')) →
      ∃ ws : List (Nat × T), ws.foldlM (fun g p => g.setAt p.1 p.2) g = .ok { g with vertices := vs } ∧
        ∀ p ∈ ws, p.1 < g.vertices.length := by
  intro ops
  induction ops with
  | nil =>
    intro g s os vs s' h
    simp only [mutRun, Res.ok.injEq, Prod.mk.injEq] at h
    obtain ⟨_, h2, _⟩ := h
    subst h2
    exact ⟨[], rfl, by simp⟩
  | cons op ops ih =>
    intro g s os vs s' h
    obtain ⟨op, upd⟩ := op
    simp only [mutRun, Res.bind_eq_ok] at h
    obtain ⟨⟨o, vs1, s1⟩, h1, ⟨os', vs2, s2⟩, h2, h3⟩ := h
    simp only [Res.pure_eq, Res.ok.injEq, Prod.mk.injEq] at h3
    obtain ⟨_, rfl, rfl⟩ := h3
    simp only [mutStep, Res.bind_eq_ok] at h1
    obtain ⟨⟨o', s3⟩, h4, h5⟩ := h1
    have nowrite : vs1 = g.vertices → ∃ ws : List (Nat × T), ws.foldlM (fun g p => g.setAt p.1 p.2) g = .ok { g with vertices := vs2 } ∧
        ∀ p ∈ ws, p.1 < g.vertices.length := by
      rintro rfl
      exact ih g s1 os' vs2 s2 h2
    dsimp only at h5
    split at h5
    · rename_i i t
      simp only [Res.bind_eq_ok] at h5
      obtain ⟨c, h6, h7⟩ := h5
      simp only [Res.pure_eq, Res.ok.injEq, Prod.mk.injEq] at h7
      obtain ⟨_, h8, _⟩ := h7
      subst h8
      obtain ⟨hi, hc⟩ := Vec.idx_eq_ok.mp h6 |> List.getElem?_eq_some_iff.mp
      obtain ⟨ws, k1, k2⟩ := ih { g with vertices := g.vertices.set i (setContained c (upd t)) } s1 os' vs2 s2 h2
      refine ⟨(i, upd t) :: ws, ?_, ?_⟩
      · rw [List.foldlM_cons]
        have : g.setAt i (upd t) = .ok { g with vertices := g.vertices.set i (setContained c (upd t)) } := by
          simp only [GenericGraph.setAt, GenericGraph.container, h6, Res.ok_bind, Res.pure_eq]
        show Res.bind (g.setAt i (upd t)) _ = _
        rw [this]
        exact k1
      · intro p hp
        rcases List.mem_cons.mp hp with rfl | hp
        · exact hi
        · have := k2 p hp
          rwa [List.length_set] at this
    · simp only [Res.pure_eq, Res.ok.injEq, Prod.mk.injEq] at h5
      exact nowrite h5.2.1.symm

end

variable {T R : Type} [Rng R]

/-! ## ErEnsembleC -/

/-- The public calls that change an `ErEnsembleC`, apart from writes of node data. -/
inductive ErC.Call : ErC T R → ErC T R → Prop
  | mStep {x y : ErC T R} {s : ErStepC} : x.mStep = .ok (s, y) → ErC.Call x y
  | undo {x y : ErC T R} (s : ErStepC) {u : ErStepC} : x.undoStep s = .ok (u, y) → ErC.Call x y
  | undoQuiet {x y : ErC T R} (s : ErStepC) : x.undoStepQuiet s = .ok y → ErC.Call x y
  | randomize {x y : ErC T R} : x.randomize = .ok y → ErC.Call x y
  | makeConnected {x y : ErC T R} : x.makeConnected = .ok y → ErC.Call x y
  | setTargetConnectivity {x y : ErC T R} (c : ℚ) : x.setTargetConnectivity c = .ok y → ErC.Call x y
  | swapRng {x : ErC T R} (r : R) : ErC.Call x (x.swapRng r).2
  | sortAdj {x y : ErC T R} : x.sortAdj = .ok y → ErC.Call x y

/-- What every call on an `ErEnsembleC` keeps. -/
structure ErC.Sound (n : Nat) (e : ErC T R) : Prop where
  wf : e.graph.WF
  count : e.graph.vertexCount = n
  prob : e.prob = e.cTarget / ((n : ℚ) - 1)

theorem unwrapOk_eq_ok {α : Type} {r : Except GraphErr Unit} {x y : α} (h : unwrapOk (r, x) = .ok y) : r = .ok () ∧ x = y := by
  cases r with
  | ok u => cases h; exact ⟨rfl, rfl⟩
  | error e => cases h

theorem ErC.Sound.call {n : Nat} {x y : ErC T R} (h : x.Sound n) (hc : ErC.Call x y) : y.Sound n ∧ y.graph.data = x.graph.data := by
  obtain ⟨hw, hn, hp⟩ := h
  have add : ∀ {i j : Nat} {r : Except GraphErr Unit} {g : Graph T}, x.graph.addEdge i j = .ok (r, g) →
      g.WF ∧ g.nextId = x.graph.nextId ∧ g.data = x.graph.data := by
    intro i j r g hg
    rcases addEdge_ret hw hg with ⟨_, _, _, a, b, c, _⟩ | ⟨_, rfl⟩
    · exact ⟨a, b, c⟩
    · exact ⟨hw, rfl, rfl⟩
  have rem : ∀ {i j : Nat} {r : Except GraphErr Unit} {g : Graph T}, x.graph.removeEdge i j = .ok (r, g) →
      g.WF ∧ g.nextId = x.graph.nextId ∧ g.data = x.graph.data := by
    intro i j r g hg
    rcases removeEdge_ret hw hg with ⟨_, _, _, a, b, c, _⟩ | ⟨_, rfl⟩
    · exact ⟨a, b, c⟩
    · exact ⟨hw, rfl, rfl⟩
  have done : ∀ {z : ErC T R} {g : Graph T}, g.WF ∧ g.nextId = x.graph.nextId ∧ g.data = x.graph.data → z.graph = g →
      z.prob = x.prob → z.cTarget = x.cTarget → z.Sound n ∧ z.graph.data = x.graph.data := by
    rintro z g ⟨a, b, c⟩ rfl h1 h2
    exact ⟨⟨a, Eq.trans b hn, by rw [h1, h2, hp]⟩, c⟩
  cases hc with
  | mStep hs =>
    simp only [ErC.mStep, Res.bind_eq_ok] at hs
    obtain ⟨⟨edge, rng⟩, _, hs⟩ := hs
    dsimp only at hs
    split at hs
    · simp only [Res.bind_eq_ok] at hs
      obtain ⟨⟨r, g⟩, h1, h2⟩ := hs
      cases r <;> (cases h2; exact done (add h1) rfl rfl rfl)
    · simp only [Res.bind_eq_ok] at hs
      obtain ⟨⟨r, g⟩, h1, h2⟩ := hs
      cases r <;> (cases h2; exact done (rem h1) rfl rfl rfl)
  | undo s hs =>
    cases s with
    | addedEdge e =>
      simp only [ErC.undoStep, Res.bind_eq_ok] at hs
      obtain ⟨⟨r, g⟩, h1, h2⟩ := hs
      cases r <;> (cases h2; exact done (rem h1) rfl rfl rfl)
    | removedEdge e =>
      simp only [ErC.undoStep, Res.bind_eq_ok] at hs
      obtain ⟨⟨r, g⟩, h1, h2⟩ := hs
      cases r <;> (cases h2; exact done (add h1) rfl rfl rfl)
    | nothing => cases hs; exact done ⟨hw, rfl, rfl⟩ rfl rfl rfl
    | gError e => cases hs; exact done ⟨hw, rfl, rfl⟩ rfl rfl rfl
  | undoQuiet s hs =>
    cases s with
    | addedEdge e =>
      simp only [ErC.undoStepQuiet, Res.bind_eq_ok] at hs
      obtain ⟨⟨r, g⟩, h1, g', h2, h3⟩ := hs
      obtain ⟨rfl, rfl⟩ := unwrapOk_eq_ok h2
      cases h3
      exact done (rem h1) rfl rfl rfl
    | removedEdge e =>
      simp only [ErC.undoStepQuiet, Res.bind_eq_ok] at hs
      obtain ⟨⟨r, g⟩, h1, g', h2, h3⟩ := hs
      obtain ⟨rfl, rfl⟩ := unwrapOk_eq_ok h2
      cases h3
      exact done (add h1) rfl rfl rfl
    | nothing => cases hs; exact done ⟨hw, rfl, rfl⟩ rfl rfl rfl
    | gError e => cases hs
  | randomize hs =>
    obtain ⟨y', h1, h2, h3, h4, h5, _⟩ := C32_er_c_randomize hw
    rw [hs] at h1
    cases h1
    refine done ⟨h2, h3, h4⟩ rfl h5 ?_
    simp only [ErC.randomize, Res.bind_eq_ok] at hs
    obtain ⟨s, _, h7⟩ := hs
    cases h7
    rfl
  | makeConnected hs =>
    by_cases h0 : 0 < x.graph.vertexCount
    · obtain ⟨y', h1, h2, h3, h4, _⟩ := C28_make_connected hw h0
      rw [hs] at h1
      cases h1
      simp only [ErC.makeConnected, Res.bind_eq_ok] at hs
      obtain ⟨l, _, h7⟩ := hs
      split at h7
      · cases h7
      · simp only [Res.bind_eq_ok] at h7
        obtain ⟨g, _, h8⟩ := h7
        cases h8
        exact done ⟨h2, h3, h4⟩ rfl rfl rfl
    · rw [C28_make_connected_empty (by omega)] at hs
      cases hs
  | setTargetConnectivity c hs =>
    simp only [ErC.setTargetConnectivity, Res.bind_eq_ok] at hs
    obtain ⟨n1, h1, h2⟩ := hs
    cases h2
    refine ⟨⟨hw, hn, ?_⟩, rfl⟩
    simp only [Res.sub] at h1
    split at h1
    · cases h1
      dsimp only
      rw [Nat.cast_sub (by assumption), hn]
      simp
    · cases h1
  | swapRng r => exact done ⟨hw, rfl, rfl⟩ rfl rfl rfl
  | sortAdj hs =>
    simp only [ErC.sortAdj, Res.bind_eq_ok] at hs
    obtain ⟨g, h1, h2⟩ := hs
    cases h2
    obtain ⟨a, b, _, _, c⟩ := sortAdj_ret hw h1
    exact done ⟨a, b, c⟩ rfl rfl rfl

theorem ErC.Sound.write {n : Nat} {x y : ErC T R} {i : Nat} {t : T} (h : x.Sound n) (hs : x.setAt i t = .ok y) :
    y.Sound n ∧ y.graph.data = x.graph.data.set i t := by
  simp only [ErC.setAt, Res.bind_eq_ok] at hs
  obtain ⟨g, h1, h2⟩ := hs
  cases h2
  obtain ⟨a, b, _, _, _, c⟩ := setAt_ret h.wf h1
  exact ⟨⟨a, Eq.trans b h.count, h.prob⟩, c⟩

/-- `ErEnsembleC`: after any history of public calls with any arguments (also step values that were made up) the graph is a simple
graph on the `n` vertices of the constructor, the node data are those of the constructor with the writes of the history, and the
probability belongs to the connectivity that was set last.  In each of these states the next call returns (a step needs two vertices). -/
theorem C75_er_c [Node T] {n : Nat} (hn : 0 < n) (c : ℚ) (r : R) :
    ∃ e0 : ErC T R, ErC.new n c r = .ok e0 ∧ ∀ ws e, Hist ErC.Call ErC.setAt e0 ws e →
      e.graph.WF ∧ e.graph.vertexCount = n ∧ e.graph.edgeCount = e.graph.edges.card ∧ e.prob = e.cTarget / ((n : ℚ) - 1) ∧
      e.graph.data = written ((List.range n).map Node.newFromIndex) ws ∧
      (2 ≤ n → ∃ s x, e.mStep = .ok (s, x)) ∧ (∃ x, e.randomize = .ok x) ∧ (∃ x, e.makeConnected = .ok x) ∧
      (∀ c, ∃ x, e.setTargetConnectivity c = .ok x) ∧ (∃ x, e.sortAdj = .ok x) ∧ (∀ i < n, ∀ t, ∃ x, e.setAt i t = .ok x) := by
  obtain ⟨e0, h1, h2, h3, h4, h5, h6, _⟩ := (C32_er_c_new (T := T) n c r).2 hn
  refine ⟨e0, h1, fun ws e he => ?_⟩
  obtain ⟨a, b⟩ := Hist.keeps (I := ErC.Sound n) (data := fun e => e.graph.data) (fun x y hx hc => hx.call hc)
    (fun x y i t hx hw => hx.write hw) he ⟨h2, h3, by rw [h4, h5]⟩
  refine ⟨a.wf, a.count, a.wf.edgeCount_eq_card, a.prob, by rw [b, h6], fun h => ?_, ?_, ?_, fun c => ?_, ?_, fun i hi t => ?_⟩
  · obtain ⟨s, x, hx, _⟩ := C32_er_c_step a.wf (by rw [a.count]; exact h)
    exact ⟨s, x, hx⟩
  · obtain ⟨x, hx, _⟩ := C32_er_c_randomize a.wf
    exact ⟨x, hx⟩
  · obtain ⟨x, hx, _⟩ := C28_make_connected a.wf (by rw [a.count]; exact hn)
    exact ⟨x, hx⟩
  · have h0 : 1 ≤ e.graph.vertexCount := by rw [a.count]; exact hn
    exact ⟨_, by simp only [ErC.setTargetConnectivity, Res.sub, if_pos h0, Res.ok_bind, Res.pure_eq]; rfl⟩
  · obtain ⟨g, hg, _⟩ := sortAdj_spec a.wf
    exact ⟨_, by simp only [ErC.sortAdj, hg, Res.ok_bind, Res.pure_eq]; rfl⟩
  · obtain ⟨g, hg, _⟩ := setAt_spec a.wf (show i < e.graph.nextId by rw [show e.graph.nextId = n from a.count]; exact hi) t
    exact ⟨_, by simp only [ErC.setAt, hg, Res.ok_bind, Res.pure_eq]; rfl⟩

/-! ## ErEnsembleM -/

/-- The public calls that change an `ErEnsembleM`, apart from writes of node data. -/
inductive ErM.Call : ErM T R → ErM T R → Prop
  | mStep {x y : ErM T R} {s : ErStepM} : x.mStep = .ok (s, y) → ErM.Call x y
  | undo {x y : ErM T R} (s : ErStepM) {u : ErStepM} : x.undoStep s = .ok (u, y) → ErM.Call x y
  | undoQuiet {x y : ErM T R} (s : ErStepM) : x.undoStepQuiet s = .ok y → ErM.Call x y
  | randomize {x y : ErM T R} : x.randomize = .ok y → ErM.Call x y
  | swapRng {x : ErM T R} (r : R) : ErM.Call x (x.swapRng r).2
  | sortAdj {x y : ErM T R} : x.sortAdj = .ok y → ErM.Call x y

/-- What every call on an `ErEnsembleM` keeps, whatever step values are undone. -/
structure ErM.Sound (n m : Nat) (e : ErM T R) : Prop where
  wf : e.graph.WF
  count : e.graph.vertexCount = n
  edges : e.graph.edgeCount = m
  fixed : e.m = m
  len : e.currentEdges.length = m
  possible_len : m + e.possibleEdges.length = (allPairs n).length
  all : e.allEdges.Perm (allPairs n)

theorem ErM.Inv.sound {e : ErM T R} (h : e.Inv) : e.Sound e.graph.vertexCount e.m := by
  refine ⟨h.wf, rfl, ?_, rfl, h.len, ?_, h.all⟩
  · exact h.edgeCount
  · have := h.split.length_eq
    rw [List.length_append, h.len] at this
    exact this

theorem ErM.Sound.step {n m : Nat} {x y : ErM T R} {s : ErStepM} (h : x.Sound n m) (hs : x.step s = .ok y) :
    y.Sound n m ∧ y.graph.data = x.graph.data := by
  simp only [ErM.step, Res.bind_eq_ok] at hs
  obtain ⟨⟨r1, g1⟩, h1, g1', h2, ⟨r2, g2⟩, h3, g2', h4, c, h5, q, h6, h7⟩ := hs
  obtain ⟨rfl, rfl⟩ := unwrapOk_eq_ok h2
  obtain ⟨rfl, rfl⟩ := unwrapOk_eq_ok h4
  cases h7
  rcases removeEdge_ret h.wf h1 with ⟨_, _, _, a1, a2, a3, a4, _⟩ | ⟨⟨_, hh⟩, _⟩
  · rcases addEdge_ret a1 h3 with ⟨_, _, _, b1, b2, b3, b4, _⟩ | ⟨⟨_, hh⟩, _⟩
    · refine ⟨⟨b1, ?_, ?_, h.fixed, ?_, ?_, h.all⟩, b3.trans a3⟩
      · exact (Eq.trans b2 a2).trans h.count
      · have := h.edges
        show g2.edgeCount = m
        omega
      · show (List.set _ _ _).length = m
        rw [List.length_set, h.len]
      · show m + (List.set _ _ _).length = _
        rw [List.length_set, h.possible_len]
    · cases hh
  · cases hh

theorem ErM.Sound.call {n m : Nat} {x y : ErM T R} (h : x.Sound n m) (hc : ErM.Call x y) :
    y.Sound n m ∧ y.graph.data = x.graph.data := by
  cases hc with
  | mStep hs =>
    simp only [ErM.mStep, Res.bind_eq_ok] at hs
    obtain ⟨⟨i, r1⟩, _, ⟨j, r2⟩, _, c, _, q, _, z, h1, h2⟩ := hs
    cases h2
    exact ErM.Sound.step (x := { x with rng := r2 }) ⟨h.wf, h.count, h.edges, h.fixed, h.len, h.possible_len, h.all⟩ h1
  | undo s hs =>
    simp only [ErM.undoStep, Res.bind_eq_ok] at hs
    obtain ⟨z, h1, h2⟩ := hs
    cases h2
    exact h.step h1
  | undoQuiet s hs => exact h.step hs
  | randomize hs =>
    obtain ⟨y', a1, a2, a3, a5, a4, _⟩ := ErM.randomize_spec (e := x) h.wf (by rw [show x.graph.nextId = n from h.count]; exact h.all)
      (by rw [h.len, h.fixed]) (by rw [h.fixed, show x.graph.nextId = n from h.count]; exact h.possible_len)
    rw [hs] at a1
    cases a1
    have := a2.sound
    rw [show y.graph.vertexCount = n from Eq.trans a3 h.count, show y.m = m from a4.trans h.fixed] at this
    exact ⟨this, a5⟩
  | swapRng r => exact ⟨⟨h.wf, h.count, h.edges, h.fixed, h.len, h.possible_len, h.all⟩, rfl⟩
  | sortAdj hs =>
    simp only [ErM.sortAdj, Res.bind_eq_ok] at hs
    obtain ⟨g, h1, h2⟩ := hs
    cases h2
    obtain ⟨a, b, c, _, d⟩ := sortAdj_ret h.wf h1
    exact ⟨⟨a, Eq.trans b h.count, Eq.trans c h.edges, h.fixed, h.len, h.possible_len, h.all⟩, d⟩

theorem ErM.Sound.write {n m : Nat} {x y : ErM T R} {i : Nat} {t : T} (h : x.Sound n m) (hs : x.setAt i t = .ok y) :
    y.Sound n m ∧ y.graph.data = x.graph.data.set i t := by
  simp only [ErM.setAt, Res.bind_eq_ok] at hs
  obtain ⟨g, h1, h2⟩ := hs
  cases h2
  obtain ⟨a, b, c, _, _, d⟩ := setAt_ret h.wf h1
  exact ⟨⟨a, Eq.trans b h.count, Eq.trans c h.edges, h.fixed, h.len, h.possible_len, h.all⟩, d⟩

/-- `ErEnsembleM`: after any history of public calls with any arguments (also step values that were made up or undone out of order)
the graph is a simple graph with the `n` vertices and `m` edges of the constructor, and the node data are those of the constructor with
the writes of the history.  Made-up steps may have put the internal lists out of step with the graph (C74), but the next `randomize`
returns and puts them right. -/
theorem C75_er_m [Node T] {n m : Nat} (hn : 1 ≤ n) (hm : m ≤ n * (n - 1) / 2) (r : R) :
    ∃ e0 : ErM T R, ErM.new n m r = .ok e0 ∧ ∀ ws e, Hist ErM.Call ErM.setAt e0 ws e →
      e.graph.WF ∧ e.graph.vertexCount = n ∧ e.graph.edgeCount = m ∧ e.graph.edges.card = m ∧
      e.graph.data = written ((List.range n).map Node.newFromIndex) ws ∧
      (∃ x, e.randomize = .ok x ∧ x.Inv) ∧ (∃ x, e.sortAdj = .ok x) ∧ (∀ i < n, ∀ t, ∃ x, e.setAt i t = .ok x) := by
  obtain ⟨e0, h1, h2, h3, h5, h4⟩ := ErM.new_spec (T := T) hn hm r
  refine ⟨e0, h1, fun ws e he => ?_⟩
  have hs := h2.sound
  rw [show e0.graph.vertexCount = n from h3, h5] at hs
  obtain ⟨a, b⟩ := Hist.keeps (I := ErM.Sound n m) (data := fun e => e.graph.data) (fun x y hx hc => hx.call hc)
    (fun x y i t hx hw => hx.write hw) he hs
  have hnx : e.graph.nextId = n := a.count
  refine ⟨a.wf, a.count, a.edges, a.wf.edgeCount_eq_card.symm.trans a.edges, by rw [b, h4], ?_, ?_, fun i hi t => ?_⟩
  · obtain ⟨y, a1, a2, _⟩ := ErM.randomize_spec (e := e) a.wf (by rw [hnx]; exact a.all)
      (by rw [a.len, a.fixed]) (by rw [a.fixed, hnx]; exact a.possible_len)
    exact ⟨y, a1, a2⟩
  · obtain ⟨g, hg, _⟩ := sortAdj_spec a.wf
    exact ⟨_, by simp only [ErM.sortAdj, hg, Res.ok_bind, Res.pure_eq]; rfl⟩
  · obtain ⟨g, hg, _⟩ := setAt_spec a.wf (show i < e.graph.nextId by rw [hnx]; exact hi) t
    exact ⟨_, by simp only [ErM.setAt, hg, Res.ok_bind, Res.pure_eq]; rfl⟩

/-! ## SwEnsemble -/

theorem sw_setAt {g g' : SwGraph T} {i : Nat} {t : T} (h : SwValid g) (e : g.setAt i t = .ok g') :
    SwValid g' ∧ g'.nextId = g.nextId ∧ g'.data = g.data.set i t := by
  obtain ⟨a, b, c, _, _, d⟩ := setAt_ret h.wf e
  have raw : ∀ u, SwGraph.raw g' u = SwGraph.raw g u := by
    intro u
    simp only [GenericGraph.setAt, GenericGraph.container, Res.bind_eq_ok] at e
    obtain ⟨c, h1, h2⟩ := e
    cases h2
    have hc := Vec.idx_eq_ok.mp h1
    unfold SwGraph.raw
    dsimp only
    by_cases hu : i = u
    · subst hu
      rw [List.getElem?_set_self (List.getElem?_eq_some_iff.mp hc).1, hc]
      rfl
    · rw [List.getElem?_set_ne hu]
  refine ⟨⟨a, by rw [b]; exact h.size, by rw [b, c]; exact h.count, fun u hu => ?_, fun u z hz z' hz' hd => ?_⟩, b, d⟩
  · rw [raw, b]
    exact h.roots u (by rw [← b]; exact hu)
  · rw [raw] at hz hz'
    exact h.oneEnd u z hz z' hz' hd

/-- `SwEnsemble`: any history of the calls of `SwHist` (all calls that change the ensemble, with any step values, but without writes)
and of writes of node data keeps the invariant of C35, and the node data are those of the constructor with the writes.  In each of
these states the next `randomize`, step, sorting and write returns. -/
theorem C75_sw [Node T] {n : Nat} (hn : 5 ≤ n) (p : ℚ) (r : R) :
    ∃ e0 : SwEns T R, SwEns.new n p r = .ok e0 ∧ ∀ ws e, Hist SwHist SwEns.setAt e0 ws e →
      SwValid e.graph ∧ e.graph.vertexCount = n ∧ e.graph.edgeCount = 2 * n ∧
      e.graph.data = written ((GenericGraph.new n : SwGraph T).data) ws ∧
      (∃ s x, e.mStep = .ok (s, x)) ∧ (∃ x, e.randomize = .ok x) ∧ (∃ x, e.makeConnected = .ok x) ∧ (∃ x, e.sortAdj = .ok x) ∧
      (∀ i < n, ∀ t, ∃ x, e.setAt i t = .ok x) := by
  obtain ⟨e0, a1, a2, a3, a4, _⟩ := SwEns.new_spec (T := T) hn p r
  refine ⟨e0, a1, fun ws e he => ?_⟩
  obtain ⟨⟨v, b2⟩, b3⟩ := Hist.keeps (I := fun e : SwEns T R => SwValid e.graph ∧ e.graph.nextId = n) (data := fun e => e.graph.data)
    (fun x y hx hc => by
      obtain ⟨c1, c2, c3⟩ := hc.valid hx.1
      exact ⟨⟨c1, c2.trans hx.2⟩, c3⟩)
    (fun x y i t hx hw => by
      simp only [SwEns.setAt, Res.bind_eq_ok] at hw
      obtain ⟨g, h1, h2⟩ := hw
      cases h2
      obtain ⟨c1, c2, c3⟩ := sw_setAt hx.1 h1
      exact ⟨⟨c1, Eq.trans c2 hx.2⟩, c3⟩) he ⟨a2, a3⟩
  refine ⟨v, b2, by rw [v.count, b2], by rw [b3, a4], ?_, ?_, ?_, ?_, fun i hi t => ?_⟩
  · obtain ⟨s, y, c1, _⟩ := SwEns.mStep_spec v
    exact ⟨s, y, c1⟩
  · obtain ⟨y, c1, _⟩ := SwEns.randomize_spec v
    exact ⟨y, c1⟩
  · obtain ⟨g', c1, _⟩ := connectLoop_sw_spec (e.graph.vertexCount + 1) v (by
      show e.graph.nextId + 1 ≤ e.graph.nextId + 1 + _; omega)
    exact ⟨_, by unfold SwEns.makeConnected; rw [c1]; rfl⟩
  · obtain ⟨g, hg, _⟩ := sortAdj_spec v.wf
    exact ⟨_, by simp only [SwEns.sortAdj, hg, Res.ok_bind, Res.pure_eq]; rfl⟩
  · obtain ⟨g, hg, _⟩ := setAt_spec v.wf (show i < e.graph.nextId by rw [b2]; exact hi) t
    exact ⟨_, by simp only [SwEns.setAt, hg, Res.ok_bind, Res.pure_eq]; rfl⟩

/-! ## ConfigurationModel -/

/-- The public calls that change a `ConfigurationModel`, apart from writes of node data; the flag tells the calls
that are given new degrees. -/
inductive Config.Call : Bool → Config T R → Config T R → Prop
  | mStep {x y : Config T R} {s : ConfigStep} (fuel : Nat) : x.mStep fuel = .ok (s, y) → Config.Call false x y
  | undo {x y : Config T R} (s : ConfigStep) {u : Except UndoErrCM Unit} : x.undoStep s = .ok (u, y) → Config.Call false x y
  | undoQuiet {x y : Config T R} (s : ConfigStep) : x.undoStepQuiet s = .ok y → Config.Call false x y
  | randomize {x y : Config T R} (fuel : Nat) : x.randomize fuel = .ok y → Config.Call false x y
  | swapDegreeVec {x y : Config T R} (fuel : Nat) (d : List Nat) {old : List Nat} :
      x.swapDegreeVec fuel d = .ok (old, y) → Config.Call true x y
  | swapDegreeVecUnchecked {x y : Config T R} (fuel : Nat) (d : List Nat) {old : List Nat} :
      x.swapDegreeVecUnchecked fuel d = .ok (old, y) → Config.Call true x y
  | degreeVecFrom {x y : Config T R} (fuel : Nat) {T1 A1 : Type} [AdjContainer T1 A1] [LawfulAdj T1 A1] (g : GenericGraph T1 A1) :
      g.WF → x.degreeVecFromGenericGraph fuel g = .ok y → Config.Call true x y
  | swapRng {x : Config T R} (r : R) : Config.Call false x (x.swapRng r).2
  | sortAdj {x y : Config T R} : x.sortAdj = .ok y → Config.Call false x y

/-- One edge more or less, with the change of the degrees. -/
theorem addEdge_deg {g g' : Graph T} {i j : Nat} (h : g.WF) (e : g.addEdge i j = .ok (.ok (), g')) :
    g'.WF ∧ g'.nextId = g.nextId ∧ g'.data = g.data ∧ (∀ v, (g'.nbrs v).length = (g.nbrs v).length + inc v i j) ∧ 
    g'.edges = insert s(i, j) g.edges ∧ s(i, j) ∉ g.edges := by
  rcases addEdge_ret h e with ⟨_, a, b, c, d, e, _, f⟩ | ⟨⟨_, hh⟩, _⟩
  · exact ⟨c, d, e, fun v => deg_insert h c b a f v, f, a⟩
  · cases hh

theorem removeEdge_deg {g g' : Graph T} {i j : Nat} (h : g.WF) (e : g.removeEdge i j = .ok (.ok (), g')) :
    g'.WF ∧ g'.nextId = g.nextId ∧ g'.data = g.data ∧ (∀ v, (g'.nbrs v).length + inc v i j = (g.nbrs v).length) ∧
    g'.edges = g.edges.erase s(i, j) ∧ s(i, j) ∈ g.edges := by
  rcases removeEdge_ret h e with ⟨_, a, b, c, d, e, _, f⟩ | ⟨⟨_, hh⟩, _⟩
  · refine ⟨c, d, e, fun v => ?_, f, a⟩
    have := degOf_erase b a v
    rw [c.deg_eq, h.deg_eq, f]
    omega
  · cases hh

theorem addEdge_err {g g' : Graph T} {i j : Nat} {err : GraphErr} (h : g.WF) (e : g.addEdge i j = .ok (.error err, g')) : g' = g := by
  rcases addEdge_ret h e with ⟨hh, _⟩ | ⟨_, hh⟩
  · cases hh
  · exact hh

theorem removeEdge_err {g g' : Graph T} {i j : Nat} {err : GraphErr} (h : g.WF) (e : g.removeEdge i j = .ok (.error err, g')) :
    g' = g := by
  rcases removeEdge_ret h e with ⟨hh, _⟩ | ⟨_, hh⟩
  · cases hh
  · exact hh

/-- Undoing any step value, if it returns: the degrees stay. -/
theorem Config.undo_ret {x y : Config T R} {s : ConfigStep} {u : Except UndoErrCM Unit} (h : x.Inv) (hs : x.undoStep s = .ok (u, y)) :
    y.Inv ∧ y.graph.data = x.graph.data ∧ y.degreeVec = x.degreeVec := by
  cases s with
  | error => cases hs; exact ⟨h, rfl, rfl⟩
  | added e1 e2 =>
    obtain ⟨a, b⟩ := e1
    obtain ⟨c, d⟩ := e2
    have fin : ∀ {g : Graph T}, g.WF → g.nextId = x.graph.nextId → g.data = x.graph.data →
        (∀ v, (g.nbrs v).length = (x.graph.nbrs v).length) → ({ x with graph := g } : Config T R).Inv ∧
        ({ x with graph := g } : Config T R).graph.data = x.graph.data ∧ ({ x with graph := g } : Config T R).degreeVec = x.degreeVec :=
      fun h1 h2 h3 h4 => ⟨Config.Inv.of_graph (rng := x.rng) h h1 h2 h4, h3, rfl⟩
    simp only [Config.undoStep, Res.bind_eq_ok] at hs
    obtain ⟨⟨r1, g1⟩, h1, hs⟩ := hs
    cases r1 with
    | error err =>
      cases hs
      obtain rfl := addEdge_err h.wf h1
      exact fin h.wf rfl rfl (fun _ => rfl)
    | ok _ =>
    obtain ⟨a1, a2, a3, a4, _⟩ := addEdge_deg h.wf h1
    simp only [Res.bind_eq_ok] at hs
    obtain ⟨⟨r2, g2⟩, h2, hs⟩ := hs
    cases r2 with
    | error err =>
      obtain rfl := addEdge_err a1 h2
      simp only [Res.bind_eq_ok] at hs
      obtain ⟨⟨r3, g3⟩, h3, g4, h4, h5⟩ := hs
      obtain ⟨rfl, rfl⟩ := unwrapOk_eq_ok h4
      obtain ⟨b1, b2, b3, b4, _⟩ := removeEdge_deg a1 h3
      cases h5
      exact fin b1 (b2.trans a2) (b3.trans a3) (fun v => by have := a4 v; have := b4 v; omega)
    | ok _ =>
    obtain ⟨b1, b2, b3, b4, _⟩ := addEdge_deg a1 h2
    simp only [Res.bind_eq_ok] at hs
    obtain ⟨⟨r3, g3⟩, h3, hs⟩ := hs
    cases r3 with
    | error err =>
      obtain rfl := removeEdge_err b1 h3
      simp only [Res.bind_eq_ok] at hs
      obtain ⟨⟨r4, g4⟩, h4, g4', k4, ⟨r5, g5⟩, h5, g5', k5, h6⟩ := hs
      obtain ⟨rfl, rfl⟩ := unwrapOk_eq_ok k4
      obtain ⟨rfl, rfl⟩ := unwrapOk_eq_ok k5
      obtain ⟨c1, c2, c3, c4, _⟩ := removeEdge_deg b1 h4
      obtain ⟨d1, d2, d3, d4, _⟩ := removeEdge_deg c1 h5
      cases h6
      exact fin d1 (d2.trans (c2.trans (b2.trans a2))) (d3.trans (c3.trans (b3.trans a3)))
        (fun v => by have := a4 v; have := b4 v; have := c4 v; have := d4 v; omega)
    | ok _ =>
    obtain ⟨c1, c2, c3, c4, _⟩ := removeEdge_deg b1 h3
    simp only [Res.bind_eq_ok] at hs
    obtain ⟨⟨r4, g4⟩, h4, hs⟩ := hs
    cases r4 with
    | error err =>
      obtain rfl := removeEdge_err c1 h4
      simp only [Res.bind_eq_ok] at hs
      obtain ⟨⟨r5, g5⟩, h5, g5', k5, ⟨r6, g6⟩, h6, g6', k6, ⟨r7, g7⟩, h7, g7', k7, h8⟩ := hs
      obtain ⟨rfl, rfl⟩ := unwrapOk_eq_ok k5
      obtain ⟨rfl, rfl⟩ := unwrapOk_eq_ok k6
      obtain ⟨rfl, rfl⟩ := unwrapOk_eq_ok k7
      obtain ⟨d1, d2, d3, d4, _⟩ := removeEdge_deg c1 h5
      obtain ⟨e1, e2, e3, e4, _⟩ := removeEdge_deg d1 h6
      obtain ⟨f1, f2, f3, f4, _⟩ := addEdge_deg e1 h7
      cases h8
      exact fin f1 (f2.trans (e2.trans (d2.trans (c2.trans (b2.trans a2))))) (f3.trans (e3.trans (d3.trans (c3.trans (b3.trans a3)))))
        (fun v => by have := a4 v; have := b4 v; have := c4 v; have := d4 v; have := e4 v; have := f4 v; omega)
    | ok _ =>
    obtain ⟨d1, d2, d3, d4, _⟩ := removeEdge_deg c1 h4
    cases hs
    exact fin d1 (d2.trans (c2.trans (b2.trans a2))) (d3.trans (c3.trans (b3.trans a3)))
      (fun v => by have := a4 v; have := b4 v; have := c4 v; have := d4 v; unfold inc at *; dsimp only at *; omega)

theorem Config.undoQuiet_ret {x y : Config T R} {s : ConfigStep} (hs : x.undoStepQuiet s = .ok y) : x.undoStep s = .ok (.ok (), y) := by
  cases s with
  | error => cases hs; rfl
  | added e1 e2 =>
    simp only [Config.undoStepQuiet, Res.bind_eq_ok] at hs
    obtain ⟨⟨r1, g1⟩, h1, g1', k1, ⟨r2, g2⟩, h2, g2', k2, ⟨r3, g3⟩, h3, g3', k3, ⟨r4, g4⟩, h4, g4', k4, h5⟩ := hs
    obtain ⟨rfl, rfl⟩ := unwrapOk_eq_ok k1
    obtain ⟨rfl, rfl⟩ := unwrapOk_eq_ok k2
    obtain ⟨rfl, rfl⟩ := unwrapOk_eq_ok k3
    obtain ⟨rfl, rfl⟩ := unwrapOk_eq_ok k4
    cases h5
    simp only [Config.undoStep, h1, h2, h3, h4, Res.ok_bind]
    rfl

theorem Config.call_ret {x y : Config T R} {flag : Bool} (h : x.Inv) (hc : Config.Call flag x y) :
    (y.Inv ∧ y.graph.vertexCount = x.graph.vertexCount) ∧ y.graph.data = x.graph.data := by
  have len : ∀ {g : Graph T}, g.WF → g.data = x.graph.data → g.vertexCount = x.graph.vertexCount := by
    intro g hg hd
    have := congrArg List.length hd
    simp only [GenericGraph.data, List.length_map, hg.len, h.wf.len] at this
    exact this
  cases hc with
  | mStep fuel hs =>
    rcases Nat.eq_zero_or_pos x.graph.edgeCount with h0 | h0
    · cases fuel with
      | zero => simp [Config.mStep, Config.drawVertices] at hs
      | succ k => rw [C42_config_step_no_edges h h0] at hs; cases hs
    · obtain ⟨a, _, b, _⟩ := (C42_config_step h h0 fuel).2 _ _ hs
      exact ⟨⟨a, len a.wf b⟩, b⟩
  | undo s hs =>
    obtain ⟨a, b, _⟩ := Config.undo_ret h hs
    exact ⟨⟨a, len a.wf b⟩, b⟩
  | undoQuiet s hs =>
    obtain ⟨a, b, _⟩ := Config.undo_ret h (Config.undoQuiet_ret hs)
    exact ⟨⟨a, len a.wf b⟩, b⟩
  | randomize fuel hs =>
    have hev : x.degreeVec.sum % 2 = 0 := by rw [← h.deg, (C26_degrees h.wf).2.2.1]; omega
    obtain ⟨a, _, _, b⟩ := (C40_config_randomize h.toBase hev fuel).2 _ hs
    exact ⟨⟨a, len a.wf b⟩, b⟩
  | swapDegreeVec fuel d hs =>
    obtain ⟨_, _, _, a, _, _, b⟩ := C40_config_swap_degree_vec h.toBase d fuel hs
    exact ⟨⟨a, len a.wf b⟩, b⟩
  | swapDegreeVecUnchecked fuel d hs =>
    rcases Nat.mod_two_eq_zero_or_one d.sum with hev | hodd
    · obtain ⟨_, a, _, _, b⟩ := (C40_config_swap_unchecked h.toBase d hev fuel).2 _ _ hs
      exact ⟨⟨a, len a.wf b⟩, b⟩
    · simp only [Config.swapDegreeVecUnchecked, Res.bind_eq_ok] at hs
      obtain ⟨_, ha, z, hz, _⟩ := hs
      rw [Res.assert_eq_ok, beq_iff_eq] at ha
      have hb : (Config.initEdgeHalfs { x with degreeVec := d }).Base := ⟨h.wf, h.n.trans ha, halves_init _⟩
      exact absurd hz (C40_config_odd_sum hb hodd fuel z)
  | degreeVecFrom fuel g hg hs =>
    obtain ⟨a, b, _⟩ := (C40_config_degrees_of_graph h.toBase hg fuel).2 _ hs
    exact ⟨⟨a, len a.wf b⟩, b⟩
  | swapRng r => exact ⟨⟨((C67_config_cosmetic h).2.2 r).2.1, rfl⟩, rfl⟩
  | sortAdj hs =>
    obtain ⟨z, a1, a2, _⟩ := (C67_config_cosmetic h).1
    rw [hs] at a1
    cases a1
    simp only [Config.sortAdj, Res.bind_eq_ok] at hs
    obtain ⟨g, h1, h2⟩ := hs
    cases h2
    obtain ⟨_, b, _, _, d⟩ := sortAdj_ret h.wf h1
    exact ⟨⟨a2, b⟩, d⟩

theorem Config.call_keeps {x y : Config T R} (h : x.Inv) (hc : Config.Call false x y) : y.degreeVec = x.degreeVec := by
  cases hc with
  | mStep fuel hs =>
    rcases Nat.eq_zero_or_pos x.graph.edgeCount with h0 | h0
    · cases fuel with
      | zero => simp [Config.mStep, Config.drawVertices] at hs
      | succ k => rw [C42_config_step_no_edges h h0] at hs; cases hs
    · obtain ⟨a, b, _⟩ := (C42_config_step h h0 fuel).2 _ _ hs
      rw [← a.deg]
      exact (realises_iff.mp b).2
  | undo s hs => exact (Config.undo_ret h hs).2.2
  | undoQuiet s hs => exact (Config.undo_ret h (Config.undoQuiet_ret hs)).2.2
  | randomize fuel hs =>
    have hev : x.degreeVec.sum % 2 = 0 := by rw [← h.deg, (C26_degrees h.wf).2.2.1]; omega
    exact ((C40_config_randomize h.toBase hev fuel).2 _ hs).2.2.1
  | swapRng r => rfl
  | sortAdj hs =>
    simp only [Config.sortAdj, Res.bind_eq_ok] at hs
    obtain ⟨g, h1, h2⟩ := hs
    cases h2
    rfl

theorem Config.write_ret {x y : Config T R} {i : Nat} {t : T} (h : x.Inv) (hs : x.setAt i t = .ok y) :
    ((y.Inv ∧ y.graph.vertexCount = x.graph.vertexCount) ∧ y.degreeVec = x.degreeVec) ∧ y.graph.data = x.graph.data.set i t := by
  simp only [Config.setAt, Res.bind_eq_ok] at hs
  obtain ⟨g, h1, h2⟩ := hs
  cases h2
  obtain ⟨a, b, _, _, c, d⟩ := setAt_ret h.wf h1
  exact ⟨⟨⟨⟨⟨a, Eq.trans b h.n, h.halves⟩, c.trans h.deg⟩, b⟩, rfl⟩, d⟩

/-- `ConfigurationModel`: after any history of public calls with any arguments (also step values that were made up, and degree
sequences that were not checked) the graph is simple and its degrees are those that `degree_vec` returns; the number of vertices is
that of the constructor and the node data are those of the constructor with the writes of the history.  In each of these states
`randomize` does not panic, and a step does not unless there are no edges. -/
theorem C75_config [Node T] (d : List Nat) (r : R) {fuel : Nat} {e0 : Config T R} (h0 : Config.fromVecUnchecked fuel d r = .ok e0)
    {ws : List (Nat × T)} {e : Config T R} (he : Hist (fun x y => ∃ b, Config.Call b x y) Config.setAt e0 ws e) :
    Realises e.graph e.degreeVec ∧ e.graph.vertexCount = d.length ∧
    e.graph.data = written ((List.range d.length).map Node.newFromIndex) ws ∧
    (∀ fuel, e.randomize fuel ≠ .panic) ∧ (1 ≤ e.graph.edgeCount → ∀ fuel, e.mStep fuel ≠ .panic) ∧ (∃ x, e.sortAdj = .ok x) ∧
    (∀ i < d.length, ∀ t, ∃ x, e.setAt i t = .ok x) := by
  obtain ⟨_, h1, h2, h3, h4⟩ := (C40_config_new (T := T) d r fuel).2 e0 h0
  obtain ⟨⟨a, c⟩, b⟩ := Hist.keeps (I := fun e : Config T R => e.Inv ∧ e.graph.vertexCount = d.length) (data := fun e => e.graph.data)
    (fun x y hx hc => by
      obtain ⟨f, hc⟩ := hc
      obtain ⟨⟨k1, k2⟩, k3⟩ := Config.call_ret hx.1 hc
      exact ⟨⟨k1, k2.trans hx.2⟩, k3⟩)
    (fun x y i t hx hw => by
      obtain ⟨⟨⟨k1, k2⟩, _⟩, k3⟩ := Config.write_ret hx.1 hw
      exact ⟨⟨k1, k2.trans hx.2⟩, k3⟩) he ⟨h1, h2.2.1⟩
  have hev : e.degreeVec.sum % 2 = 0 := by rw [← a.deg, (C26_degrees a.wf).2.2.1]; omega
  refine ⟨realises_iff.mpr ⟨a.wf, a.deg⟩, c, by rw [b, h4], fun f => (C40_config_randomize a.toBase hev f).1,
    fun hE f => (C42_config_step a hE f).1, ?_, fun i hi t => ?_⟩
  · obtain ⟨x, hx, _⟩ := (C67_config_cosmetic a).1
    exact ⟨x, hx⟩
  · obtain ⟨x, hx, _⟩ := (C67_config_cosmetic a).2.1 i t (by rw [c]; exact hi)
    exact ⟨x, hx⟩

/-- Without calls that are given new degrees the degrees stay those of the constructor. -/
theorem C75_config_degrees [Node T] (d : List Nat) (r : R) {fuel : Nat} {e0 : Config T R}
    (h0 : Config.fromVecUnchecked fuel d r = .ok e0) {ws : List (Nat × T)} {e : Config T R}
    (he : Hist (Config.Call false) Config.setAt e0 ws e) : Realises e.graph d ∧ e.degreeVec = d := by
  obtain ⟨_, h1, h2, h3, h4⟩ := (C40_config_new (T := T) d r fuel).2 e0 h0
  obtain ⟨⟨a, c⟩, b⟩ := Hist.keeps (I := fun e : Config T R => e.Inv ∧ e.degreeVec = d) (data := fun e => e.graph.data)
    (fun x y hx hc => by
      obtain ⟨⟨k1, k2⟩, k3⟩ := Config.call_ret hx.1 hc
      exact ⟨⟨k1, (Config.call_keeps hx.1 hc).trans hx.2⟩, k3⟩)
    (fun x y i t hx hw => by
      obtain ⟨⟨⟨k1, _⟩, k2⟩, k3⟩ := Config.write_ret hx.1 hw
      exact ⟨⟨k1, k2.trans hx.2⟩, k3⟩) he ⟨h1, h3⟩
  exact ⟨realises_iff.mpr ⟨a.wf, a.deg.trans c⟩, c⟩

/-! ## SmallWorldWS -/

/-- The public calls that change a `SmallWorldWS`, apart from writes of node data. -/
inductive Ws.Call : Ws T R → Ws T R → Prop
  | randomize {x y : Ws T R} (fuel : Nat) : x.randomize fuel = .ok y → Ws.Call x y
  | swapRng {x : Ws T R} (r : R) : Ws.Call x (x.swapRng r).2
  | sortAdj {x y : Ws T R} : x.sortAdj = .ok y → Ws.Call x y

/-- `SmallWorldWS`: after any history of public calls the invariant of C45 holds, with the node data of the constructor and the writes
of the history, and no call panics. -/
theorem C75_ws [Node T] {n d : Nat} (hn : n < 2 ^ 32) (p : ℚ) (r : R) {fuel : Nat} {e0 : Ws T R}
    (h0 : Ws.new fuel n d p r = .ok (.ok e0)) {ws : List (Nat × T)} {e : Ws T R} (he : Hist Ws.Call Ws.setAt e0 ws e) :
    WsValid d e.graph ∧ e.graph.vertexCount = n ∧ e.graph.edgeCount = n * d ∧
    e.graph.data = written ((List.range n).map Node.newFromIndex) ws ∧ e.neighborDistance = d ∧ e.rewireProb = p ∧
    (∀ fuel, e.randomize fuel ≠ .panic) ∧ (∃ x, e.sortAdj = .ok x) ∧ (∀ i < n, ∀ t, ∃ x, e.setAt i t = .ok x) := by
  obtain ⟨h1, h2, h3, h4, h5, h6⟩ := (C45_ws_new (T := T) fuel n d hn p r).2 e0 h0
  have hd : 2 * d + 1 ≤ n := by
    by_contra hc
    have := (C46_ws_new_error_iff (T := T) fuel n d hn p r .impossibleRingRequest).mpr ⟨by omega, rfl⟩
    rw [h0] at this
    cases this
  obtain ⟨⟨a1, a2, a3, a4⟩, b⟩ := Hist.keeps (I := fun e : Ws T R => WsValid d e.graph ∧ e.graph.vertexCount = n ∧
      e.neighborDistance = d ∧ e.rewireProb = p) (data := fun e => e.graph.data)
    (fun x y hx hc => by
      obtain ⟨x1, x2, x3, x4⟩ := hx
      cases hc with
      | randomize f hs =>
        obtain ⟨c1, c2, c3, c4, c5, _⟩ := (C45_ws_randomize x1.wf (by rw [x3, x2]; exact hd) (by rw [x2]; exact hn) f).2 _ hs
        rw [x3] at c1
        exact ⟨⟨c1, c2.trans x2, c5.trans x3, c4.trans x4⟩, c3⟩
      | swapRng r => exact ⟨⟨x1, x2, x3, x4⟩, rfl⟩
      | sortAdj hs =>
        obtain ⟨z, c1, c2, _, _, c3, _, c4, c5⟩ := (C67_ws_cosmetic x1).1
        rw [hs] at c1
        cases c1
        refine ⟨⟨c2, ?_, c5.trans x3, c4.trans x4⟩, c3⟩
        simp only [Ws.sortAdj, Res.bind_eq_ok] at hs
        obtain ⟨g, k1, k2⟩ := hs
        cases k2
        exact Eq.trans (sortAdj_ret x1.wf k1).2.1 x2)
    (fun x y i t hx hs => by
      obtain ⟨x1, x2, x3, x4⟩ := hx
      by_cases hi : i < x.graph.vertexCount
      · obtain ⟨z, c1, c2, _, c3, _, c4, c5⟩ := (C67_ws_cosmetic x1).2 i t hi
        rw [hs] at c1
        cases c1
        refine ⟨⟨c2, ?_, c5.trans x3, c4.trans x4⟩, c3⟩
        simp only [Ws.setAt, Res.bind_eq_ok] at hs
        obtain ⟨g, k1, k2⟩ := hs
        cases k2
        exact Eq.trans (setAt_ret x1.wf k1).2.1 x2
      · simp only [Ws.setAt, setAt_panic x1.wf hi] at hs
        cases hs) he ⟨h1, h2, h5, h6⟩
  refine ⟨a1, a2, by rw [a1.count, a2], by rw [b, h4], a3, a4, fun f => ?_, ?_, fun i hi t => ?_⟩
  · exact (C45_ws_randomize a1.wf (by rw [a3, a2]; exact hd) (by rw [a2]; exact hn) f).1
  · obtain ⟨x, hx, _⟩ := (C67_ws_cosmetic a1).1
    exact ⟨x, hx⟩
  · obtain ⟨x, hx, _⟩ := (C67_ws_cosmetic a1).2 i t (by rw [a2]; exact hi)
    exact ⟨x, hx⟩

/-! ## BAensemble -/

/-- The public calls that change a `BAensemble`, apart from writes of node data. -/
inductive Ba.Call : Ba T R → Ba T R → Prop
  | randomize {x y : Ba T R} (fuel : Nat) : x.randomize fuel = .ok y → Ba.Call x y
  | sortAdj {x y : Ba T R} : x.sortAdj = .ok y → Ba.Call x y

/-- What a Barabási-Albert graph grown from `src` to `n` vertices with `m` edges per vertex looks like. -/
structure Grown (src : Graph T) (n m : Nat) (E : Finset (Sym2 ℕ)) : Prop where
  card : E.card = src.edgeCount + m * (n - src.vertexCount)
  inside : ∀ u v, u < src.vertexCount → v < src.vertexCount → (s(u, v) ∈ E ↔ src.toSimple.Adj u v)
  degree : ∀ v, src.vertexCount ≤ v → v < n → m ≤ degOf E v
  connected : (∀ u v, u < src.vertexCount → v < src.vertexCount → src.toSimple.Reachable u v) → 1 ≤ m →
    ∀ u v, u < n → v < n → (SimpleGraph.fromEdgeSet (E : Set (Sym2 ℕ))).Reachable u v

theorem WF.fromEdgeSet {g : Graph T} (h : g.WF) : SimpleGraph.fromEdgeSet (g.edges : Set (Sym2 ℕ)) = g.toSimple := by
  ext u v
  rw [SimpleGraph.fromEdgeSet_adj, h.adj_iff, Finset.mem_coe, h.mem_edges]
  exact ⟨fun k => k.1, fun k => ⟨k, fun hc => by subst hc; exact h.irrefl _ k⟩⟩

theorem Grown.of_randomize {e e' : Ba T R} (hv : e.Valid) (hE : 1 ≤ e.source.edgeCount) {fuel : Nat}
    (he : e.randomize fuel = .ok e') : Grown e.source e.graph.vertexCount e.m e'.graph.edges := by
  obtain ⟨h1, h2, _⟩ := (C44_ba_randomize hv hE fuel).2 e' he
  obtain ⟨b1, b2, b3, b4⟩ := C44_ba_structure hv hE he
  refine ⟨by rw [← h1.graph.edgeCount_eq_card, b1], fun u v hu hv' => ?_, fun v h3 h4 => ?_, fun hr hm u v hu hv' => ?_⟩
  · rw [← b2 u v hu hv', h1.graph.adj_iff]
    exact h1.graph.mem_edges
  · rw [← h1.graph.deg_eq]
    exact b3 v h3 h4
  · rw [WF.fromEdgeSet h1.graph]
    exact b4 hr hm u v hu hv'

/-- `BAensemble`: after any history of public calls starting from a `randomize` of a valid state (which all constructors end with),
the graph is simple and has been grown from the source, with the node data of the constructor and the writes of the history, and
`randomize` does not panic. -/
theorem C75_ba {e1 e0 : Ba T R} (hv : e1.Valid) (hE : 1 ≤ e1.source.edgeCount) {fuel : Nat} (h0 : e1.randomize fuel = .ok e0)
    {ws : List (Nat × T)} {e : Ba T R} (he : Hist Ba.Call Ba.setAt e0 ws e) :
    e.graph.WF ∧ e.graph.vertexCount = e1.graph.vertexCount ∧ e.source = e1.source ∧ e.m = e1.m ∧
    Grown e1.source e1.graph.vertexCount e1.m e.graph.edges ∧ e.graph.data = written e1.graph.data ws ∧
    (∀ fuel, e.randomize fuel ≠ .panic) ∧ (∃ x, e.sortAdj = .ok x) ∧ (∀ i < e1.graph.vertexCount, ∀ t, ∃ x, e.setAt i t = .ok x) := by
  obtain ⟨h1, h2, h3, h4, h5, _⟩ := (C44_ba_randomize hv hE fuel).2 e0 h0
  obtain ⟨⟨a1, a2, a3, a4, a5⟩, b⟩ := Hist.keeps (I := fun e : Ba T R => e.Valid ∧ e.source = e1.source ∧ e.m = e1.m ∧
      e.graph.vertexCount = e1.graph.vertexCount ∧ Grown e1.source e1.graph.vertexCount e1.m e.graph.edges)
    (data := fun e => e.graph.data)
    (fun x y hx hc => by
      obtain ⟨x1, x2, x3, x4, x5⟩ := hx
      cases hc with
      | randomize f hs =>
        have hE' : 1 ≤ x.source.edgeCount := by rw [x2]; exact hE
        obtain ⟨c1, c2, c3, c4, c5, _⟩ := (C44_ba_randomize x1 hE' f).2 _ hs
        have := Grown.of_randomize x1 hE' hs
        rw [x2, x3, x4] at this
        exact ⟨⟨c1, c2.trans x2, c3.trans x3, c5.trans x4, this⟩, c4⟩
      | sortAdj hs =>
        obtain ⟨z, c1, c2, c3, c4, c5⟩ := (C67_ba_cosmetic x1).1
        rw [hs] at c1
        cases c1
        simp only [Ba.sortAdj, Res.bind_eq_ok] at hs
        obtain ⟨g, k1, k2⟩ := hs
        cases k2
        obtain ⟨_, b2, _, _, b5⟩ := sortAdj_ret x1.graph k1
        exact ⟨⟨c2, c4.trans x2, c5.trans x3, Eq.trans b2 x4, by rw [c3]; exact x5⟩, b5⟩)
    (fun x y i t hx hs => by
      obtain ⟨x1, x2, x3, x4, x5⟩ := hx
      by_cases hi : i < x.graph.vertexCount
      · obtain ⟨z, c1, c2, c3, c4, c5⟩ := (C67_ba_cosmetic x1).2 i t hi
        rw [hs] at c1
        cases c1
        simp only [Ba.setAt, Res.bind_eq_ok] at hs
        obtain ⟨g, k1, k2⟩ := hs
        cases k2
        obtain ⟨_, b2, _, _, _, b5⟩ := setAt_ret x1.graph k1
        exact ⟨⟨c2, c4.trans x2, c5.trans x3, Eq.trans b2 x4, by rw [c3]; exact x5⟩, b5⟩
      · simp only [Ba.setAt, setAt_panic x1.graph hi] at hs
        cases hs) he ⟨h1, h2, h3, h5, Grown.of_randomize hv hE h0⟩
  refine ⟨a1.graph, a4, a2, a3, a5, by rw [b, h4], fun f => (C44_ba_randomize a1 (by rw [a2]; exact hE) f).1, ?_, fun i hi t => ?_⟩
  · obtain ⟨x, hx, _⟩ := (C67_ba_cosmetic a1).1
    exact ⟨x, hx⟩
  · obtain ⟨x, hx, _⟩ := (C67_ba_cosmetic a1).2 i t (by rw [a4]; exact hi)
    exact ⟨x, hx⟩

/-- The constructor `new`: the source is complete. -/
theorem C75_ba_new [Node T] {n m s : Nat} (r : R) {fuel : Nat} {e0 : Ba T R} (h0 : Ba.new fuel n r m s = .ok e0)
    {ws : List (Nat × T)} {e : Ba T R} (he : Hist Ba.Call Ba.setAt e0 ws e) :
    e.graph.WF ∧ e.graph.vertexCount = n ∧ e.graph.edgeCount = s * (s - 1) / 2 + m * (n - s) ∧
    (∀ u v, u < s → v < s → u ≠ v → e.graph.toSimple.Adj u v) ∧ (∀ v, s ≤ v → v < n → m ≤ (e.graph.nbrs v).length) ∧
    (1 ≤ m → ∀ u v, u < n → v < n → e.graph.toSimple.Reachable u v) ∧
    e.graph.data = written ((List.range n).map Node.newFromIndex) ws ∧ (∀ fuel, e.randomize fuel ≠ .panic) := by
  have hsn : 2 ≤ s ∧ s < n := by
    by_contra hc
    rw [(C44_ba_new (T := T) n r m s fuel).1.mpr hc] at h0
    cases h0
  obtain ⟨hs, hn⟩ := hsn
  obtain ⟨g, h1, h2, h3, h4, h5, h6⟩ := completeGraph_spec (T := T) (n := s) (by omega)
  have heq : (Ba.new fuel n r m s : Res (Ba T R)) =
      Ba.randomize fuel { source := g, graph := GenericGraph.new n, rng := r, m, weights := List.replicate n 0 } := by
    simp [-Res.bind_eq_ok, Ba.new, hs, hn, h1]
  have hv : Ba.Valid ({ source := g, graph := GenericGraph.new n, rng := r, m, weights := List.replicate n 0 } : Ba T R) :=
    ⟨h2, new_wf _, by show g.nextId ≤ n; omega, by simp [GenericGraph.new, vertexCount]⟩
  have hE : 1 ≤ g.edgeCount := by
    rw [h4]
    obtain ⟨k, rfl⟩ : ∃ k, s = k + 2 := ⟨s - 2, by omega⟩
    show 1 ≤ (k + 2) * (k + 1) / 2
    rw [Nat.le_div_iff_mul_le (by omega)]
    calc 1 * 2 ≤ 2 * 1 := by omega
      _ ≤ (k + 2) * (k + 1) := Nat.mul_le_mul (by omega) (by omega)
  rw [heq] at h0
  obtain ⟨a1, a2, a3, a4, a5, a6, a7, _⟩ := C75_ba hv hE h0 he
  have hvc : g.vertexCount = s := h3
  have hvn : (GenericGraph.new n : Graph T).vertexCount = n := rfl
  obtain ⟨b1, b2, b3, b4⟩ := a5
  dsimp only at b1 b2 b3 b4 a6 a2
  rw [hvc] at b1 b2 b3 b4
  rw [hvn] at b1 b3 b4 a2
  have adj : ∀ {u v}, g.toSimple.Adj u v ↔ u < s ∧ v < s ∧ u ≠ v := by
    intro u v
    rw [h2.adj_iff, h5]
  refine ⟨a1, a2, by rw [a1.edgeCount_eq_card, b1, h4], fun u v hu hv' hne => ?_, fun v h7 h8 => ?_, fun hm u v hu hv' => ?_, ?_, a7⟩
  · rw [a1.adj_iff, ← a1.mem_edges, b2 u v hu hv', adj]
    exact ⟨hu, hv', hne⟩
  · rw [a1.deg_eq]
    exact b3 v h7 h8
  · rw [← WF.fromEdgeSet a1]
    refine b4 (fun u v hu hv' => ?_) hm u v hu hv'
    by_cases hne : u = v
    · subst hne; exact SimpleGraph.Reachable.refl _
    · exact (adj.mpr ⟨hu, hv', hne⟩).reachable
  · rw [a6, new_eq_fromVec, fromVec_data]

/-! ## SpacialEnsemble -/

/-- The public calls that change a `SpacialEnsemble`. -/
inductive Spacial.Call : Spacial T R → Spacial T R → Prop
  | mStep {x y : Spacial T R} {s : SpacialStep} : x.mStep = .ok (s, y) → Spacial.Call x y
  | quiet {x y : Spacial T R} (k : Nat) : x.mStepsQuiet k = .ok y → Spacial.Call x y
  | undo {x y : Spacial T R} (s : SpacialStep) {u : SpacialStep} : x.undoStep s = .ok (u, y) → Spacial.Call x y
  | undoQuiet {x y : Spacial T R} (s : SpacialStep) : x.undoStepQuiet s = .ok y → Spacial.Call x y
  | randomize {x y : Spacial T R} : x.randomize = .ok y → Spacial.Call x y


/-- What every call on a `SpacialEnsemble` keeps. -/
def Spacial.Kept (x y : Spacial T R) : Prop :=
  y.graph.WF ∧ y.graph.nextId = x.graph.nextId ∧ y.graph.data = x.graph.data ∧ coords y.graph = coords x.graph ∧ y.law = x.law

theorem Spacial.kept_add {x y : Spacial T R} (h : x.graph.WF) {i j : Nat} {r : Except GraphErr Unit} {g : SpacialGraph T}
    (hg : x.graph.addEdge i j = .ok (r, g)) (h1 : y.graph = g) (h2 : y.law = x.law) : Spacial.Kept x y := by
  subst h1
  have hc := coords_addEdge hg
  rcases addEdge_ret h hg with ⟨_, _, _, a, b, c, _⟩ | ⟨_, e⟩
  · exact ⟨a, b, c, hc, h2⟩
  · exact ⟨by rw [e]; exact h, by rw [e], by rw [e], hc, h2⟩

theorem Spacial.kept_remove {x y : Spacial T R} (h : x.graph.WF) {i j : Nat} {r : Except GraphErr Unit} {g : SpacialGraph T}
    (hg : x.graph.removeEdge i j = .ok (r, g)) (h1 : y.graph = g) (h2 : y.law = x.law) : Spacial.Kept x y := by
  subst h1
  have hc := coords_removeEdge hg
  rcases removeEdge_ret h hg with ⟨_, _, _, a, b, c, _⟩ | ⟨_, e⟩
  · exact ⟨a, b, c, hc, h2⟩
  · exact ⟨by rw [e]; exact h, by rw [e], by rw [e], hc, h2⟩

theorem Spacial.Kept.trans {x y z : Spacial T R} (h1 : Spacial.Kept x y) (h2 : Spacial.Kept y z) : Spacial.Kept x z :=
  ⟨h2.1, h2.2.1.trans h1.2.1, h2.2.2.1.trans h1.2.2.1, h2.2.2.2.1.trans h1.2.2.2.1, h2.2.2.2.2.trans h1.2.2.2.2⟩

theorem Spacial.quiet_ret {x y : Spacial T R} (h : x.graph.WF) (hs : x.quietBody = .ok y) : Spacial.Kept x y := by
  simp only [Spacial.quietBody, Res.bind_eq_ok] at hs
  obtain ⟨⟨⟨i, j⟩, r1⟩, _, p, _, hs⟩ := hs
  dsimp only at hs
  split at hs
  · simp only [Res.bind_eq_ok] at hs
    obtain ⟨⟨r, g⟩, h1, h2⟩ := hs
    cases h2
    exact Spacial.kept_add h h1 rfl rfl
  · simp only [Res.bind_eq_ok] at hs
    obtain ⟨⟨r, g⟩, h1, h2⟩ := hs
    cases h2
    exact Spacial.kept_remove h h1 rfl rfl

theorem Spacial.quiets_ret : ∀ (l : List Nat) {x y : Spacial T R}, x.graph.WF → l.foldlM (fun (e : Spacial T R) _ => e.quietBody) x = .ok y →
    Spacial.Kept x y := by
  intro l
  induction l with
  | nil =>
    intro x y h hs
    cases hs
    exact ⟨h, rfl, rfl, rfl, rfl⟩
  | cons a l ih =>
    intro x y h hs
    rw [List.foldlM_cons] at hs
    obtain ⟨z, h1, h2⟩ := Res.bind_eq_ok.mp hs
    have k := Spacial.quiet_ret h h1
    exact k.trans (ih k.1 h2)

theorem Spacial.call_ret {x y : Spacial T R} (h : x.graph.WF) (hc : Spacial.Call x y) : Spacial.Kept x y := by
  have same : Spacial.Kept x x := ⟨h, rfl, rfl, rfl, rfl⟩
  cases hc with
  | mStep hs =>
    simp only [Spacial.mStep, Res.bind_eq_ok] at hs
    obtain ⟨⟨edge, r1⟩, _, p, _, hs⟩ := hs
    dsimp only at hs
    split at hs
    · simp only [Res.bind_eq_ok] at hs
      obtain ⟨⟨r, g⟩, h1, h2⟩ := hs
      cases r <;> (cases h2; exact Spacial.kept_add h h1 rfl rfl)
    · simp only [Res.bind_eq_ok] at hs
      obtain ⟨⟨r, g⟩, h1, h2⟩ := hs
      cases r <;> (cases h2; exact Spacial.kept_remove h h1 rfl rfl)
  | quiet k hs => exact Spacial.quiets_ret _ h hs
  | undo s hs =>
    cases s with
    | addedEdge e =>
      simp only [Spacial.undoStep, Res.bind_eq_ok] at hs
      obtain ⟨⟨r, g⟩, h1, h2⟩ := hs
      cases r <;> (cases h2; exact Spacial.kept_remove h h1 rfl rfl)
    | removedEdge e =>
      simp only [Spacial.undoStep, Res.bind_eq_ok] at hs
      obtain ⟨⟨r, g⟩, h1, h2⟩ := hs
      cases r <;> (cases h2; exact Spacial.kept_add h h1 rfl rfl)
    | nothing => cases hs; exact same
    | error => cases hs; exact same
  | undoQuiet s hs =>
    cases s with
    | addedEdge e =>
      simp only [Spacial.undoStepQuiet, Res.bind_eq_ok] at hs
      obtain ⟨⟨r, g⟩, h1, g', h2, h3⟩ := hs
      obtain ⟨rfl, rfl⟩ := unwrapOk_eq_ok h2
      cases h3
      exact Spacial.kept_remove h h1 rfl rfl
    | removedEdge e =>
      simp only [Spacial.undoStepQuiet, Res.bind_eq_ok] at hs
      obtain ⟨⟨r, g⟩, h1, g', h2, h3⟩ := hs
      obtain ⟨rfl, rfl⟩ := unwrapOk_eq_ok h2
      cases h3
      exact Spacial.kept_add h h1 rfl rfl
    | nothing => cases hs; exact same
    | error => cases hs
  | randomize hs =>
    obtain ⟨y', h1, h2, h3, h4, h5, h6, _⟩ := C47_spacial_randomize h
    rw [hs] at h1
    cases h1
    exact ⟨h2, h3, h4, h5, h6⟩

/-- `SpacialEnsemble`: after any history of public calls with any step values the graph is a simple graph on the vertices of the
constructor, at the positions and with the node data and edge law of the constructor; `randomize` returns, and so does a step if there
are two vertices. -/
theorem C75_spacial [Node T] (n : Nat) (r : R) (law : Pos → Pos → ℚ) :
    ∃ e0 : Spacial T R, Spacial.new n r law = .ok e0 ∧ ∀ e, Relation.ReflTransGen Spacial.Call e0 e →
      e.graph.WF ∧ e.graph.vertexCount = n ∧ e.graph.data = (List.range n).map Node.newFromIndex ∧ coords e.graph = coords e0.graph ∧
      e.law = law ∧ (∃ x, e.randomize = .ok x) ∧ (2 ≤ n → ∃ s x, e.mStep = .ok (s, x)) := by
  obtain ⟨e0, _, h1, h2, h3, h4, h5, _⟩ := C47_spacial_new (T := T) n r law
  refine ⟨e0, h1, fun e he => ?_⟩
  have key : Spacial.Kept e0 e := by
    induction he with
    | refl => exact ⟨h2, rfl, rfl, rfl, rfl⟩
    | tail _ hc ih => exact ih.trans (Spacial.call_ret ih.1 hc)
  obtain ⟨a1, a2, a3, a4, a5⟩ := key
  refine ⟨a1, Eq.trans a2 h3, a3.trans h5, a4, a5.trans h4, ?_, fun hn => ?_⟩
  · obtain ⟨x, hx, _⟩ := C47_spacial_randomize a1
    exact ⟨x, hx⟩
  · obtain ⟨s, x, hx, _⟩ := C47_spacial_step a1 (by rw [show e.graph.vertexCount = n from Eq.trans a2 h3]; exact hn)
    exact ⟨s, x, hx⟩


/-! ## Histories exist -/

/-- A history with a step value that no step returned, and a write; the lists are out of step with the graph afterwards. -/
example : ∃ e0 e : ErM Nat Script, ErM.new 3 1 ⟨[]⟩ = .ok e0 ∧ Hist ErM.Call ErM.setAt e0 [(2, 9)] e ∧ e.graph.data = [0, 1, 9] ∧
    e.currentEdges = [(0, 2)] ∧ e.graph.nbrs 0 = [] ∧ e.graph.edgeCount = 1 := by
  have key : ((ErM.new 3 1 ⟨[]⟩ : Res (ErM Nat Script)).bind fun e => (e.undoStep ⟨(1, 2), 0, (0, 1), 0⟩).bind fun p =>
      (p.2.setAt 2 9).bind fun e => .ok (e.graph.data, e.currentEdges, e.graph.nbrs 0, e.graph.edgeCount)) =
      .ok ([0, 1, 9], [(0, 2)], [], 1) := by
    decide +kernel
  obtain ⟨e0, h0, h1⟩ := Res.bind_eq_ok.mp key
  obtain ⟨⟨u, e1⟩, h2, h3⟩ := Res.bind_eq_ok.mp h1
  obtain ⟨e, h4, h5⟩ := Res.bind_eq_ok.mp h3
  simp only [Res.ok.injEq, Prod.mk.injEq] at h5
  exact ⟨e0, e, h0, .write (.call .refl (.undo _ h2)) h4, h5.1, h5.2.1, h5.2.2.1, h5.2.2.2⟩

/-- A made-up step, then new degrees that are not checked. -/
example : ∃ e0 e1 e : Config Nat Script, Config.fromVecUnchecked 3 [1, 1, 1, 1] ⟨[]⟩ = .ok e0 ∧
    Hist (Config.Call false) Config.setAt e0 [(0, 5)] e1 ∧
    Hist (fun x y => ∃ b, Config.Call b x y) Config.setAt e1 [] e ∧ e1.graph.nbrs 0 = [2] ∧ e.graph.degreeVec = [0, 1, 1, 0] := by
  have key : ((Config.fromVecUnchecked 3 [1, 1, 1, 1] ⟨[]⟩ : Res (Config Nat Script)).bind fun e =>
      (e.undoStep (.added (0, 2) (1, 3))).bind fun p => (p.2.setAt 0 5).bind fun e1 =>
      (e1.swapDegreeVecUnchecked 3 [0, 1, 1, 0]).bind fun q => .ok (e1.graph.nbrs 0, q.2.graph.degreeVec)) =
      .ok ([2], [0, 1, 1, 0]) := by
    decide +kernel
  obtain ⟨e0, h0, h1⟩ := Res.bind_eq_ok.mp key
  obtain ⟨⟨u, e1⟩, h2, h3⟩ := Res.bind_eq_ok.mp h1
  obtain ⟨e2, h4, h5⟩ := Res.bind_eq_ok.mp h3
  obtain ⟨⟨old, e3⟩, h6, h7⟩ := Res.bind_eq_ok.mp h5
  simp only [Res.ok.injEq, Prod.mk.injEq] at h7
  exact ⟨e0, e2, e3, h0, .write (.call .refl (.undo _ h2)) h4, .call .refl ⟨true, .swapDegreeVecUnchecked 3 _ h6⟩, h7.1, h7.2⟩

/-- The node data of a `SmallWorldWS` survive a new sample. -/
example : ∃ e0 e : Ws Nat Script, Ws.new 3 6 1 0 ⟨List.replicate 12 1⟩ = .ok (.ok e0) ∧ Hist Ws.Call Ws.setAt e0 [(4, 7)] e ∧
    e.graph.data = [0, 1, 2, 3, 7, 5] := by
  have key : ((Ws.new 3 6 1 0 ⟨List.replicate 12 1⟩ : Res (Except WSCreationError (Ws Nat Script))).bind fun r =>
      match r with
      | .ok e => (e.setAt 4 7).bind fun e1 => ((e1.swapRng ⟨List.replicate 12 1⟩).2.randomize 3).bind fun e2 => .ok e2.graph.data
      | .error _ => .panic) = .ok [0, 1, 2, 3, 7, 5] := by
    decide +kernel
  obtain ⟨r, h0, h1⟩ := Res.bind_eq_ok.mp key
  cases r with
  | error e => cases h1
  | ok e0 =>
    obtain ⟨e1, h2, h3⟩ := Res.bind_eq_ok.mp h1
    obtain ⟨e2, h4, h5⟩ := Res.bind_eq_ok.mp h3
    simp only [Res.ok.injEq] at h5
    exact ⟨e0, e2, h0, .call (.call (.write .refl h2) (.swapRng _)) (.randomize 3 h4), h5⟩

/-- The same for a `BAensemble`. -/
example : ∃ e0 e : Ba Nat Script, Ba.new 3 4 ⟨[]⟩ 1 2 = .ok e0 ∧ Hist Ba.Call Ba.setAt e0 [(1, 7)] e ∧ e.graph.data = [0, 7, 2, 3] := by
  have key : ((Ba.new 3 4 ⟨[]⟩ 1 2 : Res (Ba Nat Script)).bind fun e => (e.setAt 1 7).bind fun e1 =>
      (e1.randomize 3).bind fun e2 => .ok e2.graph.data) = .ok [0, 7, 2, 3] := by
    decide +kernel
  obtain ⟨e0, h0, h1⟩ := Res.bind_eq_ok.mp key
  obtain ⟨e1, h2, h3⟩ := Res.bind_eq_ok.mp h1
  obtain ⟨e2, h4, h5⟩ := Res.bind_eq_ok.mp h3
  simp only [Res.ok.injEq] at h5
  exact ⟨e0, e2, h0, .call (.write .refl h2) (.randomize 3 h4), h5⟩

end Verif
