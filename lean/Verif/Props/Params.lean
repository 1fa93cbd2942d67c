import Verif.Model.Params
import Verif.Props.Api
import Verif.Props.Sw

/-!
# C82: the parameters are those set last, and a step value tells what the step did
-/

set_option linter.unusedSectionVars false
set_option linter.unusedSimpArgs false

namespace Verif
open AdjContainer GenericGraph

/-- The value set last in a list of calls, or the value at the beginning if there is none. -/
def lastSet {C : Type} (sets : C → Option ℚ) (init : ℚ) (cs : List C) : ℚ := ((cs.filterMap sets).getLast?).getD init

theorem lastSet_nil {C : Type} (sets : C → Option ℚ) (init : ℚ) : lastSet sets init [] = init := rfl

theorem lastSet_cons {C : Type} (sets : C → Option ℚ) (init : ℚ) (c : C) (cs : List C) :
    lastSet sets init (c :: cs) = lastSet sets ((sets c).getD init) cs := by
  unfold lastSet
  cases h : sets c with
  | none => simp [List.filterMap_cons, h]
  | some p =>
    rw [List.filterMap_cons, h, List.getLast?_cons]
    simp

/-- A parameter that each call sets to the value it names, or keeps, is the one set last. -/
theorem runCalls_lastSet {E C O : Type} {run : E → C → Res (Option O × E)} {sets : C → Option ℚ} {par : E → ℚ}
    (h : ∀ e c o e', run e c = .ok (o, e') → par e' = (sets c).getD (par e)) :
    ∀ (cs : List C) (e : E) (os : List O) (e' : E), runCalls run cs e = .ok (os, e') → par e' = lastSet sets (par e) cs := by
  intro cs
  induction cs with
  | nil =>
    intro e os e' he
    cases he
    rfl
  | cons c cs ih =>
    intro e os e' he
    simp only [runCalls, Res.bind_eq_ok] at he
    obtain ⟨⟨o, e1⟩, h1, ⟨os1, e2⟩, h2, h3⟩ := he
    cases h3
    rw [lastSet_cons, ← h _ _ _ _ h1]
    exact ih _ _ _ h2

theorem foldlM_keeps {α β γ : Type} {f : α → β → Res α} {P : α → γ} (h : ∀ a b a', f a b = .ok a' → P a' = P a) :
    ∀ (l : List β) (a a' : α), l.foldlM f a = .ok a' → P a' = P a := by
  intro l
  induction l with
  | nil =>
    intro a a' ha
    cases ha
    rfl
  | cons b l ih =>
    intro a a' ha
    rw [List.foldlM_cons] at ha
    obtain ⟨a1, h1, h2⟩ := Res.bind_eq_ok.mp ha
    rw [ih _ _ h2, h _ _ _ h1]

variable {T R : Type} [Rng R]

/-! ## SwEnsemble -/

/-- What a call sets the rewiring probability to. -/
def SwCall.sets : SwCall T R → Option ℚ
  | .setRProb p => some p
  | _ => none

theorem SwEns.randomizeEdge_rProb {e e' : SwEns T R} {s : SwChange} {i j : Nat} (h : e.randomizeEdge i j = .ok (s, e')) :
    e'.rProb = e.rProb := by
  simp only [SwEns.randomizeEdge] at h
  split at h
  · simp only [Res.bind_eq_ok] at h
    obtain ⟨_, _, ⟨_, _⟩, _, ⟨_, _⟩, _, h1⟩ := h
    cases h1
    rfl
  · simp only [Res.bind_eq_ok] at h
    obtain ⟨⟨_, _⟩, _, h1⟩ := h
    cases h1
    rfl

theorem SwEns.call_rProb {e e' : SwEns T R} {c : SwCall T R} {o : Option (ErObs SwChange R)} (h : SwCall.run e c = .ok (o, e')) :
    e'.getRProb = (SwCall.sets c).getD e.getRProb := by
  cases c with
  | mStep =>
    simp only [SwCall.run, Res.bind_eq_ok] at h
    obtain ⟨⟨s, e1⟩, h1, h2⟩ := h
    cases h2
    simp only [SwEns.mStep, SwEns.drawEdge, Res.bind_eq_ok] at h1
    obtain ⟨⟨edge, e2⟩, h3, h4⟩ := h1
    rw [SwEns.getRProb, SwEns.randomizeEdge_rProb h4]
    obtain ⟨⟨_, _⟩, _, _, _, _, _, h5⟩ := h3
    cases h5
    rfl
  | undoStep s =>
    simp only [SwCall.run, Res.bind_eq_ok] at h
    obtain ⟨⟨u, e1⟩, h1, h2⟩ := h
    cases h2
    cases s <;> simp only [SwEns.undoStep, Res.bind_eq_ok] at h1 <;>
      first
      | (cases h1; rfl)
      | (obtain ⟨⟨_, _⟩, _, h3⟩ := h1; cases h3; rfl)
  | undoStepQuiet s =>
    simp only [SwCall.run, Res.bind_eq_ok] at h
    obtain ⟨e1, h1, h2⟩ := h
    cases h2
    cases s <;> simp only [SwEns.undoStepQuiet, Res.bind_eq_ok] at h1 <;>
      first
      | (cases h1; done)
      | (cases h1; rfl)
      | (obtain ⟨⟨_, _⟩, _, _, _, h3⟩ := h1; cases h3; rfl)
  | randomize =>
    simp only [SwCall.run, Res.bind_eq_ok] at h
    obtain ⟨e1, h1, h2⟩ := h
    cases h2
    refine foldlM_keeps (P := fun e : SwEns T R => e.rProb) ?_ _ _ _ h1
    intro a i a' ha
    simp only [SwEns.randomizeVertex, Res.bind_eq_ok] at ha
    obtain ⟨_, _, _, _, _, _, _, _, ⟨_, x1⟩, k1, _, _, ⟨_, x2⟩, k2, _, _, k3⟩ := ha
    cases k3
    rw [SwEns.randomizeEdge_rProb k2, SwEns.randomizeEdge_rProb k1]
  | makeConnected =>
    simp only [SwCall.run, SwEns.makeConnected, Res.bind_eq_ok] at h
    obtain ⟨e1, ⟨g, _, h1⟩, h2⟩ := h
    cases h2
    cases h1
    rfl
  | setRProb p =>
    cases h
    rfl
  | swapRng r =>
    cases h
    rfl
  | sortAdj =>
    simp only [SwCall.run, SwEns.sortAdj, Res.bind_eq_ok] at h
    obtain ⟨e1, ⟨g, _, h1⟩, h2⟩ := h
    cases h2
    cases h1
    rfl
  | write i t =>
    simp only [SwCall.run, SwEns.setAt, Res.bind_eq_ok] at h
    obtain ⟨e1, ⟨g, _, h1⟩, h2⟩ := h
    cases h2
    cases h1
    rfl

/-- `SwEnsemble`: after any list of calls with any arguments `r_prob` returns the value of the last `set_r_prob`, or the value from the
beginning if there was none.  Setting it changes neither the graph nor the generator. -/
theorem C82_sw_r_prob {e : SwEns T R} (cs : List (SwCall T R)) {os : List (ErObs SwChange R)} {e' : SwEns T R}
    (h : runCalls SwCall.run cs e = .ok (os, e')) :
    e'.getRProb = lastSet SwCall.sets e.getRProb cs ∧
      ∀ p, (e'.setRProb p).getRProb = p ∧ (e'.setRProb p).graph = e'.graph ∧ (e'.setRProb p).rng = e'.rng :=
  ⟨runCalls_lastSet (par := SwEns.getRProb) (fun _ _ _ _ hc => SwEns.call_rProb hc) cs e os e' h, fun _ => ⟨rfl, rfl, rfl⟩⟩

/-- The value `m_step` returns tells what the step did: it is never an error, `is_nothing_or_blocked` holds exactly if the graph is the
same as before, and exactly if it has the same edges. -/
theorem C82_sw_step_report {e : SwEns T R} (h : SwValid e.graph) :
    ∃ s e', e.mStep = .ok (s, e') ∧ s.isValid = true ∧ (s.isNothingOrBlocked = true ↔ e'.graph = e.graph) ∧
      (s.isNothingOrBlocked = true ↔ e'.graph.edges = e.graph.edges) ∧
      (s.notNothingOrBlocked = true ↔ ∃ a b c, (s = .rewire a b c ∨ s = .reset a b c) ∧ s(a, b) ∈ e.graph.edges ∧
        s(a, b) ∉ e'.graph.edges ∧ s(a, c) ∉ e.graph.edges ∧ s(a, c) ∈ e'.graph.edges) ∧
      (s.isNothing = true → s.isNothingOrBlocked = true) ∧ (s.isNothing = true ↔ s = .nothing) := by
  obtain ⟨s, e', h1, _, _, _, _, _, h2⟩ := C36_sw_step h
  refine ⟨s, e', h1, ?_⟩
  have moved : ∀ {a b c : Nat}, s(a, b) ∈ e.graph.edges → s(a, c) ∉ e.graph.edges →
      e'.graph.edges = insert s(a, c) (e.graph.edges.erase s(a, b)) →
      e'.graph.edges ≠ e.graph.edges ∧ s(a, b) ∉ e'.graph.edges ∧ s(a, c) ∈ e'.graph.edges := by
    intro a b c hb hc he
    have hbc : s(a, b) ≠ s(a, c) := fun hh => hc (hh ▸ hb)
    have h3 : s(a, c) ∈ e'.graph.edges := by rw [he]; exact Finset.mem_insert_self _ _
    refine ⟨fun hh => hc (hh ▸ h3), ?_, h3⟩
    rw [he, Finset.mem_insert, Finset.mem_erase]
    tauto
  rcases h2 with ⟨hs, hg⟩ | ⟨a, b, c, o, rfl, _, _, _, hb, hc, _, he, _⟩ | ⟨a, b, c, rfl, _, _, hb, hc, _, he, _⟩
  · rcases hs with rfl | rfl <;>
      simp [SwChange.isValid, SwChange.isNothingOrBlocked, SwChange.notNothingOrBlocked, SwChange.isNothing, hg]
  all_goals
    obtain ⟨m1, m2, m3⟩ := moved hb hc he
    have m4 : e'.graph ≠ e.graph := fun hh => m1 (by rw [hh])
    simp only [SwChange.isValid, SwChange.isNothingOrBlocked, SwChange.notNothingOrBlocked, SwChange.isNothing, m1, m4, Bool.not_false,
      true_iff, false_iff, not_false_eq_true, reduceCtorEq, Bool.false_eq_true, true_and, false_imp_iff, and_true, iff_self, iff_false]
    exact ⟨a, b, c, by simp, hb, m2, hc, m3⟩

/-! ## ErEnsembleC -/

/-- What a call sets the connectivity to. -/
def ErCCall.sets : ErCCall T R → Option ℚ
  | .setTargetConnectivity c => some c
  | _ => none

theorem ErCCall.toCall {e e' : ErC T R} {c : ErCCall T R} {o : Option (ErObs ErStepC R)} (h : ErCCall.run e c = .ok (o, e')) :
    ErC.Call e e' ∨ ∃ i t, e.setAt i t = .ok e' := by
  cases c with
  | mStep =>
    simp only [ErCCall.run, Res.bind_eq_ok] at h
    obtain ⟨⟨s, e1⟩, h1, h2⟩ := h
    cases h2
    exact .inl (.mStep h1)
  | undoStep s =>
    simp only [ErCCall.run, Res.bind_eq_ok] at h
    obtain ⟨⟨u, e1⟩, h1, h2⟩ := h
    cases h2
    exact .inl (.undo s h1)
  | undoStepQuiet s =>
    simp only [ErCCall.run, Res.bind_eq_ok] at h
    obtain ⟨e1, h1, h2⟩ := h
    cases h2
    exact .inl (.undoQuiet s h1)
  | randomize =>
    simp only [ErCCall.run, Res.bind_eq_ok] at h
    obtain ⟨e1, h1, h2⟩ := h
    cases h2
    exact .inl (.randomize h1)
  | makeConnected =>
    simp only [ErCCall.run, Res.bind_eq_ok] at h
    obtain ⟨e1, h1, h2⟩ := h
    cases h2
    exact .inl (.makeConnected h1)
  | setTargetConnectivity c =>
    simp only [ErCCall.run, Res.bind_eq_ok] at h
    obtain ⟨e1, h1, h2⟩ := h
    cases h2
    exact .inl (.setTargetConnectivity c h1)
  | swapRng r =>
    cases h
    exact .inl (.swapRng r)
  | sortAdj =>
    simp only [ErCCall.run, Res.bind_eq_ok] at h
    obtain ⟨e1, h1, h2⟩ := h
    cases h2
    exact .inl (.sortAdj h1)
  | write i t =>
    simp only [ErCCall.run, Res.bind_eq_ok] at h
    obtain ⟨e1, h1, h2⟩ := h
    cases h2
    exact .inr ⟨i, t, h1⟩

theorem ErC.call_target {e e' : ErC T R} {c : ErCCall T R} {o : Option (ErObs ErStepC R)} (h : ErCCall.run e c = .ok (o, e')) :
    e'.targetConnectivity = (ErCCall.sets c).getD e.targetConnectivity := by
  cases c with
  | mStep =>
    simp only [ErCCall.run, ErC.mStep, Res.bind_eq_ok] at h
    obtain ⟨⟨s, e1⟩, ⟨⟨edge, r⟩, _, h1⟩, h2⟩ := h
    cases h2
    dsimp only at h1
    split at h1 <;>
      (simp only [Res.bind_eq_ok] at h1; obtain ⟨⟨q, g⟩, _, h3⟩ := h1; cases q <;> (cases h3; rfl))
  | undoStep s =>
    simp only [ErCCall.run, Res.bind_eq_ok] at h
    obtain ⟨⟨u, e1⟩, h1, h2⟩ := h
    cases h2
    cases s <;> simp only [ErC.undoStep, Res.bind_eq_ok] at h1 <;>
      first
      | (cases h1; rfl)
      | (obtain ⟨⟨q, _⟩, _, h3⟩ := h1; cases q <;> (cases h3; rfl))
  | undoStepQuiet s =>
    simp only [ErCCall.run, Res.bind_eq_ok] at h
    obtain ⟨e1, h1, h2⟩ := h
    cases h2
    cases s <;> simp only [ErC.undoStepQuiet, Res.bind_eq_ok] at h1 <;>
      first
      | (cases h1; done)
      | (cases h1; rfl)
      | (obtain ⟨_, _, _, _, h3⟩ := h1; cases h3; rfl)
  | randomize =>
    simp only [ErCCall.run, ErC.randomize, Res.bind_eq_ok] at h
    obtain ⟨e1, ⟨s, _, h1⟩, h2⟩ := h
    cases h2
    cases h1
    rfl
  | makeConnected =>
    simp only [ErCCall.run, ErC.makeConnected, Res.bind_eq_ok] at h
    obtain ⟨e1, ⟨l, _, h1⟩, h2⟩ := h
    cases h2
    split at h1
    · cases h1
    · obtain ⟨g, _, h3⟩ := Res.bind_eq_ok.mp h1
      cases h3
      rfl
  | setTargetConnectivity c =>
    simp only [ErCCall.run, ErC.setTargetConnectivity, Res.bind_eq_ok] at h
    obtain ⟨e1, ⟨l, _, h1⟩, h2⟩ := h
    cases h2
    cases h1
    rfl
  | swapRng r =>
    cases h
    rfl
  | sortAdj =>
    simp only [ErCCall.run, ErC.sortAdj, Res.bind_eq_ok] at h
    obtain ⟨e1, ⟨g, _, h1⟩, h2⟩ := h
    cases h2
    cases h1
    rfl
  | write i t =>
    simp only [ErCCall.run, ErC.setAt, Res.bind_eq_ok] at h
    obtain ⟨e1, ⟨g, _, h1⟩, h2⟩ := h
    cases h2
    cases h1
    rfl

theorem ErC.Sound.run {n : Nat} : ∀ (cs : List (ErCCall T R)) (e : ErC T R) (os : List (ErObs ErStepC R)) (e' : ErC T R), e.Sound n →
    runCalls ErCCall.run cs e = .ok (os, e') → e'.Sound n := by
  intro cs
  induction cs with
  | nil =>
    intro e os e' he h
    cases h
    exact he
  | cons c cs ih =>
    intro e os e' he h
    simp only [runCalls, Res.bind_eq_ok] at h
    obtain ⟨⟨o, e1⟩, h1, ⟨os1, e2⟩, h2, h3⟩ := h
    cases h3
    refine ih _ _ _ ?_ h2
    rcases ErCCall.toCall h1 with hc | ⟨i, t, hw⟩
    · exact (he.call hc).1
    · exact (he.write hw).1

/-- `ErEnsembleC`: after the constructor and any list of calls with any arguments `target_connectivity` returns the value of the last
`set_target_connectivity`, or that of the constructor, and the probability in use is this value divided by `n - 1`. -/
theorem C82_er_c_target [Node T] {n : Nat} (hn : 0 < n) (c : ℚ) (r : R) :
    ∃ e0 : ErC T R, ErC.new n c r = .ok e0 ∧ ∀ (cs : List (ErCCall T R)) os e, runCalls ErCCall.run cs e0 = .ok (os, e) →
      e.targetConnectivity = lastSet ErCCall.sets c cs ∧ (2 ≤ n → e.prob * ((n : ℚ) - 1) = lastSet ErCCall.sets c cs) := by
  obtain ⟨e0, h1, h2, h3, h4, h5, h6, _⟩ := (C32_er_c_new (T := T) n c r).2 hn
  refine ⟨e0, h1, fun cs os e he => ?_⟩
  have ht := runCalls_lastSet (par := ErC.targetConnectivity) (fun _ _ _ _ hc => ErC.call_target hc) cs e0 os e he
  have h0 : e0.targetConnectivity = c := h4
  rw [h0] at ht
  refine ⟨ht, fun h2n => ?_⟩
  have hs := ErC.Sound.run (n := n) cs e0 os e ⟨h2, h3, by rw [h4, h5]⟩ he
  have hq : ((n : ℚ) - 1) ≠ 0 := by
    have : (2 : ℚ) ≤ n := by exact_mod_cast h2n
    linarith
  rw [hs.prob, div_mul_cancel₀ _ hq]
  exact ht

/-- The value `m_step` returns tells what the step did: it is valid, `valid_or_panic` does not panic, it is `Nothing` exactly if the
edges are the same as before, and undoing it with `undo_step` gives a valid value again. -/
theorem C82_er_c_step_report {e : ErC T R} (h : e.graph.WF) (hn : 2 ≤ e.graph.vertexCount) :
    ∃ s e' u x, e.mStep = .ok (s, e') ∧ s.isValid = true ∧ s.validOrPanic = .ok () ∧ (∀ m, s.validOrPanicMsg m = .ok ()) ∧
      (s = .nothing ↔ e'.graph.edges = e.graph.edges) ∧
      (∀ x y, s = .addedEdge (x, y) → s(x, y) ∉ e.graph.edges ∧ s(x, y) ∈ e'.graph.edges) ∧
      (∀ x y, s = .removedEdge (x, y) → s(x, y) ∈ e.graph.edges ∧ s(x, y) ∉ e'.graph.edges) ∧
      e'.undoStep s = .ok (u, x) ∧ u.isValid = true ∧ u.validOrPanic = .ok () ∧ (u = .nothing ↔ s = .nothing) ∧
      (∀ x y, s = .addedEdge (x, y) ↔ u = .removedEdge (x, y)) ∧ (∀ x y, s = .removedEdge (x, y) ↔ u = .addedEdge (x, y)) := by
  obtain ⟨s, e', h1, _, _, _, _, h2⟩ := C32_er_c_step h hn
  obtain ⟨u, x, h3, _, h4, _⟩ := C32_er_c_undo h hn h1
  refine ⟨s, e', u, x, h1, ?_⟩
  have hu : u.isValid = true ∧ u.validOrPanic = .ok () := by
    cases u with
    | gError err => exact absurd rfl (h4 err)
    | _ => exact ⟨rfl, rfl⟩
  have h3' := h3
  rcases h2 with ⟨rfl, he⟩ | ⟨a, b, rfl, hm, he⟩ | ⟨a, b, rfl, hm, he⟩
  · cases h3'
    exact ⟨rfl, rfl, fun _ => rfl, by simp [he], by simp, by simp, h3, rfl, rfl, by simp, by simp, by simp⟩
  · simp only [ErC.undoStep, Res.bind_eq_ok] at h3'
    obtain ⟨⟨q, g⟩, _, h6⟩ := h3'
    have hne : e'.graph.edges ≠ e.graph.edges := fun hc => hm (by rw [← hc, he]; exact Finset.mem_insert_self _ _)
    have hin : s(a, b) ∈ e'.graph.edges := by rw [he]; exact Finset.mem_insert_self _ _
    refine ⟨rfl, rfl, fun _ => rfl, by simp [hne], ?_, by simp, h3, hu.1, hu.2, ?_⟩
    · rintro x y hxy
      cases hxy
      exact ⟨hm, hin⟩
    · cases q with
      | error err => cases h6; exact absurd rfl (h4 err)
      | ok _ => cases h6; simp
  · simp only [ErC.undoStep, Res.bind_eq_ok] at h3'
    obtain ⟨⟨q, g⟩, _, h6⟩ := h3'
    have hout : s(a, b) ∉ e'.graph.edges := by rw [he]; exact Finset.notMem_erase _ _
    have hne : e'.graph.edges ≠ e.graph.edges := fun hc => hout (by rw [hc]; exact hm)
    refine ⟨rfl, rfl, fun _ => rfl, by simp [hne], by simp, ?_, h3, hu.1, hu.2, ?_⟩
    · rintro x y hxy
      cases hxy
      exact ⟨hm, hout⟩
    · cases q with
      | error err => cases h6; exact absurd rfl (h4 err)
      | ok _ => cases h6; simp

/-- Which step values `valid_or_panic` and `valid_or_panic_msg` reject: those that `is_valid` rejects.  These arise: undoing a value
that does not belong to the last step gives one. -/
theorem C82_er_c_valid_iff (s : ErStepC) (m : String) :
    (s.isValid = true ↔ s.validOrPanic = .ok ()) ∧ (s.isValid = true ↔ s.validOrPanicMsg m = .ok ()) ∧
      (s.isValid = false ↔ s.validOrPanic = .panic) ∧ (s.isValid = false ↔ s.validOrPanicMsg m = .panic) ∧
      ∀ {e : ErC T R} {a b : Nat}, e.graph.WF → a < e.graph.vertexCount → b < e.graph.vertexCount → a ≠ b →
        (s = .removedEdge (a, b) → s(a, b) ∈ e.graph.edges → ∃ u, e.undoStep s = .ok (u, e) ∧ u.isValid = false) ∧
        (s = .addedEdge (a, b) → s(a, b) ∉ e.graph.edges → ∃ u, e.undoStep s = .ok (u, e) ∧ u.isValid = false) := by
  refine ⟨?_, ?_, ?_, ?_, ?_⟩
  · cases s <;> simp [ErStepC.isValid, ErStepC.validOrPanic]
  · cases s <;> simp [ErStepC.isValid, ErStepC.validOrPanicMsg]
  · cases s <;> simp [ErStepC.isValid, ErStepC.validOrPanic]
  · cases s <;> simp [ErStepC.isValid, ErStepC.validOrPanicMsg]
  · intro e a b hw ha hb hab
    constructor
    · rintro rfl hm
      refine ⟨.gError .edgeExists, ?_, rfl⟩
      simp only [ErC.undoStep, addEdge_exists hw (hw.mem_edges.mp hm), Res.ok_bind, Res.pure_eq]
    · rintro rfl hm
      refine ⟨.gError .edgeDoesNotExist, ?_, rfl⟩
      simp only [ErC.undoStep, removeEdge_absent hw ha hb hab (fun hc => hm (hw.mem_edges.mpr hc)), Res.ok_bind, Res.pure_eq]

/-! ## ErEnsembleM -/

theorem ErMCall.keeps_m {e e' : ErM T R} {c : ErMCall T R} {o : Option (ErObs ErStepM R)} (h : ErMCall.run e c = .ok (o, e')) :
    e'.m = e.m := by
  have step : ∀ {x y : ErM T R} {s : ErStepM}, x.step s = .ok y → y.m = x.m := by
    intro x y s hs
    simp only [ErM.step, Res.bind_eq_ok] at hs
    obtain ⟨_, _, _, _, _, _, _, _, _, _, _, _, h1⟩ := hs
    cases h1
    rfl
  cases c with
  | mStep =>
    simp only [ErMCall.run, ErM.mStep, Res.bind_eq_ok] at h
    obtain ⟨⟨s, e1⟩, ⟨⟨_, _⟩, _, ⟨_, _⟩, _, _, _, _, _, e2, h1, h2⟩, h3⟩ := h
    cases h3
    cases h2
    exact (step h1).trans rfl
  | undoStep s =>
    simp only [ErMCall.run, ErM.undoStep, Res.bind_eq_ok] at h
    obtain ⟨⟨s, e1⟩, ⟨e2, h1, h2⟩, h3⟩ := h
    cases h3
    cases h2
    exact step h1
  | undoStepQuiet s =>
    simp only [ErMCall.run, ErM.undoStepQuiet, Res.bind_eq_ok] at h
    obtain ⟨e2, h1, h2⟩ := h
    cases h2
    exact step h1
  | randomize =>
    simp only [ErMCall.run, Res.bind_eq_ok] at h
    obtain ⟨e2, h1, h2⟩ := h
    cases h2
    simp only [ErM.randomize, Res.bind_eq_ok] at h1
    obtain ⟨_, _, _, _, _, _, _, _, h3⟩ := h1
    cases h3
    rfl
  | swapRng r =>
    cases h
    rfl
  | sortAdj =>
    simp only [ErMCall.run, ErM.sortAdj, Res.bind_eq_ok] at h
    obtain ⟨e1, ⟨g, _, h1⟩, h2⟩ := h
    cases h2
    cases h1
    rfl
  | write i t =>
    simp only [ErMCall.run, ErM.setAt, Res.bind_eq_ok] at h
    obtain ⟨e1, ⟨g, _, h1⟩, h2⟩ := h
    cases h2
    cases h1
    rfl

/-- `ErEnsembleM`: after the constructor and any list of calls with any arguments `get_m` returns the number of edges that was asked
for. -/
theorem C82_er_m_get_m [Node T] {n m : Nat} {r : R} {e0 : ErM T R} (h0 : ErM.new n m r = .ok e0) :
    ∀ (cs : List (ErMCall T R)) {os : List (ErObs ErStepM R)} {e : ErM T R}, runCalls ErMCall.run cs e0 = .ok (os, e) → e.getM = m := by
  have hm : e0.m = m := by
    simp only [ErM.new, Res.bind_eq_ok] at h0
    obtain ⟨_, _, _, _, h1⟩ := h0
    simp only [ErM.randomize, Res.bind_eq_ok] at h1
    obtain ⟨_, _, _, _, _, _, _, _, h3⟩ := h1
    cases h3
    rfl
  have key : ∀ (cs : List (ErMCall T R)) (x : ErM T R) (os : List (ErObs ErStepM R)) (y : ErM T R),
      runCalls ErMCall.run cs x = .ok (os, y) → y.m = x.m := by
    intro cs
    induction cs with
    | nil =>
      intro x os y h
      cases h
      rfl
    | cons c cs ih =>
      intro x os y h
      simp only [runCalls, Res.bind_eq_ok] at h
      obtain ⟨⟨o, e1⟩, h1, ⟨os1, e2⟩, h2, h3⟩ := h
      cases h3
      rw [ih _ _ _ h2, ErMCall.keeps_m h1]
  intro cs os e h
  exact (key cs e0 os e h).trans hm

/-- `invert` in place and `inverted` agree, inverting twice gives the value back, and the value `undo_step` returns is the inverted
step, with which the undoing can be undone. -/
theorem C82_er_m_invert {e e' : ErM T R} {s : ErStepM} (h : e.Inv) (hs : e.mStep = .ok (s, e')) :
    s.invert = s.inverted ∧ s.invert.invert = s ∧ s.inverted.removed = s.inserted ∧ s.inverted.inserted = s.removed ∧
      ∃ x y, e'.undoStep s = .ok (s.invert, x) ∧ x.graph.edges = e.graph.edges ∧ x.undoStep s.invert = .ok (s, y) ∧
        y.graph.edges = e'.graph.edges ∧ y.currentEdges = e'.currentEdges ∧ y.possibleEdges = e'.possibleEdges := by
  refine ⟨rfl, rfl, rfl, rfl, ?_⟩
  obtain ⟨i, j, c, q, r1, r2, hi, hj, rfl, _, _, hstep⟩ := ErM.mStep_eq hs
  obtain ⟨e1, c1, c2, c3, c4, c5, c6, c7, c8, c9, c10, c11, c12⟩ := ErM.step_spec (h.withRng r2) hi hj
  rw [c1] at hstep
  cases hstep
  obtain ⟨x, d1, _, d3, d4, _⟩ := ErM.back h hs c2 ⟨rfl, rfl, rfl, rfl, rfl, rfl, rfl⟩
  obtain ⟨y, f1, _, _, _, _, _, _, f8, f9, f10, _⟩ := ErM.step_spec d3 (by rw [d4.cur]; exact hi) (by rw [d4.pos]; exact hj)
  refine ⟨x, y, d1, d4.edges, ?_, ?_, ?_, ?_⟩
  · simp only [ErM.undoStep, ErStepM.invert, ErStepM.inverted, f1, Res.ok_bind, Res.pure_eq]
  · rw [f10, c10, d4.edges]
  · rw [f8, c8, d4.cur]
  · rw [f9, c9, d4.pos]

/-! ## The hypotheses are met -/

example : (SwEns.new 6 (1 / 2) (⟨List.replicate 40 1⟩ : Script)).bind (fun e : SwEns Nat Script =>
      (runCalls SwCall.run [.mStep, .setRProb (1 / 4), .randomize, .setRProb (3 / 4), .write 2 9, .makeConnected] e).bind
        fun p => .ok (p.2.getRProb, lastSet SwCall.sets e.getRProb
          [.mStep, .setRProb (1 / 4), .randomize, .setRProb (3 / 4), .write 2 9, (.makeConnected : SwCall Nat Script)])) =
    .ok (3 / 4, 3 / 4) := by decide +kernel

/-- In the history above no call panics; here the same for `ErEnsembleC`. -/
example : (ErC.new 5 2 (⟨List.replicate 40 1⟩ : Script)).bind (fun e : ErC Nat Script =>
      (runCalls ErCCall.run [.setTargetConnectivity 3, .mStep, .undoStep (.addedEdge (0, 1)), .setTargetConnectivity 1, .randomize] e).bind
        fun p => .ok (p.2.targetConnectivity, p.2.prob)) = .ok (1, 1 / 4) := by decide +kernel

/-- And for `ErEnsembleM`. -/
example : (ErM.new 5 4 (⟨List.replicate 40 0⟩ : Script)).bind (fun e : ErM Nat Script =>
      (runCalls ErMCall.run [.mStep, .randomize, .mStep] e).bind fun p => .ok (p.2.getM, p.2.graph.edgeCount)) = .ok (4, 4) := by
  decide +kernel

/-- Every valid state of a `SwEnsemble` comes from the constructor. -/
example : ∃ e : SwEns Nat Script, SwValid e.graph := by
  obtain ⟨e0, _, h⟩ := C35_sw_invariant (T := Nat) (show 5 ≤ 6 by decide) (1 / 2) (⟨[1, 2, 3]⟩ : Script)
  exact ⟨e0, (h e0 (.refl e0)).1⟩

/-- An `ErEnsembleM` on which a step returns. -/
example : ∃ (e e' : ErM Nat Script) (s : ErStepM), e.Inv ∧ e.mStep = .ok (s, e') := by
  have key : ((ErM.new 5 4 ⟨[]⟩ : Res (ErM Nat Script)).bind fun e => e.mStep.bind fun p => .ok p.1.iRemoved) = .ok 0 := by
    decide +kernel
  obtain ⟨e, h1, h2⟩ := Res.bind_eq_ok.mp key
  obtain ⟨⟨s, e'⟩, h3, _⟩ := Res.bind_eq_ok.mp h2
  obtain ⟨e0, k1, k2, _⟩ := ErM.new_spec (T := Nat) (show 1 ≤ 5 by decide) (show 4 ≤ 5 * (5 - 1) / 2 by decide) (⟨[]⟩ : Script)
  rw [h1] at k1
  cases k1
  exact ⟨e, e', s, k2, h3⟩

end Verif
