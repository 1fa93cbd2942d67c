import Verif.Props.Er
import Verif.Props.Spacial
import Verif.Props.Config
import Verif.Props.Sw
import Verif.Props.Release

/-!
# C74: undoing steps out of order

Step values are `Copy`, so nothing stops a program from keeping an old step and handing it to `undo_step` after other steps were
made, or twice.  The histories below do just that.
-/

set_option linter.unusedSectionVars false
set_option linter.unusedSimpArgs false

namespace Verif
open GenericGraph

/-- One call: a step, a fresh sample, or undoing the `k`-th step value returned so far. -/
inductive StaleOp where
  | mStep
  | randomize
  | undo (k : Nat)

/-- A history of calls.  All step values returned so far are kept, also those returned by `undo_step`; `undo k` with a number that
was not given out yet does nothing. -/
def staleRun {E S : Type} (mStep : E → Res (S × E)) (randomize : E → Res E) (undo : E → S → Res (List S × E)) :
    List StaleOp → E × List S → Res (E × List S)
  | [], p => .ok p
  | .mStep :: ops, p => do
    let (s, e) ← mStep p.1
    staleRun mStep randomize undo ops (e, p.2 ++ [s])
  | .randomize :: ops, p => do
    let e ← randomize p.1
    staleRun mStep randomize undo ops (e, p.2)
  | .undo k :: ops, p =>
    match p.2[k]? with
    | none => staleRun mStep randomize undo ops p
    | some s => do
      let (us, e) ← undo p.1 s
      staleRun mStep randomize undo ops (e, p.2 ++ us)

/-- A history keeps an invariant and does not panic if the calls do, for steps that satisfy a condition. -/
theorem staleRun_inv {E S : Type} {mStep : E → Res (S × E)} {randomize : E → Res E} {undo : E → S → Res (List S × E)}
    {I : E → Prop} {G : S → Prop}
    (hm : ∀ e, I e → mStep e ≠ .panic ∧ ∀ s e', mStep e = .ok (s, e') → I e' ∧ G s)
    (hr : ∀ e, I e → randomize e ≠ .panic ∧ ∀ e', randomize e = .ok e' → I e')
    (hu : ∀ e s, I e → G s → undo e s ≠ .panic ∧ ∀ us e', undo e s = .ok (us, e') → I e' ∧ ∀ u ∈ us, G u) :
    ∀ (ops : List StaleOp) (p : E × List S), I p.1 → (∀ s ∈ p.2, G s) →
      staleRun mStep randomize undo ops p ≠ .panic ∧
      ∀ q, staleRun mStep randomize undo ops p = .ok q → I q.1 ∧ ∀ s ∈ q.2, G s := by
  intro ops
  induction ops with
  | nil =>
    intro p hI hG
    refine ⟨by simp [staleRun], fun q hq => ?_⟩
    simp only [staleRun, Res.ok.injEq] at hq
    subst hq; exact ⟨hI, hG⟩
  | cons op ops ih =>
    intro p hI hG
    cases op with
    | mStep =>
      obtain ⟨h1, h2⟩ := hm p.1 hI
      have key : ∀ s e, mStep p.1 = .ok (s, e) → _ := fun s e he => by
        obtain ⟨h3, h4⟩ := h2 s e he
        exact ih (e, p.2 ++ [s]) h3 (by
          intro x hx
          rcases List.mem_append.mp hx with hx | hx
          · exact hG x hx
          · simp only [List.mem_singleton] at hx; subst hx; exact h4)
      constructor
      · simp only [staleRun, Ne, Res.bind_eq_panic]
        rintro (h | ⟨⟨s, e⟩, h3, h4⟩)
        · exact h1 h
        · exact (key s e h3).1 h4
      · intro q hq
        simp only [staleRun, Res.bind_eq_ok] at hq
        obtain ⟨⟨s, e⟩, h3, h4⟩ := hq
        exact (key s e h3).2 q h4
    | randomize =>
      obtain ⟨h1, h2⟩ := hr p.1 hI
      constructor
      · simp only [staleRun, Ne, Res.bind_eq_panic]
        rintro (h | ⟨e, h3, h4⟩)
        · exact h1 h
        · exact (ih (e, p.2) (h2 e h3) hG).1 h4
      · intro q hq
        simp only [staleRun, Res.bind_eq_ok] at hq
        obtain ⟨e, h3, h4⟩ := hq
        exact (ih (e, p.2) (h2 e h3) hG).2 q h4
    | undo k =>
      simp only [staleRun]
      cases hk : p.2[k]? with
      | none => exact ih p hI hG
      | some s =>
        obtain ⟨h1, h2⟩ := hu p.1 s hI (hG s (List.mem_of_getElem? hk))
        have key : ∀ us e, undo p.1 s = .ok (us, e) → _ := fun us e he => by
          obtain ⟨h3, h4⟩ := h2 us e he
          exact ih (e, p.2 ++ us) h3 (by
            intro x hx
            rcases List.mem_append.mp hx with hx | hx
            · exact hG x hx
            · exact h4 x hx)
        constructor
        · simp only [Ne, Res.bind_eq_panic]
          rintro (h | ⟨⟨us, e⟩, h3, h4⟩)
          · exact h1 h
          · exact (key us e h3).1 h4
        · intro q hq
          simp only [Res.bind_eq_ok] at hq
          obtain ⟨⟨us, e⟩, h3, h4⟩ := hq
          exact (key us e h3).2 q h4

/-- If in addition no call diverges, every history returns. -/
theorem staleRun_ok {E S : Type} {mStep : E → Res (S × E)} {randomize : E → Res E} {undo : E → S → Res (List S × E)}
    {I : E → Prop} {G : S → Prop}
    (hm : ∀ e, I e → ∃ s e', mStep e = .ok (s, e') ∧ I e' ∧ G s)
    (hr : ∀ e, I e → ∃ e', randomize e = .ok e' ∧ I e')
    (hu : ∀ e s, I e → G s → ∃ us e', undo e s = .ok (us, e') ∧ I e' ∧ ∀ u ∈ us, G u) :
    ∀ (ops : List StaleOp) (p : E × List S), I p.1 → (∀ s ∈ p.2, G s) →
      ∃ q, staleRun mStep randomize undo ops p = .ok q ∧ I q.1 ∧ ∀ s ∈ q.2, G s := by
  intro ops
  induction ops with
  | nil => intro p hI hG; exact ⟨p, rfl, hI, hG⟩
  | cons op ops ih =>
    intro p hI hG
    cases op with
    | mStep =>
      obtain ⟨s, e, h1, h2, h3⟩ := hm p.1 hI
      obtain ⟨q, h4⟩ := ih (e, p.2 ++ [s]) h2 (by
        intro x hx
        rcases List.mem_append.mp hx with hx | hx
        · exact hG x hx
        · simp only [List.mem_singleton] at hx; subst hx; exact h3)
      exact ⟨q, by simp only [staleRun, h1, Res.ok_bind]; exact h4.1, h4.2⟩
    | randomize =>
      obtain ⟨e, h1, h2⟩ := hr p.1 hI
      obtain ⟨q, h4⟩ := ih (e, p.2) h2 hG
      exact ⟨q, by simp only [staleRun, h1, Res.ok_bind]; exact h4.1, h4.2⟩
    | undo k =>
      simp only [staleRun]
      cases hk : p.2[k]? with
      | none => exact ih p hI hG
      | some s =>
        obtain ⟨us, e, h1, h2, h3⟩ := hu p.1 s hI (hG s (List.mem_of_getElem? hk))
        obtain ⟨q, h4⟩ := ih (e, p.2 ++ us) h2 (by
          intro x hx
          rcases List.mem_append.mp hx with hx | hx
          · exact hG x hx
          · exact h3 x hx)
        exact ⟨q, by simp only [h1, Res.ok_bind]; exact h4.1, h4.2⟩

variable {T R : Type} [Rng R]

/-! ### Erdős–Rényi with edge probability -/

/-- `undo_step` of any step with two different vertices of the network: it reports an error and changes nothing exactly if the edge is
missing or already there; the quiet variant panics exactly then. -/
theorem C74_er_c_undo_any {e : ErC T R} (h : e.graph.WF) {x y : Nat} (hx : x < e.graph.vertexCount)
    (hy : y < e.graph.vertexCount) (hxy : x ≠ y) :
    (s(x, y) ∈ e.graph.edges → ∃ e', e.undoStep (.addedEdge (x, y)) = .ok (.removedEdge (x, y), e') ∧
      e.undoStepQuiet (.addedEdge (x, y)) = .ok e' ∧ e'.graph.WF ∧ e'.graph.edges = e.graph.edges.erase s(x, y) ∧
      e'.graph.vertexCount = e.graph.vertexCount ∧ e'.graph.data = e.graph.data ∧ e'.prob = e.prob ∧ e'.rng = e.rng) ∧
    (s(x, y) ∉ e.graph.edges → e.undoStep (.addedEdge (x, y)) = .ok (.gError .edgeDoesNotExist, e) ∧
      e.undoStepQuiet (.addedEdge (x, y)) = .panic) ∧
    (s(x, y) ∉ e.graph.edges → ∃ e', e.undoStep (.removedEdge (x, y)) = .ok (.addedEdge (x, y), e') ∧
      e.undoStepQuiet (.removedEdge (x, y)) = .ok e' ∧ e'.graph.WF ∧ e'.graph.edges = insert s(x, y) e.graph.edges ∧
      e'.graph.vertexCount = e.graph.vertexCount ∧ e'.graph.data = e.graph.data ∧ e'.prob = e.prob ∧ e'.rng = e.rng) ∧
    (s(x, y) ∈ e.graph.edges → e.undoStep (.removedEdge (x, y)) = .ok (.gError .edgeExists, e) ∧
      e.undoStepQuiet (.removedEdge (x, y)) = .panic) := by
  rcases addEdge_any h hx hy hxy with ⟨a0, a1⟩ | ⟨a0, ga, a1, a2, a3, a4, a5⟩ <;>
  rcases removeEdge_any h hx hy hxy with ⟨b0, b1⟩ | ⟨b0, gb, b1, b2, b3, b4, b5⟩
  · exact absurd a0 b0
  · refine ⟨fun _ => ⟨{ e with graph := gb }, ?_, ?_, b2, b4, b3, b5, rfl, rfl⟩, fun hc => absurd a0 hc, fun hc => absurd a0 hc,
      fun _ => ⟨?_, ?_⟩⟩
    · simp [ErC.undoStep, b1]
    · simp [ErC.undoStepQuiet, b1, unwrapOk]
    · simp [ErC.undoStep, a1]
    · simp [ErC.undoStepQuiet, a1, unwrapOk]
  · refine ⟨fun hc => absurd hc a0, fun _ => ⟨?_, ?_⟩, fun _ => ⟨{ e with graph := ga }, ?_, ?_, a2, a4, a3, a5, rfl, rfl⟩,
      fun hc => absurd hc a0⟩
    · simp [ErC.undoStep, b1]
    · simp [ErC.undoStepQuiet, b1, unwrapOk]
    · simp [ErC.undoStep, a1]
    · simp [ErC.undoStepQuiet, a1, unwrapOk]
  · exact absurd b0 a0

/-- The pair of vertices a step of `ErEnsembleC` talks about. -/
def ErStepC.pair : ErStepC → Option (Nat × Nat)
  | .addedEdge e | .removedEdge e => some e
  | .nothing | .gError _ => none

/-- Every history of `ErEnsembleC` with steps undone in any order, any number of times, returns, and the network stays simple, with
the same vertices, data and edge probability. -/
theorem C74_er_c_history {e : ErC T R} (h : e.graph.WF) (hn : 2 ≤ e.graph.vertexCount) (ops : List StaleOp) :
    ∃ x pool, staleRun ErC.mStep ErC.randomize (fun e s => (e.undoStep s).bind fun p => .ok ([p.1], p.2)) ops (e, []) =
        .ok (x, pool) ∧ x.graph.WF ∧ x.graph.vertexCount = e.graph.vertexCount ∧ x.graph.data = e.graph.data ∧
      x.prob = e.prob := by
  have key := staleRun_ok (mStep := ErC.mStep (T := T) (R := R)) (randomize := ErC.randomize)
    (undo := fun e s => (e.undoStep s).bind fun p => .ok ([p.1], p.2))
    (I := fun x => x.graph.WF ∧ x.graph.vertexCount = e.graph.vertexCount ∧ x.graph.data = e.graph.data ∧ x.prob = e.prob)
    (G := fun s => ∀ p, s.pair = some p → p.1 < e.graph.vertexCount ∧ p.2 < e.graph.vertexCount ∧ p.1 ≠ p.2)
    ?_ ?_ ?_ ops (e, []) ⟨h, rfl, rfl, rfl⟩ (by simp)
  · obtain ⟨⟨x, pool⟩, h1, ⟨h2, h3, h4, h5⟩, _⟩ := key
    exact ⟨x, pool, h1, h2, h3, h4, h5⟩
  · rintro x ⟨a1, a2, a3, a4⟩
    obtain ⟨s, x', b1, b2, b3, b4, b5, b6⟩ := C32_er_c_step a1 (by rw [a2]; exact hn)
    refine ⟨s, x', b1, ⟨b2, b3.trans a2, b4.trans a3, b5.trans a4⟩, ?_⟩
    rintro p hp
    rcases b6 with ⟨rfl, _⟩ | ⟨u, v, rfl, _, hE⟩ | ⟨u, v, rfl, hE, _⟩
    · simp [ErStepC.pair] at hp
    · simp only [ErStepC.pair, Option.some.injEq] at hp
      subst hp
      have := b2.mem_lt (i := u) (j := v) (by rw [hE]; simp)
      rw [← a2, ← b3]; exact this
    · simp only [ErStepC.pair, Option.some.injEq] at hp
      subst hp
      rw [← a2]; exact a1.mem_lt hE
  · rintro x ⟨a1, a2, a3, a4⟩
    obtain ⟨x', b1, b2, b3, b4, b5, _⟩ := C32_er_c_randomize a1
    exact ⟨x', b1, b2, b3.trans a2, b4.trans a3, b5.trans a4⟩
  · rintro x s ⟨a1, a2, a3, a4⟩ hG
    cases s with
    | nothing => exact ⟨[.nothing], x, rfl, ⟨a1, a2, a3, a4⟩, by simp [ErStepC.pair]⟩
    | gError g => exact ⟨[.gError g], x, rfl, ⟨a1, a2, a3, a4⟩, by simp [ErStepC.pair]⟩
    | addedEdge p =>
      have hp := hG p rfl
      obtain ⟨u, v⟩ := p
      obtain ⟨c1, c2, _, _⟩ := C74_er_c_undo_any a1 (by rw [a2]; exact hp.1) (by rw [a2]; exact hp.2.1) hp.2.2
      by_cases hE : s(u, v) ∈ x.graph.edges
      · obtain ⟨x', d1, _, d2, _, d4, d5, d6, _⟩ := c1 hE
        refine ⟨[.removedEdge (u, v)], x', by rw [d1]; rfl, ⟨d2, d4.trans a2, d5.trans a3, d6.trans a4⟩, ?_⟩
        intro w hw q hq
        simp only [List.mem_singleton] at hw
        subst hw
        simp only [ErStepC.pair, Option.some.injEq] at hq
        subst hq; exact hp
      · exact ⟨[.gError .edgeDoesNotExist], x, by rw [(c2 hE).1]; rfl, ⟨a1, a2, a3, a4⟩, by simp [ErStepC.pair]⟩
    | removedEdge p =>
      have hp := hG p rfl
      obtain ⟨u, v⟩ := p
      obtain ⟨_, _, c1, c2⟩ := C74_er_c_undo_any a1 (by rw [a2]; exact hp.1) (by rw [a2]; exact hp.2.1) hp.2.2
      by_cases hE : s(u, v) ∈ x.graph.edges
      · exact ⟨[.gError .edgeExists], x, by rw [(c2 hE).1]; rfl, ⟨a1, a2, a3, a4⟩, by simp [ErStepC.pair]⟩
      · obtain ⟨x', d1, _, d2, _, d4, d5, d6, _⟩ := c1 hE
        refine ⟨[.addedEdge (u, v)], x', by rw [d1]; rfl, ⟨d2, d4.trans a2, d5.trans a3, d6.trans a4⟩, ?_⟩
        intro w hw q hq
        simp only [List.mem_singleton] at hw
        subst hw
        simp only [ErStepC.pair, Option.some.injEq] at hq
        subst hq; exact hp

/-! ### Spatial ensemble -/

/-- `undo_step` of any step with two different vertices of the network: it reports an error and changes nothing exactly if the edge is
missing or already there; the quiet variant panics exactly then. -/
theorem C74_spacial_undo_any {e : Spacial T R} (h : e.graph.WF) {x y : Nat} (hx : x < e.graph.vertexCount)
    (hy : y < e.graph.vertexCount) (hxy : x ≠ y) :
    (s(x, y) ∈ e.graph.edges → ∃ e', e.undoStep (.addedEdge (x, y)) = .ok (.removedEdge (x, y), e') ∧
      e.undoStepQuiet (.addedEdge (x, y)) = .ok e' ∧ e'.graph.WF ∧ e'.graph.edges = e.graph.edges.erase s(x, y) ∧
      e'.graph.vertexCount = e.graph.vertexCount ∧ e'.graph.data = e.graph.data ∧ coords e'.graph = coords e.graph ∧ e'.law = e.law ∧ e'.rng = e.rng) ∧
    (s(x, y) ∉ e.graph.edges → e.undoStep (.addedEdge (x, y)) = .ok (.error, e) ∧
      e.undoStepQuiet (.addedEdge (x, y)) = .panic) ∧
    (s(x, y) ∉ e.graph.edges → ∃ e', e.undoStep (.removedEdge (x, y)) = .ok (.addedEdge (x, y), e') ∧
      e.undoStepQuiet (.removedEdge (x, y)) = .ok e' ∧ e'.graph.WF ∧ e'.graph.edges = insert s(x, y) e.graph.edges ∧
      e'.graph.vertexCount = e.graph.vertexCount ∧ e'.graph.data = e.graph.data ∧ coords e'.graph = coords e.graph ∧ e'.law = e.law ∧ e'.rng = e.rng) ∧
    (s(x, y) ∈ e.graph.edges → e.undoStep (.removedEdge (x, y)) = .ok (.error, e) ∧
      e.undoStepQuiet (.removedEdge (x, y)) = .panic) := by
  rcases addEdge_any h hx hy hxy with ⟨a0, a1⟩ | ⟨a0, ga, a1, a2, a3, a4, a5⟩ <;>
  rcases removeEdge_any h hx hy hxy with ⟨b0, b1⟩ | ⟨b0, gb, b1, b2, b3, b4, b5⟩
  · exact absurd a0 b0
  · refine ⟨fun _ => ⟨{ e with graph := gb }, ?_, ?_, b2, b4, b3, b5, coords_removeEdge b1, rfl, rfl⟩, fun hc => absurd a0 hc, fun hc => absurd a0 hc,
      fun _ => ⟨?_, ?_⟩⟩
    · simp [Spacial.undoStep, b1]
    · simp [Spacial.undoStepQuiet, b1, unwrapOk]
    · simp [Spacial.undoStep, a1]
    · simp [Spacial.undoStepQuiet, a1, unwrapOk]
  · refine ⟨fun hc => absurd hc a0, fun _ => ⟨?_, ?_⟩, fun _ => ⟨{ e with graph := ga }, ?_, ?_, a2, a4, a3, a5, coords_addEdge a1, rfl, rfl⟩,
      fun hc => absurd hc a0⟩
    · simp [Spacial.undoStep, b1]
    · simp [Spacial.undoStepQuiet, b1, unwrapOk]
    · simp [Spacial.undoStep, a1]
    · simp [Spacial.undoStepQuiet, a1, unwrapOk]
  · exact absurd b0 a0

/-- The pair of vertices a step of `SpacialEnsemble` talks about. -/
def SpacialStep.pair : SpacialStep → Option (Nat × Nat)
  | .addedEdge e | .removedEdge e => some e
  | .nothing | .error => none

/-- Every history of `SpacialEnsemble` with steps undone in any order, any number of times, returns, and the network stays simple, with
the same vertices, data, positions and law. -/
theorem C74_spacial_history {e : Spacial T R} (h : e.graph.WF) (hn : 2 ≤ e.graph.vertexCount) (ops : List StaleOp) :
    ∃ x pool, staleRun Spacial.mStep Spacial.randomize (fun e s => (e.undoStep s).bind fun p => .ok ([p.1], p.2)) ops (e, []) =
        .ok (x, pool) ∧ x.graph.WF ∧ x.graph.vertexCount = e.graph.vertexCount ∧ x.graph.data = e.graph.data ∧
      coords x.graph = coords e.graph ∧ x.law = e.law := by
  have key := staleRun_ok (mStep := Spacial.mStep (T := T) (R := R)) (randomize := Spacial.randomize)
    (undo := fun e s => (e.undoStep s).bind fun p => .ok ([p.1], p.2))
    (I := fun x => x.graph.WF ∧ x.graph.vertexCount = e.graph.vertexCount ∧ x.graph.data = e.graph.data ∧ coords x.graph = coords e.graph ∧ x.law = e.law)
    (G := fun s => ∀ p, s.pair = some p → p.1 < e.graph.vertexCount ∧ p.2 < e.graph.vertexCount ∧ p.1 ≠ p.2)
    ?_ ?_ ?_ ops (e, []) ⟨h, rfl, rfl, rfl, rfl⟩ (by simp)
  · obtain ⟨⟨x, pool⟩, h1, ⟨h2, h3, h4, h5, h6⟩, _⟩ := key
    exact ⟨x, pool, h1, h2, h3, h4, h5, h6⟩
  · rintro x ⟨a1, a2, a3, a4, a5⟩
    obtain ⟨s, x', b1, b2, b3, b4, b5, b5', b6⟩ := C47_spacial_step a1 (by rw [a2]; exact hn)
    refine ⟨s, x', b1, ⟨b2, b3.trans a2, b4.trans a3, b5.trans a4, b5'.trans a5⟩, ?_⟩
    rintro p hp
    rcases b6 with ⟨rfl, _⟩ | ⟨u, v, rfl, _, hE⟩ | ⟨u, v, rfl, hE, _⟩
    · simp [SpacialStep.pair] at hp
    · simp only [SpacialStep.pair, Option.some.injEq] at hp
      subst hp
      have := b2.mem_lt (i := u) (j := v) (by rw [hE]; simp)
      rw [← a2, ← b3]; exact this
    · simp only [SpacialStep.pair, Option.some.injEq] at hp
      subst hp
      rw [← a2]; exact a1.mem_lt hE
  · rintro x ⟨a1, a2, a3, a4, a5⟩
    obtain ⟨x', b1, b2, b3, b4, b5, b6, _⟩ := C47_spacial_randomize a1
    exact ⟨x', b1, b2, b3.trans a2, b4.trans a3, b5.trans a4, b6.trans a5⟩
  · rintro x s ⟨a1, a2, a3, a4, a5⟩ hG
    cases s with
    | nothing => exact ⟨[.nothing], x, rfl, ⟨a1, a2, a3, a4, a5⟩, by simp [SpacialStep.pair]⟩
    | error => exact ⟨[.error], x, rfl, ⟨a1, a2, a3, a4, a5⟩, by simp [SpacialStep.pair]⟩
    | addedEdge p =>
      have hp := hG p rfl
      obtain ⟨u, v⟩ := p
      obtain ⟨c1, c2, _, _⟩ := C74_spacial_undo_any a1 (by rw [a2]; exact hp.1) (by rw [a2]; exact hp.2.1) hp.2.2
      by_cases hE : s(u, v) ∈ x.graph.edges
      · obtain ⟨x', d1, _, d2, _, d4, d5, d6, d7, _⟩ := c1 hE
        refine ⟨[.removedEdge (u, v)], x', by rw [d1]; rfl, ⟨d2, d4.trans a2, d5.trans a3, d6.trans a4, d7.trans a5⟩, ?_⟩
        intro w hw q hq
        simp only [List.mem_singleton] at hw
        subst hw
        simp only [SpacialStep.pair, Option.some.injEq] at hq
        subst hq; exact hp
      · exact ⟨[.error], x, by rw [(c2 hE).1]; rfl, ⟨a1, a2, a3, a4, a5⟩, by simp [SpacialStep.pair]⟩
    | removedEdge p =>
      have hp := hG p rfl
      obtain ⟨u, v⟩ := p
      obtain ⟨_, _, c1, c2⟩ := C74_spacial_undo_any a1 (by rw [a2]; exact hp.1) (by rw [a2]; exact hp.2.1) hp.2.2
      by_cases hE : s(u, v) ∈ x.graph.edges
      · exact ⟨[.error], x, by rw [(c2 hE).1]; rfl, ⟨a1, a2, a3, a4, a5⟩, by simp [SpacialStep.pair]⟩
      · obtain ⟨x', d1, _, d2, _, d4, d5, d6, d7, _⟩ := c1 hE
        refine ⟨[.addedEdge (u, v)], x', by rw [d1]; rfl, ⟨d2, d4.trans a2, d5.trans a3, d6.trans a4, d7.trans a5⟩, ?_⟩
        intro w hw q hq
        simp only [List.mem_singleton] at hw
        subst hw
        simp only [SpacialStep.pair, Option.some.injEq] at hq
        subst hq; exact hp

/-! ### Configuration model -/

/-- The two edges a step of the configuration model talks about, four different vertices of the network. -/
def ConfigStep.Proper (n : Nat) : ConfigStep → Prop
  | .error => True
  | .added e1 e2 => [e1.1, e1.2, e2.1, e2.2].Nodup ∧ e1.1 < n ∧ e1.2 < n ∧ e2.1 < n ∧ e2.2 < n

/-- `undo_step` of any step with four different vertices: it returns, every vertex keeps its degree, and on an error the edges are the
same as before. -/
theorem C74_config_undo_any {e : Config T R} (h : e.Inv) {s : ConfigStep} (hs : s.Proper e.graph.vertexCount) :
    ∃ r x, e.undoStep s = .ok (r, x) ∧ x.Inv ∧ x.degreeVec = e.degreeVec ∧ Realises x.graph e.degreeVec ∧
      x.graph.data = e.graph.data ∧ x.graph.edgeCount = e.graph.edgeCount ∧
      ((∃ err, r = .error err) → x.graph.edges = e.graph.edges) := by
  have hre : ∀ {x : Config T R}, x.Inv → x.degreeVec = e.degreeVec → Realises x.graph e.degreeVec ∧
      x.graph.edgeCount = e.graph.edgeCount := by
    intro x hx hd
    refine ⟨realises_iff.mpr ⟨hx.wf, by rw [hx.deg]; exact hd⟩, ?_⟩
    have h1 : x.graph.degreeVec.sum = 2 * x.graph.edgeCount := (C26_degrees hx.wf).2.2.1
    have h2 : e.graph.degreeVec.sum = 2 * e.graph.edgeCount := (C26_degrees h.wf).2.2.1
    rw [hx.deg, hd, ← h.deg, h2] at h1
    omega
  cases s with
  | error => exact ⟨.ok (), e, rfl, h, rfl, (hre h rfl).1, rfl, rfl, fun _ => rfl⟩
  | added e1 e2 =>
    obtain ⟨a, b⟩ := e1
    obtain ⟨c, d⟩ := e2
    obtain ⟨hnd, ha, hb, hc, hd⟩ := hs
    simp only [List.nodup_cons, List.mem_cons, List.not_mem_nil, or_false, not_or, not_false_eq_true, List.nodup_nil, and_true] at hnd
    obtain ⟨⟨hab, hac, had⟩, ⟨hbc, hbd⟩, hcd⟩ := hnd
    dsimp only at ha hb hc hd hab hac had hbc hbd hcd
    obtain ⟨r, g, h1, h2, h3, h4, h5⟩ := Config.undoStep_spec (a := a) (b := b) (c := c) (d := d) h ha hb hc hd hab hcd hbd hac
    have fin : (∀ v, (g.nbrs v).length = (e.graph.nbrs v).length) → ((∃ err, r = .error err) → g.edges = e.graph.edges) →
        ∃ r x, e.undoStep (.added (a, b) (c, d)) = .ok (r, x) ∧ x.Inv ∧ x.degreeVec = e.degreeVec ∧
          Realises x.graph e.degreeVec ∧ x.graph.data = e.graph.data ∧ x.graph.edgeCount = e.graph.edgeCount ∧
          ((∃ err, r = .error err) → x.graph.edges = e.graph.edges) := by
      intro hdeg herr
      have hi : ({ e with graph := g } : Config T R).Inv := Config.Inv.of_graph (rng := e.rng) h h2 h3 hdeg
      exact ⟨r, _, h1, hi, rfl, (hre hi rfl).1, h4, (hre hi rfl).2, herr⟩
    have same : g.edges = e.graph.edges → ∀ v, (g.nbrs v).length = (e.graph.nbrs v).length := by
      intro he v; rw [h2.deg_eq, h.wf.deg_eq, he]
    split at h5
    · exact fin (same h5.2) (fun _ => h5.2)
    rename_i n1
    split at h5
    · exact fin (same h5.2) (fun _ => h5.2)
    rename_i n2
    split at h5
    · exact fin (same h5.2) (fun _ => h5.2)
    rename_i m3
    split at h5
    · exact fin (same h5.2) (fun _ => h5.2)
    rename_i m4
    rw [not_not] at m3 m4
    refine fin (fun v => ?_) (fun ⟨err, he⟩ => by rw [h5.1] at he; simp at he)
    have m4' : s(a, c) ∈ ((insert s(a, b) (insert s(c, d) e.graph.edges)).erase s(b, d)) := by
      refine Finset.mem_erase.mpr ⟨?_, m4⟩
      rw [Ne, Sym2.eq_iff]; omega
    have k1 := degOf_insert hcd n1 v
    have k2 := degOf_insert hab n2 v
    have k3 := degOf_erase hbd m3 v
    have k4 := degOf_erase hac m4' v
    rw [h2.deg_eq, h.wf.deg_eq, h5.2]
    unfold inc at k1 k2 k3 k4
    omega

/-- Histories of the configuration model with steps undone in any order: no call panics, and whatever returns has the prescribed
degrees. -/
theorem C74_config_history {e : Config T R} (h : e.Inv) (hE : 1 ≤ e.graph.edgeCount) (fuel : Nat) (ops : List StaleOp) :
    staleRun (Config.mStep fuel) (Config.randomize fuel) (fun e s => (e.undoStep s).bind fun p => .ok ([], p.2)) ops (e, []) ≠
      .panic ∧
    ∀ x pool, staleRun (Config.mStep fuel) (Config.randomize fuel) (fun e s => (e.undoStep s).bind fun p => .ok ([], p.2)) ops
        (e, []) = .ok (x, pool) →
      x.Inv ∧ Realises x.graph e.degreeVec ∧ x.graph.data = e.graph.data := by
  have hrec : ∀ {x : Config T R}, x.Inv → x.degreeVec = e.degreeVec → x.graph.edgeCount = e.graph.edgeCount := by
    intro x hx hd
    have h1 : x.graph.degreeVec.sum = 2 * x.graph.edgeCount := (C26_degrees hx.wf).2.2.1
    have h2 : e.graph.degreeVec.sum = 2 * e.graph.edgeCount := (C26_degrees h.wf).2.2.1
    rw [hx.deg, hd, ← h.deg, h2] at h1
    omega
  have hev : e.degreeVec.sum % 2 = 0 := by
    have h2 : e.graph.degreeVec.sum = 2 * e.graph.edgeCount := (C26_degrees h.wf).2.2.1
    rw [h.deg] at h2; omega
  have key := staleRun_inv (mStep := Config.mStep (T := T) (R := R) fuel) (randomize := Config.randomize fuel)
    (undo := fun e s => (e.undoStep s).bind fun p => .ok ([], p.2))
    (I := fun x => x.Inv ∧ x.degreeVec = e.degreeVec ∧ x.graph.data = e.graph.data)
    (G := fun s => s.Proper e.graph.vertexCount) ?_ ?_ ?_ ops (e, []) ⟨h, rfl, rfl⟩ (by simp)
  · refine ⟨key.1, fun x pool hx => ?_⟩
    obtain ⟨⟨h1, h2, h3⟩, _⟩ := key.2 _ hx
    exact ⟨h1, realises_iff.mpr ⟨h1.wf, by rw [h1.deg]; exact h2⟩, h3⟩
  · rintro x ⟨a1, a2, a3⟩
    have hvc : x.graph.vertexCount = e.graph.vertexCount := by
      show x.graph.nextId = e.graph.nextId
      rw [a1.n, h.n, a2]
    obtain ⟨b1, b2⟩ := C42_config_step a1 (by rw [hrec a1 a2]; exact hE) fuel
    refine ⟨b1, fun s x' hx => ?_⟩
    obtain ⟨c1, c2, c3, c4, c5⟩ := b2 s x' hx
    refine ⟨⟨c1, ?_, c3.trans a3⟩, ?_⟩
    · rw [← c1.deg, (realises_iff.mp c2).2, a2]
    · rcases c5 with ⟨rfl, _⟩ | ⟨n, j, k, l, rfl, d1, d2, d3, _⟩
      · trivial
      · obtain ⟨e1, e2, _⟩ := a1.wf.mem_lt d2
        obtain ⟨e3, e4, _⟩ := a1.wf.mem_lt d3
        rw [← hvc]
        exact ⟨d1, e1, e2, e3, e4⟩
  · rintro x ⟨a1, a2, a3⟩
    obtain ⟨b1, b2⟩ := C40_config_randomize a1.toBase (by rw [a2]; exact hev) fuel
    refine ⟨b1, fun x' hx => ?_⟩
    obtain ⟨c1, _, c3, c4⟩ := b2 x' hx
    exact ⟨c1, c3.trans a2, c4.trans a3⟩
  · rintro x s ⟨a1, a2, a3⟩ hG
    have hvc : x.graph.vertexCount = e.graph.vertexCount := by
      show x.graph.nextId = e.graph.nextId
      rw [a1.n, h.n, a2]
    obtain ⟨r, y, b1, b2, b3, _, b5, _⟩ := C74_config_undo_any a1 (by rw [hvc]; exact hG)
    show (x.undoStep s).bind _ ≠ .panic ∧ ∀ us e', (x.undoStep s).bind _ = .ok (us, e') → _
    rw [b1]
    refine ⟨fun hc => (by cases hc), fun us y' hy => ?_⟩
    cases hy
    exact ⟨⟨b2, b3.trans a2, b5.trans a3⟩, by simp⟩

/-! ### Erdős–Rényi with a fixed number of edges -/

/-- A step that talks about two different pairs of vertices and about existing positions of the two lists.  Every step ever returned
by `m_step` or `undo_step` of this ensemble is of this form. -/
structure ErStepM.Proper (e : ErM T R) (s : ErStepM) : Prop where
  removed : s.removed.1 < s.removed.2 ∧ s.removed.2 < e.graph.vertexCount
  inserted : s.inserted.1 < s.inserted.2 ∧ s.inserted.2 < e.graph.vertexCount
  ne : s.removed ≠ s.inserted
  iRemoved : s.iRemoved < e.currentEdges.length
  iInserted : s.iInserted < e.possibleEdges.length

theorem C74_er_m_step_proper {e e' : ErM T R} {s : ErStepM} (h : e.Inv) (hs : e.mStep = .ok (s, e')) :
    s.Proper e ∧ s.inverted.Proper e := by
  obtain ⟨i, j, c, q, r1, r2, hi, hj, rfl, _, _, _⟩ := ErM.mStep_eq hs
  have hc := mem_allPairs.mp (h.mem_lt (.inl (List.mem_of_getElem? hi)))
  have hq := mem_allPairs.mp (h.mem_lt (.inr (List.mem_of_getElem? hj)))
  have hne : c ≠ q := by
    rintro rfl
    have hn := h.nodup
    rw [List.nodup_append] at hn
    exact hn.2.2 _ (List.mem_of_getElem? hi) _ (List.mem_of_getElem? hj) rfl
  have hi' := (List.getElem?_eq_some_iff.mp hi).1
  have hj' := (List.getElem?_eq_some_iff.mp hj).1
  exact ⟨⟨hc, hq, hne, hi', hj'⟩, ⟨hq, hc, hne.symm, hi', hj'⟩⟩

/-- `undo_step` of any such step: a panic exactly if the edge to be removed is missing or the edge to be restored is there already;
otherwise the edge set is as announced, but the lists of present and absent edges fit it if and only if the two edges still are at
the positions noted in the step. -/
theorem C74_er_m_undo_any {e : ErM T R} (h : e.Inv) {s : ErStepM} (hs : s.Proper e) :
    (e.undoStep s = .panic ↔ toEdge s.inserted ∉ e.graph.edges ∨ toEdge s.removed ∈ e.graph.edges) ∧
    (toEdge s.inserted ∈ e.graph.edges → toEdge s.removed ∉ e.graph.edges →
      ∃ x, e.undoStep s = .ok (s.inverted, x) ∧ e.undoStepQuiet s = .ok x ∧ x.graph.WF ∧
        x.graph.edges = insert (toEdge s.removed) (e.graph.edges.erase (toEdge s.inserted)) ∧
        x.graph.edgeCount = e.graph.edgeCount ∧
        x.graph.vertexCount = e.graph.vertexCount ∧ x.graph.data = e.graph.data ∧ x.m = e.m ∧ x.allEdges = e.allEdges ∧
        (∃ pc pq, e.currentEdges[s.iRemoved]? = some pc ∧ e.possibleEdges[s.iInserted]? = some pq ∧
          x.currentEdges = e.currentEdges.set s.iRemoved pq ∧ x.possibleEdges = e.possibleEdges.set s.iInserted pc) ∧
        (x.Inv ↔ e.currentEdges[s.iRemoved]? = some s.inserted ∧ e.possibleEdges[s.iInserted]? = some s.removed)) := by
  obtain ⟨c, i, q, j⟩ := s
  obtain ⟨⟨hc1, hc2⟩, ⟨hq1, hq2⟩, hne, hi, hj⟩ := hs
  dsimp only at hc1 hc2 hq1 hq2 hne hi hj ⊢
  have hcp : c ∈ allPairs e.graph.nextId := mem_allPairs.mpr ⟨hc1, hc2⟩
  have hqp : q ∈ allPairs e.graph.nextId := mem_allPairs.mpr ⟨hq1, hq2⟩
  have hcq : toEdge c ≠ toEdge q := fun hc => hne (toEdge_injOn hcp hqp hc)
  have hqlt : q.1 < e.graph.nextId := by have : q.2 < e.graph.nextId := hq2; omega
  have hclt : c.1 < e.graph.nextId := by have : c.2 < e.graph.nextId := hc2; omega
  rcases removeEdge_any h.wf hqlt hq2 (by omega) with ⟨n1, a1⟩ | ⟨n1, g1, a1, a2, a3, a4, a5⟩
  · refine ⟨⟨fun _ => .inl n1, fun _ => ?_⟩, fun hc => absurd hc n1⟩
    simp [-Res.bind_eq_ok, ErM.undoStep, ErM.step, ErStepM.inverted, a1, unwrapOk]
  rcases addEdge_any a2 (by rw [a3]; exact hclt) (by rw [a3]; exact hc2) (by omega) with ⟨n2, b1⟩ | ⟨n2, g2, b1, b2, b3, b4, b5⟩
  · have hce : toEdge c ∈ e.graph.edges := by
      rw [a4] at n2; exact Finset.mem_of_mem_erase n2
    refine ⟨⟨fun _ => .inr hce, fun _ => ?_⟩, fun _ hc => absurd hce hc⟩
    simp [-Res.bind_eq_ok, ErM.undoStep, ErM.step, ErStepM.inverted, a1, b1, unwrapOk]
  · have hce : toEdge c ∉ e.graph.edges := by
      intro hc
      apply n2
      rw [a4]
      exact Finset.mem_erase.mpr ⟨hcq, hc⟩
    obtain ⟨pc, hpc⟩ : ∃ pc, e.currentEdges[i]? = some pc := ⟨_, List.getElem?_eq_getElem hi⟩
    obtain ⟨pq, hpq⟩ : ∃ pq, e.possibleEdges[j]? = some pq := ⟨_, List.getElem?_eq_getElem hj⟩
    let x : ErM T R := { e with graph := g2, currentEdges := e.currentEdges.set i pq, possibleEdges := e.possibleEdges.set j pc }
    have hstep : e.step ⟨q, i, c, j⟩ = .ok x := by
      simp [ErM.step, a1, b1, unwrapOk, Vec.idx_of_some hpc, Vec.idx_of_some hpq, x]
    have hu : e.undoStep ⟨c, i, q, j⟩ = .ok ((⟨c, i, q, j⟩ : ErStepM).inverted, x) := by
      simp [ErM.undoStep, ErStepM.inverted, hstep]
    have hedges : g2.edges = insert (toEdge c) (e.graph.edges.erase (toEdge q)) := by rw [b4, a4]; rfl
    refine ⟨⟨fun hp => (by rw [hu] at hp; cases hp), ?_⟩, fun _ _ => ⟨x, hu, by simp [ErM.undoStepQuiet, ErStepM.inverted, hstep],
      b2, hedges, ?_, b3.trans a3, b5.trans a5, rfl, rfl, ⟨pc, pq, hpc, hpq, rfl, rfl⟩, ?_⟩⟩
    · rintro (hp | hp)
      · exact absurd n1 hp
      · exact absurd hp hce
    · show g2.edgeCount = _
      rw [b2.edgeCount_eq_card, h.wf.edgeCount_eq_card, hedges, Finset.card_insert_of_notMem (by simp [hce]),
        Finset.card_erase_of_mem (show toEdge q ∈ _ from n1)]
      have := Finset.card_pos.mpr ⟨_, n1⟩
      omega
    · rw [hpc, hpq]
      constructor
      · intro hx
        have hn := h.nodup
        rw [List.nodup_append] at hn
        have hqc : q ∈ e.currentEdges := (h.mem_edges_iff hqp).mp n1
        have hcc : c ∉ e.currentEdges := fun hc => hce ((h.mem_edges_iff hcp).mpr hc)
        have e1 : q ∉ x.currentEdges := by
          intro hc
          have := (hx.mem_edges_iff (show q ∈ allPairs g2.nextId by rw [b3, a3]; exact hqp)).mpr hc
          rw [show x.graph.edges = g2.edges from rfl, hedges, Finset.mem_insert, Finset.mem_erase] at this
          rcases this with h1 | h1
          · exact hcq h1.symm
          · exact h1.1 rfl
        have e2 : c ∈ x.currentEdges := by
          apply (hx.mem_edges_iff (show c ∈ allPairs g2.nextId by rw [b3, a3]; exact hcp)).mp
          rw [show x.graph.edges = g2.edges from rfl, hedges]; simp
        constructor
        · -- the edge at the noted position
          obtain ⟨k, hk, hkq⟩ := List.getElem_of_mem hqc
          by_cases hki : k = i
          · subst hki
            rw [← hpc, List.getElem?_eq_getElem hk, hkq]
          · exfalso; apply e1
            show q ∈ e.currentEdges.set i pq
            rw [← hkq, ← List.getElem_set_ne (l := e.currentEdges) (a := pq) (Ne.symm hki) (by simpa using hk)]
            exact List.getElem_mem _
        · rcases List.mem_or_eq_of_mem_set (show c ∈ e.currentEdges.set i pq from e2) with h1 | h1
          · exact absurd h1 hcc
          · rw [h1]
      · rintro ⟨h1, h2⟩
        simp only [Option.some.injEq] at h1 h2
        subst h1 h2
        obtain ⟨x', c1, c2, _⟩ := ErM.step_spec h hpc hpq
        rw [hstep] at c1
        cases c1
        exact c2

/-- A step with prescribed draws. -/
theorem ErM.mStep_script {e : ErM T Script} (h : e.Inv) {i j : Nat} {l : List Nat} {c q : Nat × Nat}
    (hi : e.currentEdges[i]? = some c) (hj : e.possibleEdges[j]? = some q) :
    ∃ e', ({ e with rng := ⟨i :: j :: l⟩ } : ErM T Script).mStep = .ok (⟨c, i, q, j⟩, e') ∧ e'.Inv ∧ e'.rng = ⟨l⟩ ∧
      e'.currentEdges = e.currentEdges.set i q ∧ e'.possibleEdges = e.possibleEdges.set j c ∧ e'.m = e.m ∧
      e'.graph.nextId = e.graph.nextId := by
  obtain ⟨e', c1, c2, c3, c4, c5, c6, c7, c8, c9, c10, c11, c12⟩ := ErM.step_spec (h.withRng (⟨l⟩ : Script)) hi hj
  refine ⟨e', ?_, c2, c6, c8, c9, c5, c3⟩
  have hi' := (List.getElem?_eq_some_iff.mp hi).1
  have hj' := (List.getElem?_eq_some_iff.mp hj).1
  unfold ErM.mStep
  simp only [script_genRange hi', script_genRange hj', Res.ok_bind, Vec.idx_of_some hi, Vec.idx_of_some hj]
  simp only [c1, Res.ok_bind, Res.pure_eq]

/-- If the positions noted in the step are outdated, the undo that returned leaves an ensemble whose next step panics for some draws;
`randomize` repairs it. -/
theorem C74_er_m_damage {e x : ErM T Script} (h : e.Inv) {s : ErStepM} (hs : s.Proper e)
    (hu : e.undoStep s = .ok (s.inverted, x))
    (hpos : ¬ (e.currentEdges[s.iRemoved]? = some s.inserted ∧ e.possibleEdges[s.iInserted]? = some s.removed)) :
    (∃ k < e.m, ∀ j l, j < e.possibleEdges.length → ({ x with rng := ⟨k :: j :: l⟩ } : ErM T Script).mStep = .panic) ∧
    ∃ y, x.randomize = .ok y ∧ y.Inv := by
  have hres := C74_er_m_undo_any h hs
  have h0 : toEdge s.inserted ∈ e.graph.edges ∧ toEdge s.removed ∉ e.graph.edges := by
    by_contra hc
    have := hres.1.mpr (by tauto)
    rw [hu] at this; cases this
  obtain ⟨x', h1, _, h3, h4, h5, h6, h7, h8, h9, ⟨pc, pq, p1, p2, p3, p4⟩, _⟩ := hres.2 h0.1 h0.2
  rw [hu] at h1
  cases h1
  obtain ⟨c, i, q, j⟩ := s
  obtain ⟨hc, hq, hne, hi, hj⟩ := hs
  dsimp only at *
  have hcp : c ∈ allPairs e.graph.nextId := mem_allPairs.mpr hc
  have hqp : q ∈ allPairs e.graph.nextId := mem_allPairs.mpr hq
  have hqc : q ∈ e.currentEdges := (h.mem_edges_iff hqp).mp h0.1
  have hn := h.nodup
  rw [List.nodup_append] at hn
  refine ⟨?_, ?_⟩
  · -- a listed edge that is not in the graph
    have key : ∃ k < e.m, ∃ p, x.currentEdges[k]? = some p ∧ p ∈ allPairs e.graph.nextId ∧ toEdge p ∉ x.graph.edges := by
      by_cases hpq : pq = c
      · have hpc : pc ≠ q := fun hc => hpos ⟨by rw [p1, hc], by rw [p2, hpq]⟩
        obtain ⟨k, hk, hkq⟩ := List.getElem_of_mem hqc
        have hki : i ≠ k := by
          rintro rfl
          rw [List.getElem?_eq_getElem hk, hkq] at p1
          exact hpc (Option.some.inj p1).symm
        refine ⟨k, by rw [← h.len]; exact hk, q, ?_, hqp, ?_⟩
        · rw [p3, List.getElem?_set_ne hki, List.getElem?_eq_getElem hk, hkq]
        · rw [h4, Finset.mem_insert, Finset.mem_erase]
          rintro (hc' | hc')
          · exact hne (toEdge_injOn hqp hcp hc').symm
          · exact hc'.1 rfl
      · have hpp := List.mem_of_getElem? p2
        have hpa := h.mem_lt (.inr hpp)
        refine ⟨i, by rw [← h.len]; exact hi, pq, ?_, hpa, ?_⟩
        · rw [p3, List.getElem?_set_self hi]
        · rw [h4, Finset.mem_insert, Finset.mem_erase]
          rintro (hc' | hc')
          · exact hpq (toEdge_injOn hpa hcp hc')
          · exact hn.2.2 _ ((h.mem_edges_iff hpa).mp hc'.2) _ hpp rfl
    obtain ⟨k, hk, p, k1, k2, k3⟩ := key
    refine ⟨k, hk, fun j' l hj' => ?_⟩
    have hkl : k < x.currentEdges.length := by rw [p3, List.length_set, h.len]; exact hk
    have hjl : j' < x.possibleEdges.length := by rw [p4, List.length_set]; exact hj'
    obtain ⟨q', hq'⟩ : ∃ q', x.possibleEdges[j']? = some q' := ⟨_, List.getElem?_eq_getElem hjl⟩
    have hlt := mem_allPairs.mp k2
    have h6' : x.graph.nextId = e.graph.nextId := h6
    have hrem : x.graph.removeEdge p.1 p.2 = .ok (.error .edgeDoesNotExist, x.graph) := by
      rcases removeEdge_any h3 (i := p.1) (j := p.2) (by omega) (by omega) (by omega) with ⟨_, b⟩ | ⟨b, _⟩
      · exact b
      · exact absurd b k3
    unfold ErM.mStep
    simp only [script_genRange hkl, script_genRange hjl, Res.ok_bind, Vec.idx_of_some k1, Vec.idx_of_some hq']
    unfold ErM.step
    simp only [hrem, Res.ok_bind, unwrapOk]
    rfl
  · have h6' : x.graph.nextId = e.graph.nextId := h6
    obtain ⟨y, r1, r2, _⟩ := ErM.randomize_spec (e := x) h3 (by rw [h9, h6']; exact h.all)
      (by rw [p3, List.length_set, h8]; exact h.len) (by rw [h8, p4, List.length_set, h6']; exact h.possible_len)
    exact ⟨y, r1, r2⟩

/-- Such a history exists for every network with two edges and a free pair: four steps, then undoing the first of them. -/
theorem C74_er_m_out_of_order {e : ErM T Script} (h : e.Inv) (hm : 2 ≤ e.m)
    (hfree : e.m < e.graph.vertexCount * (e.graph.vertexCount - 1) / 2) :
    ∃ (draws : List Nat) (steps : List ErStepM) (e4 x : ErM T Script) (s : ErStepM),
      mSteps ErM.mStep 4 { e with rng := ⟨draws⟩ } = .ok (steps, e4) ∧ steps[0]? = some s ∧ e4.Inv ∧
      e4.undoStep s = .ok (s.inverted, x) ∧ x.graph.WF ∧ x.graph.edgeCount = e.m ∧ ¬ x.Inv ∧
      ∃ draws', ({ x with rng := ⟨draws'⟩ } : ErM T Script).mStep = .panic := by
  have hpl := h.possible_len
  rw [length_allPairs] at hpl
  have hfree' : e.m < e.graph.nextId * (e.graph.nextId - 1) / 2 := hfree
  have hlen := h.len
  obtain ⟨A, B, cs, hcur⟩ : ∃ A B cs, e.currentEdges = A :: B :: cs := by
    match hx : e.currentEdges with
    | [] => rw [hx] at hlen; simp at hlen; omega
    | [a] => rw [hx] at hlen; simp at hlen; omega
    | a :: b :: l => exact ⟨a, b, l, rfl⟩
  obtain ⟨P, ps, hpos⟩ : ∃ P ps, e.possibleEdges = P :: ps := by
    match hx : e.possibleEdges with
    | [] => rw [hx] at hpl; simp at hpl; omega
    | a :: l => exact ⟨a, l, rfl⟩
  obtain ⟨e1, a1, a2, a3, a4, a5, a6, a7⟩ := ErM.mStep_script (l := [1, 0, 0, 0, 1, 0]) h (i := 0) (j := 0) (c := A) (q := P)
    (by rw [hcur]; rfl) (by rw [hpos]; rfl)
  rw [hcur] at a4; rw [hpos] at a5
  simp only [List.set_cons_zero] at a4 a5
  obtain ⟨e2, b1, b2, b3, b4, b5, b6, b7⟩ := ErM.mStep_script (l := [0, 0, 1, 0]) a2 (i := 1) (j := 0) (c := B) (q := A)
    (by rw [a4]; rfl) (by rw [a5]; rfl)
  rw [a4] at b4; rw [a5] at b5
  simp only [List.set_cons_zero, List.set_cons_succ] at b4 b5
  obtain ⟨e3, c1, c2, c3, c4, c5, c6, c7⟩ := ErM.mStep_script (l := [1, 0]) b2 (i := 0) (j := 0) (c := P) (q := B)
    (by rw [b4]; rfl) (by rw [b5]; rfl)
  rw [b4] at c4; rw [b5] at c5
  simp only [List.set_cons_zero, List.set_cons_succ] at c4 c5
  obtain ⟨e4, d1, d2, d3, d4, d5, d6, d7⟩ := ErM.mStep_script (l := []) c2 (i := 1) (j := 0) (c := A) (q := P)
    (by rw [c4]; rfl) (by rw [c5]; rfl)
  rw [c4] at d4; rw [c5] at d5
  simp only [List.set_cons_zero, List.set_cons_succ] at d4 d5
  have w1 : ({ e1 with rng := ⟨[1, 0, 0, 0, 1, 0]⟩ } : ErM T Script) = e1 := by rw [← a3]
  have w2 : ({ e2 with rng := ⟨[0, 0, 1, 0]⟩ } : ErM T Script) = e2 := by rw [← b3]
  have w3 : ({ e3 with rng := ⟨[1, 0]⟩ } : ErM T Script) = e3 := by rw [← c3]
  rw [w1] at b1; rw [w2] at c1; rw [w3] at d1
  have hn := h.nodup
  rw [hcur, hpos] at hn
  have hAP : A ≠ P := by rintro rfl; simp at hn
  have hAB : A ≠ B := by rintro rfl; simp at hn
  have hBP : B ≠ P := by rintro rfl; simp at hn
  have hA := d2.mem_lt (p := A) (.inr (by rw [d5]; simp))
  have hP := d2.mem_lt (p := P) (.inl (by rw [d4]; simp))
  have hprop : ErStepM.Proper e4 ⟨A, 0, P, 0⟩ :=
    ⟨mem_allPairs.mp hA, mem_allPairs.mp hP, hAP, by rw [d4]; simp, by rw [d5]; simp⟩
  have hin : toEdge P ∈ e4.graph.edges := (d2.mem_edges_iff hP).mpr (by rw [d4]; simp)
  have hout : toEdge A ∉ e4.graph.edges := by
    intro hc
    have h1 := (d2.mem_edges_iff hA).mp hc
    have hn4 := d2.nodup
    rw [List.nodup_append] at hn4
    exact hn4.2.2 _ h1 _ (by rw [d5]; simp) rfl
  obtain ⟨x, u1, _, u3, _, u5, _, _, _, _, _, u11⟩ := (C74_er_m_undo_any d2 hprop).2 hin hout
  have hbad : ¬ (e4.currentEdges[0]? = some P ∧ e4.possibleEdges[0]? = some A) := by
    rw [d4]
    rintro ⟨h1, _⟩
    exact hBP (by simpa using h1)
  obtain ⟨⟨k, _, hk⟩, _⟩ := C74_er_m_damage d2 hprop u1 hbad
  refine ⟨[0, 0, 1, 0, 0, 0, 1, 0], [⟨A, 0, P, 0⟩, ⟨B, 1, A, 0⟩, ⟨P, 0, B, 0⟩, ⟨A, 1, P, 0⟩], e4, x, ⟨A, 0, P, 0⟩, ?_, rfl, d2, u1,
    u3, ?_, fun hc => hbad (u11.mp hc), ⟨[k, 0], hk 0 [] (by rw [d5]; simp)⟩⟩
  · simp only [mSteps, a1, b1, c1, d1, Res.ok_bind, Res.pure_eq]
  · rw [u5, d2.edgeCount, d6, c6, b6, a6]

/-! ### Small-world ensemble -/

/-- An edge of a valid network is rooted at exactly one of its ends. -/
theorem SwValid.rooted {g : SwGraph T} (h : SwValid g) {i j : Nat} (hj : j ∈ g.nbrs i) :
    (∃ o, (⟨j, some o⟩ : SwEdge) ∈ SwGraph.raw g i) ∨
    ((⟨j, none⟩ : SwEdge) ∈ SwGraph.raw g i ∧ (∀ o, (⟨j, some o⟩ : SwEdge) ∉ SwGraph.raw g i) ∧
      ∃ o, (⟨i, some o⟩ : SwEdge) ∈ SwGraph.raw g j) := by
  obtain ⟨e, he, rfl⟩ := sw_mem_nbrs.mp hj
  obtain ⟨e', he', hd⟩ := sw_mem_nbrs.mp (h.wf.symm _ _ hj)
  have hone := h.oneEnd i e he e' he' hd
  obtain ⟨d, o⟩ := e
  obtain ⟨d', o'⟩ := e'
  simp only at hd
  subst hd
  cases o with
  | some o => exact .inl ⟨o, he⟩
  | none =>
    right
    cases o' with
    | none => simp [SwEdge.isRoot] at hone
    | some o' =>
      refine ⟨he, fun o ho => ?_, o', he'⟩
      have := sw_raw_inj h.wf he ho rfl
      simp at this

/-- `undo_step` of any change between three different vertices, in the debug build: missing edge and existing edge are reported
without any change; a proper undo moves the edge and keeps the network valid; if the edge is rooted at the other end by now, the call
panics. -/
theorem C74_sw_undo_any {e : SwEns T R} (h : SwValid e.graph) {i j k : Nat} (hi : i < e.graph.vertexCount)
    (hj : j < e.graph.vertexCount) (hk : k < e.graph.vertexCount) (hij : i ≠ j) (hjk : j ≠ k) (hki : k ≠ i) :
    (j ∉ e.graph.nbrs i → e.undoStep (.rewire i k j) = .ok (.invalidAdjecency, e)) ∧
    (j ∈ e.graph.nbrs i → k ∈ e.graph.nbrs i → e.undoStep (.rewire i k j) = .ok (.blockedByExistingEdge, e)) ∧
    ((∃ o, (⟨j, some o⟩ : SwEdge) ∈ SwGraph.raw e.graph i) → k ∉ e.graph.nbrs i →
      ∃ g, e.undoStep (.rewire i k j) = .ok (.rewire i j k, { e with graph := g }) ∧ SwValid g ∧
        ∀ x y, y ∈ g.nbrs x ↔ (x = i ∧ y = k) ∨ (x = k ∧ y = i) ∨
          (y ∈ e.graph.nbrs x ∧ ¬ (x = i ∧ y = j) ∧ ¬ (x = j ∧ y = i))) ∧
    (e.undoStep (.rewire i k j) = .panic ↔
      (∃ o, (⟨i, some o⟩ : SwEdge) ∈ SwGraph.raw e.graph j) ∧ k ∉ e.graph.nbrs i) := by
  obtain ⟨c0, c1, c2, a0, a1, a2, a3⟩ := get3_of_lt h.wf.len hi hj hk hij hjk hki
  have i0 : c0.id = i := h.wf.ids _ _ a0
  have i1 : c1.id = j := h.wf.ids _ _ a1
  have i2 : c2.id = k := h.wf.ids _ _ a2
  have n0 := h.wf.nodup i
  rw [sw_nbrs, sw_raw_of_some a0] at n0
  have hset : ((e.graph.vertices.set i c0).set j c1).set k c2 = e.graph.vertices := by
    obtain ⟨x1, rfl⟩ := List.getElem?_eq_some_iff.mp a0
    obtain ⟨x2, rfl⟩ := List.getElem?_eq_some_iff.mp a1
    obtain ⟨x3, rfl⟩ := List.getElem?_eq_some_iff.mp a2
    simp
  have absent : j ∉ e.graph.nbrs i → e.undoStep (.rewire i k j) = .ok (.invalidAdjecency, e) := by
    intro hn
    have hp : c0.adjPosition j = none := adjPosition_none (by rw [← sw_raw_of_some a0, ← sw_nbrs]; exact hn)
    simp [-Res.bind_eq_ok, SwEns.undoStep, SwGraph.rewireEdge, hjk, a3, SwContainer.rewire, i1, hp, hset]
  have blocked : j ∈ e.graph.nbrs i → k ∈ e.graph.nbrs i → e.undoStep (.rewire i k j) = .ok (.blockedByExistingEdge, e) := by
    intro hn hb
    have : c0.isAdjacent c2.id = true := by
      rw [sw_isAdjacent, i2, ← sw_raw_of_some a0, ← sw_nbrs]; exact hb
    obtain ⟨e1, he1, hd⟩ := sw_mem_nbrs.mp hn
    rw [sw_raw_of_some a0] at he1
    obtain ⟨p, hp, _⟩ := adjPosition_of_mem n0 he1
    rw [hd] at hp
    simp [-Res.bind_eq_ok, SwEns.undoStep, SwGraph.rewireEdge, hjk, a3, SwContainer.rewire, i1, hp, this, hset]
  have moved : (∃ o, (⟨j, some o⟩ : SwEdge) ∈ SwGraph.raw e.graph i) → k ∉ e.graph.nbrs i →
      ∃ g, e.undoStep (.rewire i k j) = .ok (.rewire i j k, { e with graph := g }) ∧ SwValid g ∧
        ∀ x y, y ∈ g.nbrs x ↔ (x = i ∧ y = k) ∨ (x = k ∧ y = i) ∨
          (y ∈ e.graph.nbrs x ∧ ¬ (x = i ∧ y = j) ∧ ¬ (x = j ∧ y = i)) := by
    rintro ⟨o, ho⟩ hf
    rcases rewireEdge_spec h ho hk hki with ⟨hc, _⟩ | ⟨_, hc, _⟩ | ⟨_, _, g', h4, h5⟩
    · exact absurd hc hjk
    · exact absurd hc hf
    · exact ⟨g', by simp [-Res.bind_eq_ok, SwEns.undoStep, h4], h5.valid h, fun x y => h5.mem_nbrs h.wf⟩
  refine ⟨absent, blocked, moved, ?_⟩
  constructor
  · intro hp
    by_cases hn : j ∈ e.graph.nbrs i
    · by_cases hb : k ∈ e.graph.nbrs i
      · rw [blocked hn hb] at hp; cases hp
      · rcases h.rooted hn with hr | ⟨_, _, hr⟩
        · obtain ⟨g, h1, _⟩ := moved hr hb
          rw [h1] at hp; cases hp
        · exact ⟨hr, hb⟩
    · rw [absent hn] at hp; cases hp
  · rintro ⟨⟨o, ho⟩, hf⟩
    have hl := h.loose ho
    rw [sw_raw_of_some a0] at hl
    obtain ⟨p, hp, hpl, hpe⟩ := adjPosition_of_mem n0 hl
    simp only at hp
    have hadj : c0.isAdjacent k = false := by
      rw [Bool.eq_false_iff]; intro hc
      rw [sw_isAdjacent, ← sw_raw_of_some a0, ← sw_nbrs] at hc; exact hf hc
    simp [-Res.bind_eq_ok, SwEns.undoStep, SwGraph.rewireEdge, hjk, a3, SwContainer.rewire, i1, i2, hp, hadj, Vec.idx_of_lt hpl, hpe,
      SwEdge.isRoot]

/-- The same call in a release build, where the assertion about the root is not compiled in: the call reports a rewired edge, and the
adjacency is as announced, but the other end has lost one of its two root edges.  The network is not valid any more, and the next
step panics for some draws. -/
theorem C74_sw_undo_release {e : SwEns T R} (h : SwValid e.graph) {i j k : Nat} (hi : i < e.graph.vertexCount)
    (hj : j < e.graph.vertexCount) (hk : k < e.graph.vertexCount) (hij : i ≠ j) (hjk : j ≠ k) (hki : k ≠ i)
    (hroot : ∃ o, (⟨i, some o⟩ : SwEdge) ∈ SwGraph.raw e.graph j) (hf : k ∉ e.graph.nbrs i) :
    ∃ g : SwGraph T, e.undoStepR (.rewire i k j) = .ok (.rewire i j k, { e with graph := g }) ∧
      (∀ x y, y ∈ g.nbrs x ↔ (x = i ∧ y = k) ∨ (x = k ∧ y = i) ∨
        (y ∈ e.graph.nbrs x ∧ ¬ (x = i ∧ y = j) ∧ ¬ (x = j ∧ y = i))) ∧
      ((SwGraph.raw g j).filter SwEdge.isRoot).length = 1 ∧ ¬ SwValid g ∧
      ∀ l, ({ graph := g, rProb := e.rProb, rng := ⟨(2 * j + 1) :: l⟩ } : SwEns T Script).mStepR = .panic := by
  obtain ⟨o, ho⟩ := hroot
  have hl := h.loose ho
  have n0 := h.wf.nodup i
  have n1 := h.wf.nodup j
  have hlen := h.wf.len
  have hi' : i < e.graph.nextId := hi
  have hj' : j < e.graph.nextId := hj
  have hk' : k < e.graph.nextId := hk
  rcases get3R_cases e.graph i j k with ⟨c0, c1, c2, l0, l1, l2, _, _, _, a3, a0, a1, a2⟩ | ⟨hc, _⟩
  swap
  · omega
  have i0 : c0.id = i := h.wf.ids _ _ a0
  have i1 : c1.id = j := h.wf.ids _ _ a1
  have i2 : c2.id = k := h.wf.ids _ _ a2
  rw [sw_nbrs, sw_raw_of_some a0] at n0
  rw [sw_nbrs, sw_raw_of_some a1] at n1
  have e0 := hl
  have e1 := ho
  rw [sw_raw_of_some a0] at e0
  rw [sw_raw_of_some a1] at e1
  obtain ⟨p, hp, hpl, hpe⟩ := adjPosition_of_mem n0 e0
  obtain ⟨q, hq, hql, hqe⟩ := adjPosition_of_mem n1 e1
  simp only at hp hq
  obtain ⟨m1, b1, b2⟩ := Vec.swapRemove_of_lt hql
  rw [hqe] at b1 b2
  have hadj : c0.isAdjacent k = false := by
    rw [Bool.eq_false_iff]; intro hc
    rw [sw_isAdjacent, ← sw_raw_of_some a0, ← sw_nbrs] at hc; exact hf hc
  obtain ⟨L, p1, p2⟩ := set_perm hpl (⟨k, none⟩ : SwEdge)
  rw [hpe] at p1
  have hvs := set3_getElem? e.graph.vertices l0 l1 l2 hij hjk (Ne.symm hki) { c0 with adj := c0.adj.set p ⟨k, none⟩ }
    { c1 with adj := m1 } { c2 with adj := c2.adj ++ [⟨i, none⟩] }
  set vs := ((e.graph.vertices.set i { c0 with adj := c0.adj.set p ⟨k, none⟩ }).set j { c1 with adj := m1 }).set k
    { c2 with adj := c2.adj ++ [⟨i, none⟩] } with hvsd
  have hr : ∀ x, SwGraph.raw ({ e.graph with vertices := vs } : SwGraph T) x = if x = i then c0.adj.set p ⟨k, none⟩ else
      if x = j then m1 else if x = k then c2.adj ++ [⟨i, none⟩] else SwGraph.raw e.graph x := by
    intro x
    unfold SwGraph.raw
    simp only [hvs]
    by_cases h1 : x = i
    · simp [h1]
    · by_cases h2 : x = j
      · simp [h1, h2, Ne.symm hij]
      · by_cases h3 : x = k
        · simp [h1, h2, h3, Ne.symm hjk, hki]
        · simp [h1, h2, h3]
  have hroots : ((SwGraph.raw ({ e.graph with vertices := vs } : SwGraph T) j).filter SwEdge.isRoot).length = 1 := by
    rw [hr, if_neg (Ne.symm hij), if_pos rfl]
    have h2 : (c1.adj.filter SwEdge.isRoot).length = 2 := by
      have := (h.roots j hj').length_eq
      rw [← filter_root_length, sw_raw_of_some a1] at this
      exact this
    have := (b2.filter SwEdge.isRoot).length_eq
    rw [h2] at this
    rw [List.filter_cons_of_pos rfl, List.length_cons] at this
    omega
  refine ⟨{ e.graph with vertices := vs }, ?_, ?_, hroots, ?_, ?_⟩
  · simp [SwEns.undoStepR, SwGraph.rewireEdgeR, hjk, a3, SwContainer.rewireR, i0, i1, i2, hp, hadj, hq, b1, Vec.idx_of_lt hpl, hpe,
      Vec.put_of_lt hpl, Rel.ofRes, Res.unwrap, hvsd]
  · intro x y
    rw [sw_nbrs, hr]
    by_cases h1 : x = i
    · subst h1
      have hnd : j ∉ L.map (·.dst) := by
        have := (p1.map (·.dst)).nodup_iff.mp n0
        exact (List.nodup_cons.mp this).1
      rw [if_pos rfl, (p2.map (·.dst)).mem_iff, sw_nbrs, sw_raw_of_some a0, (p1.map (·.dst)).mem_iff]
      simp only [List.map_cons, List.mem_cons]
      constructor
      · rintro (h2 | h2)
        · exact .inl ⟨trivial, h2⟩
        · refine .inr (.inr ⟨.inr h2, fun hc => hnd (hc.2 ▸ h2), fun hc => hij hc.1⟩)
      · rintro (h2 | h2 | ⟨h2 | h2, h3, h4⟩)
        · exact .inl h2.2
        · exact absurd h2.1.symm hki
        · exact absurd ⟨trivial, h2⟩ h3
        · exact .inr h2
    by_cases h2 : x = j
    · subst h2
      have hnd : i ∉ m1.map (·.dst) := by
        have := (b2.map (·.dst)).nodup_iff.mpr n1
        exact (List.nodup_cons.mp this).1
      rw [if_neg h1, if_pos rfl, sw_nbrs, sw_raw_of_some a1, ← (b2.map (·.dst)).mem_iff]
      simp only [List.map_cons, List.mem_cons]
      constructor
      · intro h3
        exact .inr (.inr ⟨.inr h3, fun hc => h1 hc.1, fun hc => hnd (hc.2 ▸ h3)⟩)
      · rintro (h3 | h3 | ⟨h3 | h3, h4, h5⟩)
        · exact absurd h3.1 h1
        · exact absurd h3.1 hjk
        · exact absurd ⟨trivial, h3⟩ h5
        · exact h3
    by_cases h3 : x = k
    · subst h3
      rw [if_neg h1, if_neg h2, if_pos rfl, sw_nbrs, sw_raw_of_some a2, List.map_append, List.mem_append]
      simp only [List.map_cons, List.map_nil, List.mem_singleton]
      constructor
      · rintro (h4 | h4)
        · exact .inr (.inr ⟨h4, fun hc => h1 hc.1, fun hc => h2 hc.1⟩)
        · exact .inr (.inl ⟨trivial, h4⟩)
      · rintro (h4 | h4 | ⟨h4, _⟩)
        · exact absurd h4.1 h1
        · exact .inr h4.2
        · exact .inl h4
    · rw [if_neg h1, if_neg h2, if_neg h3, ← sw_nbrs]
      constructor
      · intro h4; exact .inr (.inr ⟨h4, fun hc => h1 hc.1, fun hc => h2 hc.1⟩)
      · rintro (h4 | h4 | ⟨h4, _⟩)
        · exact absurd h4.1 h1
        · exact absurd h4.1 h3
        · exact h4
  · intro hv
    have := (hv.roots j hj').length_eq
    rw [← filter_root_length, hroots] at this
    simp at this
  · intro l
    have hlt : 2 * j + 1 < e.graph.edgeCount := by rw [h.count]; omega
    have hdiv : (2 * j + 1) / 2 = j := by omega
    have hmod : (2 * j + 1) % 2 = 1 := by omega
    have hcj : vs[j]? = some { c1 with adj := m1 } := by rw [hvs, if_neg (Ne.symm hij), if_pos rfl]
    rw [sw_raw_of_some (show ({ e.graph with vertices := vs } : SwGraph T).vertices[j]? = some _ from hcj)] at hroots
    have hnone : (m1.filter SwEdge.isRoot)[1]? = none := List.getElem?_eq_none (by rw [hroots])
    unfold SwEns.mStepR SwEns.drawEdge
    simp only [script_genRange hlt, Res.ok_bind, hdiv, hmod, container, Vec.idx_of_some hcj, SwContainer.iterRawEdges, hnone]
    rfl

/-- Such a history exists in a network fresh from the constructor: the edge of vertex 0 is rewired twice, another vertex takes the
pair that was free in between, then the first step is undone.  Debug build: panic.  Release build: the call succeeds and `randomize`
panics. -/
theorem C74_sw_out_of_order : ∃ (draws : List Nat) (e e3 x : SwEns Nat Script) (steps : List SwChange) (s : SwChange),
    SwEns.new 8 0 ⟨draws⟩ = .ok e ∧ mSteps SwEns.mStep 3 e = .ok (steps, e3) ∧ steps[0]? = some s ∧ SwValid e3.graph ∧
    e3.undoStep s = .panic ∧ e3.undoStepR s = .ok (.rewire 0 3 1, x) ∧ x.randomizeR = .panic := by
  let draws := List.replicate 16 1 ++ [0, 0, 2, 0, 0, 3, 6, 0, 0]
  have key : ((SwEns.new 8 0 ⟨draws⟩ : Res (SwEns Nat Script)).bind fun e => (mSteps SwEns.mStep 3 e).bind fun p =>
      match p.2.undoStep (.rewire 0 1 3), p.2.undoStepR (.rewire 0 1 3) with
      | .panic, .ok (c, x) => (match x.randomizeR with
        | .panic => .ok (p.1, c)
        | _ => .diverge)
      | _, _ => .diverge) = .ok ([.rewire 0 1 3, .rewire 0 3 4, .rewire 3 4 0], .rewire 0 3 1) := by decide +kernel
  obtain ⟨e, h1, h2⟩ := Res.bind_eq_ok.mp key
  obtain ⟨⟨steps, e3⟩, h3, h4⟩ := Res.bind_eq_ok.mp h2
  simp only at h4
  split at h4
  · rename_i c x u1 u2
    split at h4
    · rename_i u3
      simp only [Res.ok.injEq, Prod.mk.injEq] at h4
      obtain ⟨rfl, rfl⟩ := h4
      have hv : SwValid e3.graph := by
        obtain ⟨e', n1, n2⟩ := SwEns.new_spec (T := Nat) (n := 8) (by decide) 0 (⟨draws⟩ : Script)
        rw [h1] at n1
        cases n1
        have run : ∀ (k : Nat) (a b : SwEns Nat Script) (l : List SwChange), SwValid a.graph →
            mSteps SwEns.mStep k a = .ok (l, b) → SwValid b.graph := by
          intro k
          induction k with
          | zero => intro a b l ha hab; simp [mSteps] at hab; rw [← hab.2]; exact ha
          | succ k ih =>
            intro a b l ha hab
            simp only [mSteps, Res.bind_eq_ok] at hab
            obtain ⟨⟨s, a'⟩, q1, ⟨l', b'⟩, q2, q3⟩ := hab
            cases q3
            obtain ⟨s0, a0, r1, r2, _⟩ := C36_sw_step ha
            rw [q1] at r1; cases r1
            exact ih _ _ _ r2 q2
        exact run 3 e e3 _ n2.1 h3
      exact ⟨draws, e, e3, x, _, _, h1, h3, rfl, hv, u1, u2, u3⟩
    · cases h4
  · cases h4

/-! ### Instances -/

/-- A path of four vertices: a step, `randomize` and undoing the step twice. -/
example : ∃ x pool, staleRun ErC.mStep ErC.randomize (fun e s => (e.undoStep s).bind fun p => .ok ([p.1], p.2))
    [.mStep, .randomize, .undo 0, .undo 0] (({ graph := exPath, prob := 1/2, cTarget := 3/2, rng := ⟨[3, 1, 4]⟩ } : ErC Nat Script), []) =
      .ok (x, pool) ∧ x.graph.WF := by
  obtain ⟨x, pool, h1, h2, _⟩ := C74_er_c_history (e := ({ graph := exPath, prob := 1/2, cTarget := 3/2, rng := ⟨[3, 1, 4]⟩ } :
    ErC Nat Script)) exPath_wf (by decide) [.mStep, .randomize, .undo 0, .undo 0]
  exact ⟨x, pool, h1, h2⟩

example : exSpacial.graph.WF ∧ 2 ≤ exSpacial.graph.vertexCount := ⟨exSpacial_wf, by decide⟩

example : (exConfigPath [0, 2, 0, 1]).Inv ∧ 1 ≤ (exConfigPath [0, 2, 0, 1]).graph.edgeCount ∧
    ((exConfigPath [0, 2, 0, 1]).mStep 1).bind (fun p => .ok p.1) = .ok (.added (0, 1) (2, 3)) ∧
    (ConfigStep.added (0, 1) (2, 3)).Proper 4 := ⟨exConfigPath_inv _, by decide, by decide, by simp [ConfigStep.Proper]⟩

/-- Three vertices and two edges, one free pair: the smallest network in which the lists can get out of step. -/
example : ∃ e : ErM Nat Script, ErM.new 3 2 (⟨[]⟩ : Script) = .ok e ∧ ∃ (draws : List Nat) (steps : List ErStepM)
    (e4 x : ErM Nat Script) (s : ErStepM), mSteps ErM.mStep 4 { e with rng := ⟨draws⟩ } = .ok (steps, e4) ∧ steps[0]? = some s ∧
    e4.undoStep s = .ok (s.inverted, x) ∧ ¬ x.Inv := by
  obtain ⟨e, h1, h2, h3, h4, _⟩ := ErM.new_spec (T := Nat) (n := 3) (m := 2) (by decide) (by decide) (⟨[]⟩ : Script)
  obtain ⟨draws, steps, e4, x, s, k1, k2, _, k4, _, _, k7, _⟩ := C74_er_m_out_of_order h2 (by omega)
    (by rw [show e.graph.vertexCount = 3 from h3, h4]; decide)
  exact ⟨e, h1, draws, steps, e4, x, s, k1, k2, k4, k7⟩

/-- In `exSw` the edge `0 - 4` is rooted at `0`; undoing a step that led an edge of `4` to `0` meets the panic. -/
example : SwValid exSw ∧ (∃ o, (⟨4, some o⟩ : SwEdge) ∈ SwGraph.raw exSw 0) ∧ 1 ∉ exSw.nbrs 4 :=
  ⟨exSw_valid, ⟨1, by decide⟩, by decide⟩

end Verif
