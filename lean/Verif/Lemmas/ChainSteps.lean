import Verif.Lemmas.ChainLaw
import Verif.Lemmas.Draws
import Verif.Props.Converge
import Verif.Props.ConvergeSw

/-!
# The steps of the ensembles on a random tape
-/

set_option linter.unusedSectionVars false
set_option linter.unusedSimpArgs false

namespace Verif
open AdjContainer GenericGraph MeasureTheory

variable {T : Type}

theorem drawTwo_stream {n : ℕ} (hn : 2 ≤ n) (ω : ℕ → ℝ) (k : ℕ) :
    drawTwoFromRange (⟨ω, k⟩ : Stream) n = .ok ((partOf (ω k) n, if partOf (ω (k + 1)) (n - 1) < partOf (ω k) n then
      partOf (ω (k + 1)) (n - 1) else partOf (ω (k + 1)) (n - 1) + 1), ⟨ω, k + 2⟩) := by
  unfold drawTwoFromRange
  rw [Stream.genRange_eq _ (show 0 < n by omega)]
  simp only [Res.ok_bind, Res.sub_of_le (show 1 ≤ n by omega)]
  rw [Stream.genRange_eq _ (show 0 < n - 1 by omega)]
  simp only [Res.ok_bind]
  show (if partOf (ω (k + 1)) (n - 1) < partOf (ω k) n then _ else _) = _
  split <;> rfl

theorem drawTwo_adaptive (n : ℕ) : Adaptive Prod.mk (fun _ r => drawTwoFromRange r n) := by
  unfold drawTwoFromRange
  refine Adaptive.bind (g := fun _ (p : ℕ × Stream) => do
    let h1 ← Res.sub n 1
    let (second, rng) ← Verif.genRange p.2 h1
    if second < p.1 then return ((p.1, second), rng) else return ((p.1, second + 1), rng)) (Adaptive.genRange n) ?_
  intro a
  refine Adaptive.constBind fun h1 _ => ?_
  refine Adaptive.bind (g := fun _ (p : ℕ × Stream) => if p.1 < a then Res.ok ((a, p.1), p.2) else .ok ((a, p.1 + 1), p.2))
    (Adaptive.genRange h1) ?_
  intro b
  by_cases hb : b < a
  · simp only [hb, if_true]; exact Adaptive.ok (a, b)
  · simp only [hb, if_false]; exact Adaptive.ok (a, b + 1)

/-! ## `ErEnsembleC` -/

namespace ErC

/-- The state without the generator, and the state with another generator. -/
def core {R : Type} (e : ErC T R) : ErC T Unit := ⟨e.graph, e.prob, e.cTarget, ()⟩
def put {R : Type} (c : ErC T Unit) (r : R) : ErC T R := ⟨c.graph, c.prob, c.cTarget, r⟩

theorem core_put {R : Type} (c : ErC T Unit) (r : R) : (put c r).core = c := rfl
theorem put_core {R : Type} (e : ErC T R) : put e.core e.rng = e := rfl

theorem joins_put : Joins (put : ErC T Unit → Stream → ErC T Stream) := by
  intro a a' r r' h
  refine ⟨?_, congrArg ErC.rng h⟩
  have := congrArg ErC.core h
  exact this

/-- What a step does once pair and coin are known. -/
def act (g : Graph T) (edge : ℕ × ℕ) (b : Bool) : Res (ErStepC × Graph T) :=
  if b then do
    let (success, graph) ← g.addEdge edge.1 edge.2
    match success with
    | .ok () => return (.addedEdge edge, graph)
    | .error _ => return (.nothing, graph)
  else do
    let (success, graph) ← g.removeEdge edge.1 edge.2
    match success with
    | .ok () => return (.removedEdge edge, graph)
    | .error _ => return (.nothing, graph)

theorem mStep_eq {R : Type} [Rng R] (e : ErC T R) : e.mStep = (do
    let (edge, rng) ← drawTwoFromRange e.rng e.graph.vertexCount
    let q ← act e.graph edge (coin rng e.prob).1
    return (q.1, { e with graph := q.2, rng := (coin rng e.prob).2 })) := by
  unfold mStep act
  cases h : drawTwoFromRange e.rng e.graph.vertexCount with
  | panic => rfl
  | diverge => rfl
  | ok p =>
    obtain ⟨edge, rng⟩ := p
    simp only [Res.ok_bind]
    cases hc : (coin rng e.prob).1 with
    | true =>
      simp only [if_true]
      cases e.graph.addEdge edge.1 edge.2 with
      | panic => rfl
      | diverge => rfl
      | ok p => obtain ⟨s, g⟩ := p; cases s <;> rfl
    | false =>
      simp only [Bool.false_eq_true, if_false]
      cases e.graph.removeEdge edge.1 edge.2 with
      | panic => rfl
      | diverge => rfl
      | ok p => obtain ⟨s, g⟩ := p; cases s <;> rfl

theorem mStep_adaptive (c : ErC T Unit) : Adaptive (mkStep put) (fun _ r => (put c r : ErC T Stream).mStep) := by
  simp only [mStep_eq]
  refine Adaptive.bind (f := fun _ r => drawTwoFromRange r c.graph.vertexCount) (g := fun _ (p : (ℕ × ℕ) × Stream) => do
    let q ← act c.graph p.1 (coin p.2 c.prob).1
    return (q.1, ({ put c p.2 with graph := q.2, rng := (coin p.2 c.prob).2 } : ErC T Stream))) (drawTwo_adaptive _) ?_
  intro edge
  refine Adaptive.bind (f := fun _ r => .ok (coin r c.prob)) (g := fun _ (p : Bool × Stream) => do
    let q ← act c.graph edge p.1
    return (q.1, ({ put c p.2 with graph := q.2, rng := p.2 } : ErC T Stream))) (Adaptive.coin c.prob) ?_
  intro b
  dsimp only
  refine Adaptive.constBind fun q _ => ?_
  exact Adaptive.ok (mk := mkStep put) (q.1, ({ c with graph := q.2 } : ErC T Unit))

/-- The step as a function of the draws. -/
def after (c : ErC T Unit) (d : ℕ × ℕ × ℕ) : Res (ErStepC × ErC T Unit) := do
  let q ← act c.graph (d.1, if d.2.1 < d.1 then d.2.1 else d.2.1 + 1) (decide ((d.2.2 : ℚ) / 2 ^ 53 ≤ c.prob))
  return (q.1, { c with graph := q.2 })

theorem mStep_stream {c : ErC T Unit} (hn : 2 ≤ c.graph.nextId) (ω : ℕ → ℝ) (k : ℕ) :
    (put c (⟨ω, k⟩ : Stream)).mStep = after c (partOf (ω k) c.graph.nextId, partOf (ω (k + 1)) (c.graph.nextId - 1),
      partOf (ω (k + 2)) (2 ^ 53)) >>= fun a => .ok (mkStep put a ⟨ω, k + 3⟩) := by
  rw [mStep_eq]
  show (drawTwoFromRange (⟨ω, k⟩ : Stream) c.graph.nextId >>= _) = _
  rw [drawTwo_stream hn]
  simp only [Res.ok_bind]
  unfold after
  show (act c.graph _ (decide ((partOf (ω (k + 2)) (2 ^ 53) : ℚ) / 2 ^ 53 ≤ c.prob)) >>= _) = _
  cases act c.graph (partOf (ω k) c.graph.nextId, if partOf (ω (k + 1)) (c.graph.nextId - 1) < partOf (ω k) c.graph.nextId then
      partOf (ω (k + 1)) (c.graph.nextId - 1) else partOf (ω (k + 1)) (c.graph.nextId - 1) + 1)
      (decide ((partOf (ω (k + 2)) (2 ^ 53) : ℚ) / 2 ^ 53 ≤ c.prob)) with
  | panic => rfl
  | diverge => rfl
  | ok q => rfl

theorem stepWith_eq {e : ErC T Script} {d : ℕ × ℕ × ℕ} (h1 : d.1 < e.graph.nextId) (h2 : d.2.1 < e.graph.nextId - 1)
    (h3 : d.2.2 < 2 ^ 53) : e.stepWith d = after e.core d >>= fun a => .ok (put a.2 (⟨[]⟩ : Script)) := by
  unfold stepWith
  rw [mStep_eq]
  show ((drawTwoFromRange (⟨[d.1, d.2.1, d.2.2]⟩ : Script) e.graph.nextId >>= _) >>= _) = _
  rw [drawTwo_script h1 h2]
  simp only [Res.ok_bind, coin_script _ _ _ h3]
  have h : ∀ x : Res (ErStepC × Graph T), (do
      let p ← (do
        let q ← x
        pure (q.1, (⟨q.2, e.prob, e.cTarget, ⟨[]⟩⟩ : ErC T Script)))
      pure p.2) = (do
      let q ← x
      pure (q.1, { e.core with graph := q.2 })) >>= fun a => Res.ok (put a.2 (⟨[]⟩ : Script)) := by
    intro x; cases x <;> rfl
  exact h _

theorem mem_stepDraws {e : ErC T Script} {d : ℕ × ℕ × ℕ} :
    d ∈ e.stepDraws ↔ d.1 < e.graph.nextId ∧ d.2.1 < e.graph.nextId - 1 ∧ d.2.2 < 2 ^ 53 := by
  unfold stepDraws
  simp only [Finset.mem_product, Finset.mem_range]
  rfl

theorem stepLaw : StepLaw (put : ErC T Unit → Stream → ErC T Stream) (fun _ => mStep) (fun c => c.graph.WF ∧ 2 ≤ c.graph.nextId)
    (fun c => c.graph.edges) (core : ErC T Script → ErC T Unit) stepDraws (fun e _ => 1 / ((stepDraws e).card : ℚ)) stepWith
    (fun e => e.graph.edges) := by
  refine StepLaw.of_draws after (fun c ω k => (partOf (ω k) c.graph.nextId, partOf (ω (k + 1)) (c.graph.nextId - 1),
      partOf (ω (k + 2)) (2 ^ 53))) (fun _ _ => 3) joins_put mStep_adaptive (fun _ => rfl)
    (fun c hc _ ω k => mStep_stream hc.2 ω k) ?_ ?_ ?_ ?_
  · intro e _ d hd
    rw [mem_stepDraws] at hd
    exact ⟨_, stepWith_eq hd.1 hd.2.1 hd.2.2, fun _ => rfl⟩
  · intro e he d hd
    rw [mem_stepDraws] at hd
    obtain ⟨e', h1, ⟨h2, h3, _⟩, _⟩ := stepWith_spec (e := e) he.1 rfl (d := d)
      (by simp only [pairDraws, Finset.mem_product, Finset.mem_range]; exact hd)
    rw [stepWith_eq hd.1 hd.2.1 hd.2.2] at h1
    obtain ⟨a, a1, a2⟩ := Res.bind_eq_ok.mp h1
    refine ⟨a, a1, ?_⟩
    cases a2
    exact ⟨h2, by show 2 ≤ a.2.graph.nextId; rw [show a.2.graph.nextId = e.graph.nextId from h3]; exact he.2⟩
  · intro e he ω k
    have h2 : 2 ≤ e.graph.nextId := he.2
    rw [mem_stepDraws]
    exact ⟨partOf_lt _ (show 0 < e.graph.nextId by omega), partOf_lt _ (show 0 < e.graph.nextId - 1 by omega), partOf_lt _ (by norm_num)⟩
  · intro e he P _
    have h2 : 2 ≤ e.graph.nextId := he.2
    have := chance_draw_three (m := e.graph.nextId) (n := e.graph.nextId - 1) (l := 2 ^ 53) (by omega) (by omega) (by norm_num) P
    have hc : (stepDraws e).card = e.graph.nextId * ((e.graph.nextId - 1) * 2 ^ 53) := by
      unfold stepDraws
      rw [Finset.card_product, Finset.card_product, Finset.card_range, Finset.card_range, Finset.card_range]
      rfl
    rw [hc]
    exact this

end ErC

/-! ## `SpacialEnsemble` -/

namespace Spacial

/-- The state without the generator, and the state with another generator. -/
def core {R : Type} (e : Spacial T R) : Spacial T Unit := ⟨e.graph, (), e.law⟩
def put {R : Type} (c : Spacial T Unit) (r : R) : Spacial T R := ⟨c.graph, r, c.law⟩

theorem joins_put : Joins (put : Spacial T Unit → Stream → Spacial T Stream) := by
  intro a a' r r' h
  exact ⟨congrArg (core (R := Stream)) h, congrArg Spacial.rng h⟩

/-- What a step does once pair and coin are known. -/
def act (g : SpacialGraph T) (edge : ℕ × ℕ) (b : Bool) : Res (SpacialStep × SpacialGraph T) :=
  if b then do
    let (success, graph) ← g.addEdge edge.1 edge.2
    match success with
    | .ok () => return (.addedEdge edge, graph)
    | .error _ => return (.nothing, graph)
  else do
    let (success, graph) ← g.removeEdge edge.1 edge.2
    match success with
    | .ok () => return (.removedEdge edge, graph)
    | .error _ => return (.nothing, graph)

theorem mStep_eq {R : Type} [Rng R] (e : Spacial T R) : e.mStep = (do
    let (edge, rng) ← drawTwoFromRange e.rng e.graph.vertexCount
    let prob ← probUnchecked e.law e.graph edge.1 edge.2
    let q ← act e.graph edge (coin rng prob).1
    return (q.1, { e with graph := q.2, rng := (coin rng prob).2 })) := by
  unfold mStep act
  cases h : drawTwoFromRange e.rng e.graph.vertexCount with
  | panic => rfl
  | diverge => rfl
  | ok p =>
    obtain ⟨edge, rng⟩ := p
    simp only [Res.ok_bind]
    cases hp : probUnchecked e.law e.graph edge.1 edge.2 with
    | panic => rfl
    | diverge => rfl
    | ok prob =>
      simp only [Res.ok_bind]
      cases hc : (coin rng prob).1 with
      | true =>
        simp only [if_true]
        cases e.graph.addEdge edge.1 edge.2 with
        | panic => rfl
        | diverge => rfl
        | ok p => obtain ⟨s, g⟩ := p; cases s <;> rfl
      | false =>
        simp only [Bool.false_eq_true, if_false]
        cases e.graph.removeEdge edge.1 edge.2 with
        | panic => rfl
        | diverge => rfl
        | ok p => obtain ⟨s, g⟩ := p; cases s <;> rfl

theorem mStep_adaptive (c : Spacial T Unit) : Adaptive (mkStep put) (fun _ r => (put c r : Spacial T Stream).mStep) := by
  simp only [mStep_eq]
  refine Adaptive.bind (f := fun _ r => drawTwoFromRange r c.graph.vertexCount) (g := fun _ (p : (ℕ × ℕ) × Stream) => do
    let prob ← probUnchecked c.law c.graph p.1.1 p.1.2
    let q ← act c.graph p.1 (coin p.2 prob).1
    return (q.1, ({ put c p.2 with graph := q.2, rng := (coin p.2 prob).2 } : Spacial T Stream))) (drawTwo_adaptive _) ?_
  intro edge
  dsimp only
  refine Adaptive.constBind fun prob _ => ?_
  refine Adaptive.bind (f := fun _ r => .ok (coin r prob)) (g := fun _ (p : Bool × Stream) => do
    let q ← act c.graph edge p.1
    return (q.1, ({ put c p.2 with graph := q.2, rng := p.2 } : Spacial T Stream))) (Adaptive.coin prob) ?_
  intro b
  dsimp only
  refine Adaptive.constBind fun q _ => ?_
  exact Adaptive.ok (mk := mkStep put) (q.1, ({ c with graph := q.2 } : Spacial T Unit))

/-- The step as a function of the draws. -/
def after (c : Spacial T Unit) (d : ℕ × ℕ × ℕ) : Res (SpacialStep × Spacial T Unit) := do
  let prob ← probUnchecked c.law c.graph d.1 (if d.2.1 < d.1 then d.2.1 else d.2.1 + 1)
  let q ← act c.graph (d.1, if d.2.1 < d.1 then d.2.1 else d.2.1 + 1) (decide ((d.2.2 : ℚ) / 2 ^ 53 ≤ prob))
  return (q.1, { c with graph := q.2 })

theorem mStep_stream {c : Spacial T Unit} (hn : 2 ≤ c.graph.nextId) (ω : ℕ → ℝ) (k : ℕ) :
    (put c (⟨ω, k⟩ : Stream)).mStep = after c (partOf (ω k) c.graph.nextId, partOf (ω (k + 1)) (c.graph.nextId - 1),
      partOf (ω (k + 2)) (2 ^ 53)) >>= fun a => .ok (mkStep put a ⟨ω, k + 3⟩) := by
  rw [mStep_eq]
  show (drawTwoFromRange (⟨ω, k⟩ : Stream) c.graph.nextId >>= _) = _
  rw [drawTwo_stream hn]
  simp only [Res.ok_bind]
  unfold after
  have h : ∀ (x : Res ℚ) (y : ℚ → Res (SpacialStep × SpacialGraph T)), (do
      let prob ← x
      let q ← y prob
      pure (q.1, (⟨q.2, ⟨ω, k + 3⟩, c.law⟩ : Spacial T Stream))) = (do
      let prob ← x
      let q ← y prob
      pure (q.1, { c with graph := q.2 })) >>= fun a => Res.ok (mkStep put a ⟨ω, k + 3⟩) := by
    intro x y
    cases x with
    | panic => rfl
    | diverge => rfl
    | ok p =>
      simp only [Res.ok_bind]
      cases y p <;> rfl
  exact h _ (fun prob => act c.graph _ (decide ((partOf (ω (k + 2)) (2 ^ 53) : ℚ) / 2 ^ 53 ≤ prob)))

theorem stepWith_eq {e : Spacial T Script} {d : ℕ × ℕ × ℕ} (h1 : d.1 < e.graph.nextId) (h2 : d.2.1 < e.graph.nextId - 1)
    (h3 : d.2.2 < 2 ^ 53) : e.stepWith d = after e.core d >>= fun a => .ok (put a.2 (⟨[]⟩ : Script)) := by
  unfold stepWith
  rw [mStep_eq]
  show ((drawTwoFromRange (⟨[d.1, d.2.1, d.2.2]⟩ : Script) e.graph.nextId >>= _) >>= _) = _
  rw [drawTwo_script h1 h2]
  simp only [Res.ok_bind, coin_script _ _ _ h3]
  have h : ∀ (x : Res ℚ) (y : ℚ → Res (SpacialStep × SpacialGraph T)), (do
      let p ← (do
        let prob ← x
        let q ← y prob
        pure (q.1, (⟨q.2, ⟨[]⟩, e.law⟩ : Spacial T Script)))
      pure p.2) = (do
      let prob ← x
      let q ← y prob
      pure (q.1, { e.core with graph := q.2 })) >>= fun a => Res.ok (put a.2 (⟨[]⟩ : Script)) := by
    intro x y
    cases x with
    | panic => rfl
    | diverge => rfl
    | ok p =>
      simp only [Res.ok_bind]
      cases y p <;> rfl
  exact h _ (fun prob => act e.graph _ (decide ((d.2.2 : ℚ) / 2 ^ 53 ≤ prob)))

theorem mem_stepDraws {e : Spacial T Script} {d : ℕ × ℕ × ℕ} :
    d ∈ e.stepDraws ↔ d.1 < e.graph.nextId ∧ d.2.1 < e.graph.nextId - 1 ∧ d.2.2 < 2 ^ 53 := by
  unfold stepDraws
  simp only [Finset.mem_product, Finset.mem_range]
  rfl

theorem stepLaw : StepLaw (put : Spacial T Unit → Stream → Spacial T Stream) (fun _ => mStep)
    (fun c => c.graph.WF ∧ 2 ≤ c.graph.nextId) (fun c => c.graph.edges) (core : Spacial T Script → Spacial T Unit) stepDraws
    (fun e _ => 1 / ((stepDraws e).card : ℚ)) stepWith (fun e => e.graph.edges) := by
  refine StepLaw.of_draws after (fun c ω k => (partOf (ω k) c.graph.nextId, partOf (ω (k + 1)) (c.graph.nextId - 1),
      partOf (ω (k + 2)) (2 ^ 53))) (fun _ _ => 3) joins_put mStep_adaptive (fun _ => rfl)
    (fun c hc _ ω k => mStep_stream hc.2 ω k) ?_ ?_ ?_ ?_
  · intro e _ d hd
    rw [mem_stepDraws] at hd
    exact ⟨_, stepWith_eq hd.1 hd.2.1 hd.2.2, fun _ => rfl⟩
  · intro e he d hd
    rw [mem_stepDraws] at hd
    obtain ⟨s, e', m1, m2, m3, _⟩ := Spacial.script_step (e := ({ e with rng := ⟨[d.1, d.2.1, d.2.2]⟩ } : Spacial T Script)) (l := [])
      he.1 hd.1 hd.2.1 hd.2.2 rfl
    have h1 : e.stepWith d = .ok e' := by unfold stepWith; rw [m1]; rfl
    rw [stepWith_eq hd.1 hd.2.1 hd.2.2] at h1
    obtain ⟨a, a1, a2⟩ := Res.bind_eq_ok.mp h1
    refine ⟨a, a1, ?_⟩
    cases a2
    exact ⟨m2, by show 2 ≤ a.2.graph.nextId; rw [show a.2.graph.nextId = e.graph.nextId from m3]; exact he.2⟩
  · intro e he ω k
    have h2 : 2 ≤ e.graph.nextId := he.2
    rw [mem_stepDraws]
    exact ⟨partOf_lt _ (show 0 < e.graph.nextId by omega), partOf_lt _ (show 0 < e.graph.nextId - 1 by omega), partOf_lt _ (by norm_num)⟩
  · intro e he P _
    have h2 : 2 ≤ e.graph.nextId := he.2
    have := chance_draw_three (m := e.graph.nextId) (n := e.graph.nextId - 1) (l := 2 ^ 53) (by omega) (by omega) (by norm_num) P
    have hc : (stepDraws e).card = e.graph.nextId * ((e.graph.nextId - 1) * 2 ^ 53) := by
      unfold stepDraws
      rw [Finset.card_product, Finset.card_product, Finset.card_range, Finset.card_range, Finset.card_range]
      rfl
    rw [hc]
    exact this

end Spacial

/-! ## `ErEnsembleM` -/

namespace ErM

/-- The state without the generator, and the state with another generator. -/
def core {R : Type} (e : ErM T R) : ErM T Unit := ⟨e.graph, e.m, (), e.allEdges, e.possibleEdges, e.currentEdges⟩
def put {R : Type} (c : ErM T Unit) (r : R) : ErM T R := ⟨c.graph, c.m, r, c.allEdges, c.possibleEdges, c.currentEdges⟩

theorem joins_put : Joins (put : ErM T Unit → Stream → ErM T Stream) := by
  intro a a' r r' h
  exact ⟨congrArg (core (R := Stream)) h, congrArg ErM.rng h⟩

/-- The step as a function of the draws. -/
def after (c : ErM T Unit) (d : ℕ × ℕ) : Res (ErStepM × ErM T Unit) := do
  let removed ← Vec.idx c.currentEdges d.1
  let inserted ← Vec.idx c.possibleEdges d.2
  let p ← c.graph.removeEdge removed.1 removed.2
  let graph ← unwrapOk p
  let p ← graph.addEdge inserted.1 inserted.2
  let graph ← unwrapOk p
  let x ← Vec.idx c.currentEdges d.1
  let q ← Vec.idx c.possibleEdges d.2
  return ({ removed, iRemoved := d.1, inserted, iInserted := d.2 },
    { c with graph, currentEdges := c.currentEdges.set d.1 q, possibleEdges := c.possibleEdges.set d.2 x })

theorem mStep_factor {R : Type} [Rng R] (c : ErM T Unit) (r : R) : (put c r).mStep = (do
    let (i, r) ← genRange r c.currentEdges.length
    let (j, r) ← genRange r c.possibleEdges.length
    let a ← after c (i, j)
    return (a.1, put a.2 r)) := by
  unfold mStep after step
  simp only [put]
  cases genRange r c.currentEdges.length with
  | panic => rfl
  | diverge => rfl
  | ok p =>
    obtain ⟨i, r⟩ := p
    simp only [Res.ok_bind]
    cases genRange r c.possibleEdges.length with
    | panic => rfl
    | diverge => rfl
    | ok p =>
      obtain ⟨j, r⟩ := p
      simp only [Res.ok_bind]
      cases Vec.idx c.currentEdges i with
      | panic => rfl
      | diverge => rfl
      | ok x =>
        simp only [Res.ok_bind]
        cases Vec.idx c.possibleEdges j with
        | panic => rfl
        | diverge => rfl
        | ok y =>
          simp only [Res.ok_bind]
          cases c.graph.removeEdge x.1 x.2 with
          | panic => rfl
          | diverge => rfl
          | ok p =>
            simp only [Res.ok_bind]
            cases unwrapOk p with
            | panic => rfl
            | diverge => rfl
            | ok g =>
              simp only [Res.ok_bind]
              cases g.addEdge y.1 y.2 with
              | panic => rfl
              | diverge => rfl
              | ok p =>
                simp only [Res.ok_bind]
                cases unwrapOk p <;> rfl

theorem mStep_adaptive (c : ErM T Unit) : Adaptive (mkStep put) (fun _ r => (put c r : ErM T Stream).mStep) := by
  simp only [mStep_factor]
  refine Adaptive.bind (f := fun _ r => Verif.genRange r c.currentEdges.length) (g := fun _ (p : ℕ × Stream) => do
    let (j, r) ← Verif.genRange p.2 c.possibleEdges.length
    let a ← after c (p.1, j)
    return (a.1, (put a.2 r : ErM T Stream))) (Adaptive.genRange _) ?_
  intro i
  refine Adaptive.bind (f := fun _ r => Verif.genRange r c.possibleEdges.length) (g := fun _ (p : ℕ × Stream) => do
    let a ← after c (i, p.1)
    return (a.1, (put a.2 p.2 : ErM T Stream))) (Adaptive.genRange _) ?_
  intro j
  dsimp only
  refine Adaptive.constBind fun a _ => ?_
  exact Adaptive.ok (mk := mkStep put) a

theorem mStep_stream {c : ErM T Unit} (h1 : 0 < c.currentEdges.length) (h2 : 0 < c.possibleEdges.length) (ω : ℕ → ℝ) (k : ℕ) :
    (put c (⟨ω, k⟩ : Stream)).mStep = after c (partOf (ω k) c.currentEdges.length, partOf (ω (k + 1)) c.possibleEdges.length) >>=
      fun a => .ok (mkStep put a ⟨ω, k + 2⟩) := by
  rw [mStep_factor, Stream.genRange_eq _ h1]
  simp only [Res.ok_bind]
  rw [Stream.genRange_eq _ h2]
  rfl

theorem stepWith_eq {e : ErM T Script} {d : ℕ × ℕ} (h1 : d.1 < e.currentEdges.length) (h2 : d.2 < e.possibleEdges.length) :
    e.stepWith d = after e.core d >>= fun a => .ok (put a.2 (⟨[]⟩ : Script)) := by
  unfold stepWith
  show ((put e.core (⟨[d.1, d.2]⟩ : Script)).mStep >>= _) = _
  rw [mStep_factor]
  show ((genRange (⟨[d.1, d.2]⟩ : Script) e.currentEdges.length >>= _) >>= _) = _
  rw [script_genRange h1]
  simp only [Res.ok_bind]
  show ((genRange (⟨[d.2]⟩ : Script) e.possibleEdges.length >>= _) >>= _) = _
  rw [script_genRange h2]
  simp only [Res.ok_bind]
  cases after e.core d <;> rfl

theorem mem_stepDraws {e : ErM T Script} {d : ℕ × ℕ} :
    d ∈ e.stepDraws ↔ d.1 < e.currentEdges.length ∧ d.2 < e.possibleEdges.length := by
  unfold stepDraws
  simp only [Finset.mem_product, Finset.mem_range]

theorem stepLaw : StepLaw (put : ErM T Unit → Stream → ErM T Stream) (fun _ => mStep)
    (fun c => (put c (⟨[]⟩ : Script)).Inv ∧ 0 < c.m ∧ c.m < c.graph.nextId * (c.graph.nextId - 1) / 2)
    (fun c => c.graph.edges) (core : ErM T Script → ErM T Unit) stepDraws
    (fun e _ => 1 / ((stepDraws e).card : ℚ)) stepWith (fun e => e.graph.edges) := by
  have hlen : ∀ c : ErM T Unit, ((put c (⟨[]⟩ : Script)).Inv ∧ 0 < c.m ∧ c.m < c.graph.nextId * (c.graph.nextId - 1) / 2) →
      0 < c.currentEdges.length ∧ 0 < c.possibleEdges.length := by
    rintro c ⟨h1, h2, h3⟩
    have k1 : c.currentEdges.length = c.m := h1.len
    have k2 := h1.possible_len
    rw [length_allPairs] at k2
    have k3 : (put c (⟨[]⟩ : Script)).possibleEdges.length = c.possibleEdges.length := rfl
    have k4 : (put c (⟨[]⟩ : Script)).m = c.m := rfl
    have k5 : (put c (⟨[]⟩ : Script)).graph.nextId = c.graph.nextId := rfl
    rw [k3, k4, k5] at k2
    omega
  refine StepLaw.of_draws after (fun c ω k => (partOf (ω k) c.currentEdges.length, partOf (ω (k + 1)) c.possibleEdges.length))
    (fun _ _ => 2) joins_put mStep_adaptive (fun _ => rfl) (fun c hc _ ω k => mStep_stream (hlen c hc).1 (hlen c hc).2 ω k) ?_ ?_ ?_ ?_
  · intro e _ d hd
    rw [mem_stepDraws] at hd
    exact ⟨_, stepWith_eq hd.1 hd.2, fun _ => rfl⟩
  · intro e he d hd
    rw [mem_stepDraws] at hd
    have hi : e.Inv := he.1.withRng e.rng
    obtain ⟨e', h1, h2, h3, h4, _⟩ := stepWith_spec hi hd.1 hd.2
    rw [stepWith_eq hd.1 hd.2] at h1
    obtain ⟨a, a1, a2⟩ := Res.bind_eq_ok.mp h1
    refine ⟨a, a1, ?_⟩
    cases a2
    have h3' : a.2.graph.nextId = e.graph.nextId := h3
    have h4' : a.2.m = e.m := h4
    exact ⟨h2, by rw [h4']; exact he.2.1, by rw [h3', h4']; exact he.2.2⟩
  · intro e he ω k
    rw [mem_stepDraws]
    exact ⟨partOf_lt _ (hlen _ he).1, partOf_lt _ (hlen _ he).2⟩
  · intro e he P _
    have := chance_draw_pair (hlen _ he).1 (hlen _ he).2 P
    have hc : (stepDraws e).card = e.currentEdges.length * e.possibleEdges.length := by
      unfold stepDraws
      rw [Finset.card_product, Finset.card_range, Finset.card_range]
    rw [hc]
    exact this

end ErM

/-! ## `SwEnsemble` -/

namespace SwEns

/-- The state without the generator, and the state with another generator. -/
def core {R : Type} (e : SwEns T R) : SwEns T Unit := ⟨e.graph, e.rProb, ()⟩
def put {R : Type} (c : SwEns T Unit) (r : R) : SwEns T R := ⟨c.graph, c.rProb, r⟩

theorem joins_put : Joins (put : SwEns T Unit → Stream → SwEns T Stream) := by
  intro a a' r r' h
  exact ⟨congrArg (core (R := Stream)) h, congrArg SwEns.rng h⟩

/-- The edge with the given number. -/
def pick (g : SwGraph T) (num : ℕ) : Res (ℕ × ℕ) := do
  let c ← g.container (num / 2)
  let edge ← Res.unwrap ((c.iterRawEdges.filter SwEdge.isRoot)[num % 2]?)
  return (num / 2, edge.dst)

/-- What a step does once edge, coin and target are known. -/
def act (g : SwGraph T) (edge : ℕ × ℕ) (b : Bool) (x : ℕ) : Res (SwChange × SwGraph T) :=
  if b then SwGraph.rewireEdge g edge.1 edge.2 (if x < edge.1 then x else x + 1) else SwGraph.resetEdge g edge.1 edge.2

/-- The draws after the edge was drawn. -/
def move {R : Type} [Rng R] (c : SwEns T Unit) (edge : ℕ × ℕ) (p : Bool × R) : Res (SwChange × SwEns T R) :=
  if p.1 then do
    let high ← Res.sub c.graph.vertexCount 1
    let q ← genRange p.2 high
    let z ← act c.graph edge true q.1
    return (z.1, put { c with graph := z.2 } q.2)
  else do
    let z ← act c.graph edge false 0
    return (z.1, put { c with graph := z.2 } p.2)

theorem mStep_factor {R : Type} [Rng R] (c : SwEns T Unit) (r : R) : (put c r).mStep = (do
    let p ← genRange r c.graph.edgeCount
    let edge ← pick c.graph p.1
    move c edge (coin p.2 c.rProb)) := by
  unfold mStep drawEdge pick randomizeEdge move
  simp only [put]
  cases genRange r c.graph.edgeCount with
  | panic => rfl
  | diverge => rfl
  | ok p =>
    obtain ⟨num, r⟩ := p
    simp only [Res.ok_bind]
    cases c.graph.container (num / 2) with
    | panic => rfl
    | diverge => rfl
    | ok v =>
      simp only [Res.ok_bind]
      cases Res.unwrap ((v.iterRawEdges.filter SwEdge.isRoot)[num % 2]?) with
      | panic => rfl
      | diverge => rfl
      | ok edge =>
        simp only [Res.ok_bind, Res.pure_eq]
        cases hc : (coin r c.rProb).1 with
        | false =>
          simp only [Bool.false_eq_true, if_false, act]
        | true =>
          simp only [if_true, act, drawRemaining]
          cases Res.sub c.graph.vertexCount 1 with
          | panic => rfl
          | diverge => rfl
          | ok high =>
            simp only [Res.ok_bind]
            cases genRange (coin r c.rProb).2 high with
            | panic => rfl
            | diverge => rfl
            | ok q =>
              obtain ⟨x, r⟩ := q
              simp only [Res.ok_bind]
              by_cases hx : x < num / 2
              · simp only [hx, if_true]; rfl
              · simp only [hx, if_false]; rfl

theorem mStep_adaptive (c : SwEns T Unit) : Adaptive (mkStep put) (fun _ r => (put c r : SwEns T Stream).mStep) := by
  simp only [mStep_factor]
  refine Adaptive.bind (f := fun _ r => Verif.genRange r c.graph.edgeCount) (g := fun _ (p : ℕ × Stream) => do
    let edge ← pick c.graph p.1
    move c edge (coin p.2 c.rProb)) (Adaptive.genRange _) ?_
  intro num
  dsimp only
  refine Adaptive.constBind fun edge _ => ?_
  refine Adaptive.bind (f := fun _ r => .ok (coin r c.rProb)) (g := fun _ (p : Bool × Stream) => move c edge p) (Adaptive.coin _) ?_
  intro b
  unfold move
  cases b with
  | false =>
    simp only [Bool.false_eq_true, if_false]
    refine Adaptive.constBind fun z _ => ?_
    exact Adaptive.ok (mk := mkStep put) (z.1, ({ c with graph := z.2 } : SwEns T Unit))
  | true =>
    simp only [if_true]
    refine Adaptive.constBind fun high _ => ?_
    refine Adaptive.bind (f := fun _ r => Verif.genRange r high) (g := fun _ (q : ℕ × Stream) => do
      let z ← act c.graph edge true q.1
      return (z.1, put { c with graph := z.2 } q.2)) (Adaptive.genRange _) ?_
    intro x
    dsimp only
    refine Adaptive.constBind fun z _ => ?_
    exact Adaptive.ok (mk := mkStep put) (z.1, ({ c with graph := z.2 } : SwEns T Unit))

/-- The step as a function of the draws. -/
def after (c : SwEns T Unit) (d : ℕ × ℕ × ℕ) : Res (SwChange × SwEns T Unit) := do
  let edge ← pick c.graph d.1
  let z ← act c.graph edge (decide ((d.2.1 : ℚ) / 2 ^ 53 ≤ c.rProb)) d.2.2
  return (z.1, { c with graph := z.2 })

theorem act_false (g : SwGraph T) (edge : ℕ × ℕ) (x y : ℕ) : act g edge false x = act g edge false y := rfl

theorem mStep_stream {c : SwEns T Unit} (he : 0 < c.graph.edgeCount) (hn : 2 ≤ c.graph.nextId) (ω : ℕ → ℝ) (k : ℕ) :
    (put c (⟨ω, k⟩ : Stream)).mStep = after c (partOf (ω k) c.graph.edgeCount, partOf (ω (k + 1)) (2 ^ 53),
        partOf (ω (k + 2)) (c.graph.nextId - 1)) >>= fun a => .ok (mkStep put a
      ⟨ω, k + if (partOf (ω (k + 1)) (2 ^ 53) : ℚ) / 2 ^ 53 ≤ c.rProb then 3 else 2⟩) := by
  rw [mStep_factor, Stream.genRange_eq _ he]
  simp only [Res.ok_bind]
  unfold after
  dsimp only
  show (pick c.graph (partOf (ω k) c.graph.edgeCount) >>= _) = ((pick c.graph (partOf (ω k) c.graph.edgeCount) >>= _) >>= _)
  cases pick c.graph (partOf (ω k) c.graph.edgeCount) with
  | panic => rfl
  | diverge => rfl
  | ok edge =>
    simp only [Res.ok_bind]
    show move c edge (decide ((partOf (ω (k + 1)) (2 ^ 53) : ℚ) / 2 ^ 53 ≤ c.rProb), (⟨ω, k + 2⟩ : Stream)) = _
    unfold move
    by_cases hc : (partOf (ω (k + 1)) (2 ^ 53) : ℚ) / 2 ^ 53 ≤ c.rProb
    · simp only [hc, decide_true, if_true]
      rw [show Res.sub c.graph.vertexCount 1 = .ok (c.graph.nextId - 1) from Res.sub_of_le (by show 1 ≤ c.graph.nextId; omega)]
      simp only [Res.ok_bind]
      rw [Stream.genRange_eq _ (show 0 < c.graph.nextId - 1 by omega)]
      simp only [Res.ok_bind]
      show (act c.graph edge true (partOf (ω (k + 2)) (c.graph.nextId - 1)) >>= _) = _
      cases act c.graph edge true (partOf (ω (k + 2)) (c.graph.nextId - 1)) <;> rfl
    · simp only [hc, decide_false, if_false, Bool.false_eq_true]
      rw [act_false c.graph edge (partOf (ω (k + 2)) (c.graph.nextId - 1)) 0]
      cases act c.graph edge false 0 <;> rfl

theorem stepWith_eq {e : SwEns T Script} {d : ℕ × ℕ × ℕ} (h1 : d.1 < e.graph.edgeCount) (h2 : d.2.1 < 2 ^ 53)
    (h3 : d.2.2 < e.graph.nextId - 1) : e.stepWith d = after e.core d >>= fun a => .ok (put a.2
      (if (d.2.1 : ℚ) / 2 ^ 53 ≤ e.rProb then (⟨[]⟩ : Script) else ⟨[d.2.2]⟩)) := by
  unfold stepWith
  show ((put e.core (⟨[d.1, d.2.1, d.2.2]⟩ : Script)).mStep >>= _) = _
  rw [mStep_factor]
  show ((genRange (⟨[d.1, d.2.1, d.2.2]⟩ : Script) e.graph.edgeCount >>= _) >>= _) = _
  rw [script_genRange h1]
  simp only [Res.ok_bind]
  unfold after
  show ((pick e.graph d.1 >>= _) >>= _) = ((pick e.graph d.1 >>= _) >>= _)
  cases pick e.graph d.1 with
  | panic => rfl
  | diverge => rfl
  | ok edge =>
    simp only [Res.ok_bind]
    rw [coin_script _ _ _ h2]
    show (move e.core edge (decide ((d.2.1 : ℚ) / 2 ^ 53 ≤ e.rProb), (⟨[d.2.2]⟩ : Script)) >>= _) =
      ((act e.graph edge (decide ((d.2.1 : ℚ) / 2 ^ 53 ≤ e.rProb)) d.2.2 >>= _) >>= _)
    unfold move
    by_cases hc : (d.2.1 : ℚ) / 2 ^ 53 ≤ e.rProb
    · simp only [hc, decide_true, if_true]
      rw [show Res.sub e.core.graph.vertexCount 1 = .ok (e.graph.nextId - 1) from Res.sub_of_le (by show 1 ≤ e.graph.nextId; omega)]
      simp only [Res.ok_bind]
      rw [script_genRange h3]
      simp only [Res.ok_bind]
      show ((act e.graph edge true d.2.2 >>= _) >>= _) = ((act e.graph edge true d.2.2 >>= _) >>= _)
      cases act e.graph edge true d.2.2 <;> rfl
    · simp only [hc, decide_false, if_false, Bool.false_eq_true]
      rw [act_false e.graph edge d.2.2 0]
      show ((act e.graph edge false 0 >>= _) >>= _) = ((act e.graph edge false 0 >>= _) >>= _)
      cases act e.graph edge false 0 <;> rfl

theorem mem_stepDraws {e : SwEns T Script} {d : ℕ × ℕ × ℕ} :
    d ∈ e.stepDraws ↔ d.1 < e.graph.edgeCount ∧ d.2.1 < 2 ^ 53 ∧ d.2.2 < e.graph.nextId - 1 := by
  unfold stepDraws
  simp only [Finset.mem_product, Finset.mem_range]
  rfl

theorem stepLaw : StepLaw (put : SwEns T Unit → Stream → SwEns T Stream) (fun _ => mStep)
    (fun c => SwValid c.graph ∧ 2 ≤ c.graph.nextId) (fun c => SwGraph.rooted c.graph) (core : SwEns T Script → SwEns T Unit) stepDraws
    (fun e _ => 1 / ((stepDraws e).card : ℚ)) stepWith (fun e => SwGraph.rooted e.graph) := by
  have hec : ∀ c : SwEns T Unit, (SwValid c.graph ∧ 2 ≤ c.graph.nextId) → 0 < c.graph.edgeCount := by
    rintro c ⟨h1, h2⟩
    rw [h1.count]; omega
  refine StepLaw.of_draws after (fun c ω k => (partOf (ω k) c.graph.edgeCount, partOf (ω (k + 1)) (2 ^ 53),
      partOf (ω (k + 2)) (c.graph.nextId - 1))) (fun c d => if (d.2.1 : ℚ) / 2 ^ 53 ≤ c.rProb then 3 else 2)
    joins_put mStep_adaptive (fun _ => rfl)
    (fun c hc _ ω k => mStep_stream (hec c hc) hc.2 ω k) ?_ ?_ ?_ ?_
  · intro e _ d hd
    rw [mem_stepDraws] at hd
    exact ⟨_, stepWith_eq hd.1 hd.2.1 hd.2.2, fun _ => rfl⟩
  · intro e he d hd
    rw [mem_stepDraws] at hd
    have hv : SwValid e.graph := he.1
    obtain ⟨f, _, hstep⟩ := SwEns.mStep_script hv
    obtain ⟨s, g', b1, b2⟩ := hstep d.1 (by rw [← hv.count]; exact hd.1) d.2.1 hd.2.1 d.2.2 hd.2.2
    have h1 := stepWith_eq_ok.mpr ⟨s, b1 []⟩
    rw [stepWith_eq hd.1 hd.2.1 hd.2.2] at h1
    obtain ⟨a, a1, a2⟩ := Res.bind_eq_ok.mp h1
    refine ⟨a, a1, ?_⟩
    injection a2 with a2
    have hg : a.2.graph = g' := congrArg SwEns.graph a2
    show SwValid a.2.graph ∧ 2 ≤ a.2.graph.nextId
    rw [hg]
    rcases b2 with ⟨_, rfl⟩ | ⟨_, _, m⟩
    · exact he
    · exact ⟨m.valid hv, by rw [m.n]; exact he.2⟩
  · intro e he ω k
    have h2 : 2 ≤ e.graph.nextId := he.2
    rw [mem_stepDraws]
    exact ⟨partOf_lt _ (hec _ he), partOf_lt _ (by norm_num), partOf_lt _ (show 0 < e.graph.nextId - 1 by omega)⟩
  · intro e he P _
    have h2 : 2 ≤ e.graph.nextId := he.2
    have := chance_draw_three (hec _ he) (n := 2 ^ 53) (l := e.graph.nextId - 1) (by norm_num) (by omega) P
    have hc : (stepDraws e).card = e.graph.edgeCount * (2 ^ 53 * (e.graph.nextId - 1)) := by
      unfold stepDraws
      rw [Finset.card_product, Finset.card_product, Finset.card_range, Finset.card_range, Finset.card_range]
      rfl
    rw [hc]
    exact this

end SwEns
end Verif
