import Verif.Spec.Asked
import Verif.Model.Pcg64
import Verif.Model.Chain
import Verif.Lemmas.Coupling
import Verif.Props.Spacial
import Verif.Props.Sw
import Verif.Props.Er
import Verif.Props.Forget

/-!
# C111: what the calls ask of the generator

`Recorder R` answers like `R` and writes down the requests.
-/

set_option linter.unusedSectionVars false
set_option linter.unusedSimpArgs false

namespace Verif
open AdjContainer GenericGraph

variable {T R : Type} [Rng R]

theorem genRange_asked {r r' : Recorder R} {h x : ℕ} (e : genRange r h = .ok (x, r')) : r'.asked = r.asked ++ [.range h] := by
  unfold genRange at e
  split at e
  · injection e with e
    rw [← (Prod.mk.inj e).2]
  · cases e

theorem coin_asked (r : Recorder R) (p : ℚ) : (coin r p).2.asked = r.asked ++ [.unit] := rfl

theorem drawTwo_asked {r r' : Recorder R} {n : ℕ} {p : ℕ × ℕ} (e : drawTwoFromRange r n = .ok (p, r')) :
    r'.asked = r.asked ++ [.range n, .range (n - 1)] := by
  unfold drawTwoFromRange at e
  obtain ⟨⟨x, r1⟩, e1, e⟩ := Res.bind_eq_ok.1 e
  obtain ⟨h1, e2, e⟩ := Res.bind_eq_ok.1 e
  obtain ⟨⟨y, r2⟩, e3, e⟩ := Res.bind_eq_ok.1 e
  have hh : h1 = n - 1 := by
    unfold Res.sub at e2
    split at e2
    · injection e2 with e2; exact e2.symm
    · cases e2
  have a1 := genRange_asked e1
  have a2 := genRange_asked e3
  dsimp only at e
  have : r2 = r' := by
    split at e <;> · injection e with e; exact (Prod.mk.inj e).2
  rw [← this, a2, a1, hh, List.append_assoc]
  rfl

theorem throws_asked (p : ℕ × ℕ → ℚ) : ∀ (l : List (ℕ × ℕ)) (r : Recorder R),
    (throws p l r).2.asked = r.asked ++ List.replicate l.length .unit
  | [], r => by simp [throws]
  | q :: l, r => by
    show (throws p l (coin r (p q)).2).2.asked = _
    rw [throws_asked p l, coin_asked, List.append_assoc]
    rfl

/-! ## Erdős–Rényi, fixed connectivity -/

/-- `ErEnsembleC::randomize` asks for one number in `[0, 1)` for each pair of vertices and for nothing else, whatever the network, the
probability and the answers are. -/
theorem C111_er_c_randomize {e : ErC T (Recorder R)} (h : e.graph.WF) :
    ∃ x, e.randomize = .ok x ∧ x.rng.asked = e.rng.asked ++ List.replicate (e.graph.vertexCount * (e.graph.vertexCount - 1) / 2) .unit := by
  obtain ⟨x, a1, _, _, _, _, _, a7⟩ := C32_er_c_randomize h
  refine ⟨x, a1, ?_⟩
  rw [a7, coins_throws, throws_asked, length_allPairs]

/-- `ErEnsembleC::m_step` asks for two indices and one number in `[0, 1)`. -/
theorem C111_er_c_step {e e' : ErC T (Recorder R)} {s : ErStepC} (hs : e.mStep = .ok (s, e')) :
    e'.rng.asked = e.rng.asked ++ [.range e.graph.vertexCount, .range (e.graph.vertexCount - 1), .unit] := by
  unfold ErC.mStep at hs
  obtain ⟨⟨p, r1⟩, e1, hs⟩ := Res.bind_eq_ok.1 hs
  have a1 := drawTwo_asked e1
  have key : e'.rng = (coin r1 e.prob).2 := by
    dsimp only at hs
    split at hs
    · obtain ⟨⟨x, g⟩, _, hs⟩ := Res.bind_eq_ok.1 hs
      cases x <;> · injection hs with hs; rw [← (Prod.mk.inj hs).2]
    · obtain ⟨⟨x, g⟩, _, hs⟩ := Res.bind_eq_ok.1 hs
      cases x <;> · injection hs with hs; rw [← (Prod.mk.inj hs).2]
  rw [key, coin_asked, a1, List.append_assoc]
  rfl

/-- `ErEnsembleC::undo_step` and `undo_step_quiet` ask for nothing. -/
theorem C111_er_c_undo {e e' : ErC T R} {s u : ErStepC} :
    (e.undoStep s = .ok (u, e') → e'.rng = e.rng) ∧ (e.undoStepQuiet s = .ok e' → e'.rng = e.rng) := by
  constructor
  · intro h
    cases s <;> simp only [ErC.undoStep] at h
    · cases h; rfl
    · obtain ⟨⟨x, g⟩, _, h⟩ := Res.bind_eq_ok.1 h
      cases x <;> · cases h; rfl
    · obtain ⟨⟨x, g⟩, _, h⟩ := Res.bind_eq_ok.1 h
      cases x <;> · cases h; rfl
    · cases h; rfl
  · intro h
    cases s <;> simp only [ErC.undoStepQuiet] at h
    · cases h; rfl
    · obtain ⟨x, _, h⟩ := Res.bind_eq_ok.1 h
      obtain ⟨g, _, h⟩ := Res.bind_eq_ok.1 h
      cases h; rfl
    · obtain ⟨x, _, h⟩ := Res.bind_eq_ok.1 h
      obtain ⟨g, _, h⟩ := Res.bind_eq_ok.1 h
      cases h; rfl
    · cases h

/-! ## Erdős–Rényi, fixed number of edges -/

/-- `ErEnsembleM::randomize` shuffles the list of all pairs once; `m_step` asks for the index of a present and of an absent edge. -/
theorem C111_er_m {e e' : ErM T (Recorder R)} :
    (e.randomize = .ok e' → e'.rng.asked = e.rng.asked ++ [.shuffle e.allEdges.length]) ∧
    (∀ s, e.mStep = .ok (s, e') → e'.rng.asked = e.rng.asked ++ [.range e.currentEdges.length, .range e.possibleEdges.length]) := by
  constructor
  · intro h
    unfold ErM.randomize at h
    obtain ⟨_, _, h⟩ := Res.bind_eq_ok.1 h
    obtain ⟨_, _, h⟩ := Res.bind_eq_ok.1 h
    obtain ⟨_, _, h⟩ := Res.bind_eq_ok.1 h
    obtain ⟨_, _, h⟩ := Res.bind_eq_ok.1 h
    cases h
    rfl
  · intro s h
    unfold ErM.mStep at h
    obtain ⟨⟨x, r1⟩, e1, h⟩ := Res.bind_eq_ok.1 h
    obtain ⟨⟨y, r2⟩, e2, h⟩ := Res.bind_eq_ok.1 h
    obtain ⟨_, _, h⟩ := Res.bind_eq_ok.1 h
    obtain ⟨_, _, h⟩ := Res.bind_eq_ok.1 h
    obtain ⟨e1', hstep, h⟩ := Res.bind_eq_ok.1 h
    cases h
    have key : e'.rng = r2 := by
      unfold ErM.step at hstep
      obtain ⟨_, _, hstep⟩ := Res.bind_eq_ok.1 hstep
      obtain ⟨_, _, hstep⟩ := Res.bind_eq_ok.1 hstep
      obtain ⟨_, _, hstep⟩ := Res.bind_eq_ok.1 hstep
      obtain ⟨_, _, hstep⟩ := Res.bind_eq_ok.1 hstep
      obtain ⟨_, _, hstep⟩ := Res.bind_eq_ok.1 hstep
      obtain ⟨_, _, hstep⟩ := Res.bind_eq_ok.1 hstep
      cases hstep
      rfl
    rw [key, genRange_asked e2, genRange_asked e1, List.append_assoc]
    rfl

/-! ## Spatial ensembles -/

/-- `randomize` of the spatial ensembles asks for one number in `[0, 1)` for each pair, whatever the positions are. -/
theorem C111_spacial_randomize {e : Spacial T (Recorder R)} (h : e.graph.WF) :
    ∃ x, e.randomize = .ok x ∧ x.rng.asked = e.rng.asked ++ List.replicate (e.graph.vertexCount * (e.graph.vertexCount - 1) / 2) .unit := by
  obtain ⟨x, a1, _, _, _, _, _, _, a7⟩ := C47_spacial_randomize h
  refine ⟨x, a1, ?_⟩
  rw [a7, throws_asked, length_allPairs]

/-- `m_step` of the spatial ensembles asks for two indices and one number in `[0, 1)`. -/
theorem C111_spacial_step {e e' : Spacial T (Recorder R)} {s : SpacialStep} (hs : e.mStep = .ok (s, e')) :
    e'.rng.asked = e.rng.asked ++ [.range e.graph.vertexCount, .range (e.graph.vertexCount - 1), .unit] := by
  unfold Spacial.mStep at hs
  obtain ⟨⟨p, r1⟩, e1, hs⟩ := Res.bind_eq_ok.1 hs
  obtain ⟨q, _, hs⟩ := Res.bind_eq_ok.1 hs
  have a1 := drawTwo_asked e1
  have key : e'.rng = (coin r1 q).2 := by
    dsimp only at hs
    split at hs
    · obtain ⟨⟨x, g⟩, _, hs⟩ := Res.bind_eq_ok.1 hs
      cases x <;> · injection hs with hs; rw [← (Prod.mk.inj hs).2]
    · obtain ⟨⟨x, g⟩, _, hs⟩ := Res.bind_eq_ok.1 hs
      cases x <;> · injection hs with hs; rw [← (Prod.mk.inj hs).2]
  rw [key, coin_asked, a1, List.append_assoc]
  rfl

/-! ## Small-world ensemble -/

theorem sw_rewire_size {g g' : SwGraph T} {a b c : ℕ} {s : SwChange} (h : SwGraph.rewireEdge g a b c = .ok (s, g')) : g'.vertexCount = g.vertexCount := by
  unfold SwGraph.rewireEdge at h
  split at h
  · cases h; rfl
  · obtain ⟨⟨c0, c1, c2⟩, _, h⟩ := Res.bind_eq_ok.1 h
    obtain ⟨⟨s, c0, c1, c2⟩, _, h⟩ := Res.bind_eq_ok.1 h
    cases h
    rfl

theorem sw_reset_size {g g' : SwGraph T} {a b : ℕ} {s : SwChange} (h : SwGraph.resetEdge g a b = .ok (s, g')) : g'.vertexCount = g.vertexCount := by
  unfold SwGraph.resetEdge at h
  obtain ⟨⟨c0, c1⟩, _, h⟩ := Res.bind_eq_ok.1 h
  obtain ⟨⟨r, c0, c1⟩, _, h⟩ := Res.bind_eq_ok.1 h
  cases r with
  | error x => cases h; rfl
  | ok v =>
    obtain ⟨_, _, h⟩ := Res.bind_eq_ok.1 h
    obtain ⟨_, _, h⟩ := Res.bind_eq_ok.1 h
    cases h
    rfl

/-- One proposal: the number that decides about rewiring, then the new end if the edge is to be rewired. -/
theorem sw_proposal_asked {e e' : SwEns T (Recorder R)} {i j : ℕ} {s : SwChange} (h : e.randomizeEdge i j = .ok (s, e')) :
    e'.graph.vertexCount = e.graph.vertexCount ∧
    e'.rng.asked = e.rng.asked ++ proposalAsks e.graph.vertexCount (coin e.rng e.rProb).1 := by
  unfold SwEns.randomizeEdge at h
  dsimp only at h
  unfold proposalAsks
  split at h
  · rename_i hb
    rw [if_pos hb]
    obtain ⟨n1, e1, h⟩ := Res.bind_eq_ok.1 h
    obtain ⟨⟨k, r⟩, e2, h⟩ := Res.bind_eq_ok.1 h
    obtain ⟨⟨s', g⟩, e3, h⟩ := Res.bind_eq_ok.1 h
    have hn : n1 = e.graph.vertexCount - 1 := by
      unfold Res.sub at e1
      split at e1
      · injection e1 with e1; exact e1.symm
      · cases e1
    cases h
    refine ⟨sw_rewire_size e3, ?_⟩
    unfold drawRemaining at e2
    obtain ⟨⟨x, r1⟩, e4, e2⟩ := Res.bind_eq_ok.1 e2
    have : r1 = r := by
      dsimp only at e2
      split at e2 <;> · injection e2 with e2; exact (Prod.mk.inj e2).2
    show r.asked = _
    rw [← this, genRange_asked e4, coin_asked, hn, List.append_assoc]
    rfl
  · rename_i hb
    rw [if_neg hb]
    obtain ⟨⟨s', g⟩, e3, h⟩ := Res.bind_eq_ok.1 h
    cases h
    exact ⟨sw_reset_size e3, rfl⟩

/-- `SwEnsemble::m_step` asks for the index of an edge, for a number in `[0, 1)`, and, only if this number says so, for the new end. -/
theorem C111_sw_step {e e' : SwEns T (Recorder R)} {s : SwChange} (h : e.mStep = .ok (s, e')) :
    ∃ b, e'.rng.asked = e.rng.asked ++ .range e.graph.edgeCount :: proposalAsks e.graph.vertexCount b := by
  unfold SwEns.mStep at h
  obtain ⟨⟨p, e1⟩, h1, h⟩ := Res.bind_eq_ok.1 h
  obtain ⟨_, h2⟩ := sw_proposal_asked h
  unfold SwEns.drawEdge at h1
  obtain ⟨⟨x, r⟩, h3, h1⟩ := Res.bind_eq_ok.1 h1
  obtain ⟨_, _, h1⟩ := Res.bind_eq_ok.1 h1
  obtain ⟨_, _, h1⟩ := Res.bind_eq_ok.1 h1
  cases h1
  refine ⟨(coin r e.rProb).1, h2.trans ?_⟩
  show r.asked ++ _ = _
  rw [genRange_asked h3, List.append_assoc]
  rfl

theorem sw_vertex_asked {e e' : SwEns T (Recorder R)} {i : ℕ} (h : e.randomizeVertex i = .ok e') :
    e'.graph.vertexCount = e.graph.vertexCount ∧
    ∃ b c, e'.rng.asked = e.rng.asked ++ (proposalAsks e.graph.vertexCount b ++ proposalAsks e.graph.vertexCount c) := by
  unfold SwEns.randomizeVertex at h
  obtain ⟨_, _, h⟩ := Res.bind_eq_ok.1 h
  obtain ⟨_, _, h⟩ := Res.bind_eq_ok.1 h
  obtain ⟨_, _, h⟩ := Res.bind_eq_ok.1 h
  obtain ⟨_, _, h⟩ := Res.bind_eq_ok.1 h
  obtain ⟨⟨s1, e1⟩, h1, h⟩ := Res.bind_eq_ok.1 h
  obtain ⟨_, _, h⟩ := Res.bind_eq_ok.1 h
  obtain ⟨⟨s2, e2⟩, h2, h⟩ := Res.bind_eq_ok.1 h
  obtain ⟨_, _, h⟩ := Res.bind_eq_ok.1 h
  cases h
  obtain ⟨a1, a2⟩ := sw_proposal_asked h1
  obtain ⟨b1, b2⟩ := sw_proposal_asked h2
  refine ⟨b1.trans a1, (coin e.rng e.rProb).1, (coin e1.rng e1.rProb).1, ?_⟩
  rw [b2, a2, a1, List.append_assoc]

/-- `SwEnsemble::randomize` makes two proposals for each vertex, so between `2n` and `4n` requests. -/
theorem C111_sw_randomize {e e' : SwEns T (Recorder R)} (h : e.randomize = .ok e') :
    ∃ bs : List Bool, bs.length = 2 * e.graph.vertexCount ∧
      e'.rng.asked = e.rng.asked ++ bs.flatMap (proposalAsks e.graph.vertexCount) ∧
      e.rng.asked.length + 2 * e.graph.vertexCount ≤ e'.rng.asked.length ∧
      e'.rng.asked.length ≤ e.rng.asked.length + 4 * e.graph.vertexCount := by
  have key : ∀ (l : List ℕ) (e : SwEns T (Recorder R)), l.foldlM SwEns.randomizeVertex e = .ok e' →
      ∃ bs : List Bool, bs.length = 2 * l.length ∧ e'.rng.asked = e.rng.asked ++ bs.flatMap (proposalAsks e.graph.vertexCount) := by
    intro l
    induction l with
    | nil => intro e h; cases h; exact ⟨[], rfl, by simp⟩
    | cons i l ih =>
      intro e h
      rw [List.foldlM_cons] at h
      obtain ⟨e1, h1, h⟩ := Res.bind_eq_ok.1 h
      obtain ⟨a1, b, c, a2⟩ := sw_vertex_asked h1
      obtain ⟨bs, b1, b2⟩ := ih e1 h
      refine ⟨b :: c :: bs, by simp only [List.length_cons, b1]; omega, ?_⟩
      rw [b2, a2, a1]
      simp
  obtain ⟨bs, h1, h2⟩ := key _ e h
  rw [List.length_range] at h1
  have hlen : ∀ (n : ℕ) (bs : List Bool), bs.length ≤ (bs.flatMap (proposalAsks n)).length ∧
      (bs.flatMap (proposalAsks n)).length ≤ 2 * bs.length := by
    intro n bs
    induction bs with
    | nil => simp
    | cons b bs ih =>
      have : 1 ≤ (proposalAsks n b).length ∧ (proposalAsks n b).length ≤ 2 := by cases b <;> simp [proposalAsks]
      rw [List.flatMap_cons, List.length_append, List.length_cons]
      omega
  have := hlen e.graph.vertexCount bs
  refine ⟨bs, h1, h2, ?_, ?_⟩ <;> · rw [h2, List.length_append]; omega

/-! ## Jumping ahead

The place of the generator after `k` networks is known beforehand. -/

/-- The generator after one request for a number in `[0, 1)`. -/
def skipUnit (r : R) : R := (Rng.genUnit r).2

theorem throws_snd (p : ℕ × ℕ → ℚ) : ∀ (l : List (ℕ × ℕ)) (r : R), (throws p l r).2 = skipUnit^[l.length] r
  | [], _ => rfl
  | q :: l, r => by
    show (throws p l (coin r (p q)).2).2 = _
    rw [throws_snd p l]
    rfl

theorem times_one {E : Type} (call : E → Res E) (e : E) : times call 1 e = call e := by
  show (do let x ← call e; times call 0 x) = call e
  cases h : call e <;> rfl

/-- The `k + 1`-st network of a run of `ErEnsembleC::randomize` can be made without making the first `k`: let the generator skip
`k n (n - 1) / 2` numbers and call `randomize` once.  The whole state, with the generator, is the same. -/
theorem C111_er_c_jump {e : ErC T R} (h : e.graph.WF) (k : ℕ) :
    times ErC.randomize (k + 1) e =
      ErC.randomize { e with rng := skipUnit^[k * (e.graph.vertexCount * (e.graph.vertexCount - 1) / 2)] e.rng } := by
  induction k generalizing e with
  | zero =>
    rw [times_one, Nat.zero_mul]
    rfl
  | succ k ih =>
    obtain ⟨x, a1, a2, a3, a4, a5, _, a7⟩ := C32_er_c_randomize h
    have hc : x.cTarget = e.cTarget := by
      unfold ErC.randomize at a1
      obtain ⟨_, _, a1⟩ := Res.bind_eq_ok.1 a1
      cases a1
      rfl
    show (do let x ← e.randomize; times ErC.randomize (k + 1) x) = _
    rw [a1, Res.ok_bind, ih a2]
    refine C69_er_c_forgets (e := { e with rng := skipUnit^[(k + 1) * (e.graph.vertexCount * (e.graph.vertexCount - 1) / 2)] e.rng }) h a2 a4 a5 hc ?_
    show skipUnit^[_] x.rng = skipUnit^[_] e.rng
    rw [a7, coins_throws, throws_snd, length_allPairs, a3, ← Function.iterate_add_apply, Nat.succ_mul]

/-- The same for the spatial ensembles; the vertices stay where they are. -/
theorem C111_spacial_jump {e : Spacial T R} (h : e.graph.WF) (k : ℕ) :
    times Spacial.randomize (k + 1) e =
      Spacial.randomize { e with rng := skipUnit^[k * (e.graph.vertexCount * (e.graph.vertexCount - 1) / 2)] e.rng } := by
  induction k generalizing e with
  | zero =>
    rw [times_one, Nat.zero_mul]
    rfl
  | succ k ih =>
    obtain ⟨x, a1, a2, a3, a4, a5, a6, _, a7⟩ := C47_spacial_randomize h
    have hv : x.graph.vertices.map (fun c => (c.node, c.x, c.y)) = e.graph.vertices.map (fun c => (c.node, c.x, c.y)) := by
      have z : ∀ l : List (SpacialNodeContainer T), l.map (fun c => (c.node, c.x, c.y)) = (l.map contained).zip (l.map (fun c => (c.x, c.y))) := by
        intro l
        induction l with
        | nil => rfl
        | cons c l ih => simp only [List.map_cons, List.zip_cons_cons, ih]; rfl
      rw [z, z]
      exact congrArg₂ List.zip a4 a5
    show (do let x ← e.randomize; times Spacial.randomize (k + 1) x) = _
    rw [a1, Res.ok_bind, ih a2]
    refine C69_spacial_forgets (e := { e with rng := skipUnit^[(k + 1) * (e.graph.vertexCount * (e.graph.vertexCount - 1) / 2)] e.rng }) h a2 hv a6 ?_
    show skipUnit^[_] x.rng = skipUnit^[_] e.rng
    rw [a7, throws_snd, length_allPairs, a3, ← Function.iterate_add_apply, Nat.succ_mul]

/-- With `Pcg64` skipping a number is one step of the linear congruential generator. -/
theorem C111_pcg_skip (r : Pcg64) (k : ℕ) : skipUnit^[k] r = Pcg64.step^[k] r := by
  have : (skipUnit : Pcg64 → Pcg64) = Pcg64.step := by
    funext r
    unfold skipUnit Rng.genUnit instRngPcg64
    dsimp only
    unfold Pcg64.nextU64
    dsimp only
  rw [this]

/-! ## Cases -/

example : (ErC.randomize ({ graph := GenericGraph.new 4, prob := 0, cTarget := 0, rng := ⟨⟨[1]⟩, []⟩ } : ErC Nat (Recorder Script))).bind
    (fun e => .ok e.rng.asked) = .ok (List.replicate 6 .unit) := by
  obtain ⟨x, h1, h2⟩ := C111_er_c_randomize (e := ({ graph := GenericGraph.new 4, prob := 0, cTarget := 0, rng := ⟨⟨[1]⟩, []⟩ } : ErC Nat (Recorder Script)))
    (new_wf 4)
  rw [h1]
  exact congrArg Res.ok h2

example : ∃ s e', ({ graph := exSw, rProb := -1, rng := ⟨⟨[0, 0]⟩, []⟩ } : SwEns Nat (Recorder Script)).mStep = .ok (s, e') ∧
    ∃ b, e'.rng.asked = [] ++ .range exSw.edgeCount :: proposalAsks exSw.vertexCount b := by
  obtain ⟨s, e', h, _⟩ := C36_sw_step (e := ({ graph := exSw, rProb := -1, rng := ⟨⟨[0, 0]⟩, []⟩ } : SwEns Nat (Recorder Script))) exSw_valid
  exact ⟨s, e', h, C111_sw_step h⟩

end Verif
