import Verif.Model.Build
import Verif.Lemmas.SwOwned
import Verif.Lemmas.RingSmall
import Verif.Props.Sw
import Verif.Props.Ws
import Verif.Props.Config
import Verif.Props.Connect

/-!
# C106: constructors in both builds, with numbers of 64 bits
-/

set_option linter.unusedSectionVars false
set_option linter.unusedSimpArgs false

namespace Verif
open AdjContainer GenericGraph

/-! ## The ring -/

section
variable {T A : Type} [AdjContainer T A] [LawfulAdj T A]

/-- `init_ring` with distance `d ≥ 1` on `n ≥ 1` vertices: for `n ≤ d` a debug build panics and a release build has undefined behaviour,
for `d < n ≤ 2 d` both answer with an error, and for `n > 2 d` both build the ring. -/
theorem C106_init_ring {g : GenericGraph T A} (h : g.WF) (hn : 1 ≤ g.vertexCount) (d : Nat) :
    (g.vertexCount ≤ d → g.initRing d = .panic ∧ g.initRingR d = .ub) ∧
    (d < g.vertexCount → g.vertexCount ≤ 2 * d →
      ∃ g', g.initRing d = .ok (.error .edgeExists, g') ∧ g.initRingR d = .ok (.error .edgeExists, g')) ∧
    (2 * d < g.vertexCount → ∃ g', g.initRing d = .ok (.ok (), g') ∧ g.initRingR d = .ok (.ok (), g')) := by
  refine ⟨fun h1 => initRing_loop h hn h1, fun h1 h2 => ?_, fun h1 => ?_⟩
  · obtain ⟨g', a1⟩ := initRing_twice h h1 h2
    exact ⟨g', a1, (initRing_same g d).eq_ok a1⟩
  · obtain ⟨g', a1, _⟩ := initRing_inv h (d := d) h1
    exact ⟨g', a1, (initRing_same g d).eq_ok a1⟩

end

section
variable {T R : Type} [Rng R] [Node T]

/-! ## SwEnsemble -/

/-- **C106.** `SwEnsemble::new` in a release build: one or two vertices are undefined behaviour, three or four panic, and otherwise
the result is that of a debug build. -/
theorem C106_sw_new (n : Nat) (p : ℚ) (r : R) :
    ((SwEns.newR n p r : Rel (SwEns T R)) = .ub ↔ n = 1 ∨ n = 2) ∧
    (n = 3 ∨ n = 4 → (SwEns.newR n p r : Rel (SwEns T R)) = .panic ∧ (SwEns.new n p r : Res (SwEns T R)) = .panic) ∧
    (n = 0 ∨ 5 ≤ n → ∃ e : SwEns T R, SwEns.new n p r = .ok e ∧ SwEns.newR n p r = .ok e) := by
  have hwf : (GenericGraph.new n : SwGraph T).WF := new_wf n
  have hbig : n = 0 ∨ 5 ≤ n → ∃ e : SwEns T R, SwEns.new n p r = .ok e ∧ SwEns.newR n p r = .ok e := by
    intro hn
    obtain ⟨e, he⟩ := (C35_sw_new_iff (T := T) n p r).mpr hn
    refine ⟨e, he, ?_⟩
    unfold SwEns.new SwGraph.initRing2 at he
    simp only [Res.bind_eq_ok] at he
    obtain ⟨g, ⟨⟨q, g1⟩, h1, h2⟩, h3⟩ := he
    unfold SwEns.newR SwGraph.initRing2R
    simp only
    rw [(initRing_same _ _).eq_ok h1]
    simp only [Rel.ok_bind]
    rw [h2, Rel.ofRes_ok, Rel.ok_bind]
    exact (sw_randomize_same _).eq_ok h3
  have hmid : n = 3 ∨ n = 4 → (SwEns.newR n p r : Rel (SwEns T R)) = .panic ∧ (SwEns.new n p r : Res (SwEns T R)) = .panic := by
    intro hn
    obtain ⟨g', a1, a2⟩ := (C106_init_ring hwf (by show 1 ≤ n; omega) 2).2.1 (by show 2 < n; omega) (by show n ≤ 4; omega)
    constructor
    · unfold SwEns.newR SwGraph.initRing2R
      simp only
      rw [a2]; rfl
    · unfold SwEns.new SwGraph.initRing2
      simp only
      rw [a1]; rfl
  refine ⟨⟨fun hu => ?_, fun hn => ?_⟩, hmid, hbig⟩
  · by_contra hc
    by_cases h34 : n = 3 ∨ n = 4
    · rw [(hmid h34).1] at hu; cases hu
    · obtain ⟨e, _, he⟩ := hbig (by omega)
      rw [he] at hu; cases hu
  · obtain ⟨_, a2⟩ := (C106_init_ring hwf (by show 1 ≤ n; omega) 2).1 (by show n ≤ 2; omega)
    unfold SwEns.newR SwGraph.initRing2R
    simp only
    rw [a2]; rfl

example : (SwEns.newR 2 (1/2) (⟨[]⟩ : Script) : Rel (SwEns Nat Script)) = .ub :=
  (C106_sw_new 2 _ _).1.mpr (.inr rfl)

/-- **C106.** `SwEnsemble::new_with_distance` in a release build, for every distance and number of vertices.  For a debug build see
`C106_sw_debug`. -/
theorem C106_sw_new_with_distance (n d : Nat) (hd : 1 ≤ d) (p : ℚ) (r : R) :
    (n = 0 → ∃ e : SwEns T R, SwEns.newWithDistanceR n d p r = .ok (.ok e) ∧ e.graph.vertexCount = 0) ∧
    (1 ≤ n → n ≤ d → (SwEns.newWithDistanceR n d p r : Rel (Except GraphErr (SwEns T R))) = .ub) ∧
    (d < n → n ≤ 2 * d → (SwEns.newWithDistanceR n d p r : Rel (Except GraphErr (SwEns T R))) = .ok (.error .edgeExists) ∧
      (SwEns.newWithDistance n d p r : Res (Except GraphErr (SwEns T R))) = .ok (.error .edgeExists)) ∧
    (2 * d < n → d = 1 → (SwEns.newWithDistanceR n d p r : Rel (Except GraphErr (SwEns T R))) = .panic) ∧
    (2 * d < n → 2 ≤ d → ∃ e : SwEns T R, SwEns.newWithDistanceR n d p r = .ok (.ok e) ∧ e.graph.WF ∧ e.graph.vertexCount = n ∧
      e.graph.edgeCount = n * d ∧ e.rProb = p ∧ SwOwned d e.graph) := by
  have hwf : (GenericGraph.new n : SwGraph T).WF := new_wf n
  refine ⟨?_, fun h0 h1 => ?_, fun h1 h2 => ?_, fun h1 h2 => ?_, fun h1 h2 => ?_⟩
  · rintro rfl
    exact ⟨⟨GenericGraph.new 0, p, r⟩, rfl, rfl⟩
  · obtain ⟨_, a2⟩ := (C106_init_ring hwf h0 d).1 h1
    unfold SwEns.newWithDistanceR
    simp only
    rw [a2]; rfl
  · obtain ⟨g', a1, a2⟩ := (C106_init_ring hwf (by show 1 ≤ n; omega) d).2.1 h1 h2
    constructor
    · unfold SwEns.newWithDistanceR
      simp only
      rw [a2]; rfl
    · unfold SwEns.newWithDistance
      simp only
      rw [a1]; rfl
  · subst h2
    obtain ⟨g, a1, a2, a3, _⟩ := SwOwned.ring (T := T) (n := n) (d := 1) (by omega) (by omega)
    unfold SwEns.newWithDistanceR
    simp only
    rw [(initRing_same _ _).eq_ok a1, Rel.ok_bind]
    simp only
    have hp : SwEns.randomizeR (⟨g, p, r⟩ : SwEns T R) = .panic := by
      unfold SwEns.randomizeR
      show (List.range g.nextId).foldlM SwEns.randomizeVertexR _ = _
      have hlen : ((SwGraph.raw g 0).filter SwEdge.isRoot).length = 1 := by
        rw [filter_root_length, (a2.roots 0 (by omega)).length_eq]; rfl
      obtain ⟨x, hx⟩ := List.length_eq_one_iff.mp hlen
      obtain ⟨c, c1, c2, c3, _⟩ := sw_container a2.wf (i := 0) (by omega)
      rw [a3, show n = (n - 1) + 1 by omega, List.range_succ_eq_map, List.foldlM_cons]
      have hb : SwEns.randomizeVertexR (⟨g, p, r⟩ : SwEns T R) 0 = .panic := by
        unfold SwEns.randomizeVertexR
        rw [c3] at hx
        simp [Vec.idx_of_some c1, SwContainer.iterRawEdges, hx, Res.unwrap]
      rw [hb]; rfl
    rw [hp]; rfl
  · obtain ⟨g, a1, a2, a3, _⟩ := SwOwned.ring (T := T) (n := n) (d := d) (by omega) (by omega)
    obtain ⟨e, b1, b2, b3, _, b5⟩ := SwEns.randomizeR_owned (e := (⟨g, p, r⟩ : SwEns T R)) a2 h2
    refine ⟨e, ?_, b2.wf, b3.trans a3, ?_, b5, b2⟩
    · unfold SwEns.newWithDistanceR
      simp only
      rw [(initRing_same _ _).eq_ok a1, Rel.ok_bind]
      simp only
      rw [b1]; rfl
    · rw [b2.count, b3]
      show g.nextId * d = _
      rw [a3]

/-- **C106.** Where a debug build panics: `SwEnsemble::new` exactly for one to four vertices, `new_with_distance` exactly if there are at
most `d` vertices or the ring fits and `d` is not two. -/
theorem C106_sw_debug (n d : Nat) (hd : 1 ≤ d) (p : ℚ) (r : R) :
    ((SwEns.new n p r : Res (SwEns T R)) = .panic ↔ 1 ≤ n ∧ n ≤ 4) ∧
    ((SwEns.newWithDistance n d p r : Res (Except GraphErr (SwEns T R))) = .panic ↔ 1 ≤ n ∧ (n ≤ d ∨ (2 * d < n ∧ d ≠ 2))) := by
  have hwf : (GenericGraph.new n : SwGraph T).WF := new_wf n
  refine ⟨⟨fun h => ?_, fun ⟨h0, h1⟩ => ?_⟩, ⟨fun h => ?_, ?_⟩⟩
  · by_contra hc
    obtain ⟨e, he⟩ := (C35_sw_new_iff (T := T) n p r).mpr (by omega)
    rw [he] at h; cases h
  · by_cases h2 : n ≤ 2
    · obtain ⟨a1, _⟩ := (C106_init_ring hwf h0 2).1 h2
      unfold SwEns.new SwGraph.initRing2
      simp only
      rw [a1]; rfl
    · exact ((C106_sw_new n p r).2.1 (by omega)).2
  · by_contra hc
    by_cases h2 : d < n ∧ n ≤ 2 * d
    · rw [((C106_sw_new_with_distance (T := T) n d hd p r).2.2.1 h2.1 h2.2).2] at h; cases h
    · obtain ⟨e, he⟩ := (C35_sw_new_with_distance_iff (T := T) n d hd p r).mpr (by omega)
      rw [he] at h; cases h
  · rintro ⟨h0, h1 | ⟨h1, h2⟩⟩
    · obtain ⟨a1, _⟩ := (C106_init_ring hwf h0 d).1 h1
      unfold SwEns.newWithDistance
      simp only
      rw [a1]; rfl
    · by_contra hc
      have hs : SameUnlessPanic (SwEns.newWithDistance n d p r : Res (Except GraphErr (SwEns T R))) (SwEns.newWithDistanceR n d p r) := by
        unfold SwEns.newWithDistance SwEns.newWithDistanceR
        refine .bind (initRing_same _ _) fun q _ => ?_
        obtain ⟨q, g⟩ := q
        cases q with
        | error e => exact .ok _
        | ok u => exact .bind (sw_randomize_same _) fun s _ => .ok _
      have he := hs.eq hc
      have hno := mt (C35_sw_new_with_distance_iff (T := T) n d hd p r).mp (by omega)
      by_cases hd1 : d = 1
      · rw [(C106_sw_new_with_distance (T := T) n d hd p r).2.2.2.1 h1 hd1] at he
        match hx : (SwEns.newWithDistance n d p r : Res (Except GraphErr (SwEns T R))), he with
        | .panic, _ => exact hc hx
      · obtain ⟨e, b, _⟩ := (C106_sw_new_with_distance (T := T) n d hd p r).2.2.2.2 h1 (by omega)
        rw [b] at he
        match hx : (SwEns.newWithDistance n d p r : Res (Except GraphErr (SwEns T R))), he with
        | .ok y, he => cases he; exact hno ⟨e, hx⟩

omit [Node T] in
/-- **C106.** A step of the ensemble that a release build returns for a distance `d ≥ 3`: the edge is drawn from all `n d` edges as if
every vertex had two, so the `n (d - 2)` draws from `2 n` on panic. -/
theorem C106_sw_distance_step {e : SwEns T R} {d : Nat} (h : SwOwned d e.graph) (hd : 2 ≤ d) {num : Nat} {r : R}
    (hr : genRange e.rng (e.graph.vertexCount * d) = .ok (num, r)) :
    (e.mStepR = .panic ↔ 2 * e.graph.vertexCount ≤ num) ∧
    (num < 2 * e.graph.vertexCount → ∃ s e', e.mStepR = .ok (s, e') ∧ SwOwned d e'.graph ∧ SwStep e.graph s e'.graph) := by
  have hN : e.graph.vertexCount = e.graph.nextId := rfl
  rw [hN] at hr ⊢
  rw [← h.count] at hr
  by_cases hnum : num < 2 * e.graph.nextId
  · have hv : num / 2 < e.graph.nextId := by omega
    obtain ⟨d1, o1, d2, o2, l, h1, h3, _⟩ := h.firstTwo hd hv
    obtain ⟨c, c1, c2, c3, _⟩ := sw_container h.wf hv
    obtain ⟨j, o, hj, hm⟩ : ∃ j o, ((SwGraph.raw e.graph (num / 2)).filter SwEdge.isRoot)[num % 2]? = some ⟨j, some o⟩ ∧
        (⟨j, some o⟩ : SwEdge) ∈ SwGraph.raw e.graph (num / 2) := by
      have key : ∀ x : SwEdge, ((SwGraph.raw e.graph (num / 2)).filter SwEdge.isRoot)[num % 2]? = some x → x ∈ SwGraph.raw e.graph (num / 2) :=
        fun x hx => (List.mem_filter.mp (List.mem_of_getElem? hx)).1
      rcases Nat.mod_two_eq_zero_or_one num with h0 | h0
      · refine ⟨d1, o1, ?_, key _ ?_⟩ <;> rw [h1, h0] <;> rfl
      · refine ⟨d2, o2, ?_, key _ ?_⟩ <;> rw [h1, h0] <;> rfl
    have hdraw : e.drawEdge = .ok ((num / 2, j), { e with rng := r }) := by
      unfold SwEns.drawEdge GenericGraph.container
      rw [hr]
      simp only [Res.ok_bind, Vec.idx_of_some c1, SwContainer.iterRawEdges, ← c3, hj, Res.unwrap]
      rfl
    obtain ⟨s, e', b1, b2, _⟩ := SwEns.randomizeEdge_owned (e := { e with rng := r }) h hm
    have hstep : e.mStepR = .ok (s, e') := by
      unfold SwEns.mStepR
      rw [hdraw, Rel.ofRes_ok, Rel.ok_bind]
      exact (sw_randomizeEdge_same _ _ _).eq_ok b1
    refine ⟨⟨fun hp => ?_, fun hp => by omega⟩, fun _ => ⟨s, e', hstep, b2.owned h, b2⟩⟩
    rw [hstep] at hp; cases hp
  · have hdraw : e.drawEdge = .panic := by
      unfold SwEns.drawEdge GenericGraph.container
      rw [hr]
      simp only [Res.ok_bind]
      have : e.graph.vertices[num / 2]? = none := List.getElem?_eq_none (by rw [h.wf.len]; omega)
      simp only [Vec.idx, this]
      rfl
    refine ⟨⟨fun _ => by omega, fun _ => ?_⟩, fun hc => absurd hc hnum⟩
    unfold SwEns.mStepR
    rw [hdraw]; rfl

/-- Seven vertices and distance three: a release build returns an ensemble; drawing edge 14 of 21 panics. -/
example : ∃ e : SwEns Nat Script, SwEns.newWithDistanceR 7 3 (1/2) (⟨[0, 0]⟩ : Script) = .ok (.ok e) ∧ SwOwned 3 e.graph ∧
    ({ e with rng := (⟨[14]⟩ : Script) } : SwEns Nat Script).mStepR = .panic := by
  obtain ⟨e, h1, _, h3, _, _, h6⟩ := (C106_sw_new_with_distance (T := Nat) 7 3 (by decide) (1/2) (⟨[0, 0]⟩ : Script)).2.2.2.2
    (by decide) (by decide)
  refine ⟨e, h1, h6, ?_⟩
  refine (C106_sw_distance_step (e := { e with rng := (⟨[14]⟩ : Script) }) h6 (by decide) (num := 14) (r := ⟨[]⟩) ?_).1.mpr ?_
  · show genRange (⟨[14]⟩ : Script) (e.graph.vertexCount * 3) = _
    rw [h3]; exact script_genRange (by decide)
  · show 2 * e.graph.vertexCount ≤ 14
    rw [h3]

/-! ## SmallWorldWS -/

/-- **C106.** `WS::new` with the arithmetic of `usize`.  Below `2 ^ 63` both builds do what the model without bounds does.  From there on a
debug build panics although an error is documented; a release build computes `minimum_n` wrongly and, if that is not more than `n`, has
undefined behaviour. -/
theorem C106_ws_new (fuel n d : Nat) (hn : n < 2 ^ 32) (hd : d < 2 ^ 64) (hd1 : 1 ≤ d) (p : ℚ) (r : R) :
    (d < 2 ^ 63 → (Ws.newChecked fuel n d p r : Res (Except WSCreationError (Ws T R))) = Ws.new fuel n d p r ∧
      (Ws.newR fuel n d p r : Rel (Except WSCreationError (Ws T R))) = Rel.ofRes (Ws.new fuel n d p r)) ∧
    (2 ^ 63 ≤ d → (Ws.newChecked fuel n d p r : Res (Except WSCreationError (Ws T R))) = .panic ∧
      (n < 1 + 2 * (d - 2 ^ 63) → (Ws.newR fuel n d p r : Rel (Except WSCreationError (Ws T R))) = .ok (.error .impossibleRingRequest)) ∧
      (1 + 2 * (d - 2 ^ 63) ≤ n → (Ws.newR fuel n d p r : Rel (Except WSCreationError (Ws T R))) = .ub)) := by
  refine ⟨fun h => ⟨?_, ?_⟩, fun h => ⟨?_, fun h1 => ?_, fun h1 => ?_⟩⟩
  · unfold Ws.newChecked Ws.new Res.mul64 Res.add64
    rw [if_pos (by omega), Res.ok_bind, if_pos (by omega), Res.ok_bind]
    rfl
  · have hm : Rel.add64 1 (Rel.mul64 2 d) = 1 + 2 * d := by
      unfold Rel.add64 Rel.mul64
      rw [Nat.mod_eq_of_lt (a := 2 * d) (by omega), Nat.mod_eq_of_lt (by omega)]
    have hs : SameUnlessPanic (Ws.new fuel n d p r : Res (Except WSCreationError (Ws T R))) (Ws.newR fuel n d p r) := by
      unfold Ws.new Ws.newR
      simp only [hm]
      split
      · exact .ok _
      · refine .bind (initRing_same _ _) fun q _ => ?_
        obtain ⟨q, g⟩ := q
        cases q with
        | error e => exact .ok _
        | ok u => exact .bind (ws_randomize_same _ _) fun s _ => .ok _
    exact hs.eq (C45_ws_new fuel n d hn p r).1
  · unfold Ws.newChecked Res.mul64 Res.add64
    rw [if_neg (by omega)]; rfl
  · have hm : Rel.add64 1 (Rel.mul64 2 d) = 1 + 2 * (d - 2 ^ 63) := by
      unfold Rel.add64 Rel.mul64; omega
    unfold Ws.newR
    simp only [hm]
    rw [if_pos h1]; rfl
  · have hm : Rel.add64 1 (Rel.mul64 2 d) = 1 + 2 * (d - 2 ^ 63) := by
      unfold Rel.add64 Rel.mul64; omega
    obtain ⟨_, a2⟩ := (C106_init_ring (new_wf (T := T) (A := WSContainer T) n) (by show 1 ≤ n; omega) d).1 (by show n ≤ d; omega)
    unfold Ws.newR
    simp only [hm]
    rw [if_neg (by omega)]
    simp only [a2]
    rfl

example : (Ws.newR 9 3 (2 ^ 63) (1/2) (⟨[]⟩ : Script) : Rel (Except WSCreationError (Ws Nat Script))) = .ub :=
  ((C106_ws_new 9 3 (2 ^ 63) (by decide) (by decide) (by decide) _ _).2 (by decide)).2.2 (by decide)

/-! ## The empty network and large ones -/

/-- **C106.** `complete_graph`, `ErEnsembleM::new`, `ErEnsembleC::new` and `from_const` without vertices: a debug build panics, a release
build returns an empty network (or, with `m > 0` edges, panics). -/
theorem C106_empty (m c fuel : Nat) (cT : ℚ) (r : R) (hc : c < 2 ^ 64 - 1) :
    ((completeGraphChecked 0 : Res (Graph T)) = .panic ∧ (completeGraphR 0 : Graph T) = GenericGraph.new 0) ∧
    ((ErM.newChecked 0 m r : Res (ErM T R)) = .panic ∧
      (0 < m → (ErM.newR 0 m r : Rel (ErM T R)) = .panic) ∧
      (m = 0 → ∃ e : ErM T R, ErM.newR 0 m r = .ok e ∧ e.graph = GenericGraph.new 0)) ∧
    ((ErC.new 0 cT r : Res (ErC T R)) = .panic ∧ ∃ e : ErC T R, ErC.newR 0 cT r = .ok e ∧ e.graph = GenericGraph.new 0) ∧
    ((Config.fromConstChecked fuel c 0 r : Res (Option (Config T R))) = .panic ∧
      (∃ e : Config T R, Config.fromConstR (fuel + 1) c 0 r = .ok (some e) ∧ e.graph = GenericGraph.new 0)) := by
  have hsh : ∀ {α : Type}, (Rng.shuffle r ([] : List α)).1 = [] := fun {α} => List.perm_nil.mp (Rng.shuffle_perm r _)
  refine ⟨⟨rfl, rfl⟩, ⟨rfl, fun hm => ?_, fun hm => ?_⟩, ⟨rfl, ?_⟩, rfl, ?_⟩
  · unfold ErM.newR
    simp only [Rel.mul64, Nat.zero_mul, Nat.zero_mod, Nat.zero_div]
    rw [show Res.assert (decide (m ≤ 0)) = .panic by simp [Res.assert]; omega]
    rfl
  · subst hm
    refine ⟨⟨GenericGraph.new 0, 0, (Rng.shuffle r ([] : List (Nat × Nat))).2, [], [], []⟩, ?_, rfl⟩
    unfold ErM.newR ErM.randomizeR
    rcases hs : Rng.shuffle r ([] : List (Nat × Nat)) with ⟨l, r'⟩
    have hl : l = [] := by have := hsh (α := Nat × Nat); rw [hs] at this; exact this
    subst hl
    simp only [Rel.mul64, Nat.zero_mul, Nat.zero_mod, Nat.zero_div, List.range_zero, List.flatMap_nil, hs]
    rfl
  · exact ⟨_, rfl, rfl⟩
  · unfold Config.fromConstR
    rw [if_neg (by
      simp only [Rel.mul64, Rel.decr, Nat.zero_mul, Nat.zero_mod, ne_eq, not_true_eq_false, or_false, if_true]
      omega)]
    refine ⟨⟨GenericGraph.new 0, [], (Rng.shuffle r ([] : List Nat)).2, [], []⟩, ?_, rfl⟩
    unfold Config.fromVecUncheckedR Config.initEdgeHalfsR Config.randomizeR
    rcases hs : Rng.shuffle r ([] : List Nat) with ⟨l, r'⟩
    have hl : l = [] := by have := hsh (α := Nat); rw [hs] at this; exact this
    subst hl
    simp only [List.replicate_zero, List.length_nil, List.range_zero, List.foldlM_nil, Rel.pure_eq, Rel.ok_bind, hs]
    rfl

theorem prod_lt {n : Nat} : n * (n - 1) < 2 ^ 64 ↔ n ≤ 2 ^ 32 := by
  constructor
  · intro h
    by_contra hc
    have : (2 ^ 32 + 1) * 2 ^ 32 ≤ n * (n - 1) := Nat.mul_le_mul (by omega) (by omega)
    omega
  · intro h
    have : n * (n - 1) ≤ 2 ^ 32 * (2 ^ 32 - 1) := Nat.mul_le_mul h (by omega)
    omega

/-- **C106.** `complete_graph`, `ErEnsembleM::new` and `ErEnsembleC::new` with at least one vertex: up to `2 ^ 32` vertices both builds do
what the model without bounds does; beyond, `n * (n - 1)` overflows and a debug build panics. -/
theorem C106_pairs (n m : Nat) (h1 : 1 ≤ n) (cT : ℚ) (r : R) :
    (n ≤ 2 ^ 32 → (completeGraphChecked n : Res (Graph T)) = completeGraph n ∧ completeGraph n = .ok (completeGraphR n : Graph T) ∧
      (ErM.newChecked n m r : Res (ErM T R)) = ErM.new n m r ∧ (ErM.newR n m r : Rel (ErM T R)) = Rel.ofRes (ErM.new n m r)) ∧
    (ErC.newR n cT r : Rel (ErC T R)) = Rel.ofRes (ErC.new n cT r) ∧
    (2 ^ 32 < n → (completeGraphChecked n : Res (Graph T)) = .panic ∧ (ErM.newChecked n m r : Res (ErM T R)) = .panic) := by
  have hsub : Res.sub n 1 = .ok (n - 1) := Res.sub_of_le h1
  have hdec : Rel.decr n = n - 1 := if_neg (by omega)
  refine ⟨fun h => ?_, ?_, fun h => ?_⟩
  · have hmul : Res.mul64 n (n - 1) = .ok (n * (n - 1)) := if_pos (prod_lt.mpr h)
    have hmulR : Rel.mul64 n (n - 1) = n * (n - 1) := Nat.mod_eq_of_lt (prod_lt.mpr h)
    refine ⟨?_, ?_, ?_, ?_⟩
    · unfold completeGraphChecked completeGraph
      rw [hsub, Res.ok_bind, hmul, Res.ok_bind, Res.ok_bind]
    · unfold completeGraphR completeGraph
      rw [hsub, hdec, hmulR]; rfl
    · unfold ErM.newChecked ErM.new
      simp only [hsub, hmul, Res.ok_bind]
    · by_cases hm : m ≤ n * (n - 1) / 2
      · obtain ⟨e, he⟩ : ∃ e : ErM T R, ErM.new n m r = .ok e := by
          obtain ⟨e, he, _⟩ := ErM.new_spec (T := T) h1 hm r
          exact ⟨e, he⟩
        rw [he]
        unfold ErM.new at he
        simp only [hsub, Res.ok_bind] at he
        unfold ErM.newR
        simp only [hdec, hmulR]
        have ha : Res.assert (decide (m ≤ n * (n - 1) / 2)) = .ok () := by simp [Res.assert, hm]
        rw [ha, Res.ok_bind] at he
        rw [ha, Rel.ofRes_ok, Rel.ok_bind]
        exact (erM_randomize_same _).eq_ok he
      · rw [(C30_er_m_new_panics n m r).mpr (.inr (by omega))]
        unfold ErM.newR
        simp only [hdec, hmulR]
        rw [show Res.assert (decide (m ≤ n * (n - 1) / 2)) = .panic by simp [Res.assert, hm]]
        rfl
  · unfold ErC.newR ErC.new
    rw [hsub, Res.ok_bind, hdec]
  · have hmul : Res.mul64 n (n - 1) = .panic := if_neg (fun hc => absurd (prod_lt.mp hc) (by omega))
    constructor
    · unfold completeGraphChecked
      rw [hsub, Res.ok_bind, hmul]; rfl
    · unfold ErM.newChecked
      simp only [hsub, Res.ok_bind]
      rw [hmul]; rfl

/-- **C106.** `from_const` with at least one vertex: a release build does what the model without bounds does, for all arguments, because the
parity survives the overflow; so does a debug build up to `2 ^ 32` vertices. -/
theorem C106_from_const (fuel c n : Nat) (h1 : 1 ≤ n) (r : R) :
    (Config.fromConstR fuel c n r : Rel (Option (Config T R))) = Rel.ofRes (Config.fromConst fuel c n r) ∧
    (n ≤ 2 ^ 32 → (Config.fromConstChecked fuel c n r : Res (Option (Config T R))) = Config.fromConst fuel c n r) ∧
    (c < n - 1 → 2 ^ 64 ≤ n * c → (Config.fromConstChecked fuel c n r : Res (Option (Config T R))) = .panic) := by
  have hsub : Res.sub n 1 = .ok (n - 1) := Res.sub_of_le h1
  have hdec : Rel.decr n = n - 1 := if_neg (by omega)
  have hpar : Rel.mul64 n c % 2 = n * c % 2 := by
    unfold Rel.mul64
    rw [Nat.mod_mod_of_dvd _ (by decide : 2 ∣ 2 ^ 64)]
  refine ⟨?_, fun h => ?_, fun h2 h3 => ?_⟩
  · unfold Config.fromConstR Config.fromConst
    rw [hdec, hpar, hsub, Res.ok_bind]
    split
    · rfl
    · rename_i hc
      have hs : SameUnlessPanic (Config.fromVecUnchecked fuel (List.replicate n c) r : Res (Config T R))
          (Config.fromVecUncheckedR fuel (List.replicate n c) r) := by
        unfold Config.fromVecUnchecked Config.fromVecUncheckedR
        simp only [config_initEdgeHalfsR_eq, Rel.ok_bind]
        exact config_randomize_same _ _
      have hev : (List.replicate n c).sum % 2 = 0 := by
        rw [List.sum_replicate, smul_eq_mul]; omega
      rw [hs.eq ((C40_config_new (List.replicate n c) r fuel).1 hev), Rel.ofRes_bind]
      rfl
  · unfold Config.fromConstChecked Config.fromConst
    rw [hsub, Res.ok_bind, Res.ok_bind]
    by_cases hc : c ≥ n - 1
    · rw [if_pos hc, if_pos (.inl hc)]
    · rw [if_neg hc]
      have hmul : Res.mul64 n c = .ok (n * c) := if_pos (lt_of_le_of_lt (Nat.mul_le_mul_left n (by omega)) (prod_lt.mpr h))
      rw [hmul, Res.ok_bind]
      by_cases hp : n * c % 2 ≠ 0
      · rw [if_pos hp, if_pos (.inr hp)]
      · rw [if_neg hp, if_neg (by tauto)]
  · unfold Config.fromConstChecked
    rw [hsub, Res.ok_bind, if_neg (by omega), Res.mul64, if_neg (by omega)]
    rfl

end

/-! ## Connecting -/

section
variable {T A : Type} [AdjContainer T A]

theorem scBody_length {g : GenericGraph T A} {s s' : List Nat × List Int × Int} {i : Nat} (h : scBody g s i = .ok s')
    (hs : s.2.2 = s.1.length) : s'.2.2 = s'.1.length ∧ s.1.length ≤ s'.1.length ∧
      ((s'.1.length : Int) < 2 ^ 31 → scBodyChecked g s i = .ok s') ∧
      (s.1.length < s'.1.length → ¬ (s'.1.length : Int) < 2 ^ 31 → scBodyChecked g s i = .panic) ∧
      (s.1.length = s'.1.length → scBodyChecked g s i = .ok s') := by
  obtain ⟨sugg, comp, cur⟩ := s
  simp only at hs
  unfold scBody at h
  unfold scBodyChecked
  simp only [Res.bind_eq_ok] at h
  obtain ⟨c, hc, h⟩ := h
  simp only [hc, Res.ok_bind]
  by_cases h1 : c ≠ -1
  · rw [if_pos h1] at h ⊢
    cases h
    exact ⟨hs, le_rfl, fun _ => rfl, fun hx => absurd hx (lt_irrefl _), fun _ => rfl⟩
  · rw [if_neg h1] at h ⊢
    simp only [Res.bind_eq_ok] at h
    obtain ⟨l, hl, comp', hcomp, h⟩ := h
    cases h
    simp only [hl, hcomp, Res.ok_bind, List.length_append, List.length_singleton]
    refine ⟨by push_cast; omega, by omega, fun hx => ?_, fun _ hx => ?_, fun hx => by omega⟩
    · rw [if_pos (by push_cast at hx; omega)]; rfl
    · rw [if_neg (by push_cast at hx; omega)]

theorem scLoop_length {g : GenericGraph T A} : ∀ (l : List Nat) (s s' : List Nat × List Int × Int), l.foldlM (scBody g) s = .ok s' →
    s.2.2 = s.1.length → (s.1.length : Int) < 2 ^ 31 → s.1.length ≤ s'.1.length ∧
      ((s'.1.length : Int) < 2 ^ 31 → l.foldlM (scBodyChecked g) s = .ok s') ∧
      (¬ (s'.1.length : Int) < 2 ^ 31 → l.foldlM (scBodyChecked g) s = .panic) := by
  intro l
  induction l with
  | nil => intro s s' h h1 h2; cases h; exact ⟨le_rfl, fun _ => rfl, fun hc => absurd h2 hc⟩
  | cons i l ih =>
    intro s s' h h1 h2
    rw [List.foldlM_cons] at h
    simp only [Res.bind_eq_ok] at h
    obtain ⟨t, ht, h⟩ := h
    obtain ⟨a1, a2, a3, a4, a5⟩ := scBody_length ht h1
    by_cases hc : (t.1.length : Int) < 2 ^ 31
    · obtain ⟨b1, b2, b3⟩ := ih t s' h a1 hc
      refine ⟨a2.trans b1, fun hx => ?_, fun hx => ?_⟩
      · rw [List.foldlM_cons, a3 hc, Res.ok_bind]; exact b2 hx
      · rw [List.foldlM_cons, a3 hc, Res.ok_bind]; exact b3 hx
    · have hp := a4 (by omega) hc
      have hmono : ∀ (l : List Nat) (t s' : List Nat × List Int × Int), t.2.2 = t.1.length → l.foldlM (scBody g) t = .ok s' →
          t.1.length ≤ s'.1.length := by
        intro l
        induction l with
        | nil => intro t s' _ h; cases h; exact le_rfl
        | cons j l ih =>
          intro t s' h1 h
          rw [List.foldlM_cons] at h
          simp only [Res.bind_eq_ok] at h
          obtain ⟨u, hu, h⟩ := h
          obtain ⟨c1, c2, _⟩ := scBody_length hu h1
          exact c2.trans (ih u s' c1 h)
      have hm := hmono l t s' a1 h
      refine ⟨a2.trans hm, fun hx => by omega, fun _ => ?_⟩
      rw [List.foldlM_cons, hp]; rfl

/-- **C106.** `suggest_connections`, the first part of `make_connected` of `ErEnsembleC`, counts the components with an `i32`: a debug build
panics exactly if there are at least `2 ^ 31` of them. -/
theorem C106_suggest_connections [LawfulAdj T A] {g : GenericGraph T A} (h : g.WF) :
    ((componentSet g).card < 2 ^ 31 → g.suggestConnectionsChecked = g.suggestConnections) ∧
    (2 ^ 31 ≤ (componentSet g).card → g.suggestConnectionsChecked = .panic) := by
  obtain ⟨reps, h1, _, _, _, _, h2, _⟩ := C28_suggest_connections h
  have h3 := h1
  unfold suggestConnections at h3
  simp only [Res.bind_eq_ok] at h3
  obtain ⟨⟨sugg, comp, cur⟩, h4, h5⟩ := h3
  cases h5
  obtain ⟨_, a2, a3⟩ := scLoop_length _ _ _ h4 rfl (by simp)
  simp only at a2 a3
  refine ⟨fun hc => ?_, fun hc => ?_⟩
  · unfold suggestConnectionsChecked
    rw [h1, a2 (by rw [h2]; omega)]; rfl
  · unfold suggestConnectionsChecked
    rw [a3 (by rw [h2]; omega)]; rfl

example : exTail.WF ∧ (componentSet exTail).card < 2 ^ 31 := by
  refine ⟨exTail_wf, ?_⟩
  obtain ⟨reps, h1, _, _, _, _, h2, h3⟩ := C28_suggest_connections exTail_wf
  rw [← h2, h3]
  exact lt_of_le_of_lt (List.length_filter_le _ _) (by decide)

end
end Verif
