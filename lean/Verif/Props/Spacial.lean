import Verif.Lemmas.Spacial
import Verif.Props.ErBalance
import Mathlib.Tactic.Positivity

/-!
# C47 (SpacialEnsemble), C54 for `SpacialEnsemble`, C57
-/

set_option linter.unusedSectionVars false
set_option linter.unusedSimpArgs false

namespace Verif
open AdjContainer GenericGraph

variable {T R : Type} [Rng R]

/-! ### C47 -/

/-- A step of `SpacialEnsemble` changes at most one pair, reports truthfully what it did and keeps all positions. -/
theorem C47_spacial_step {e : Spacial T R} (h : e.graph.WF) (hn : 2 ≤ e.graph.vertexCount) :
    ∃ s e', e.mStep = .ok (s, e') ∧ e'.graph.WF ∧ e'.graph.vertexCount = e.graph.vertexCount ∧ e'.graph.data = e.graph.data ∧
      coords e'.graph = coords e.graph ∧ e'.law = e.law ∧
      ((s = .nothing ∧ e'.graph.edges = e.graph.edges) ∨
       (∃ x y, s = .addedEdge (x, y) ∧ s(x, y) ∉ e.graph.edges ∧ e'.graph.edges = insert s(x, y) e.graph.edges) ∨
       (∃ x y, s = .removedEdge (x, y) ∧ s(x, y) ∈ e.graph.edges ∧ e'.graph.edges = e.graph.edges.erase s(x, y))) := by
  obtain ⟨a, b, r, d1, d2, d3, d4⟩ := drawTwo_spec e.rng hn
  obtain ⟨s, e', m1, m2, m3, m4, m5, m6, m7, m8, m9⟩ := Spacial.mStep_cases h d1 d2 d3 d4
  refine ⟨s, e', m1, m2, m3, m4, m5, m6, ?_⟩
  rw [m8, m9]
  by_cases hb : (coin r (e.prob a b)).1 = true <;> by_cases hex : s(a, b) ∈ e.graph.edges <;> simp only [hb, hex, if_true]
  · exact .inl ⟨trivial, Finset.insert_eq_of_mem hex⟩
  · exact .inr (.inl ⟨a, b, rfl, hex, rfl⟩)
  · exact .inr (.inr ⟨a, b, rfl, hex, rfl⟩)
  · exact .inl ⟨rfl, by simp [Finset.erase_eq_of_notMem hex]⟩

/-- Undoing a step restores the edge set, with both variants. -/
theorem C47_spacial_undo {e e' : Spacial T R} {s : SpacialStep} (h : e.graph.WF) (hn : 2 ≤ e.graph.vertexCount)
    (hs : e.mStep = .ok (s, e')) :
    ∃ u x, e'.undoStep s = .ok (u, x) ∧ e'.undoStepQuiet s = .ok x ∧ u ≠ .error ∧ x.graph.WF ∧
      x.graph.edges = e.graph.edges ∧ x.graph.edgeCount = e.graph.edgeCount ∧ x.graph.data = e.graph.data ∧
      coords x.graph = coords e.graph ∧ x.law = e.law := by
  obtain ⟨s0, e0, m1, m2, _⟩ := C47_spacial_step h hn
  rw [hs] at m1
  simp only [Res.ok.injEq, Prod.mk.injEq] at m1
  obtain ⟨rfl, rfl⟩ := m1
  obtain ⟨u, x, c1, c2, c3, c4, _, c6⟩ := Spacial.back h hn hs m2 .rfl
  refine ⟨u, x, c1, c2, c6, c3, c4.edges, ?_, c4.data, c4.coords, c4.law⟩
  rw [c3.edgeCount_eq_card, h.edgeCount_eq_card, c4.edges]

/-- `randomize`: one throw for every pair, in the order `(0,1), (0,2), …`, with the probability of that pair; the edges are
exactly the pairs whose throw succeeded; the positions stay. -/
theorem C47_spacial_randomize {e : Spacial T R} (h : e.graph.WF) :
    ∃ e', e.randomize = .ok e' ∧ e'.graph.WF ∧ e'.graph.vertexCount = e.graph.vertexCount ∧
      e'.graph.data = e.graph.data ∧ coords e'.graph = coords e.graph ∧ e'.law = e.law ∧
      e'.graph.edges = chosen (allPairs e.graph.vertexCount)
        (throws (fun p => e.prob p.1 p.2) (allPairs e.graph.vertexCount) e.rng).1 ∧
      e'.rng = (throws (fun p => e.prob p.1 p.2) (allPairs e.graph.vertexCount) e.rng).2 := by
  obtain ⟨e', h1, h2, h3, h4, h5, h6, h7, h8⟩ := Spacial.randomize_spec h
  exact ⟨e', h1, h2, h3, h4, h5, h6, h8, h7⟩

theorem Spacial.place_spec : ∀ (vs : List (SpacialNodeContainer T)) (r : R),
    (place vs r).1.length = vs.length ∧
    (∀ (i : Nat) (c : SpacialNodeContainer T), (place vs r).1[i]? = some c → ∃ (v : SpacialNodeContainer T) (x y : ℚ), vs[i]? = some v ∧
      c = { v with x := some x, y := some y } ∧ 0 ≤ x ∧ x < 1 ∧ 0 ≤ y ∧ y < 1) := by
  intro vs
  induction vs with
  | nil => intro r; exact ⟨rfl, by simp [place]⟩
  | cons v vs ih =>
    intro r
    obtain ⟨h1, h2⟩ := ih (genUnitQ (genUnitQ r).2).2
    have unit : ∀ r : R, 0 ≤ (genUnitQ r).1 ∧ (genUnitQ r).1 < 1 := by
      intro r
      have := Rng.genUnit_lt r
      unfold genUnitQ
      refine ⟨by positivity, ?_⟩
      rw [div_lt_one (by positivity)]
      exact_mod_cast this
    refine ⟨by simp only [place, List.length_cons]; omega, ?_⟩
    intro i c hc
    simp only [place] at hc
    cases i with
    | zero =>
      simp only [List.getElem?_cons_zero, Option.some.injEq] at hc
      refine ⟨v, (genUnitQ r).1, (genUnitQ (genUnitQ r).2).1, by simp, hc.symm, ?_⟩
      exact ⟨(unit r).1, (unit r).2, (unit _).1, (unit _).2⟩
    | succ i =>
      rw [List.getElem?_cons_succ] at hc ⊢
      exact h2 i c hc

/-- A graph stays valid when only the positions are changed. -/
theorem wf_of_same {g g' : SpacialGraph T} (h : g.WF) (hn : g'.nextId = g.nextId) (hec : g'.edgeCount = g.edgeCount)
    (hl : g'.vertices.length = g.vertices.length)
    (hc : ∀ (i : Nat) (c : SpacialNodeContainer T), g'.vertices[i]? = some c → ∃ v x y, g.vertices[i]? = some v ∧ c = { v with x := x, y := y }) :
    g'.WF ∧ g'.data = g.data ∧ g'.edges = g.edges := by
  have hnb : ∀ i, g'.nbrs i = g.nbrs i := by
    intro i
    by_cases hi : i < g'.vertices.length
    · obtain ⟨v, x, y, h1, h2⟩ := hc i _ (List.getElem?_eq_getElem hi)
      rw [nbrs_of_some (List.getElem?_eq_getElem hi), nbrs_of_some h1, h2]
      rfl
    · rw [nbrs_of_ge (by omega), nbrs_of_ge (by omega)]
  have hd : g'.data = g.data := by
    apply List.ext_getElem?
    intro i
    simp only [GenericGraph.data, List.getElem?_map]
    by_cases hi : i < g'.vertices.length
    · obtain ⟨v, x, y, h1, h2⟩ := hc i _ (List.getElem?_eq_getElem hi)
      rw [h1, List.getElem?_eq_getElem hi, h2]
      rfl
    · rw [List.getElem?_eq_none (by omega), List.getElem?_eq_none (by omega)]
  have hwf : g'.WF := by
    refine ⟨by rw [hl, h.len, hn], ?_, ?_, ?_, ?_, ?_, ?_, ?_⟩
    · intro i a ha
      obtain ⟨v, x, y, h1, h2⟩ := hc i a ha
      have := h.ids i v h1
      rw [h2]; exact this
    · intro a _; trivial
    · intro i j hj; rw [hnb] at hj; rw [hn]; exact h.lt i j hj
    · intro i; rw [hnb]; exact h.irrefl i
    · intro i; rw [hnb]; exact h.nodup i
    · intro i j hj; rw [hnb] at hj ⊢; exact h.symm i j hj
    · rw [hn, hec, ← h.count]
      exact Finset.sum_congr rfl (fun i _ => by rw [hnb])
  refine ⟨hwf, hd, ?_⟩
  apply hwf.edges_eq_of
  intro i j
  rw [hnb, h.mem_edges]

/-- `new(n)`: a valid ensemble with `n` vertices, all in the unit square, whose edges are the pairs whose throw succeeded. -/
theorem C47_spacial_new [Node T] (n : Nat) (r : R) (law : Pos → Pos → ℚ) :
    ∃ (e : Spacial T R) (r' : R), Spacial.new n r law = .ok e ∧ e.graph.WF ∧ e.graph.vertexCount = n ∧ e.law = law ∧
      e.graph.data = (List.range n).map Node.newFromIndex ∧
      (∀ i < n, ∃ x y : ℚ, posAt (coords e.graph) i = (some x, some y) ∧ 0 ≤ x ∧ x < 1 ∧ 0 ≤ y ∧ y < 1) ∧
      e.graph.edges = chosen (allPairs n) (throws (fun p => e.prob p.1 p.2) (allPairs n) r').1 := by
  obtain ⟨p1, p2⟩ := Spacial.place_spec (GenericGraph.new n : SpacialGraph T).vertices r
  let g0 : SpacialGraph T := ⟨(GenericGraph.new n : SpacialGraph T).nextId, (GenericGraph.new n : SpacialGraph T).edgeCount,
    (Spacial.place (GenericGraph.new n : SpacialGraph T).vertices r).1⟩
  obtain ⟨w1, w2, w3⟩ := wf_of_same (T := T) (g' := g0) (new_wf n) rfl rfl p1 (by
    intro i c hc
    obtain ⟨v, x, y, h1, h2, _⟩ := p2 i c hc
    exact ⟨v, _, _, h1, h2⟩)
  obtain ⟨e, a1, a2, a3, a4, a5, a6, a7, a8⟩ := C47_spacial_randomize (e := (⟨g0, (Spacial.place (GenericGraph.new n :
    SpacialGraph T).vertices r).2, law⟩ : Spacial T R)) w1
  refine ⟨e, (Spacial.place (GenericGraph.new n : SpacialGraph T).vertices r).2, a1, a2, a3, a6, ?_, ?_, ?_⟩
  · rw [a4, w2]
    show (GenericGraph.new n : SpacialGraph T).data = _
    rw [new_eq_fromVec, fromVec_data]
  · intro i hi
    rw [a5]
    have hl : i < (Spacial.place (GenericGraph.new n : SpacialGraph T).vertices r).1.length := by
      rw [p1, (new_wf n : (GenericGraph.new n : SpacialGraph T).WF).len]; exact hi
    obtain ⟨v, x, y, _, h2, h3⟩ := p2 i _ (List.getElem?_eq_getElem hl)
    refine ⟨x, y, ?_, h3⟩
    rw [← pos_of_idx (c := (Spacial.place (GenericGraph.new n : SpacialGraph T).vertices r).1[i]) (List.getElem?_eq_getElem hl), h2]
    rfl
  · have hp : ∀ x y, e.prob x y = (⟨g0, (Spacial.place (GenericGraph.new n : SpacialGraph T).vertices r).2, law⟩ :
        Spacial T R).prob x y := by
      intro x y
      unfold Spacial.prob
      rw [a5, a6]
    simp only [hp]
    exact a7

/-- `m_steps_quiet(k)` does the same as `k` calls of `m_step`. -/
theorem C47_spacial_steps_quiet {e : Spacial T R} (h : e.graph.WF) (hn : 2 ≤ e.graph.vertexCount) (k : Nat) :
    ∃ steps e', mSteps Spacial.mStep k e = .ok (steps, e') ∧ e.mStepsQuiet k = .ok e' := by
  have key : ∀ (l : List Nat) (e : Spacial T R), e.graph.WF → 2 ≤ e.graph.vertexCount →
      ∃ steps e', mSteps Spacial.mStep l.length e = .ok (steps, e') ∧
        l.foldlM (fun (e : Spacial T R) _ => e.quietBody) e = .ok e' := by
    intro l
    induction l with
    | nil => intro e _ _; exact ⟨[], e, rfl, rfl⟩
    | cons a l ih =>
      intro e h hn
      obtain ⟨s, e1, m1, m2, m3, _⟩ := C47_spacial_step h hn
      obtain ⟨steps, e', c1, c2⟩ := ih e1 m2 (by rw [m3]; exact hn)
      refine ⟨s :: steps, e', by simp [mSteps, m1, c1], ?_⟩
      rw [List.foldlM_cons]
      have hq : e.quietBody = .ok e1 := ?_
      · rw [hq]; exact c2
      unfold Spacial.quietBody
      obtain ⟨x, y, r, d1, d2, d3, d4⟩ := drawTwo_spec e.rng hn
      unfold Spacial.mStep at m1
      rw [d1] at m1 ⊢
      simp only [Res.ok_bind, Spacial.probUnchecked_eq h d2 d3] at m1 ⊢
      split at m1
      · rename_i hb
        rw [if_pos hb]
        simp only [Res.bind_eq_ok, Prod.exists] at m1
        obtain ⟨res, g', a1, a2⟩ := m1
        rw [a1]
        cases res <;> simp only [Res.pure_eq, Res.ok.injEq, Prod.mk.injEq] at a2 <;> rw [← a2.2] <;> rfl
      · rename_i hb
        rw [if_neg hb]
        simp only [Res.bind_eq_ok, Prod.exists] at m1
        obtain ⟨res, g', a1, a2⟩ := m1
        rw [a1]
        cases res <;> simp only [Res.pure_eq, Res.ok.injEq, Prod.mk.injEq] at a2 <;> rw [← a2.2] <;> rfl
  obtain ⟨steps, e', c1, c2⟩ := key (List.range k) e h hn
  rw [List.length_range] at c1
  exact ⟨steps, e', c1, c2⟩

/-- `distance(i, j)` is `None` exactly out of range; otherwise it is the distance of the two positions, so it is symmetric if the
distance of points is, and no step and no randomizing changes it. -/
theorem C47_distance {e : Spacial T R} (h : e.graph.WF) (dist : Pos → Pos → ℚ) (i j : Nat) :
    (e.graph.distance dist i j = none ↔ e.graph.vertexCount ≤ i ∨ e.graph.vertexCount ≤ j) ∧
    (i < e.graph.vertexCount → j < e.graph.vertexCount →
      e.graph.distance dist i j = some (dist (posAt (coords e.graph) i) (posAt (coords e.graph) j))) ∧
    ((∀ p q, dist p q = dist q p) → e.graph.distance dist i j = e.graph.distance dist j i) ∧
    (2 ≤ e.graph.vertexCount → ∀ s e', e.mStep = .ok (s, e') → e'.graph.distance dist i j = e.graph.distance dist i j) ∧
    ∀ e', e.randomize = .ok e' → e'.graph.distance dist i j = e.graph.distance dist i j := by
  have hlen : ∀ {g : SpacialGraph T}, g.WF → ∀ k, g.vertexCount ≤ k ↔ g.vertices[k]? = none := by
    intro g hg k
    rw [List.getElem?_eq_none_iff, hg.len]; rfl
  have form : ∀ {g : SpacialGraph T}, g.WF → ∀ i j, g.distance dist i j =
      if i < g.vertexCount ∧ j < g.vertexCount then some (dist (posAt (coords g) i) (posAt (coords g) j)) else none := by
    intro g hg i j
    unfold GenericGraph.distance
    cases h1 : g.vertices[i]? with
    | none => rw [if_neg (by have := (hlen hg i).2 h1; omega)]; rfl
    | some a =>
      have l1 : i < g.vertexCount := by by_contra hc; rw [(hlen hg i).1 (by omega)] at h1; simp at h1
      cases h2 : g.vertices[j]? with
      | none => rw [if_neg (by have := (hlen hg j).2 h2; omega)]; rfl
      | some b =>
        have l2 : j < g.vertexCount := by by_contra hc; rw [(hlen hg j).1 (by omega)] at h2; simp at h2
        rw [if_pos ⟨l1, l2⟩, ← pos_of_idx h1, ← pos_of_idx h2]; rfl
  refine ⟨?_, ?_, ?_, ?_, ?_⟩
  · rw [form h]
    split <;> simp <;> omega
  · intro h1 h2
    rw [form h, if_pos ⟨h1, h2⟩]
  · intro hs
    rw [form h, form h]
    simp only [and_comm (a := i < _), hs (posAt (coords e.graph) i)]
  · intro hn s e' he
    obtain ⟨s0, e0, a1, a2, a3, _, a5, _⟩ := C47_spacial_step h hn
    rw [he] at a1
    simp only [Res.ok.injEq, Prod.mk.injEq] at a1
    obtain ⟨rfl, rfl⟩ := a1
    rw [form h, form a2, a3, a5]
  · intro e' he
    obtain ⟨e0, a1, a2, a3, _, a5, _⟩ := C47_spacial_randomize h
    rw [he] at a1
    simp only [Res.ok.injEq] at a1
    obtain rfl := a1
    rw [form h, form a2, a3, a5]

/-- `edge_probability(i, j)` is `None` exactly out of range; otherwise it lies in `[0, 1]`, and the coin of `m_step` and
`randomize` decides as if thrown with the reported probability, unless the formula gave a negative number. -/
theorem C47_edge_probability {e : Spacial T R} (h : e.graph.WF) (i j : Nat) :
    (e.edgeProbability i j = none ↔ e.graph.vertexCount ≤ i ∨ e.graph.vertexCount ≤ j) ∧
    ∀ p, e.edgeProbability i j = some p → 0 ≤ p ∧ p ≤ 1 ∧
      (0 ≤ e.prob i j → ∀ r : R, coin r p = coin r (e.prob i j)) := by
  have hlen : ∀ k, e.graph.vertexCount ≤ k ↔ e.graph.vertices[k]? = none := by
    intro k
    rw [List.getElem?_eq_none_iff, h.len]; rfl
  constructor
  · rw [hlen, hlen]
    unfold Spacial.edgeProbability
    cases h1 : e.graph.vertices[i]? with
    | none => simp
    | some a =>
      cases h2 : e.graph.vertices[j]? with
      | none => simp
      | some b => simp
  · intro p hp
    unfold Spacial.edgeProbability at hp
    cases h1 : e.graph.vertices[i]? with
    | none => rw [h1] at hp; simp at hp
    | some a =>
      cases h2 : e.graph.vertices[j]? with
      | none => rw [h1, h2] at hp; simp at hp
      | some b =>
        rw [h1, h2] at hp
        simp only [Option.bind_eq_bind, Option.bind_some, Option.pure_def, Option.some.injEq] at hp
        rw [pos_of_idx h1, pos_of_idx h2] at hp
        change max 0 (min 1 (e.prob i j)) = p at hp
        subst hp
        refine ⟨le_max_left _ _, max_le (by norm_num) (min_le_left _ _), fun h0 r => ?_⟩
        unfold coin
        have hu := Rng.genUnit_lt r
        have hu1 : ((Rng.genUnit r).1 : ℚ) / 2 ^ 53 ≤ 1 := by
          rw [div_le_one (by positivity)]
          exact_mod_cast le_of_lt hu
        have : (((Rng.genUnit r).1 : ℚ) / 2 ^ 53 ≤ max 0 (min 1 (e.prob i j))) ↔
            (((Rng.genUnit r).1 : ℚ) / 2 ^ 53 ≤ e.prob i j) := by
          rw [max_eq_right (le_min (by norm_num) h0), le_min_iff]
          exact ⟨fun hh => hh.2, fun hh => ⟨hu1, hh⟩⟩
        simp only [this]

/-- The restriction to non-negative probabilities is needed: for a negative one, the reported probability is `0`, and a coin
with probability `0` still succeeds on the draw `0`. -/
theorem C47_edge_probability_negative : ∃ (p : ℚ) (r : Script), p < 0 ∧
    (coin r (max 0 (min 1 p))).1 = true ∧ (coin r p).1 = false := by
  refine ⟨-1, ⟨[0]⟩, by norm_num, ?_, ?_⟩
  · rw [coin_script 0 [] _ (by norm_num)]; norm_num
  · rw [coin_script 0 [] _ (by norm_num)]; norm_num

/-! ### C54 -/

/-- A chain of steps and the undone steps restore the edge set, with both variants. -/
theorem C47_C54_spacial_chain {e : Spacial T R} (h : e.graph.WF) (hn : 2 ≤ e.graph.vertexCount) (k : Nat) :
    ∃ steps e' us x, mSteps Spacial.mStep k e = .ok (steps, e') ∧ steps.length = k ∧
      undoSteps Spacial.undoStep steps e' = .ok (us, x) ∧ undoStepsQuiet Spacial.undoStepQuiet steps e' = .ok x ∧
      x.graph.WF ∧ x.graph.edges = e.graph.edges ∧
      x.graph.data = e.graph.data ∧ coords x.graph = coords e.graph ∧ x.law = e.law := by
  have hu : Undoable (Spacial.mStep (T := T) (R := R)) Spacial.undoStep
      (fun x => x.graph.WF ∧ x.graph.nextId = e.graph.nextId) Spacial.Sim := by
    refine ⟨?_, ?_, fun _ => .rfl⟩
    · rintro x ⟨i1, i2⟩
      obtain ⟨s, e', b1, b2, b3, _⟩ := C47_spacial_step i1 (by show 2 ≤ x.graph.nextId; rw [i2]; exact hn)
      exact ⟨s, e', b1, b2, Eq.trans b3 i2⟩
    · rintro x s x' y ⟨i1, i2⟩ hs ⟨j1, _⟩ hsim
      obtain ⟨u, y', c1, _, c3, c4, _⟩ := Spacial.back i1 (by rw [i2]; exact hn) hs j1 hsim
      exact ⟨_, y', c1, ⟨c3, c4.n.trans i2⟩, c4⟩
  obtain ⟨steps, e', a1, a2, a3, a4⟩ := hu.chain_quiet (quiet := Spacial.undoStepQuiet) (by
    rintro x s x' y u y' ⟨i1, i2⟩ hs ⟨j1, _⟩ hsim hy
    obtain ⟨u', y'', c1, c2, _⟩ := Spacial.back i1 (by rw [i2]; exact hn) hs j1 hsim
    rw [c1] at hy
    simp only [Res.ok.injEq, Prod.mk.injEq] at hy
    rw [c2, hy.2]) k e ⟨h, rfl⟩
  obtain ⟨us, x, b1, b2, _, b3, b4⟩ := a4 e' a3 .rfl
  exact ⟨steps, e', us, x, a1, a2, b1, b2, b3.1, b4.edges, b4.data, b4.coords, b4.law⟩

/-! ### C57: detailed balance of the spatial ensemble -/

/-- The scripts `(a, b, u)` of one step of `SpacialEnsemble` (two index draws and one uniform number) that lead from the state
`e` to a state with the edge set `S`. -/
noncomputable def Spacial.ways (e : Spacial T Script) (S : Finset (Sym2 ℕ)) : Finset (ℕ × ℕ × ℕ) :=
  open Classical in
  (Finset.range e.graph.vertexCount ×ˢ Finset.range (e.graph.vertexCount - 1) ×ˢ Finset.range (2 ^ 53)).filter (fun d =>
    ∃ s e', ({ e with rng := ⟨[d.1, d.2.1, d.2.2]⟩ } : Spacial T Script).mStep = .ok (s, e') ∧ e'.graph.edges = S)

/-- The weight of the edge set `S`: every pair is present with its own probability, independently of the others (times a
power of two). -/
def Spacial.weight (e : Spacial T R) (S : Finset (Sym2 ℕ)) : ℕ :=
  ∏ q ∈ (allPairs e.graph.vertexCount).toFinset,
    if toEdge q ∈ S then heads (e.prob q.1 q.2) else 2 ^ 53 - heads (e.prob q.1 q.2)

theorem Spacial.mem_ways {e : Spacial T Script} (h : e.graph.WF) {S : Finset (Sym2 ℕ)} {a b u : ℕ} :
    (a, b, u) ∈ Spacial.ways e S ↔ (a < e.graph.vertexCount ∧ b < e.graph.vertexCount - 1 ∧ u < 2 ^ 53) ∧
      (if (u : ℚ) / 2 ^ 53 ≤ e.prob a (if b < a then b else b + 1) then insert (drawn (a, b)) e.graph.edges
        else e.graph.edges.erase (drawn (a, b))) = S := by
  unfold Spacial.ways
  classical
  rw [Finset.mem_filter, Finset.mem_product, Finset.mem_product, Finset.mem_range, Finset.mem_range, Finset.mem_range]
  apply and_congr_right
  rintro ⟨ha, hb, hu⟩
  have ha : a < e.graph.nextId := ha
  have hb : b < e.graph.nextId - 1 := hb
  have hu : u < 2 ^ 53 := hu
  have hy : (if b < a then b else b + 1) < e.graph.nextId := by split <;> omega
  have hd := drawTwo_script (l := [u]) ha hb
  obtain ⟨s, e', m1, m2, m3, m4, m5, m6, m7, m8, m9⟩ := Spacial.mStep_cases
    (e := { e with rng := (⟨[a, b, u]⟩ : Script) }) h hd ha hy (by split <;> omega)
  rw [coin_script u [] _ hu] at m9
  have m9 : e'.graph.edges = if (u : ℚ) / 2 ^ 53 ≤ e.prob a (if b < a then b else b + 1) then
      insert (drawn (a, b)) e.graph.edges else e.graph.edges.erase (drawn (a, b)) := by
    rw [m9]
    simp only [decide_eq_true_eq]
    rfl
  constructor
  · rintro ⟨s', e'', h1, h2⟩
    rw [m1] at h1
    simp only [Res.ok.injEq, Prod.mk.injEq] at h1
    rw [← h2, ← h1.2, m9]
  · intro h1
    exact ⟨s, e', m1, by rw [m9]; exact h1⟩

/-- The probability of a pair does not depend on the order of its ends. -/
theorem Spacial.prob_symm {e : Spacial T R} (hsym : ∀ p q, e.law p q = e.law q p) (x y : Nat) : e.prob x y = e.prob y x :=
  hsym _ _

theorem Spacial.prob_drawn {e : Spacial T R} (hsym : ∀ p q, e.law p q = e.law q p) {a b x y : Nat}
    (h : drawn (a, b) = s(x, y)) : e.prob a (if b < a then b else b + 1) = e.prob x y := by
  unfold drawn at h
  rcases Sym2.eq_iff.mp h with ⟨h1, h2⟩ | ⟨h1, h2⟩
  · simp only at h1 h2; subst h1; rw [h2]
  · simp only at h1 h2; subst h1; rw [h2, Spacial.prob_symm hsym]

/-- Number of values of the uniform number for which the coin says "no edge". -/
theorem tails_card (p : ℚ) : ((Finset.range (2 ^ 53)).filter (fun u : ℕ => ¬ (u : ℚ) / 2 ^ 53 ≤ p)).card = 2 ^ 53 - heads p := by
  have := Finset.card_filter_add_card_filter_not (s := Finset.range (2 ^ 53)) (fun u : ℕ => (u : ℚ) / 2 ^ 53 ≤ p)
  rw [Finset.card_range] at this
  unfold heads
  omega

theorem Spacial.ways_image {e : Spacial T Script} {S : Finset (Sym2 ℕ)} {D : Finset (ℕ × ℕ)} {U : Finset ℕ}
    (hm : ∀ a b u, (a, b, u) ∈ Spacial.ways e S ↔ (a, b) ∈ D ∧ u ∈ U) : (Spacial.ways e S).card = D.card * U.card := by
  rw [← Finset.card_product]
  refine Finset.card_bij' (fun d _ => ((d.1, d.2.1), d.2.2)) (fun d _ => (d.1.1, d.1.2, d.2)) ?_ ?_ ?_ ?_
  · rintro ⟨a, b, u⟩ h
    rw [Finset.mem_product]; exact (hm a b u).mp h
  · rintro ⟨⟨a, b⟩, u⟩ h
    rw [Finset.mem_product] at h; exact (hm a b u).mpr h
  · rintro ⟨a, b, u⟩ _; rfl
  · rintro ⟨⟨a, b⟩, u⟩ _; rfl

/-- The transition numbers: an absent edge is added by `2 * heads` draws, a present one removed by `2 * (2^53 - heads)`, where
`heads` belongs to the probability of this pair. -/
theorem C57_spacial_transition_counts {e : Spacial T Script} (h : e.graph.WF) (hsym : ∀ p q, e.law p q = e.law q p) {x y : ℕ}
    (hx : x < e.graph.vertexCount) (hy : y < e.graph.vertexCount) (hxy : x ≠ y) :
    (s(x, y) ∉ e.graph.edges → (Spacial.ways e (insert s(x, y) e.graph.edges)).card = 2 * heads (e.prob x y)) ∧
    (s(x, y) ∈ e.graph.edges → (Spacial.ways e (e.graph.edges.erase s(x, y))).card = 2 * (2 ^ 53 - heads (e.prob x y))) := by
  constructor
  · intro hnew
    rw [Spacial.ways_image (D := (Finset.range e.graph.vertexCount ×ˢ Finset.range (e.graph.vertexCount - 1)).filter
        (fun d => drawn d = s(x, y))) (U := (Finset.range (2 ^ 53)).filter (fun u : ℕ => (u : ℚ) / 2 ^ 53 ≤ e.prob x y)),
      drawn_card hx hy hxy]
    · rfl
    · intro a b u
      rw [Spacial.mem_ways h, Finset.mem_filter, Finset.mem_filter, Finset.mem_product, Finset.mem_range, Finset.mem_range,
        Finset.mem_range]
      constructor
      · rintro ⟨⟨ha, hb, hu⟩, hd⟩
        by_cases hc : (u : ℚ) / 2 ^ 53 ≤ e.prob a (if b < a then b else b + 1)
        · rw [if_pos hc] at hd
          have hdr : drawn (a, b) = s(x, y) := by
            have hm : s(x, y) ∈ insert (drawn (a, b)) e.graph.edges := by rw [hd]; simp
            rcases Finset.mem_insert.mp hm with hm | hm
            · exact hm.symm
            · exact absurd hm hnew
          rw [Spacial.prob_drawn hsym hdr] at hc
          exact ⟨⟨⟨ha, hb⟩, hdr⟩, hu, hc⟩
        · rw [if_neg hc] at hd
          have hm : s(x, y) ∈ e.graph.edges.erase (drawn (a, b)) := by rw [hd]; simp
          exact absurd (Finset.mem_of_mem_erase hm) hnew
      · rintro ⟨⟨⟨ha, hb⟩, hdr⟩, hu, hc⟩
        refine ⟨⟨ha, hb, hu⟩, ?_⟩
        rw [Spacial.prob_drawn hsym hdr, if_pos hc, hdr]
  · intro hex
    rw [Spacial.ways_image (D := (Finset.range e.graph.vertexCount ×ˢ Finset.range (e.graph.vertexCount - 1)).filter
        (fun d => drawn d = s(x, y))) (U := (Finset.range (2 ^ 53)).filter (fun u : ℕ => ¬ (u : ℚ) / 2 ^ 53 ≤ e.prob x y)),
      drawn_card hx hy hxy, tails_card]
    · intro a b u
      rw [Spacial.mem_ways h, Finset.mem_filter, Finset.mem_filter, Finset.mem_product, Finset.mem_range, Finset.mem_range,
        Finset.mem_range]
      constructor
      · rintro ⟨⟨ha, hb, hu⟩, hd⟩
        by_cases hc : (u : ℚ) / 2 ^ 53 ≤ e.prob a (if b < a then b else b + 1)
        · rw [if_pos hc] at hd
          have hm : s(x, y) ∈ insert (drawn (a, b)) e.graph.edges := Finset.mem_insert_of_mem hex
          rw [hd] at hm
          simp at hm
        · rw [if_neg hc] at hd
          have hdr : drawn (a, b) = s(x, y) := by
            by_contra hne
            have hm : s(x, y) ∈ e.graph.edges.erase (drawn (a, b)) := Finset.mem_erase.mpr ⟨fun h => hne h.symm, hex⟩
            rw [hd] at hm
            simp at hm
          rw [Spacial.prob_drawn hsym hdr] at hc
          exact ⟨⟨⟨ha, hb⟩, hdr⟩, hu, hc⟩
      · rintro ⟨⟨⟨ha, hb⟩, hdr⟩, hu, hc⟩
        refine ⟨⟨ha, hb, hu⟩, ?_⟩
        rw [Spacial.prob_drawn hsym hdr, if_neg hc, hdr]

/-- Only edge sets that differ in at most one pair are reached in one step. -/
theorem Spacial.ways_one {e : Spacial T Script} (h : e.graph.WF) {S : Finset (Sym2 ℕ)} (hne : S ≠ e.graph.edges)
    (hw : (Spacial.ways e S).card ≠ 0) : ∃ q ∈ allPairs e.graph.vertexCount,
      (toEdge q ∉ e.graph.edges ∧ S = insert (toEdge q) e.graph.edges) ∨
      (toEdge q ∈ e.graph.edges ∧ S = e.graph.edges.erase (toEdge q)) := by
  obtain ⟨⟨a, b, u⟩, hd⟩ := Finset.card_ne_zero.mp hw
  obtain ⟨⟨ha, hb, _⟩, hd⟩ := (Spacial.mem_ways h).mp hd
  have hq : ∃ q ∈ allPairs e.graph.vertexCount, toEdge q = drawn (a, b) := by
    unfold drawn toEdge
    by_cases hba : b < a
    · refine ⟨(b, a), mem_allPairs.mpr ⟨by simpa using hba, by simpa using ha⟩, ?_⟩
      simp only [if_pos hba]; exact Sym2.eq_swap
    · refine ⟨(a, b + 1), mem_allPairs.mpr ⟨by simp; omega, by simp; omega⟩, ?_⟩
      simp only [if_neg hba]
  obtain ⟨q, hq1, hq2⟩ := hq
  refine ⟨q, hq1, ?_⟩
  rw [hq2]
  generalize (if b < a then b else b + 1) = b' at hd
  split at hd
  · left
    refine ⟨?_, hd.symm⟩
    intro hc
    rw [Finset.insert_eq_of_mem hc] at hd
    exact hne hd.symm
  · right
    refine ⟨?_, hd.symm⟩
    by_contra hc
    rw [Finset.erase_eq_of_notMem hc] at hd
    exact hne hd.symm

theorem Spacial.weight_insert {e : Spacial T R} {q : Nat × Nat} (hq : q ∈ allPairs e.graph.vertexCount)
    {S : Finset (Sym2 ℕ)} (hS : toEdge q ∉ S) :
    e.weight S * heads (e.prob q.1 q.2) = e.weight (insert (toEdge q) S) * (2 ^ 53 - heads (e.prob q.1 q.2)) := by
  unfold Spacial.weight
  have hmem : q ∈ (allPairs e.graph.vertexCount).toFinset := List.mem_toFinset.mpr hq
  rw [← Finset.mul_prod_erase _ _ hmem, ← Finset.mul_prod_erase _ _ hmem, if_neg hS, if_pos (Finset.mem_insert_self _ _)]
  have : ∏ x ∈ (allPairs e.graph.vertexCount).toFinset.erase q,
        (if toEdge x ∈ insert (toEdge q) S then heads (e.prob x.1 x.2) else 2 ^ 53 - heads (e.prob x.1 x.2)) =
      ∏ x ∈ (allPairs e.graph.vertexCount).toFinset.erase q,
        (if toEdge x ∈ S then heads (e.prob x.1 x.2) else 2 ^ 53 - heads (e.prob x.1 x.2)) := by
    apply Finset.prod_congr rfl
    intro x hx
    obtain ⟨hx1, hx2⟩ := Finset.mem_erase.mp hx
    have : toEdge x ≠ toEdge q := fun hc => hx1 (toEdge_injOn (List.mem_toFinset.mp hx2) hq hc)
    simp only [Finset.mem_insert, this, false_or]
  rw [this]
  ring

/-- **Detailed balance** of `SpacialEnsemble`: for all two states over the same vertices, positions and (symmetric) law, the
weight of the first times the number of draws leading to the second equals the weight of the second times the number of draws
leading back.  Hence the ensemble of independent edges with the probabilities of `edge_probability` is stationary. -/
theorem C57_spacial_detailed_balance {e e' : Spacial T Script} (h : e.graph.WF) (h' : e'.graph.WF)
    (hsym : ∀ p q, e.law p q = e.law q p)
    (hn : e'.graph.vertexCount = e.graph.vertexCount) (hl : e'.law = e.law) (hc : coords e'.graph = coords e.graph) :
    e.weight e.graph.edges * (Spacial.ways e e'.graph.edges).card =
      e.weight e'.graph.edges * (Spacial.ways e' e.graph.edges).card := by
  have hp : ∀ x y, e'.prob x y = e.prob x y := by
    intro x y; unfold Spacial.prob; rw [hl, hc]
  have hsym' : ∀ p q, e'.law p q = e'.law q p := by rw [hl]; exact hsym
  by_cases hS : e'.graph.edges = e.graph.edges
  · have : Spacial.ways e e'.graph.edges = Spacial.ways e' e.graph.edges := by
      ext ⟨a, b, u⟩
      rw [Spacial.mem_ways h, Spacial.mem_ways h', hn, hp, hS]
    rw [hS] at this ⊢
    rw [this]
  have add : ∀ {e1 e2 : Spacial T Script}, e1.graph.WF → e2.graph.WF → (∀ p q, e1.law p q = e1.law q p) →
      (∀ p q, e2.law p q = e2.law q p) →
      e2.graph.vertexCount = e1.graph.vertexCount → (∀ x y, e2.prob x y = e1.prob x y) →
      ∀ q ∈ allPairs e1.graph.vertexCount, toEdge q ∉ e1.graph.edges → e2.graph.edges = insert (toEdge q) e1.graph.edges →
      e1.weight e1.graph.edges * (Spacial.ways e1 e2.graph.edges).card =
        e1.weight e2.graph.edges * (Spacial.ways e2 e1.graph.edges).card := by
    intro e1 e2 w1 w2 s1 s2 hn hp q hq hnew hins
    have hqq := mem_allPairs.mp hq
    have c1 := (C57_spacial_transition_counts w1 s1 (x := q.1) (y := q.2) (by omega) (by omega) (by omega)).1 hnew
    have c2 := (C57_spacial_transition_counts w2 s2 (x := q.1) (y := q.2) (by omega) (by omega) (by omega)).2
      (by rw [hins]; exact Finset.mem_insert_self _ _)
    change (Spacial.ways e1 (insert (toEdge q) e1.graph.edges)).card = _ at c1
    change (Spacial.ways e2 (e2.graph.edges.erase (toEdge q))).card = _ at c2
    rw [hins, Finset.erase_insert hnew, hp] at c2
    rw [hins, c1, c2]
    have := Spacial.weight_insert (e := e1) hq hnew
    linarith
  have hw : ∀ S, e'.weight S = e.weight S := by
    intro S; unfold Spacial.weight; rw [hn]; simp only [hp]
  by_cases h1 : (Spacial.ways e e'.graph.edges).card = 0
  · by_cases h2 : (Spacial.ways e' e.graph.edges).card = 0
    · rw [h1, h2]; rfl
    · obtain ⟨q, hq, ⟨c1, c2⟩ | ⟨c1, c2⟩⟩ := Spacial.ways_one h' (Ne.symm hS) h2
      · have := add h' h hsym' hsym hn.symm (fun x y => (hp x y).symm) q hq c1 c2
        rw [hw, hw] at this
        exact this.symm
      · rw [hn] at hq
        refine add h h' hsym hsym' hn hp q hq ?_ ?_
        · rw [c2]; simp
        · rw [c2, Finset.insert_erase c1]
  · obtain ⟨q, hq, ⟨c1, c2⟩ | ⟨c1, c2⟩⟩ := Spacial.ways_one h hS h1
    · exact add h h' hsym hsym' hn hp q hq c1 c2
    · have := add h' h hsym' hsym hn.symm (fun x y => (hp x y).symm) q (by rw [hn]; exact hq) (by rw [c2]; simp)
        (by rw [c2, Finset.insert_erase c1])
      rw [hw, hw] at this
      exact this.symm

theorem Spacial.script_step {e : Spacial T Script} (h : e.graph.WF) {a b u : Nat} {l : List Nat} (ha : a < e.graph.nextId)
    (hb : b < e.graph.nextId - 1) (hu : u < 2 ^ 53) (hr : e.rng = ⟨a :: b :: u :: l⟩) :
    ∃ s e', e.mStep = .ok (s, e') ∧ e'.graph.WF ∧ e'.graph.nextId = e.graph.nextId ∧ e'.law = e.law ∧
      coords e'.graph = coords e.graph ∧ e'.rng = ⟨l⟩ ∧
      e'.graph.edges = if (u : ℚ) / 2 ^ 53 ≤ e.prob a (if b < a then b else b + 1) then insert (drawn (a, b)) e.graph.edges
        else e.graph.edges.erase (drawn (a, b)) := by
  have hd := drawTwo_script (l := u :: l) ha hb
  rw [← hr] at hd
  obtain ⟨s, e', m1, m2, m3, m4, m5, m6, m7, m8, m9⟩ := Spacial.mStep_cases h hd ha (by split <;> omega) (by split <;> omega)
  rw [coin_script u l _ hu] at m7 m9
  refine ⟨s, e', m1, m2, m3, m6, m5, m7, ?_⟩
  rw [m9]
  simp only [decide_eq_true_eq]
  rfl

theorem Spacial.force (S : Finset (Sym2 ℕ)) (u : ℕ × ℕ → ℕ) :
    ∀ (L : List (Nat × Nat)) {e : Spacial T Script} (_ : e.graph.WF) (_ : ∀ p ∈ L, p ∈ allPairs e.graph.nextId)
      (_ : ∀ p ∈ L, u p < 2 ^ 53 ∧ ((u p : ℚ) / 2 ^ 53 ≤ e.prob p.2 p.1 ↔ toEdge p ∈ S))
      (_ : e.rng = ⟨L.flatMap (fun p => [p.2, p.1, u p])⟩),
    ∃ steps e', mSteps Spacial.mStep L.length e = .ok (steps, e') ∧ e'.graph.WF ∧ e'.graph.nextId = e.graph.nextId ∧
      coords e'.graph = coords e.graph ∧ e'.law = e.law ∧
      ∀ x, x ∈ e'.graph.edges ↔ if x ∈ L.map toEdge then x ∈ S else x ∈ e.graph.edges := by
  intro L
  induction L with
  | nil => intro e h _ _ _; exact ⟨[], _, rfl, h, rfl, rfl, rfl, by simp⟩
  | cons p L ih =>
    intro e h hL hu hr
    have hp := mem_allPairs.mp (hL p (by simp))
    have hdr : drawn (p.2, p.1) = toEdge p := by
      simp only [drawn, toEdge, hp.1, if_true]; exact Sym2.eq_swap
    obtain ⟨hu1, hu2⟩ := hu p (by simp)
    obtain ⟨s, e1, m1, m2, m3, m4, m5, m6, m7⟩ := Spacial.script_step h (a := p.2) (b := p.1)
      (u := u p) (l := L.flatMap (fun p => [p.2, p.1, u p])) (by omega) (by omega) hu1
      (by rw [hr]; rfl)
    have hprob : ∀ x y, e1.prob x y = e.prob x y := by intro x y; unfold Spacial.prob; rw [m4, m5]
    obtain ⟨steps, e', c1, c2, c3, c4, c5, c6⟩ := ih m2 (fun q hq => by rw [m3]; exact hL q (by simp [hq]))
      (fun q hq => by rw [hprob]; exact hu q (by simp [hq])) m6
    refine ⟨s :: steps, e', ?_, c2, c3.trans m3, c4.trans m5, c5.trans m4, ?_⟩
    · simp [mSteps, m1, c1]
    · intro x
      rw [if_pos hp.1] at m7
      simp only [hu2] at m7
      rw [c6, m7, hdr]
      by_cases hxL : x ∈ L.map toEdge
      · have : x ∈ (p :: L).map toEdge := by simp only [List.map_cons, List.mem_cons]; exact .inr hxL
        simp only [hxL, this, if_true]
      · by_cases hxp : x = toEdge p
        · subst hxp
          have : toEdge p ∈ (p :: L).map toEdge := by simp
          simp only [hxL, this, if_true, if_false]
          by_cases hpS : toEdge p ∈ S <;> simp [hpS]
        · have : x ∉ (p :: L).map toEdge := by
            simp only [List.map_cons, List.mem_cons]; rintro (hc | hc)
            · exact hxp hc
            · exact hxL hc
          simp only [hxL, this, if_false]
          split <;> simp [hxp]

/-- **Irreducibility** of the spatial ensemble: from every state every graph on the same vertices that has a positive weight is
reached by some number of steps for suitable draws; positions of the vertices and the law stay. -/
theorem C57_spacial_irreducible {e : Spacial T Script} (h : e.graph.WF) (hsym : ∀ p q, e.law p q = e.law q p)
    {g : SpacialGraph T} (hg : g.WF) (hn : g.vertexCount = e.graph.vertexCount) (hw : e.weight g.edges ≠ 0) :
    ∃ draws k steps e', mSteps Spacial.mStep k ({ e with rng := ⟨draws⟩ } : Spacial T Script) = .ok (steps, e') ∧
      e'.graph.WF ∧ e'.graph.edges = g.edges ∧ coords e'.graph = coords e.graph ∧ e'.law = e.law := by
  have hu : ∀ p : ℕ × ℕ, ∃ u : ℕ, p ∈ allPairs e.graph.nextId →
      u < 2 ^ 53 ∧ ((u : ℚ) / 2 ^ 53 ≤ e.prob p.2 p.1 ↔ toEdge p ∈ g.edges) := by
    intro p
    by_cases hp : p ∈ allPairs e.graph.nextId
    · have hwp := Finset.prod_ne_zero_iff.mp hw p (List.mem_toFinset.mpr hp)
      rw [Spacial.prob_symm hsym p.1 p.2] at hwp
      by_cases hS : toEdge p ∈ g.edges
      · rw [if_pos hS] at hwp
        obtain ⟨u, hu⟩ := Finset.card_ne_zero.mp hwp
        rw [Finset.mem_filter, Finset.mem_range] at hu
        exact ⟨u, fun _ => ⟨hu.1, by simp only [hu.2, hS]⟩⟩
      · rw [if_neg hS, ← tails_card] at hwp
        obtain ⟨u, hu⟩ := Finset.card_ne_zero.mp hwp
        rw [Finset.mem_filter, Finset.mem_range] at hu
        exact ⟨u, fun _ => ⟨hu.1, by simp only [hu.2, hS]⟩⟩
    · exact ⟨0, fun hc => absurd hc hp⟩
  choose u hu using hu
  obtain ⟨steps, e', c1, c2, c3, c4, c5, c6⟩ := Spacial.force g.edges u (allPairs e.graph.nextId)
    (e := { e with rng := ⟨(allPairs e.graph.nextId).flatMap (fun p => [p.2, p.1, u p])⟩ }) h (fun _ hp => hp)
    (fun p hp => hu p hp) rfl
  refine ⟨_, _, steps, e', c1, c2, ?_, c4, c5⟩
  have mem : ∀ {g' : SpacialGraph T}, g'.WF → g'.nextId = e.graph.nextId → ∀ x ∈ g'.edges, x ∈ (allPairs e.graph.nextId).map toEdge := by
    intro g' hg' hn' x
    induction x using Sym2.ind with
    | _ a b =>
      intro hx
      have hab := hg'.mem_edges.mp hx
      have l1 := hg'.lt_left hab
      have l2 := hg'.lt a b hab
      rw [hn'] at l1 l2
      rw [List.mem_map]
      rcases Nat.lt_or_gt_of_ne (hg'.ne hab) with hlt | hlt
      · exact ⟨(a, b), mem_allPairs.mpr ⟨hlt, l2⟩, rfl⟩
      · exact ⟨(b, a), mem_allPairs.mpr ⟨hlt, l1⟩, Sym2.eq_swap⟩
  ext x
  rw [c6]
  by_cases hx : x ∈ (allPairs e.graph.nextId).map toEdge
  · simp only [hx, if_true]
  · simp only [hx, if_false]
    exact ⟨fun hc => absurd (mem h rfl x hc) hx, fun hc => absurd (mem hg hn x hc) hx⟩

/-- A concrete ensemble with three vertices and one edge, and a probability that depends on the distance in one coordinate,
meets the hypotheses. -/
def exSpacial : Spacial Nat Script where
  graph := ⟨3, 1, [⟨[1], 0, some 0, some 0, 7⟩, ⟨[0], 1, some (1/2), some (1/2), 8⟩, ⟨[], 2, some (1/4), some 0, 9⟩]⟩
  rng := ⟨[2, 0, 5]⟩
  law p q := if p.1 = q.1 then 1 / 3 else 1 / 2

theorem exSpacial_wf : exSpacial.graph.WF := by
  exact GenericGraph.wf_of_check _ (fun _ _ => trivial) (by decide)

example : exSpacial.graph.WF ∧ 2 ≤ exSpacial.graph.vertexCount ∧ (∀ p q, exSpacial.law p q = exSpacial.law q p) ∧
    exSpacial.prob 0 1 = 1 / 2 ∧ exSpacial.prob 0 0 = 1 / 3 ∧ s(0, 1) ∈ exSpacial.graph.edges ∧
    s(2, 0) ∉ exSpacial.graph.edges := by
  refine ⟨exSpacial_wf, by decide, fun p q => by simp only [exSpacial, eq_comm], ?_, ?_, by decide, by decide⟩
  · simp [Spacial.prob, exSpacial, posAt, coords, SpacialNodeContainer.pos]
  · simp [Spacial.prob, exSpacial, posAt, coords, SpacialNodeContainer.pos]

/-- In this ensemble every graph has a positive weight. -/
example (S : Finset (Sym2 ℕ)) : exSpacial.weight S ≠ 0 := by
  apply Finset.prod_ne_zero_iff.mpr
  intro q _
  have hp : exSpacial.prob q.1 q.2 = 1 / 3 ∨ exSpacial.prob q.1 q.2 = 1 / 2 := by
    unfold Spacial.prob exSpacial
    simp only
    split
    · exact .inl rfl
    · exact .inr rfl
  have h1 : 0 < heads (exSpacial.prob q.1 q.2) := (C33_heads _).1.mpr (by rcases hp with hp | hp <;> rw [hp] <;> norm_num)
  have h2 : heads (exSpacial.prob q.1 q.2) < 2 ^ 53 := (C33_heads _).2.mpr (by rcases hp with hp | hp <;> rw [hp] <;> norm_num)
  split <;> omega

end Verif
