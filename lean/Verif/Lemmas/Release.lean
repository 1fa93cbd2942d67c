import Verif.Model.Release
import Verif.Lemmas.Iter
import Verif.Lemmas.Basic

/-!
# Release builds: lemmas
-/

set_option linter.unusedSectionVars false
set_option linter.unusedSimpArgs false

namespace Verif
open AdjContainer

namespace Rel
variable {α β : Type}

@[simp] theorem ok_bind (a : α) (f : α → Rel β) : ((Rel.ok a : Rel α) >>= f) = f a := rfl
@[simp] theorem panic_bind (f : α → Rel β) : ((Rel.panic : Rel α) >>= f) = .panic := rfl
@[simp] theorem ub_bind (f : α → Rel β) : ((Rel.ub : Rel α) >>= f) = .ub := rfl
@[simp] theorem diverge_bind (f : α → Rel β) : ((Rel.diverge : Rel α) >>= f) = .diverge := rfl
@[simp] theorem pure_eq (a : α) : (pure a : Rel α) = .ok a := rfl
@[simp] theorem ofRes_ok (a : α) : ofRes (.ok a) = .ok a := rfl
@[simp] theorem ofRes_panic : ofRes (.panic : Res α) = .panic := rfl
@[simp] theorem ofRes_diverge : ofRes (.diverge : Res α) = .diverge := rfl

theorem ofRes_bind (x : Res α) (f : α → Res β) : ofRes (x >>= f) = ofRes x >>= fun a => ofRes (f a) := by
  cases x <;> rfl

theorem ofRes_ne_ub (x : Res α) : ofRes x ≠ .ub := by cases x <;> simp [ofRes]

/-- If every undefined behaviour of `x` is excluded and none comes from the continuation. -/
theorem bind_ne_ub {x : Rel α} {f : α → Rel β} (h1 : x ≠ .ub) (h2 : ∀ a, x = .ok a → f a ≠ .ub) : x >>= f ≠ .ub := by
  cases x with
  | ok a => exact h2 a rfl
  | panic => simp
  | ub => exact absurd rfl h1
  | diverge => simp

theorem deref_of_lt {l : List α} {i : Nat} (h : i < l.length) : deref l i = .ok l[i] := by
  simp [deref, List.getElem?_eq_getElem h]

theorem deref_of_ge {l : List α} {i : Nat} (h : l.length ≤ i) : deref l i = .ub := by
  simp [deref, List.getElem?_eq_none h]

theorem derefMut_ok {l : List α} {live : List Nat} {i : Nat} (h : i < l.length) (h2 : i ∉ live) :
    derefMut l live i = .ok l[i] := by simp [derefMut, deref_of_lt h, h2]

theorem derefMut_ge {l : List α} {live : List Nat} {i : Nat} (h : l.length ≤ i) : derefMut l live i = .ub := by
  simp [derefMut, deref_of_ge h]

theorem derefMut_live {l : List α} {live : List Nat} {i : Nat} (h2 : i ∈ live) : derefMut l live i = .ub := by
  by_cases h : i < l.length
  · simp [derefMut, deref_of_lt h, h2]
  · exact derefMut_ge (by omega)

theorem deref_eq_idx {l : List α} {i : Nat} (h : i < l.length) : deref l i = ofRes (Vec.idx l i) := by
  simp [deref, Vec.idx, List.getElem?_eq_getElem h]

end Rel

/-- A debug build that does not panic and the release build give the same outcome. -/
def SameUnlessPanic {α : Type} (d : Res α) (r : Rel α) : Prop := d = .panic ∨ r = Rel.ofRes d

namespace SameUnlessPanic
variable {α β σ ι : Type}

theorem refl (d : Res α) : SameUnlessPanic d (Rel.ofRes d) := .inr rfl

theorem ok (a : α) : SameUnlessPanic (.ok a) (.ok a) := .inr rfl

theorem panic (r : Rel α) : SameUnlessPanic .panic r := .inl rfl

theorem bind {d : Res α} {r : Rel α} {f : α → Res β} {g : α → Rel β} (h : SameUnlessPanic d r)
    (hf : ∀ a, d = .ok a → SameUnlessPanic (f a) (g a)) : SameUnlessPanic (d >>= f) (r >>= g) := by
  rcases h with rfl | rfl
  · exact .inl rfl
  · cases d with
    | ok a => exact hf a rfl
    | panic => exact .inl rfl
    | diverge => exact .inr rfl

/-- A debug assertion in front of code. -/
theorem assert {b : Bool} {f : Unit → Res β} {g : Rel β} (h : b = true → SameUnlessPanic (f ()) g) :
    SameUnlessPanic (Res.assert b >>= f) g := by
  cases b with
  | false => exact .inl rfl
  | true => exact h rfl

theorem eq_ok {d : Res α} {r : Rel α} {a : α} (h : SameUnlessPanic d r) (hd : d = .ok a) : r = .ok a := by
  rcases h with h | h
  · rw [hd] at h; simp at h
  · rw [h, hd]; rfl

theorem foldlM {f : σ → ι → Res σ} {g : σ → ι → Rel σ} (h : ∀ s i, SameUnlessPanic (f s i) (g s i)) :
    ∀ (l : List ι) (s : σ), SameUnlessPanic (l.foldlM f s) (l.foldlM g s)
  | [], _ => ok _
  | i :: l, s => by
    simp only [List.foldlM_cons]
    exact bind (h s i) (fun s' _ => foldlM h l s')

theorem deref (l : List α) (i : Nat) : SameUnlessPanic (Vec.idx l i) (Rel.deref l i) := by
  simp only [Vec.idx, Rel.deref]
  cases l[i]? with
  | none => exact .inl rfl
  | some a => exact .inr rfl

theorem derefMut (l : List α) {live : List Nat} {i : Nat} (h : i ∉ live) : SameUnlessPanic (Vec.idx l i) (Rel.derefMut l live i) := by
  simp only [Vec.idx, Rel.derefMut, Rel.deref]
  cases l[i]? with
  | none => exact .inl rfl
  | some a => simp [h]; exact .inr rfl

end SameUnlessPanic

section
variable {T A : Type} [AdjContainer T A]

theorem get2_same (g : GenericGraph T A) (i j : Nat) : SameUnlessPanic (g.get2 i j) (g.get2R i j) := by
  unfold GenericGraph.get2 GenericGraph.get2R
  refine .assert fun _ => .assert fun h => ?_
  simp only [bne_iff_ne, ne_eq] at h
  exact .bind (.derefMut _ (by simp)) fun a _ => .bind (.derefMut _ (by simpa using Ne.symm h)) fun b _ => .ok _

theorem get3_same (g : GenericGraph T A) (i j k : Nat) : SameUnlessPanic (g.get3 i j k) (g.get3R i j k) := by
  unfold GenericGraph.get3 GenericGraph.get3R
  refine .assert fun _ => .assert fun h => ?_
  simp only [Bool.and_eq_true, bne_iff_ne, ne_eq] at h
  obtain ⟨⟨h1, h2⟩, h3⟩ := h
  exact .bind (.derefMut _ (by simp)) fun a _ => .bind (.derefMut _ (by simpa using Ne.symm h1)) fun b _ =>
    .bind (.derefMut _ (by simp [h3, Ne.symm h2])) fun c _ => .ok _

/-- `get_2_mut` in a release build: undefined exactly for indices out of range or equal. -/
theorem get2R_cases (g : GenericGraph T A) (i j : Nat) :
    (∃ a b, i < g.vertices.length ∧ j < g.vertices.length ∧ i ≠ j ∧ g.get2R i j = .ok (a, b) ∧
      g.vertices[i]? = some a ∧ g.vertices[j]? = some b) ∨
    ((g.vertices.length ≤ i ∨ g.vertices.length ≤ j ∨ i = j) ∧ g.get2R i j = .ub) := by
  unfold GenericGraph.get2R
  by_cases hi : i < g.vertices.length
  · by_cases hj : j < g.vertices.length
    · by_cases hij : i = j
      · right
        subst hij
        exact ⟨.inr (.inr rfl), by rw [Rel.derefMut_ok hi (by simp), Rel.ok_bind, Rel.derefMut_live (by simp)]; rfl⟩
      · left
        refine ⟨g.vertices[i], g.vertices[j], hi, hj, hij, ?_, by simp, by simp⟩
        rw [Rel.derefMut_ok hi (by simp), Rel.ok_bind, Rel.derefMut_ok hj (by simpa using Ne.symm hij)]
        rfl
    · right
      refine ⟨.inr (.inl (by omega)), ?_⟩
      rw [Rel.derefMut_ok hi (by simp), Rel.ok_bind, Rel.derefMut_ge (by omega)]; rfl
  · right
    refine ⟨.inl (by omega), ?_⟩
    rw [Rel.derefMut_ge (by omega)]; rfl

/-- `get_3_mut` in a release build. -/
theorem get3R_cases (g : GenericGraph T A) (i j k : Nat) :
    (∃ a b c, i < g.vertices.length ∧ j < g.vertices.length ∧ k < g.vertices.length ∧ i ≠ j ∧ i ≠ k ∧ j ≠ k ∧
      g.get3R i j k = .ok (a, b, c) ∧ g.vertices[i]? = some a ∧ g.vertices[j]? = some b ∧ g.vertices[k]? = some c) ∨
    ((g.vertices.length ≤ i ∨ g.vertices.length ≤ j ∨ g.vertices.length ≤ k ∨ i = j ∨ i = k ∨ j = k) ∧ g.get3R i j k = .ub) := by
  unfold GenericGraph.get3R
  by_cases hi : i < g.vertices.length
  swap
  · exact .inr ⟨.inl (by omega), by rw [Rel.derefMut_ge (by omega)]; rfl⟩
  rw [Rel.derefMut_ok hi (by simp), Rel.ok_bind]
  by_cases hj : j < g.vertices.length
  swap
  · exact .inr ⟨.inr (.inl (by omega)), by rw [Rel.derefMut_ge (by omega)]; rfl⟩
  by_cases hij : i = j
  · exact .inr ⟨.inr (.inr (.inr (.inl hij))), by rw [Rel.derefMut_live (by simp [hij])]; rfl⟩
  rw [Rel.derefMut_ok hj (by simpa using Ne.symm hij), Rel.ok_bind]
  by_cases hk : k < g.vertices.length
  swap
  · exact .inr ⟨.inr (.inr (.inl (by omega))), by rw [Rel.derefMut_ge (by omega)]; rfl⟩
  by_cases hik : i = k
  · exact .inr ⟨by simp [hik], by rw [Rel.derefMut_live (by simp [hik])]; rfl⟩
  by_cases hjk : j = k
  · exact .inr ⟨by simp [hjk], by rw [Rel.derefMut_live (by simp [hjk])]; rfl⟩
  refine .inl ⟨g.vertices[i], g.vertices[j], g.vertices[k], hi, hj, hk, hij, hik, hjk, ?_, by simp, by simp, by simp⟩
  rw [Rel.derefMut_ok hk (by simp [Ne.symm hik, Ne.symm hjk])]
  rfl

theorem addEdge_same (g : GenericGraph T A) (i j : Nat) : SameUnlessPanic (g.addEdge i j) (g.addEdgeR i j) := by
  unfold GenericGraph.addEdge GenericGraph.addEdgeR
  refine .bind (get2_same g i j) fun p _ => .bind (.refl _) fun q _ => ?_
  obtain ⟨res, r1, r2⟩ := q
  cases res with
  | error e => exact .ok _
  | ok u => exact .ok _

theorem removeEdge_same (g : GenericGraph T A) (i j : Nat) : SameUnlessPanic (g.removeEdge i j) (g.removeEdgeR i j) := by
  unfold GenericGraph.removeEdge GenericGraph.removeEdgeR
  refine .bind (get2_same g i j) fun p _ => .bind (.refl _) fun q _ => ?_
  obtain ⟨res, r1, r2⟩ := q
  cases res with
  | error e => exact .ok _
  | ok u =>
    have key : ∀ g' : GenericGraph T A, SameUnlessPanic
        ((Res.sub g'.edgeCount 1) >>= fun c =>
          pure ((Except.ok () : Except GraphErr Unit), ({ g' with edgeCount := c } : GenericGraph T A)))
        (pure (Except.ok (), ({ g' with edgeCount := Rel.decr g'.edgeCount } : GenericGraph T A))) := by
      intro g'
      unfold Res.sub
      by_cases hc : 1 ≤ g'.edgeCount
      · have : Rel.decr g'.edgeCount = g'.edgeCount - 1 := by unfold Rel.decr; rw [if_neg (by omega)]
        rw [if_pos hc, this]
        exact .ok _
      · rw [if_neg hc]; exact .panic _
    exact key _

end

section
variable {T R : Type} [Rng R]

theorem rewire_same (a b c : SwContainer T) : SameUnlessPanic (a.rewire b c) (a.rewireR b c) := by
  unfold SwContainer.rewire SwContainer.rewireR
  cases a.adjPosition b.id with
  | none => exact .ok _
  | some k =>
    simp only
    split
    · exact .ok _
    · cases hidx : Vec.idx a.adj k with
      | panic => exact .panic _
      | diverge => simp [Vec.idx] at hidx; split at hidx <;> simp at hidx
      | ok edge =>
        simp only [Res.ok_bind, Rel.ofRes_ok, Rel.ok_bind]
        refine .assert fun _ => .bind (.refl _) fun i _ => .bind (.refl _) fun p _ => .bind (.refl _) fun q _ => .ok _

theorem findIdx_lt {α : Type} {p : α → Bool} {l : List α} {i : Nat} (h : l.findIdx? p = some i) : i < l.length := by
  rw [List.findIdx?_eq_some_iff_findIdx_eq] at h
  exact h.1

theorem adjPosition_lt {a : SwContainer T} {x i : Nat} (h : a.adjPosition x = some i) : i < a.adj.length := findIdx_lt h

theorem reset_same (a b : SwContainer T) : SameUnlessPanic (a.reset b) (a.resetR b) := by
  unfold SwContainer.reset SwContainer.resetR
  cases h1 : a.adjPosition b.id with
  | none => exact .ok _
  | some k =>
    simp only
    refine .bind (.refl _) fun i hi => ?_
    have hi' : b.adjPosition a.id = some i := by
      cases h : b.adjPosition a.id with
      | none => rw [h] at hi; simp [Res.unwrap] at hi
      | some x => rw [h] at hi; simp [Res.unwrap] at hi; rw [hi]
    rw [show Res.assert (decide (k < a.adj.length)) = .ok () by simp [Res.assert, adjPosition_lt h1],
      show Res.assert (decide (i < b.adj.length)) = .ok () by simp [Res.assert, adjPosition_lt hi']]
    simp only [Rel.ofRes_ok, Rel.ok_bind]
    refine .bind (.deref _ _) fun e _ => .bind (.deref _ _) fun o _ => .assert fun _ => ?_
    split
    · exact .ok _
    · refine .bind (.refl _) fun orig _ => ?_
      split
      · exact .ok _
      · exact .bind (.refl _) fun p _ => .bind (.refl _) fun q _ => .ok _

theorem rewireEdge_same (g : SwGraph T) (i j k : Nat) :
    SameUnlessPanic (SwGraph.rewireEdge g i j k) (SwGraph.rewireEdgeR g i j k) := by
  unfold SwGraph.rewireEdge SwGraph.rewireEdgeR
  split
  · exact .ok _
  · exact .bind (get3_same g i j k) fun p _ => .bind (rewire_same _ _ _) fun q _ => .ok _

theorem resetEdge_same (g : SwGraph T) (i j : Nat) : SameUnlessPanic (SwGraph.resetEdge g i j) (SwGraph.resetEdgeR g i j) := by
  unfold SwGraph.resetEdge SwGraph.resetEdgeR
  refine .bind (get2_same g i j) fun p _ => .bind (reset_same _ _) fun q _ => ?_
  obtain ⟨r, e1, e2⟩ := q
  cases r with
  | error s => exact .ok _
  | ok v =>
    refine .bind (.refl _) fun c _ => ?_
    unfold SwContainer.pushSingle
    rw [bind_assoc]
    exact .assert fun _ => .ok _

theorem sw_randomizeEdge_same (e : SwEns T R) (i j : Nat) : SameUnlessPanic (e.randomizeEdge i j) (e.randomizeEdgeR i j) := by
  unfold SwEns.randomizeEdge SwEns.randomizeEdgeR
  simp only
  split
  · simp only [Res.sub]
    by_cases h : 1 ≤ e.graph.vertexCount
    · rw [if_pos h]
      have : Rel.decr e.graph.vertexCount = e.graph.vertexCount - 1 := by simp [Rel.decr]; omega
      rw [this]
      simp only [Res.ok_bind]
      exact .bind (.refl _) fun p _ => .bind (rewireEdge_same _ _ _ _) fun q _ => .ok _
    · rw [if_neg h]; exact .panic _
  · exact .bind (resetEdge_same _ _ _) fun q _ => .ok _

theorem debugErrorCheck_cases (s : SwChange) : SwEns.debugErrorCheck s = .ok () ∨ SwEns.debugErrorCheck s = .panic := by
  cases s <;> simp [SwEns.debugErrorCheck]

theorem SameUnlessPanic.check {β : Type} {s : SwChange} {f : Unit → Res β} {g : Rel β} (h : SameUnlessPanic (f ()) g) :
    SameUnlessPanic (SwEns.debugErrorCheck s >>= f) g := by
  rcases debugErrorCheck_cases s with e | e
  · rw [e]; exact h
  · rw [e]; exact .panic _

theorem sw_randomizeVertex_same (e : SwEns T R) (i : Nat) : SameUnlessPanic (e.randomizeVertex i) (e.randomizeVertexR i) := by
  unfold SwEns.randomizeVertex SwEns.randomizeVertexR
  refine .bind (.refl _) fun v _ => .bind (.refl _) fun f _ => .bind (.refl _) fun s _ => .assert fun _ => ?_
  exact .bind (sw_randomizeEdge_same _ _ _) fun q _ => .check (.bind (sw_randomizeEdge_same _ _ _) fun q _ => .check (.ok _))

theorem sw_randomize_same (e : SwEns T R) : SameUnlessPanic e.randomize e.randomizeR :=
  .foldlM sw_randomizeVertex_same _ _

theorem sw_mStep_same (e : SwEns T R) : SameUnlessPanic e.mStep e.mStepR :=
  .bind (.refl _) fun _ _ => sw_randomizeEdge_same _ _ _

theorem sw_undoStep_same (e : SwEns T R) (s : SwChange) : SameUnlessPanic (e.undoStep s) (e.undoStepR s) := by
  cases s
  case rewire => exact .bind (rewireEdge_same _ _ _ _) fun q _ => .ok _
  case reset => exact .bind (rewireEdge_same _ _ _ _) fun q _ => .ok _
  all_goals exact .ok _

theorem ws_createEdge_same (g : WSGraph T) (i j : Nat) (o : OriginalEdge) :
    SameUnlessPanic (Ws.createEdge g i j o) (Ws.createEdgeR g i j o) :=
  .bind (get2_same _ _ _) fun _ _ => .ok _

theorem ws_addRandomEdge_same (fuel : Nat) (st : WSGraph T × R) (o : OriginalEdge) :
    SameUnlessPanic (Ws.addRandomEdge fuel st o) (Ws.addRandomEdgeR fuel st o) := by
  unfold Ws.addRandomEdge Ws.addRandomEdgeR
  refine .bind (.refl _) fun p _ => ?_
  obtain ⟨f, s, r⟩ := p
  simp only
  split
  · exact .bind (ws_createEdge_same _ _ _ _) fun q _ => .ok _
  · exact .bind (ws_createEdge_same _ _ _ _) fun q _ => .ok _

theorem spacial_prob_same (law : Pos → Pos → ℚ) (g : SpacialGraph T) (i j : Nat) :
    SameUnlessPanic (Spacial.probUnchecked law g i j) (Spacial.probUncheckedR law g i j) :=
  .bind (.deref _ _) fun _ _ => .bind (.deref _ _) fun _ _ => .ok _

theorem spacial_randBody_same (law : Pos → Pos → ℚ) (i : Nat) (s : SpacialGraph T × R) (j : Nat) :
    SameUnlessPanic (Spacial.randBody law i s j) (Spacial.randBodyR law i s j) := by
  unfold Spacial.randBody Spacial.randBodyR
  refine .bind (spacial_prob_same _ _ _ _) fun p _ => ?_
  simp only
  split
  · exact .bind (.derefMut _ (by simp)) fun a _ => .bind (.derefMut _ (by simp)) fun b _ => .ok _
  · exact .ok _

theorem spacial_randomize_same (e : Spacial T R) : SameUnlessPanic e.randomize e.randomizeR :=
  .bind (.foldlM (fun _ _ => .foldlM (spacial_randBody_same _ _) _ _) _ _) fun _ _ => .ok _

theorem spacial_mStep_same (e : Spacial T R) : SameUnlessPanic e.mStep e.mStepR := by
  unfold Spacial.mStep Spacial.mStepR
  refine .bind (.refl _) fun d _ => .bind (spacial_prob_same _ _ _ _) fun p _ => ?_
  obtain ⟨edge, rng⟩ := d
  simp only
  split
  · refine .bind (addEdge_same _ _ _) fun q _ => ?_
    obtain ⟨r, g⟩ := q
    cases r <;> exact .ok _
  · refine .bind (removeEdge_same _ _ _) fun q _ => ?_
    obtain ⟨r, g⟩ := q
    cases r <;> exact .ok _

theorem dog_nearBody_same (law : Pos → Pos → ℚ) (i : Nat) (s : SpacialGraph T × R) (j : Nat) :
    SameUnlessPanic (Dog.nearBody law i s j) (Dog.nearBodyR law i s j) := by
  unfold Dog.nearBody Dog.nearBodyR
  refine .bind (get2_same _ _ _) fun p _ => ?_
  simp only
  split
  · exact .bind (.refl _) fun a _ => .ok _
  · exact .ok _

theorem initRingInner_same {T A : Type} [AdjContainer T A] (n i : Nat) : ∀ (l : List Nat) (g : GenericGraph T A),
    SameUnlessPanic (GenericGraph.initRingInner n i l g) (GenericGraph.initRingInnerR n i l g)
  | [], _ => .ok _
  | a :: l, g => by
    unfold GenericGraph.initRingInner GenericGraph.initRingInnerR
    refine .bind (addEdge_same _ _ _) fun q _ => ?_
    obtain ⟨r, g'⟩ := q
    cases r with
    | error e => exact .ok _
    | ok u => exact initRingInner_same n i l g'

theorem initRingOuter_same {T A : Type} [AdjContainer T A] (n d : Nat) : ∀ (l : List Nat) (g : GenericGraph T A),
    SameUnlessPanic (GenericGraph.initRingOuter n d l g) (GenericGraph.initRingOuterR n d l g)
  | [], _ => .ok _
  | i :: l, g => by
    unfold GenericGraph.initRingOuter GenericGraph.initRingOuterR
    refine .bind (initRingInner_same _ _ _ _) fun q _ => ?_
    obtain ⟨r, g'⟩ := q
    cases r with
    | error e => exact .ok _
    | ok u => exact initRingOuter_same n d l g'

theorem initRing_same {T A : Type} [AdjContainer T A] (g : GenericGraph T A) (d : Nat) :
    SameUnlessPanic (g.initRing d) (g.initRingR d) := initRingOuter_same _ _ _ _

theorem ws_removeStage_same (p : ℚ) (g : WSGraph T) (rng : R) (i : Nat) :
    SameUnlessPanic (Ws.removeStage p g rng i) (Ws.removeStageR p g rng i) := by
  unfold Ws.removeStage Ws.removeStageR
  exact .bind (.refl _) fun c _ => .assert fun _ => .bind (.refl _) fun q _ => .bind (.refl _) fun _ _ => .ok _

theorem ws_randomize_same (fuel : Nat) (e : Ws T R) : SameUnlessPanic (e.randomize fuel) (e.randomizeR fuel) := by
  unfold Ws.randomize Ws.randomizeR
  refine .bind (initRing_same _ _) fun q _ => ?_
  obtain ⟨r, g⟩ := q
  cases r with
  | error e => exact .panic _
  | ok u =>
    refine .bind (.foldlM (fun s i => ?_) _ _) fun _ _ => .ok _
    unfold Ws.rewireBody Ws.rewireBodyR
    exact .bind (ws_removeStage_same _ _ _ _) fun q _ => .foldlM (fun _ _ => ws_addRandomEdge_same _ _ _) _ _

theorem dog_findPartner_same (node sum : Nat) : ∀ (fuel : Nat) (g : SpacialGraph T) (rng : R),
    SameUnlessPanic (Dog.findPartner node sum fuel g rng) (Dog.findPartnerR node sum fuel g rng)
  | 0, _, _ => .inr rfl
  | fuel + 1, g, rng => by
    unfold Dog.findPartner Dog.findPartnerR
    refine .bind (.refl _) fun q _ => .bind (.refl _) fun d _ => ?_
    simp only
    split
    · split
      · refine .bind (addEdge_same _ _ _) fun q _ => ?_
        obtain ⟨r, g'⟩ := q
        cases r with
        | error e => exact dog_findPartner_same node sum fuel g' _
        | ok u => exact .ok _
      · exact dog_findPartner_same node sum fuel g _
    · exact dog_findPartner_same node sum fuel g _

theorem dog_randomize_same (fuel : Nat) (e : Dog T R) : SameUnlessPanic (e.randomize fuel) (e.randomizeR fuel) := by
  unfold Dog.randomize Dog.randomizeR
  refine .bind (.foldlM (fun _ _ => .foldlM (dog_nearBody_same _ _) _ _) _ _) fun s _ => .bind (.refl _) fun _ _ =>
    .bind (.refl _) fun _ _ => .bind (.refl _) fun _ _ => .bind (.foldlM (fun s i => ?_) _ _) fun _ _ => .ok _
  unfold Dog.farBody Dog.farBodyR
  exact .foldlM (fun _ _ => .bind (dog_findPartner_same _ _ _ _ _) fun _ _ => .ok _) _ _

theorem erM_step_same (e : ErM T R) (s : ErStepM) : SameUnlessPanic (e.step s) (e.stepR s) := by
  unfold ErM.step ErM.stepR
  exact .bind (removeEdge_same _ _ _) fun _ _ => .bind (.refl _) fun _ _ => .bind (addEdge_same _ _ _) fun _ _ =>
    .bind (.refl _) fun _ _ => .bind (.refl _) fun _ _ => .bind (.refl _) fun _ _ => .ok _

theorem erM_undoStep_same (e : ErM T R) (s : ErStepM) : SameUnlessPanic (e.undoStep s) (e.undoStepR s) :=
  .bind (erM_step_same _ _) fun _ _ => .ok _

theorem erM_mStep_same (e : ErM T R) : SameUnlessPanic e.mStep e.mStepR := by
  unfold ErM.mStep ErM.mStepR
  exact .bind (.refl _) fun _ _ => .bind (.refl _) fun _ _ => .bind (.refl _) fun _ _ => .bind (.refl _) fun _ _ =>
    .bind (erM_step_same _ _) fun _ _ => .ok _

theorem erM_randomize_same (e : ErM T R) : SameUnlessPanic e.randomize e.randomizeR := by
  unfold ErM.randomize ErM.randomizeR
  exact .bind (.refl _) fun _ _ => .bind (.refl _) fun _ _ => .bind (.foldlM (fun _ _ => .bind (addEdge_same _ _ _)
    fun _ _ => .refl _) _ _) fun _ _ => .bind (.refl _) fun _ _ => .ok _

theorem erC_mStep_same (e : ErC T R) : SameUnlessPanic e.mStep e.mStepR := by
  unfold ErC.mStep ErC.mStepR
  refine .bind (.refl _) fun d _ => ?_
  obtain ⟨edge, rng⟩ := d
  simp only
  split
  · refine .bind (addEdge_same _ _ _) fun q _ => ?_
    obtain ⟨r, g⟩ := q
    cases r <;> exact .ok _
  · refine .bind (removeEdge_same _ _ _) fun q _ => ?_
    obtain ⟨r, g⟩ := q
    cases r <;> exact .ok _

theorem erC_undoStep_same (e : ErC T R) (s : ErStepC) : SameUnlessPanic (e.undoStep s) (e.undoStepR s) := by
  cases s with
  | nothing => exact .ok _
  | gError err => exact .ok _
  | addedEdge edge =>
    refine .bind (removeEdge_same _ _ _) fun q _ => ?_
    obtain ⟨r, g⟩ := q
    cases r <;> exact .ok _
  | removedEdge edge =>
    refine .bind (addEdge_same _ _ _) fun q _ => ?_
    obtain ⟨r, g⟩ := q
    cases r <;> exact .ok _

theorem config_initEdgeHalfsR_eq (e : Config T R) : e.initEdgeHalfsR = .ok e.initEdgeHalfs := by
  have key : ∀ (l : List Nat) (acc : List Nat), (∀ i ∈ l, i < e.degreeVec.length) →
      (l.foldlM (fun acc i => do
        let times ← Rel.deref e.degreeVec i
        return acc ++ List.replicate times i) acc : Rel (List Nat)) =
      .ok (acc ++ l.flatMap (fun i => List.replicate (e.degreeVec.getD i 0) i)) := by
    intro l
    induction l with
    | nil => intro acc _; simp
    | cons i l ih =>
      intro acc h
      have hi := h i (by simp)
      have hd : e.degreeVec.getD i 0 = e.degreeVec[i] := by
        simp [List.getElem?_eq_getElem hi]
      rw [List.foldlM_cons, Rel.deref_of_lt hi, Rel.ok_bind, Rel.pure_eq, Rel.ok_bind]
      rw [ih _ (fun j hj => h j (by simp [hj])), List.flatMap_cons, hd, List.append_assoc]
  unfold Config.initEdgeHalfsR Config.initEdgeHalfs
  rw [key _ _ (by simp)]
  simp

theorem config_addMultiple_same : ∀ (fuel : Nat) (g : Graph T) (l : List Nat),
    SameUnlessPanic (Config.addMultiple fuel g l) (Config.addMultipleR fuel g l)
  | 0, _, _ => .inr rfl
  | fuel + 1, g, l => by
    unfold Config.addMultiple Config.addMultipleR
    refine .bind (.refl _) fun node1 _ => ?_
    simp only
    by_cases h : 1 ≤ l.dropLast.length
    · have hs : Res.sub l.dropLast.length 1 = .ok (Rel.decr l.dropLast.length) := by
        unfold Res.sub Rel.decr
        rw [if_pos h, if_neg (by omega)]
      rw [hs, Res.ok_bind]
      refine .bind (.refl _) fun o _ => ?_
      cases o with
      | none => exact .ok _
      | some c =>
        refine .bind (.refl _) fun q _ => .bind (addEdge_same _ _ _) fun q2 _ => ?_
        obtain ⟨r, g'⟩ := q2
        cases r with
        | error e => exact .ok _
        | ok u =>
          simp only
          split
          · exact config_addMultiple_same fuel g' _
          · exact .ok _
    · have hs : Res.sub l.dropLast.length 1 = .panic := by
        unfold Res.sub
        rw [if_neg h]
      rw [hs]
      exact .panic _

theorem config_randLoop_same : ∀ (fuel : Nat) (e : Config T R), SameUnlessPanic (Config.randLoop fuel e) (Config.randLoopR fuel e)
  | 0, _ => .inr rfl
  | fuel + 1, e => by
    unfold Config.randLoop Config.randLoopR
    split
    · exact .ok _
    · refine .bind (config_addMultiple_same _ _ _) fun q _ => ?_
      obtain ⟨b, g, l⟩ := q
      simp only
      split
      · exact config_randLoop_same fuel _
      · exact config_randLoop_same fuel _

theorem config_randomize_same (fuel : Nat) (e : Config T R) : SameUnlessPanic (e.randomize fuel) (e.randomizeR fuel) :=
  config_randLoop_same _ _

theorem config_mStep_same (fuel : Nat) (e : Config T R) : SameUnlessPanic (e.mStep fuel) (e.mStepR fuel) := by
  unfold Config.mStep Config.mStepR
  refine .bind (.refl _) fun _ _ => .bind (.refl _) fun _ _ => .bind (.refl _) fun _ _ => .bind (.refl _) fun _ _ =>
    .bind (.refl _) fun _ _ => ?_
  simp only
  split
  · exact .ok _
  · refine .bind (addEdge_same _ _ _) fun q _ => ?_
    obtain ⟨r, g⟩ := q
    cases r with
    | error e => exact .ok _
    | ok u =>
      refine .bind (addEdge_same _ _ _) fun q _ => ?_
      obtain ⟨r, g⟩ := q
      cases r with
      | error e => exact .bind (removeEdge_same _ _ _) fun _ _ => .bind (.refl _) fun _ _ => .ok _
      | ok u =>
        exact .bind (removeEdge_same _ _ _) fun _ _ => .bind (.refl _) fun _ _ => .bind (removeEdge_same _ _ _) fun _ _ =>
          .bind (.refl _) fun _ _ => .ok _

theorem config_undoStepQuiet_same (e : Config T R) (s : ConfigStep) :
    SameUnlessPanic (e.undoStepQuiet s) (e.undoStepQuietR s) := by
  cases s with
  | error => exact .ok _
  | added e1 e2 =>
    exact .bind (addEdge_same _ _ _) fun _ _ => .bind (.refl _) fun _ _ => .bind (addEdge_same _ _ _) fun _ _ =>
      .bind (.refl _) fun _ _ => .bind (removeEdge_same _ _ _) fun _ _ => .bind (.refl _) fun _ _ =>
      .bind (removeEdge_same _ _ _) fun _ _ => .bind (.refl _) fun _ _ => .ok _

theorem ba_attach_same (w : List Nat) (i m : Nat) : ∀ (fuel : Nat) (g : Graph T) (rng : R),
    SameUnlessPanic (Ba.attach w i m fuel g rng) (Ba.attachR w i m fuel g rng)
  | 0, _, _ => .inr rfl
  | fuel + 1, g, rng => by
    unfold Ba.attach Ba.attachR
    refine .bind (.refl _) fun c _ => ?_
    split
    · exact .bind (.refl _) fun _ _ => .bind (addEdge_same _ _ _) fun _ _ => ba_attach_same w i m fuel _ _
    · exact .ok _

theorem ba_randomize_same (fuel : Nat) (e : Ba T R) : SameUnlessPanic (e.randomize fuel) (e.randomizeR fuel) := by
  unfold Ba.randomize Ba.randomizeR
  refine .bind (.refl _) fun g _ => .bind (.refl _) fun w _ => .bind (.foldlM (fun s i => ?_) _ _) fun _ _ => .ok _
  unfold Ba.growBody Ba.growBodyR
  exact .bind (.refl _) fun _ _ => .bind (ba_attach_same _ _ _ _ _ _) fun _ _ => .bind (.refl _) fun _ _ => .bind (.refl _) fun _ _ =>
    .bind (.refl _) fun _ _ => .bind (.refl _) fun _ _ => .ok _

theorem client_same {Op : Type} {Ret : Op → Type} {α G : Type} {fd : (o : Op) → G → Res (Ret o × G)}
    {fr : (o : Op) → G → Rel (Ret o × G)} (h : ∀ o g, SameUnlessPanic (fd o g) (fr o g)) :
    ∀ (c : Client Op Ret α) (g : G), SameUnlessPanic (c.debug fd g) (c.release fr g)
  | .done _, _ => .ok _
  | .panic, _ => .panic _
  | .call o k, g => .bind (h o g) fun p _ => client_same h (k p.1) p.2

end

end Verif
