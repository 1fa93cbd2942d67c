import Verif.Lemmas.Dual

/-!
# Dual graphs: connectivity, diameter and access to the data
-/

set_option linter.unusedSectionVars false
set_option linter.unusedSimpArgs false

namespace Verif
open AdjContainer GenericGraph

namespace DualGraph
section
variable {J T1 A1 T2 A2 : Type} [AdjTrait J] [AdjContainer T1 A1] [AdjContainer T2 A2] [LawfulAdj T1 A1] [LawfulAdj T2 A2]
variable {d : DualGraph J T1 A1 T2 A2}

/-! ### Connectivity -/

theorem reachable_one (h : d.WF) (hn : d.graph2.nextId = 0) {v w : Nat} :
    d.union.Reachable (.graph1 v) (.graph1 w) ↔ d.graph1.toSimple.Reachable v w := by
  rw [reachable_iff_rtg, reachable_iff_rtg]
  constructor
  · intro hr
    have key : ∀ x, Relation.ReflTransGen d.union.Adj (.graph1 v) x → ∃ k, x = .graph1 k ∧
        Relation.ReflTransGen d.graph1.toSimple.Adj v k := by
      intro x hx
      induction hx with
      | refl => exact ⟨v, rfl, .refl⟩
      | @tail b c _ ha ih =>
        obtain ⟨k, rfl, hk⟩ := ih
        rcases c with j | j
        · exact ⟨j, rfl, hk.tail ha⟩
        · have : j < d.graph2.nextId := h.vertex_of_adj ha
          omega
    obtain ⟨k, e, hk⟩ := key _ hr
    simp at e; subst e; exact hk
  · intro hr
    induction hr with
    | refl => exact .refl
    | tail _ ha ih => exact ih.tail ha

theorem reachable_two (h : d.WF) (hn : d.graph1.nextId = 0) {v w : Nat} :
    d.union.Reachable (.graph2 v) (.graph2 w) ↔ d.graph2.toSimple.Reachable v w := by
  rw [reachable_iff_rtg, reachable_iff_rtg]
  constructor
  · intro hr
    have key : ∀ x, Relation.ReflTransGen d.union.Adj (.graph2 v) x → ∃ k, x = .graph2 k ∧
        Relation.ReflTransGen d.graph2.toSimple.Adj v k := by
      intro x hx
      induction hx with
      | refl => exact ⟨v, rfl, .refl⟩
      | @tail b c _ ha ih =>
        obtain ⟨k, rfl, hk⟩ := ih
        rcases c with j | j
        · have : j < d.graph1.nextId := h.vertex_of_adj ha
          omega
        · exact ⟨j, rfl, hk.tail ha⟩
    obtain ⟨k, e, hk⟩ := key _ hr
    simp at e; subst e; exact hk
  · intro hr
    induction hr with
    | refl => exact .refl
    | tail _ ha ih => exact ih.tail ha

theorem isConnected_spec (h : d.WF) : ∃ b, d.isConnected = .ok b ∧
    (b = true ↔ ∀ v w, d.IsVertex v → d.IsVertex w → d.union.Reachable v w) := by
  by_cases h1 : d.graph1.nextId = 0
  · by_cases h2 : d.graph2.nextId = 0
    · refine ⟨true, by simp [isConnected, GenericGraph.vertexCount, h1, h2], ?_⟩
      simp only [true_iff]
      rintro (v | v) w hv
      · have : v < d.graph1.nextId := hv
        omega
      · have : v < d.graph2.nextId := hv
        omega
    · obtain ⟨b, e1, e2⟩ := Verif.isConnected_spec h.wf2 (by omega)
      refine ⟨b, by simp [isConnected, GenericGraph.vertexCount, h1, h2, e1, Res.unwrap], ?_⟩
      rw [e2]
      constructor
      · rintro hall (v | v) (w | w) hv hw
        · have : v < d.graph1.nextId := hv
          omega
        · have : v < d.graph1.nextId := hv
          omega
        · have : w < d.graph1.nextId := hw
          omega
        · exact (reachable_two h h1).mpr (hall v w hv hw)
      · intro hall v w hv hw
        exact (reachable_two h h1).mp (hall _ _ hv hw)
  · by_cases h2 : d.graph2.nextId = 0
    · obtain ⟨b, e1, e2⟩ := Verif.isConnected_spec h.wf1 (by omega)
      refine ⟨b, by simp [isConnected, GenericGraph.vertexCount, h1, h2, e1, Res.unwrap], ?_⟩
      rw [e2]
      constructor
      · rintro hall (v | v) (w | w) hv hw
        · exact (reachable_one h h2).mpr (hall v w hv hw)
        · have : w < d.graph2.nextId := hw
          omega
        · have : v < d.graph2.nextId := hv
          omega
        · have : v < d.graph2.nextId := hv
          omega
      · intro hall v w hv hw
        exact (reachable_one h h2).mp (hall _ _ hv hw)
    · have hv0 : d.IsVertex (.graph1 0) := by show 0 < d.graph1.nextId; omega
      obtain ⟨L, e1, e2⟩ := dfsIndex_spec h hv0 (fuel := d.totalVertices + 1) (by omega)
      refine ⟨L.length == d.totalVertices, by simp [isConnected, GenericGraph.vertexCount, h1, h2, e1], ?_⟩
      rw [beq_iff_eq]
      have hsub : ∀ x ∈ L, x ∈ d.all := fun x hx =>
        mem_all.mpr (h.vertex_of_reachable ((e2.mem x).mp hx) hv0)
      constructor
      · intro hlen v w hv hw
        have hp : L.Perm d.all := (e2.nodup.subperm hsub).perm_of_length_le (by rw [h.all_length, hlen])
        have hv' := (e2.mem v).mp (hp.mem_iff.mpr (mem_all.mpr hv))
        have hw' := (e2.mem w).mp (hp.mem_iff.mpr (mem_all.mpr hw))
        exact hv'.symm.trans hw'
      · intro hall
        have hp : L.Perm d.all := (List.perm_ext_iff_of_nodup e2.nodup all_nodup).mpr (fun x => by
          rw [mem_all]
          exact ⟨fun hx => mem_all.mp (hsub x hx), fun hx => (e2.mem x).mpr (hall _ _ hv0 hx)⟩)
        rw [hp.length_eq, h.all_length]

/-! ### Diameter -/

theorem diameter_spec (h : d.WF) (hn : 0 < d.totalVertices)
    (hc : ∀ v w, d.IsVertex v → d.IsVertex w → d.union.Reachable v w) :
    ∃ m, d.diameter = .ok (some m) ∧ (∀ v w, d.IsVertex v → d.IsVertex w → d.union.dist v w ≤ m) ∧
      ∃ v w, d.IsVertex v ∧ d.IsVertex w ∧ d.union.dist v w = m := by
  obtain ⟨b, hb, hb'⟩ := isConnected_spec h
  have hbt : b = true := hb'.mpr hc
  subst hbt
  obtain ⟨x0, hx0⟩ : ∃ x, d.IsVertex x := by
    have : 0 < d.all.length := by rw [h.all_length]; exact hn
    exact ⟨d.all[0], mem_all.mp (List.getElem_mem this)⟩
  have hstep : ∀ (mk : Nat → DualIndex) (i : Nat) (s : BfsDual × Nat) (P : DualIndex → Prop), d.IsVertex (mk i) →
      s.1.notHandled1.length = d.graph1.nextId → s.1.notHandled2.length = d.graph2.nextId →
      (∀ v w, P v → d.IsVertex w → d.union.dist v w ≤ s.2) →
      (∃ v w, d.IsVertex v ∧ d.IsVertex w ∧ d.union.dist v w = s.2) →
      ∃ s', d.diamBody mk s i = .ok s' ∧ s'.1.notHandled1.length = d.graph1.nextId ∧ s'.1.notHandled2.length = d.graph2.nextId ∧
        (∀ v w, P v ∨ v = mk i → d.IsVertex w → d.union.dist v w ≤ s'.2) ∧
        (∃ v w, d.IsVertex v ∧ d.IsVertex w ∧ d.union.dist v w = s'.2) := by
    rintro mk i ⟨bfs, m⟩ P hv i1 i2 i3 ⟨v0, w0, i4, i5, i6⟩
    obtain ⟨s', x, e1, e2, e3, ⟨w, e4, e5⟩, e6⟩ := diamBody_spec h mk hv (s := (bfs, m)) i1 i2
    refine ⟨(s', Nat.max m x), e1, e2, e3, ?_, ?_⟩
    · rintro v u (hp | rfl) hu
      · exact le_trans (i3 v u hp hu) (Nat.le_max_left _ _)
      · exact le_trans (e6 u (hc _ _ hv hu)) (Nat.le_max_right _ _)
    · rcases Nat.le_total m x with hle | hle
      · refine ⟨mk i, w, hv, h.vertex_of_reachable e4 hv, ?_⟩
        rw [e5]; exact (Nat.max_eq_right hle).symm
      · refine ⟨v0, w0, i4, i5, ?_⟩
        rw [i6]; exact (Nat.max_eq_left hle).symm
  obtain ⟨s1, a1, a2, a3, a4, a5⟩ := foldlM_range (f := d.diamBody .graph1) d.graph1.nextId
    (fun i s => s.1.notHandled1.length = d.graph1.nextId ∧ s.1.notHandled2.length = d.graph2.nextId ∧
      (∀ v w, (∃ k, k < i ∧ v = .graph1 k) → d.IsVertex w → d.union.dist v w ≤ s.2) ∧
      (∃ v w, d.IsVertex v ∧ d.IsVertex w ∧ d.union.dist v w = s.2))
    (by
      rintro i s hi ⟨i1, i2, i3, i4⟩
      obtain ⟨s', e1, e2, e3, e4, e5⟩ := hstep .graph1 i s _ hi i1 i2 i3 i4
      refine ⟨s', e1, e2, e3, ?_, e5⟩
      rintro v w ⟨k, hk, rfl⟩ hw
      refine e4 _ w ?_ hw
      by_cases hki : k = i
      · right; rw [hki]
      · left; exact ⟨k, by omega, rfl⟩)
    (s := (BfsDual.new d (.graph1 0), 0)) ⟨(new_lengths h _).1, (new_lengths h _).2, by rintro v w ⟨k, hk, _⟩; omega,
      x0, x0, hx0, hx0, by simp⟩
  obtain ⟨s2, b1, b2, b3, b4, b5⟩ := foldlM_range' (f := d.diamBody .graph2) 1 (d.graph2.nextId - 1)
    (fun i s => s.1.notHandled1.length = d.graph1.nextId ∧ s.1.notHandled2.length = d.graph2.nextId ∧
      (∀ v w, ((∃ k, k < d.graph1.nextId ∧ v = .graph1 k) ∨ ∃ k, 1 ≤ k ∧ k < i ∧ v = .graph2 k) → d.IsVertex w →
        d.union.dist v w ≤ s.2) ∧
      (∃ v w, d.IsVertex v ∧ d.IsVertex w ∧ d.union.dist v w = s.2))
    (by
      rintro i s hi1 hi2 ⟨i1, i2, i3, i4⟩
      obtain ⟨s', e1, e2, e3, e4, e5⟩ := hstep .graph2 i s _ (by show i < d.graph2.nextId; omega) i1 i2 i3 i4
      refine ⟨s', e1, e2, e3, ?_, e5⟩
      rintro v w (hv | ⟨k, hk1, hk2, rfl⟩) hw
      · exact e4 v w (Or.inl (Or.inl hv)) hw
      · refine e4 _ w ?_ hw
        by_cases hki : k = i
        · right; rw [hki]
        · left; right; exact ⟨k, hk1, by omega, rfl⟩)
    (s := s1) ⟨a2, a3, by
      rintro v w (hv | ⟨k, hk1, hk2, _⟩) hw
      · exact a4 v w hv hw
      · omega, a5⟩
  have main : ∀ v w, v ≠ .graph2 0 → d.IsVertex v → d.IsVertex w → d.union.dist v w ≤ s2.2 := by
    intro v w hv0 hv hw
    refine b4 v w ?_ hw
    rcases v with k | k
    · left; exact ⟨k, hv, rfl⟩
    · right
      have hk : k < d.graph2.nextId := hv
      have : k ≠ 0 := by rintro rfl; exact hv0 rfl
      exact ⟨k, by omega, by omega, rfl⟩
  refine ⟨s2.2, ?_, ?_, b5⟩
  · unfold diameter
    have hne : ¬ d.totalVertices = 0 := by omega
    simp only [hne, if_false, hb, Res.ok_bind, Bool.not_true, Bool.false_eq_true, GenericGraph.vertexCount]
    rw [a1, Res.ok_bind, b1]
    rfl
  · intro v w hv hw
    by_cases hv0 : v = .graph2 0
    · by_cases hw0 : w = .graph2 0
      · rw [hv0, hw0]; simp
      · rw [SimpleGraph.dist_comm]; exact main w v hw0 hw hv
    · exact main v w hv0 hv hw

theorem diameter_none (h : d.WF) (hn : d.totalVertices = 0 ∨
    ¬ ∀ v w, d.IsVertex v → d.IsVertex w → d.union.Reachable v w) : d.diameter = .ok none := by
  obtain ⟨b, hb, hb'⟩ := isConnected_spec h
  unfold diameter
  by_cases h0 : d.totalVertices = 0
  · simp [h0]
  · have : b = false := by
      cases b with
      | false => rfl
      | true => exact absurd (hb'.mp rfl) (hn.resolve_left h0)
    subst this
    simp [h0, hb]

end

/-! ### Two iterators in lock step -/

/-- The results of two calls of `next` correspond. -/
def SameStep {S X Y : Type} (R : X → Y → Prop) : Res (Option X × S) → Res (Option Y × S) → Prop
  | .ok (none, s1), .ok (none, s2) => s1 = s2
  | .ok (some x, s1), .ok (some y, s2) => s1 = s2 ∧ R x y
  | .panic, .panic => True
  | .diverge, .diverge => True
  | _, _ => False

theorem collect_rel {S X Y : Type} {R : X → Y → Prop} {nextX : S → Res (Option X × S)} {nextY : S → Res (Option Y × S)}
    (h : ∀ s, SameStep R (nextX s) (nextY s)) : ∀ (fuel : Nat) (s : S) (xs : List X) (s' : S),
    collect nextX fuel s = .ok (xs, s') → ∃ ys, collect nextY fuel s = .ok (ys, s') ∧ List.Forall₂ R xs ys := by
  intro fuel
  induction fuel with
  | zero => intro s xs s' hc; simp [collect] at hc
  | succ fuel ih =>
    intro s xs s' hc
    have hs := h s
    simp only [collect] at hc ⊢
    rcases hx : nextX s with ⟨ox, s1⟩ | _ | _
    · rcases hy : nextY s with ⟨oy, s2⟩ | _ | _
      · rw [hx, hy] at hs
        rw [hx] at hc
        cases ox with
        | none =>
          cases oy with
          | none =>
            simp only [SameStep] at hs
            subst hs
            simp at hc
            exact ⟨[], by simp [hc.2], by rw [hc.1]; exact .nil⟩
          | some y => simp [SameStep] at hs
        | some x =>
          cases oy with
          | none => simp [SameStep] at hs
          | some y =>
            simp only [SameStep] at hs
            obtain ⟨rfl, hr⟩ := hs
            simp only [Res.ok_bind] at hc ⊢
            rcases hcc : collect nextX fuel s1 with ⟨xs', s''⟩ | _ | _
            · rw [hcc] at hc
              simp at hc
              obtain ⟨rfl, rfl⟩ := hc
              obtain ⟨ys, g1, g2⟩ := ih s1 xs' s'' hcc
              exact ⟨y :: ys, by rw [g1]; rfl, .cons hr g2⟩
            · rw [hcc] at hc; simp at hc
            · rw [hcc] at hc; simp at hc
      · rw [hx, hy] at hs; cases ox <;> simp [SameStep] at hs
      · rw [hx, hy] at hs; cases ox <;> simp [SameStep] at hs
    · rw [hx] at hc; simp at hc
    · rw [hx] at hc; simp at hc

section
variable {J T A1 A2 : Type} [AdjTrait J] [AdjContainer T A1] [AdjContainer T A2] [LawfulAdj T A1] [LawfulAdj T A2]
variable {d : DualGraph J T A1 T A2}

theorem dfs_same (s : DfsDual) : SameStep (fun v t => d.dataAt v = some t) (dfsDualNext d s) (dfsDualContainedNext d s) := by
  obtain ⟨h1, h2, stack⟩ := s
  cases stack with
  | nil => simp [dfsDualNext, dfsDualContainedNext, SameStep]
  | cons v stack =>
    rcases v with i | i
    · simp only [dfsDualNext, dfsDualContainedNext]
      by_cases hi : i < d.graph1.vertices.length
      · rw [Vec.idx_of_lt hi]
        simp only [Res.ok_bind]
        rcases visitStackW .graph1 (neighbors d.graph1.vertices[i]) h1 stack with ⟨a, b⟩ | _ | _
        · simp only [Res.ok_bind]
          rcases Vec.idx d.adj1 i with a' | _ | _
          · simp only [Res.ok_bind]
            rcases visitStackW .graph2 (AdjTrait.slice a') h2 b with ⟨a'', b''⟩ | _ | _
            · simp [SameStep, dataAt, GenericGraph.data, hi]
            · simp [SameStep]
            · simp [SameStep]
          · simp [SameStep]
          · simp [SameStep]
        · simp [SameStep]
        · simp [SameStep]
      · simp [Vec.idx, hi, SameStep]
    · simp only [dfsDualNext, dfsDualContainedNext]
      by_cases hi : i < d.graph2.vertices.length
      · rw [Vec.idx_of_lt hi]
        simp only [Res.ok_bind]
        rcases visitStackW .graph2 (neighbors d.graph2.vertices[i]) h2 stack with ⟨a, b⟩ | _ | _
        · simp only [Res.ok_bind]
          rcases Vec.idx d.adj2 i with a' | _ | _
          · simp only [Res.ok_bind]
            rcases visitStackW .graph1 (AdjTrait.slice a') h1 b with ⟨a'', b''⟩ | _ | _
            · simp [SameStep, dataAt, GenericGraph.data, hi]
            · simp [SameStep]
            · simp [SameStep]
          · simp [SameStep]
          · simp [SameStep]
        · simp [SameStep]
        · simp [SameStep]
      · simp [Vec.idx, hi, SameStep]

end

/-! ### Data of neighbours -/

section
variable {T A : Type} [AdjContainer T A] [LawfulAdj T A]

theorem nContained_spec (vs : List A) : ∀ (l : List Nat), (∀ i ∈ l, i < vs.length) →
    ∃ ts, nContained vs l = .ok ts ∧ ts.map some = l.map (fun i => (vs.map contained)[i]?) := by
  intro l
  induction l with
  | nil => intro _; exact ⟨[], rfl, rfl⟩
  | cons i l ih =>
    intro hl
    have hi := hl i (by simp)
    obtain ⟨ts, h1, h2⟩ := ih (fun j hj => hl j (by simp [hj]))
    unfold nContained at h1 ⊢
    refine ⟨contained vs[i] :: ts, ?_, by simp [h2, hi]⟩
    rw [List.mapM_cons, Vec.idx_of_lt hi]
    simp only [Res.ok_bind, Res.pure_eq] at h1 ⊢
    rw [h1]
    rfl

theorem nContainedMut_spec (upd : Nat → T → T) (g : GenericGraph T A) : ∀ (l : List Nat) (k : Nat) (vs : List A), l.Nodup →
    (∀ i ∈ l, i < vs.length) → SameAdj g vs →
    ∃ ts vs', nContainedMut upd k vs l = .ok (ts, vs') ∧ SameAdj g vs' ∧
      ts.map some = l.map (fun i => (vs.map contained)[i]?) ∧
      (∀ m i, l[m]? = some i → (vs'.map contained)[i]? = ((vs.map contained)[i]?).map (upd (k + m))) ∧
      (∀ i, i ∉ l → (vs'.map contained)[i]? = (vs.map contained)[i]?) := by
  intro l
  induction l with
  | nil => intro k vs _ _ hs; exact ⟨[], vs, rfl, hs, rfl, by simp, by simp⟩
  | cons i l ih =>
    intro k vs hnd hl hs
    have hi := hl i (by simp)
    simp only [List.nodup_cons] at hnd
    set c := vs[i] with hcdef
    obtain ⟨ts, vs', h1, h2, h3, h4, h5⟩ := ih (k + 1) (vs.set i (setContained c (upd k (contained c)))) hnd.2
      (fun j hj => by simpa using hl j (by simp [hj])) (hs.set (by simp [hi, hcdef]) _)
    have hset : ∀ j, j ≠ i → ((vs.set i (setContained c (upd k (contained c)))).map contained)[j]? = (vs.map contained)[j]? := by
      intro j hj
      rw [List.map_set, List.getElem?_set_ne (Ne.symm hj)]
    refine ⟨contained c :: ts, vs', ?_, h2, ?_, ?_, ?_⟩
    · simp only [nContainedMut, Vec.idx_of_lt hi, Res.ok_bind]
      rw [h1]; rfl
    · simp only [List.map_cons, h3]
      refine congrArg₂ List.cons (by simp [hi, hcdef]) ?_
      apply List.map_congr_left
      intro j hj
      exact hset j (by rintro rfl; exact hnd.1 hj)
    · intro m j hm
      cases m with
      | zero =>
        simp at hm; subst hm
        rw [h5 _ hnd.1, List.map_set, List.getElem?_set]
        simp [hi, LawfulAdj.contained_set, hcdef]
      | succ m =>
        simp only [List.getElem?_cons_succ] at hm
        rw [h4 m j hm, hset j (by rintro rfl; exact hnd.1 (List.mem_of_getElem? hm))]
        rw [show k + 1 + m = k + (m + 1) by omega]
    · intro j hj
      simp only [List.mem_cons, not_or] at hj
      rw [h5 j hj.2, hset j hj.1]

end

end DualGraph
end Verif
