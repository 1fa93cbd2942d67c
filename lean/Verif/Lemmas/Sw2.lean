import Verif.Lemmas.Sw
import Verif.Lemmas.Chain
import Verif.Lemmas.Connect

/-!
# Small-world ensemble: steps, randomizing, undoing
-/

set_option linter.unusedSectionVars false
set_option linter.unusedSimpArgs false

namespace Verif
open AdjContainer GenericGraph
open scoped BigOperators

variable {T R : Type} [Rng R]

theorem filterMap_orig (l : List SwEdge) :
    (l.filter SwEdge.isRoot).filterMap (·.originallyTo) = l.filterMap (·.originallyTo) := by
  induction l with
  | nil => rfl
  | cons e l ih =>
    obtain ⟨d, o⟩ := e
    cases o with
    | none => simpa [SwEdge.isRoot] using ih
    | some v => simpa [List.filter_cons, SwEdge.isRoot] using ih

theorem filter_root_length (l : List SwEdge) :
    (l.filter SwEdge.isRoot).length = (l.filterMap (·.originallyTo)).length := by
  induction l with
  | nil => rfl
  | cons e l ih =>
    obtain ⟨d, o⟩ := e
    cases o with
    | none => simpa [SwEdge.isRoot] using ih
    | some v => simpa [List.filter_cons, SwEdge.isRoot] using ih

/-- The two root edges of a vertex, in the order of the adjacency list. -/
theorem SwValid.rootPair {g : SwGraph T} (h : SwValid g) {i : Nat} (hi : i < g.nextId) :
    ∃ d1 o1 d2 o2, (SwGraph.raw g i).filter SwEdge.isRoot = [⟨d1, some o1⟩, ⟨d2, some o2⟩] ∧
      [o1, o2].Perm [(i + 1) % g.nextId, (i + 2) % g.nextId] ∧ d1 ≠ d2 := by
  have hp := h.roots i hi
  have hlen : ((SwGraph.raw g i).filter SwEdge.isRoot).length = 2 := by
    rw [filter_root_length, hp.length_eq]; rfl
  obtain ⟨e1, e2, he⟩ := List.length_eq_two.mp hlen
  have m1 : e1 ∈ (SwGraph.raw g i).filter SwEdge.isRoot := by rw [he]; simp
  have m2 : e2 ∈ (SwGraph.raw g i).filter SwEdge.isRoot := by rw [he]; simp
  have r1 := (List.mem_filter.mp m1).2
  have r2 := (List.mem_filter.mp m2).2
  have hnd : (((SwGraph.raw g i).filter SwEdge.isRoot).map (·.dst)).Nodup := by
    have := h.wf.nodup i
    rw [sw_nbrs] at this
    exact this.sublist (List.filter_sublist.map _)
  rw [← filterMap_orig, he] at hp
  rw [he] at hnd ⊢
  obtain ⟨d1, o1⟩ := e1
  obtain ⟨d2, o2⟩ := e2
  cases o1 with
  | none => simp [SwEdge.isRoot] at r1
  | some o1 =>
    cases o2 with
    | none => simp [SwEdge.isRoot] at r2
    | some o2 =>
      refine ⟨d1, o1, d2, o2, rfl, by simpa using hp, ?_⟩
      simpa using hnd

theorem drawRemaining_spec (r : R) {index high : Nat} (hh : 0 < high) :
    ∃ k r', drawRemaining r index high = .ok (k, r') ∧ k ≤ high ∧ k ≠ index := by
  obtain ⟨x, r', h1, h2⟩ := genRange_ok r hh
  by_cases hx : x < index
  · exact ⟨x, r', by simp [drawRemaining, h1, hx], by omega, by omega⟩
  · exact ⟨x + 1, r', by simp [drawRemaining, h1, hx], by omega, by omega⟩

theorem drawRemaining_script {x index high : Nat} {l : List Nat} (hx : x < high) :
    drawRemaining (⟨x :: l⟩ : Script) index high = .ok (if x < index then x else x + 1, ⟨l⟩) := by
  unfold drawRemaining
  rw [script_genRange hx]
  simp only [Res.ok_bind]
  split <;> rfl

/-- Outcome of `randomize_edge` on a root edge. -/
theorem SwEns.randomizeEdge_spec {e : SwEns T R} (h : SwValid e.graph) {i j o : Nat}
    (he : (⟨j, some o⟩ : SwEdge) ∈ SwGraph.raw e.graph i) :
    ∃ s e', e.randomizeEdge i j = .ok (s, e') ∧ SwStep e.graph s e'.graph ∧ e'.rProb = e.rProb ∧
      (∀ a b c, s = .rewire a b c ∨ s = .reset a b c → a = i ∧ b = j) ∧
      ((coin e.rng e.rProb).1 = false → ∀ a b c, s ≠ .rewire a b c) := by
  have hn := h.size
  unfold SwEns.randomizeEdge
  rcases hc : coin e.rng e.rProb with ⟨b, r1⟩
  cases b with
  | true =>
    obtain ⟨k, r2, h1, h2, h3⟩ := drawRemaining_spec r1 (index := i) (show 0 < e.graph.vertexCount - 1 by
      show 0 < e.graph.nextId - 1; omega)
    have hsub : Res.sub e.graph.vertexCount 1 = .ok (e.graph.vertexCount - 1) :=
      Res.sub_of_le (by show 1 ≤ e.graph.nextId; omega)
    have hk : k < e.graph.nextId := by
      have : k ≤ e.graph.nextId - 1 := h2
      omega
    rcases rewireEdge_spec h he hk h3 with ⟨_, h4⟩ | ⟨_, _, h4⟩ | ⟨_, _, g', h4, h5⟩
    · exact ⟨_, { e with rng := r2 }, by simp [-Res.bind_eq_ok, hsub, h1, h4], .nothing, rfl, by simp, by simp⟩
    · exact ⟨_, { e with rng := r2 }, by simp [-Res.bind_eq_ok, hsub, h1, h4], .blocked, rfl, by simp, by simp⟩
    · exact ⟨_, { e with rng := r2, graph := g' }, by simp [-Res.bind_eq_ok, hsub, h1, h4], .rewire h5, rfl,
        by simp, by simp⟩
  | false =>
    rcases resetEdge_spec h he with ⟨_, h4⟩ | ⟨_, _, h4⟩ | ⟨_, _, g', h4, h5⟩
    · exact ⟨_, { e with rng := r1 }, by simp [-Res.bind_eq_ok, h4], .nothing, rfl, by simp, by simp⟩
    · exact ⟨_, { e with rng := r1 }, by simp [-Res.bind_eq_ok, h4], .blocked, rfl, by simp, by simp⟩
    · exact ⟨_, { e with rng := r1, graph := g' }, by simp [-Res.bind_eq_ok, h4], .reset h5, rfl,
        by simp, by simp⟩

theorem SwStep.valid {g g' : SwGraph T} {s : SwChange} (st : SwStep g s g') (h : SwValid g) : SwValid g' := by
  cases st with
  | nothing => exact h
  | blocked => exact h
  | rewire m => exact m.valid h
  | reset m => exact m.valid h

theorem SwStep.n {g g' : SwGraph T} {s : SwChange} (st : SwStep g s g') : g'.nextId = g.nextId ∧ g'.data = g.data := by
  cases st with
  | nothing => exact ⟨rfl, rfl⟩
  | blocked => exact ⟨rfl, rfl⟩
  | rewire m => exact ⟨m.n, m.data⟩
  | reset m => exact ⟨m.n, m.data⟩

theorem SwStep.isValid {g g' : SwGraph T} {s : SwChange} (st : SwStep g s g') :
    s.isValid = true ∧ SwEns.debugErrorCheck s = .ok () := by
  cases st <;> exact ⟨rfl, rfl⟩

/-- The other entries of the vertex stay. -/
theorem SwStep.keep {g g' : SwGraph T} {s : SwChange} (st : SwStep g s g') (h : SwValid g) {i j : Nat}
    (hs : ∀ a b c, s = .rewire a b c ∨ s = .reset a b c → a = i ∧ b = j) {f : SwEdge} (hf : f ∈ SwGraph.raw g i)
    (hd : f.dst ≠ j) : f ∈ SwGraph.raw g' i := by
  cases st with
  | nothing => exact hf
  | blocked => exact hf
  | rewire m =>
    obtain ⟨rfl, rfl⟩ := hs _ _ _ (.inl rfl)
    exact (m.mem h.wf).mpr (.inr (.inr ⟨hf, fun hc => hd hc.2, fun hc => m.ij hc.1⟩))
  | reset m =>
    obtain ⟨rfl, rfl⟩ := hs _ _ _ (.inr rfl)
    exact (m.mem h.wf).mpr (.inr (.inr ⟨hf, fun hc => hd hc.2, fun hc => m.ij hc.1⟩))

theorem SwEns.randomizeVertex_spec {e : SwEns T R} (h : SwValid e.graph) {i : Nat} (hi : i < e.graph.nextId) :
    ∃ e' g1 s1 s2, e.randomizeVertex i = .ok e' ∧ SwStep e.graph s1 g1 ∧ SwStep g1 s2 e'.graph ∧ e'.rProb = e.rProb ∧
      ((∀ r : R, (coin r e.rProb).1 = false) → ∀ a b c, s1 ≠ .rewire a b c ∧ s2 ≠ .rewire a b c) := by
  obtain ⟨d1, o1, d2, o2, h1, h2, h3⟩ := h.rootPair hi
  obtain ⟨c, c1, c2, c3, _⟩ := sw_container h.wf hi
  have m1 : (⟨d1, some o1⟩ : SwEdge) ∈ SwGraph.raw e.graph i := by
    have : (⟨d1, some o1⟩ : SwEdge) ∈ (SwGraph.raw e.graph i).filter SwEdge.isRoot := by rw [h1]; simp
    exact (List.mem_filter.mp this).1
  have m2 : (⟨d2, some o2⟩ : SwEdge) ∈ SwGraph.raw e.graph i := by
    have : (⟨d2, some o2⟩ : SwEdge) ∈ (SwGraph.raw e.graph i).filter SwEdge.isRoot := by rw [h1]; simp
    exact (List.mem_filter.mp this).1
  obtain ⟨s1, e1, a1, a2, a3, a4, a5⟩ := SwEns.randomizeEdge_spec h m1
  have m2' := a2.keep h a4 m2 (Ne.symm h3)
  have v1 := a2.valid h
  obtain ⟨s2, e2, b1, b2, b3, b4, b5⟩ := SwEns.randomizeEdge_spec v1 m2'
  refine ⟨e2, e1.graph, s1, s2, ?_, a2, b2, b3.trans a3, ?_⟩
  · unfold SwEns.randomizeVertex
    rw [c3] at h1
    simp [-Res.bind_eq_ok, Vec.idx_of_some c1, SwContainer.iterRawEdges, h1, a1, b1, a2.isValid.2, b2.isValid.2]
  · intro hcoin a b c
    exact ⟨a5 (hcoin _) a b c, b5 (by rw [a3]; exact hcoin _) a b c⟩

theorem SwEns.randomize_spec {e : SwEns T R} (h : SwValid e.graph) :
    ∃ e', e.randomize = .ok e' ∧ SwValid e'.graph ∧ e'.graph.nextId = e.graph.nextId ∧ e'.graph.data = e.graph.data ∧
      e'.rProb = e.rProb := by
  obtain ⟨e', h1, h2⟩ := foldlM_range (f := SwEns.randomizeVertex (T := T) (R := R)) e.graph.nextId
    (fun _ x => SwValid x.graph ∧ x.graph.nextId = e.graph.nextId ∧ x.graph.data = e.graph.data ∧ x.rProb = e.rProb)
    (by
      rintro i x hi ⟨v1, v2, v3, v4⟩
      obtain ⟨x', g1, s1, s2, a1, a2, a3, a4, _⟩ := SwEns.randomizeVertex_spec v1 (i := i) (by rw [v2]; exact hi)
      exact ⟨x', a1, a3.valid (a2.valid v1), by rw [a3.n.1, a2.n.1, v2], by rw [a3.n.2, a2.n.2, v3], a4.trans v4⟩)
    (s := e) ⟨h, rfl, rfl, rfl⟩
  exact ⟨e', h1, h2⟩

/-- The root edges as pairs (owner, current target). -/
def SwGraph.Rooted (g : SwGraph T) (p : Nat × Nat) : Prop := ∃ o, (⟨p.2, some o⟩ : SwEdge) ∈ SwGraph.raw g p.1

theorem SwEns.drawEdge_eq {e : SwEns T R} (h : SwValid e.graph) {num : Nat} {r : R} (hr : genRange e.rng e.graph.edgeCount = .ok (num, r)) :
    ∃ j o, e.drawEdge = .ok ((num / 2, j), { e with rng := r }) ∧ num / 2 < e.graph.nextId ∧
      ((SwGraph.raw e.graph (num / 2)).filter SwEdge.isRoot)[num % 2]? = some ⟨j, some o⟩ := by
  obtain ⟨hpos, hlt, _⟩ := genRange_eq_ok hr
  have hv : num / 2 < e.graph.nextId := by rw [h.count] at hlt; omega
  obtain ⟨d1, o1, d2, o2, h1, h2, h3⟩ := h.rootPair hv
  obtain ⟨c, c1, c2, c3, _⟩ := sw_container h.wf hv
  have hm : num % 2 = 0 ∨ num % 2 = 1 := by omega
  rcases hm with hm | hm
  · refine ⟨d1, o1, ?_, hv, by rw [h1, hm]; rfl⟩
    rw [c3] at h1
    simp [-Res.bind_eq_ok, SwEns.drawEdge, hr, GenericGraph.container, Vec.idx_of_some c1, SwContainer.iterRawEdges, h1, hm]
  · refine ⟨d2, o2, ?_, hv, by rw [h1, hm]; rfl⟩
    rw [c3] at h1
    simp [-Res.bind_eq_ok, SwEns.drawEdge, hr, GenericGraph.container, Vec.idx_of_some c1, SwContainer.iterRawEdges, h1, hm]

theorem SwEns.mStep_spec {e : SwEns T R} (h : SwValid e.graph) :
    ∃ s e', e.mStep = .ok (s, e') ∧ SwStep e.graph s e'.graph ∧ e'.rProb = e.rProb := by
  obtain ⟨num, r, h1, h2⟩ := genRange_ok e.rng (show 0 < e.graph.edgeCount by have := h.size; rw [h.count]; omega)
  obtain ⟨j, o, a1, a2, a3⟩ := SwEns.drawEdge_eq h h1
  have hm : (⟨j, some o⟩ : SwEdge) ∈ SwGraph.raw e.graph (num / 2) := (List.mem_filter.mp (List.mem_of_getElem? a3)).1
  obtain ⟨s, e', b1, b2, b3, _⟩ := SwEns.randomizeEdge_spec (e := { e with rng := r }) h hm
  exact ⟨s, e', by simp [-Res.bind_eq_ok, SwEns.mStep, a1, b1], b2, b3⟩

/-! ### Undoing -/

theorem SwSame.refl (g : SwGraph T) : SwSame g g := ⟨rfl, rfl, rfl, fun _ => List.Perm.refl _⟩

theorem SwSame.mem {g g' : SwGraph T} (t : SwSame g g') {i : Nat} {e : SwEdge} :
    e ∈ SwGraph.raw g' i ↔ e ∈ SwGraph.raw g i := (t.raw i).mem_iff

theorem SwSame.nbrs {g g' : SwGraph T} (t : SwSame g g') (i : Nat) : (g'.nbrs i).Perm (g.nbrs i) := by
  rw [sw_nbrs, sw_nbrs]; exact (t.raw i).map _

theorem SwMoved.back {g g' x : SwGraph T} {i j k o : Nat} (h : SwValid g) (m : SwMoved g g' i j k o) (hx : SwValid x)
    (t : SwSame g' x) : ∃ x', SwGraph.rewireEdge x i k j = .ok (.rewire i k j, x') ∧ SwValid x' ∧ SwSame g x' := by
  have hjn : j ∈ g.nbrs i := sw_mem_nbrs.mpr ⟨_, m.old_mem, rfl⟩
  have hkx : (⟨k, some o⟩ : SwEdge) ∈ SwGraph.raw x i := t.mem.mpr ((m.mem h.wf).mpr (.inl ⟨rfl, rfl⟩))
  have hjx : j ∉ x.nbrs i := by
    rw [(t.nbrs i).mem_iff, m.mem_nbrs h.wf]
    rintro (⟨_, hc⟩ | ⟨hc, _⟩ | ⟨_, hc, _⟩)
    · exact m.jk hc
    · exact m.ik hc
    · exact hc ⟨rfl, rfl⟩
  rcases rewireEdge_spec hx hkx (k := j) (by rw [t.n, m.n]; exact h.wf.lt _ _ hjn) (Ne.symm m.ij) with
    ⟨hc, _⟩ | ⟨_, hc, _⟩ | ⟨_, _, x', h4, h5⟩
  · exact absurd hc.symm m.jk
  · exact absurd hc hjx
  · refine ⟨x', h4, h5.valid hx, ⟨by rw [h5.n, t.n, m.n], by rw [h5.count, t.count, m.count],
      by rw [h5.data, t.data, m.data], ?_⟩⟩
    intro y
    by_cases hyi : y = i
    · subst hyi
      obtain ⟨L, p1, p2⟩ := m.pi
      obtain ⟨L', q1, q2⟩ := h5.pi
      have : L'.Perm L := (List.Perm.trans q1.symm ((t.raw y).trans p2)).cons_inv
      exact q2.trans ((List.Perm.cons _ this).trans p1.symm)
    · by_cases hyj : y = j
      · subst hyj
        have r1 := t.raw y
        exact (h5.pk.trans (List.Perm.cons _ r1)).trans m.pj.symm
      · by_cases hyk : y = k
        · subst hyk
          exact (h5.pj.symm.trans ((t.raw y).trans m.pk)).cons_inv
        · rw [h5.fr y hyi hyk hyj, ← m.fr y hyi hyj hyk]; exact t.raw y

theorem SwEns.back {e x : SwEns T R} {s : SwChange} {g' : SwGraph T} (h : SwValid e.graph) (st : SwStep e.graph s g')
    (hx : SwValid x.graph) (t : SwSame g' x.graph) :
    ∃ u x', x.undoStep s = .ok (u, x') ∧ x.undoStepQuiet s = .ok x' ∧ SwValid x'.graph ∧ SwSame e.graph x'.graph ∧
      x'.rProb = x.rProb ∧ x'.rng = x.rng ∧
      (∀ a b c, s = .rewire a b c ∨ s = .reset a b c → u = .rewire a c b) ∧
      ((s = .nothing ∨ s = .blockedByExistingEdge) → u = s ∧ x' = x) := by
  cases st with
  | nothing => exact ⟨_, x, rfl, rfl, hx, t, rfl, rfl, by simp, by simp⟩
  | blocked => exact ⟨_, x, rfl, rfl, hx, t, rfl, rfl, by simp, by simp⟩
  | rewire m =>
    obtain ⟨x', a1, a2, a3⟩ := m.back h hx t
    refine ⟨_, { x with graph := x' }, by simp [-Res.bind_eq_ok, SwEns.undoStep, a1]; rfl,
      by simp [-Res.bind_eq_ok, SwEns.undoStepQuiet, a1, SwChange.isValid], a2, a3, rfl, rfl, ?_, by simp⟩
    intro a b c hs
    simp at hs
    obtain ⟨rfl, rfl, rfl⟩ := hs
    rfl
  | reset m =>
    obtain ⟨x', a1, a2, a3⟩ := m.back h hx t
    refine ⟨_, { x with graph := x' }, by simp [-Res.bind_eq_ok, SwEns.undoStep, a1]; rfl,
      by simp [-Res.bind_eq_ok, SwEns.undoStepQuiet, a1, SwChange.isValid], a2, a3, rfl, rfl, ?_, by simp⟩
    intro a b c hs
    simp at hs
    obtain ⟨rfl, rfl, rfl⟩ := hs
    rfl

/-! ### Construction -/

theorem sw_addEdge_raw {g g' : SwGraph T} (h : g.WF) {i j : Nat} (e : g.addEdge i j = .ok (.ok (), g')) :
    i < g.nextId ∧ j < g.nextId ∧ i ≠ j ∧ j ∉ g.nbrs i ∧ g'.WF ∧ g'.nextId = g.nextId ∧
    ∀ x, SwGraph.raw g' x = if x = i then SwGraph.raw g i ++ [⟨j, some j⟩] else if x = j then SwGraph.raw g j ++ [⟨i, none⟩]
      else SwGraph.raw g x := by
  have hv : i < g.nextId ∧ j < g.nextId ∧ i ≠ j := by
    by_contra hc; rw [addEdge_panic hc] at e; simp at e
  obtain ⟨hi, hj, hij⟩ := hv
  have hex : j ∉ g.nbrs i := by
    intro hc; rw [addEdge_exists h hc] at e; simp at e
  obtain ⟨g2, a1, a2, a3, _⟩ := addEdge_new h hi hj hij hex
  rw [a1] at e; simp at e; subst e
  refine ⟨hi, hj, hij, hex, a2, a3, ?_⟩
  obtain ⟨c0, c1, b0, b1, b3⟩ := get2_of_lt h.len hi hj hij
  have i0 : c0.id = i := h.ids _ _ b0
  have i1 : c1.id = j := h.ids _ _ b1
  have hadj : c0.isAdjacent j = false := by
    rw [Bool.eq_false_iff]; intro hc
    rw [sw_isAdjacent, ← sw_raw_of_some b0, ← sw_nbrs] at hc; exact hex hc
  have hp : AdjContainer.push c0 c1 = .ok (.ok (), { c0 with adj := c0.adj ++ [⟨c1.id, some c1.id⟩] },
      { c1 with adj := c1.adj ++ [⟨c0.id, none⟩] }) := by
    show SwContainer.push c0 c1 = _
    simp [SwContainer.push, i1, hadj]
  unfold addEdge at a1
  simp [-Res.bind_eq_ok, b3, hp] at a1
  intro x
  have : SwGraph.raw g2 x = match (g.put2 i j { c0 with adj := c0.adj ++ [⟨c1.id, some c1.id⟩] }
      { c1 with adj := c1.adj ++ [⟨c0.id, none⟩] }).vertices[x]? with | some c => c.adj | none => [] := by
    rw [← a1]; rfl
  rw [this, put2_getElem? g (h.lt_length hi) (h.lt_length hj) hij, sw_raw_of_some b0, sw_raw_of_some b1]
  by_cases h1 : x = i
  · simp [h1, i1]
  · by_cases h2 : x = j
    · simp [h1, h2, i0, Ne.symm hij]
    · simp [h1, h2]; rfl

/-- Every edge is rooted at exactly one end and all root edges lead to their original target. -/
structure RingRoots (g : SwGraph T) : Prop where
  oneEnd : ∀ i, ∀ e ∈ SwGraph.raw g i, ∀ e' ∈ SwGraph.raw g e.dst, e'.dst = i → e.isRoot = !e'.isRoot
  home : ∀ i, ∀ e ∈ SwGraph.raw g i, ∀ o, e.originallyTo = some o → e.dst = o

theorem RingRoots.add {g g' : SwGraph T} (h : g.WF) (q : RingRoots g) {i j : Nat} (e : g.addEdge i j = .ok (.ok (), g')) :
    RingRoots g' := by
  obtain ⟨hi, hj, hij, hex, w, hn, hr⟩ := sw_addEdge_raw h e
  have hex' : i ∉ g.nbrs j := fun hc => hex (h.symm _ _ hc)
  have mem : ∀ x f, f ∈ SwGraph.raw g' x ↔ f ∈ SwGraph.raw g x ∨ (x = i ∧ f = ⟨j, some j⟩) ∨ (x = j ∧ f = ⟨i, none⟩) := by
    intro x f
    rw [hr]
    by_cases h1 : x = i
    · subst h1; simp [hij]
    · by_cases h2 : x = j
      · subst h2; simp [h1]
      · simp [h1, h2]
  constructor
  · intro x f hf f' hf' hd
    rcases (mem _ _).mp hf with a | ⟨rfl, rfl⟩ | ⟨rfl, rfl⟩
    · rcases (mem _ _).mp hf' with b | ⟨b, rfl⟩ | ⟨b, rfl⟩
      · exact q.oneEnd x f a f' b hd
      · simp only at hd; subst hd
        exact absurd (sw_mem_nbrs.mpr ⟨f, a, b⟩) hex'
      · simp only at hd; subst hd
        exact absurd (sw_mem_nbrs.mpr ⟨f, a, b⟩) hex
    · rcases (mem _ _).mp hf' with b | ⟨b, rfl⟩ | ⟨b, rfl⟩
      · exact absurd (sw_mem_nbrs.mpr ⟨f', b, hd⟩) hex'
      · exact absurd b.symm hij
      · rfl
    · rcases (mem _ _).mp hf' with b | ⟨b, rfl⟩ | ⟨b, rfl⟩
      · exact absurd (sw_mem_nbrs.mpr ⟨f', b, hd⟩) hex
      · rfl
      · exact absurd b hij
  · intro x f hf o ho
    rcases (mem _ _).mp hf with a | ⟨rfl, rfl⟩ | ⟨rfl, rfl⟩
    · exact q.home x f a o ho
    · simpa using ho
    · simp at ho

theorem sw_ringInner {n i : Nat} : ∀ (l : List Nat) {g g' : SwGraph T}, g.WF → RingRoots g →
    initRingInner n i l g = .ok (.ok (), g') →
    g'.WF ∧ RingRoots g' ∧ ∀ x, (SwGraph.raw g' x).filterMap (·.originallyTo) = (SwGraph.raw g x).filterMap (·.originallyTo) ++
      (if x = i then l.map (fun a => if i + a ≥ n then i + a - n else i + a) else []) := by
  intro l
  induction l with
  | nil => intro g g' h q e; simp [initRingInner] at e; subst e; exact ⟨h, q, fun x => by simp⟩
  | cons a l ih =>
    intro g g' h q e
    simp only [initRingInner, Res.bind_eq_ok] at e
    obtain ⟨⟨r, g1⟩, e1, e2⟩ := e
    cases r with
    | error er => simp at e2
    | ok u =>
      simp only at e2
      obtain ⟨hi, hj, hij, hex, w, hn, hr⟩ := sw_addEdge_raw h e1
      obtain ⟨w', q', hx⟩ := ih w (q.add h e1) e2
      refine ⟨w', q', fun x => ?_⟩
      rw [hx, hr]
      by_cases h1 : x = i
      · subst h1
        simp only [if_true, List.filterMap_append, List.map_cons]
        simp
      · simp only [h1, if_false, List.append_nil]
        generalize (if i + a ≥ n then i + a - n else i + a) = t
        by_cases h2 : x = t
        · subst h2
          simp
        · simp [h2]

theorem sw_ringOuter {n d : Nat} : ∀ (k s : Nat) {g g' : SwGraph T}, g.WF → RingRoots g →
    initRingOuter n d (List.range' s k) g = .ok (.ok (), g') →
    g'.WF ∧ RingRoots g' ∧ ∀ x, (SwGraph.raw g' x).filterMap (·.originallyTo) = (SwGraph.raw g x).filterMap (·.originallyTo) ++
      (if s ≤ x ∧ x < s + k then (List.range' 1 d).map (fun a => if x + a ≥ n then x + a - n else x + a) else []) := by
  intro k
  induction k with
  | zero =>
    intro s g g' h q e; simp [initRingOuter] at e; subst e
    refine ⟨h, q, fun x => ?_⟩
    rw [if_neg (by omega)]; simp
  | succ k ih =>
    intro s g g' h q e
    simp only [List.range'_succ, initRingOuter, Res.bind_eq_ok] at e
    obtain ⟨⟨r, g1⟩, e1, e2⟩ := e
    cases r with
    | error er => simp at e2
    | ok u =>
      simp only at e2
      obtain ⟨w, q1, hx1⟩ := sw_ringInner _ h q e1
      obtain ⟨w', q', hx⟩ := ih (s + 1) w q1 e2
      refine ⟨w', q', fun x => ?_⟩
      rw [hx, hx1, List.append_assoc]
      congr 1
      by_cases h1 : x = s
      · subst h1
        rw [if_pos rfl, if_neg (by omega), if_pos (by omega)]; simp
      · rw [if_neg h1]
        by_cases h2 : s ≤ x ∧ x < s + (k + 1)
        · rw [if_pos h2, if_pos (by omega)]; simp
        · rw [if_neg h2, if_neg (by omega)]; simp

theorem new_raw [Node T] (n x : Nat) : SwGraph.raw (GenericGraph.new n : SwGraph T) x = [] := by
  unfold SwGraph.raw
  simp only [GenericGraph.new, List.getElem?_map]
  cases (List.range n)[x]? <;> rfl

/-- The ring of a fresh small-world graph: root edges in order, all at home. -/
theorem sw_ring [Node T] {n d : Nat} (hd : 2 * d + 1 ≤ n) :
    ∃ g : SwGraph T, (GenericGraph.new n : SwGraph T).initRing d = .ok (.ok (), g) ∧ g.WF ∧ g.nextId = n ∧
      g.edgeCount = n * d ∧ g.data = (GenericGraph.new n : SwGraph T).data ∧ RingRoots g ∧
      ∀ x < n, (SwGraph.raw g x).filterMap (·.originallyTo) = (List.range' 1 d).map (fun a => (x + a) % n) := by
  obtain ⟨g, h1, h2, h3, h4, h5, _⟩ := initRing_inv (new_wf (T := T) (A := SwContainer T) n) (d := d) hd
  have e := h1
  unfold initRing at e
  have hcl : (GenericGraph.new n : SwGraph T).clearEdges = GenericGraph.new n := by
    simp [GenericGraph.clearEdges, GenericGraph.new]
  rw [hcl] at e
  simp only [vertexCount] at e
  have hn : (GenericGraph.new n : SwGraph T).nextId = n := rfl
  rw [hn, List.range_eq_range'] at e
  obtain ⟨_, q, hx⟩ := sw_ringOuter n 0 (new_wf n) ⟨fun i e he => by simp [new_raw] at he, fun i e he => by simp [new_raw] at he⟩ e
  refine ⟨g, h1, h2, h3, h5, h4, q, fun x hxn => ?_⟩
  rw [hx, new_raw, if_pos (by omega)]
  simp only [List.filterMap_nil, List.nil_append]
  apply List.map_congr_left
  intro a ha
  rw [List.mem_range'_1] at ha
  exact ringIndex hxn (by omega)

theorem SwGraph.initRing2_spec [Node T] {n : Nat} (hn : 5 ≤ n) :
    ∃ g : SwGraph T, SwGraph.initRing2 (GenericGraph.new n : SwGraph T) = .ok g ∧ SwValid g ∧ g.nextId = n ∧
      g.data = (GenericGraph.new n : SwGraph T).data ∧ RingRoots g := by
  obtain ⟨g, h1, h2, h3, h4, h5, h6, h7⟩ := sw_ring (T := T) (n := n) (d := 2) (by omega)
  refine ⟨g, by simp [-Res.bind_eq_ok, SwGraph.initRing2, h1, unwrapOk], ⟨h2, by omega, by rw [h4, h3]; omega, ?_, h6.oneEnd⟩,
    h3, h5, h6⟩
  intro i hi
  rw [h3] at hi ⊢
  rw [h7 i hi]
  exact List.Perm.refl _

end Verif
