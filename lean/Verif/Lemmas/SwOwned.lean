import Verif.Lemmas.Sw2
import Verif.Lemmas.Release

/-!
# Small-world networks with any number of edges per vertex

A debug build never gets further than the ring for a distance other than two; a release build does.
-/

set_option linter.unusedSectionVars false
set_option linter.unusedSimpArgs false

namespace Verif
open AdjContainer GenericGraph

variable {T R : Type} [Rng R]

/-- A small-world network on a ring with distance `d`: every vertex owns `d` root edges, originally leading to the next `d` vertices of
the ring; every edge is rooted at exactly one of its ends. -/
structure SwOwned {T : Type} (d : Nat) (g : SwGraph T) : Prop where
  wf : g.WF
  size : 2 * d + 1 ≤ g.nextId
  pos : 1 ≤ d
  count : g.edgeCount = g.nextId * d
  roots : ∀ i < g.nextId,
    ((SwGraph.raw g i).filterMap (·.originallyTo)).Perm ((List.range' 1 d).map fun a => (i + a) % g.nextId)
  oneEnd : ∀ i, ∀ e ∈ SwGraph.raw g i, ∀ e' ∈ SwGraph.raw g e.dst, e'.dst = i → e.isRoot = !e'.isRoot

variable {d : Nat}

theorem SwMoved.owned {g g' : SwGraph T} {i j k o : Nat} (m : SwMoved g g' i j k o) (h : SwOwned d g) : SwOwned d g' := by
  obtain ⟨L, h1, h2⟩ := m.pi
  have hij := m.ij
  have hjk := m.jk
  have hik := m.ik
  refine ⟨m.wf h.wf, by rw [m.n]; exact h.size, h.pos, by rw [m.count, m.n]; exact h.count, ?_, ?_⟩
  · intro x hx
    rw [m.n] at hx ⊢
    refine List.Perm.trans ?_ (h.roots x hx)
    by_cases hxi : x = i
    · subst hxi
      refine (h2.filterMap _).trans (List.Perm.trans ?_ (h1.filterMap _).symm)
      simp
    · by_cases hxj : x = j
      · subst hxj
        refine List.Perm.trans ?_ (m.pj.filterMap _).symm
        simp
      · by_cases hxk : x = k
        · subst hxk
          refine (m.pk.filterMap _).trans ?_
          simp
        · rw [m.fr x hxi hxj hxk]
  · intro x e he e' he' hd
    have mm := fun y f => m.mem h.wf (x := y) (e := f)
    rcases (mm _ _).mp he with ⟨rfl, rfl⟩ | ⟨rfl, rfl⟩ | ⟨a1, a2, a3⟩
    · rcases (mm _ _).mp he' with ⟨b1, _⟩ | ⟨_, rfl⟩ | ⟨b1, b2, b3⟩
      · exact absurd b1.symm hik
      · rfl
      · exfalso
        have : x ∈ g.nbrs k := sw_mem_nbrs.mpr ⟨e', b1, hd⟩
        exact m.free (h.wf.symm _ _ this)
    · rcases (mm _ _).mp he' with ⟨_, rfl⟩ | ⟨b1, _⟩ | ⟨b1, b2, b3⟩
      · rfl
      · exact absurd b1 hik
      · exfalso
        have : x ∈ g.nbrs i := sw_mem_nbrs.mpr ⟨e', b1, hd⟩
        exact m.free this
    · rcases (mm _ _).mp he' with ⟨b1, rfl⟩ | ⟨b1, rfl⟩ | ⟨b1, b2, b3⟩
      · exfalso
        simp only at hd
        subst hd
        have : i ∈ g.nbrs k := sw_mem_nbrs.mpr ⟨e, a1, b1⟩
        exact m.free (h.wf.symm _ _ this)
      · exfalso
        simp only at hd
        subst hd
        exact m.free (sw_mem_nbrs.mpr ⟨e, a1, b1⟩)
      · exact h.oneEnd x e a1 e' b1 hd

namespace SwOwned
variable {g : SwGraph T}

theorem orig_lt (h : SwOwned d g) {i j o : Nat} (he : (⟨j, some o⟩ : SwEdge) ∈ SwGraph.raw g i) : o < g.nextId ∧ o ≠ i := by
  have hi := h.wf.lt_left (sw_mem_nbrs.mpr ⟨_, he, rfl⟩)
  have : o ∈ (SwGraph.raw g i).filterMap (·.originallyTo) := List.mem_filterMap.mpr ⟨_, he, rfl⟩
  rw [(h.roots i hi).mem_iff, List.mem_map] at this
  obtain ⟨a, ha, rfl⟩ := this
  rw [List.mem_range'_1] at ha
  have hn := h.size
  rcases add_mod_cases hi (show a < g.nextId by omega) with h1 | h1 <;> omega

/-- The other end of a root edge is loose. -/
theorem loose (h : SwOwned d g) {i j o : Nat} (he : (⟨j, some o⟩ : SwEdge) ∈ SwGraph.raw g i) :
    (⟨i, none⟩ : SwEdge) ∈ SwGraph.raw g j := by
  have hj : j ∈ g.nbrs i := sw_mem_nbrs.mpr ⟨_, he, rfl⟩
  obtain ⟨e', h1, h2⟩ := sw_mem_nbrs.mp (h.wf.symm _ _ hj)
  have := h.oneEnd i _ he e' h1 h2
  obtain ⟨d, o'⟩ := e'
  simp only at h2
  subst h2
  cases o' with
  | none => exact h1
  | some v => simp [SwEdge.isRoot] at this

end SwOwned

theorem rewireEdge_owned {g : SwGraph T} (h : SwOwned d g) {i j k o : Nat} (he : (⟨j, some o⟩ : SwEdge) ∈ SwGraph.raw g i)
    (hk : k < g.nextId) (hki : k ≠ i) :
    (j = k ∧ SwGraph.rewireEdge g i j k = .ok (.nothing, g)) ∨
    (j ≠ k ∧ k ∈ g.nbrs i ∧ SwGraph.rewireEdge g i j k = .ok (.blockedByExistingEdge, g)) ∨
    (j ≠ k ∧ k ∉ g.nbrs i ∧ ∃ g', SwGraph.rewireEdge g i j k = .ok (.rewire i j k, g') ∧ SwMoved g g' i j k o) := by
  have hjn : j ∈ g.nbrs i := sw_mem_nbrs.mpr ⟨_, he, rfl⟩
  have hi := h.wf.lt_left hjn
  have hj := h.wf.lt _ _ hjn
  have hij := h.wf.ne hjn
  by_cases hjk : j = k
  · exact .inl ⟨hjk, by simp [-Res.bind_eq_ok, SwGraph.rewireEdge, hjk]⟩
  obtain ⟨c0, c1, c2, a0, a1, a2, a3⟩ := get3_of_lt h.wf.len hi hj hk hij hjk hki
  have i0 : c0.id = i := h.wf.ids _ _ a0
  have i1 : c1.id = j := h.wf.ids _ _ a1
  have i2 : c2.id = k := h.wf.ids _ _ a2
  have n0 := h.wf.nodup i
  have n1 := h.wf.nodup j
  rw [sw_nbrs, sw_raw_of_some a0] at n0
  rw [sw_nbrs, sw_raw_of_some a1] at n1
  have e0 := he
  have e1 := h.loose he
  rw [sw_raw_of_some a0] at e0
  rw [sw_raw_of_some a1] at e1
  by_cases hb : k ∈ g.nbrs i
  · refine .inr (.inl ⟨hjk, hb, ?_⟩)
    have : c0.isAdjacent c2.id = true := by
      rw [sw_isAdjacent, i2, ← sw_raw_of_some a0, ← sw_nbrs]; exact hb
    obtain ⟨p, hp, _⟩ := adjPosition_of_mem n0 e0
    simp only at hp
    have hset : ((g.vertices.set i c0).set j c1).set k c2 = g.vertices := by
      obtain ⟨x1, rfl⟩ := List.getElem?_eq_some_iff.mp a0
      obtain ⟨x2, rfl⟩ := List.getElem?_eq_some_iff.mp a1
      obtain ⟨x3, rfl⟩ := List.getElem?_eq_some_iff.mp a2
      simp
    simp [-Res.bind_eq_ok, SwGraph.rewireEdge, hjk, a3, SwContainer.rewire, i1, hp, this, hset]
  · refine .inr (.inr ⟨hjk, hb, ?_⟩)
    obtain ⟨l0, l1, r1, r2, r3⟩ := SwContainer.rewire_ok (c2 := c2) n0 n1 (by rw [i1]; exact e0) (by rw [i0]; exact e1)
      (by rw [i2, ← sw_raw_of_some a0, ← sw_nbrs]; exact hb)
    rw [i0, i1, i2] at r1
    rw [i1, i2] at r2
    rw [i0] at r3
    refine ⟨_, ?_, SwMoved.of_set h.wf a0 a1 a2 hij hjk (Ne.symm hki) hb r2 r3 (by simp)
      (set3_getElem? g.vertices (h.wf.lt_length hi) (h.wf.lt_length hj) (h.wf.lt_length hk) hij hjk (Ne.symm hki) _ _ _)⟩
    simp [-Res.bind_eq_ok, SwGraph.rewireEdge, hjk, a3, r1, i0, i1, i2]

theorem resetEdge_owned {g : SwGraph T} (h : SwOwned d g) {i j o : Nat} (he : (⟨j, some o⟩ : SwEdge) ∈ SwGraph.raw g i) :
    (j = o ∧ SwGraph.resetEdge g i j = .ok (.nothing, g)) ∨
    (j ≠ o ∧ o ∈ g.nbrs i ∧ SwGraph.resetEdge g i j = .ok (.blockedByExistingEdge, g)) ∨
    (j ≠ o ∧ o ∉ g.nbrs i ∧ ∃ g', SwGraph.resetEdge g i j = .ok (.reset i j o, g') ∧ SwMoved g g' i j o o) := by
  have hjn : j ∈ g.nbrs i := sw_mem_nbrs.mpr ⟨_, he, rfl⟩
  have hi := h.wf.lt_left hjn
  have hj := h.wf.lt _ _ hjn
  have hij := h.wf.ne hjn
  obtain ⟨ho, hoi⟩ := h.orig_lt he
  obtain ⟨c0, c1, a0, a1, a3⟩ := get2_of_lt h.wf.len hi hj hij
  obtain ⟨c2, a2, i2, _, _⟩ := sw_container h.wf ho
  have i0 : c0.id = i := h.wf.ids _ _ a0
  have i1 : c1.id = j := h.wf.ids _ _ a1
  have n0 := h.wf.nodup i
  have n1 := h.wf.nodup j
  rw [sw_nbrs, sw_raw_of_some a0] at n0
  rw [sw_nbrs, sw_raw_of_some a1] at n1
  have e0 := he
  have e1 := h.loose he
  rw [sw_raw_of_some a0] at e0
  rw [sw_raw_of_some a1] at e1
  obtain ⟨p, hp, hpl, hpe⟩ := adjPosition_of_mem n0 e0
  obtain ⟨q, hq, hql, hqe⟩ := adjPosition_of_mem n1 e1
  simp only at hp hq
  by_cases hjo : j = o
  · subst hjo
    refine .inl ⟨rfl, ?_⟩
    simp [-Res.bind_eq_ok, SwGraph.resetEdge, a3, SwContainer.reset, i0, i1, hp, hq, Vec.idx_of_lt hpl, Vec.idx_of_lt hql, hpe, hqe,
      SwEdge.isRoot, SwEdge.isAtRoot, put2_self a0 a1]
  by_cases hb : o ∈ g.nbrs i
  · refine .inr (.inl ⟨hjo, hb, ?_⟩)
    have : c0.isAdjacent o = true := by
      rw [sw_isAdjacent, ← sw_raw_of_some a0, ← sw_nbrs]; exact hb
    simp [-Res.bind_eq_ok, SwGraph.resetEdge, a3, SwContainer.reset, i0, i1, hp, hq, Vec.idx_of_lt hpl, Vec.idx_of_lt hql, hpe, hqe,
      SwEdge.isRoot, SwEdge.isAtRoot, Ne.symm hjo, this, put2_self a0 a1]
  · refine .inr (.inr ⟨hjo, hb, ?_⟩)
    have hadj : c0.isAdjacent o = false := by
      rw [Bool.eq_false_iff]; intro hc
      rw [sw_isAdjacent, ← sw_raw_of_some a0, ← sw_nbrs] at hc; exact hb hc
    have hadj2 : c2.isAdjacent i = false := by
      rw [Bool.eq_false_iff]; intro hc
      rw [sw_isAdjacent, ← sw_raw_of_some a2, ← sw_nbrs] at hc; exact hb (h.wf.symm _ _ hc)
    obtain ⟨l1, b1, b2⟩ := Vec.swapRemove_of_lt hql
    obtain ⟨L, p1, p2⟩ := set_perm hpl (⟨o, some o⟩ : SwEdge)
    rw [hpe] at p1
    rw [hqe] at b1 b2
    have hil := h.wf.lt_length hi
    have hjl := h.wf.lt_length hj
    have hg2 : ∀ a b, (g.put2 i j a b).vertices[o]? = some c2 := by
      intro a b
      rw [put2_getElem? g hil hjl hij]; simp [hoi, Ne.symm hjo, a2]
    refine ⟨_, ?_, SwMoved.of_set h.wf a0 a1 a2 hij hjo (Ne.symm hoi) hb ⟨L, p1, p2⟩ b2.symm (by simp)
      (set3_getElem? g.vertices hil hjl (h.wf.lt_length ho) hij hjo (Ne.symm hoi) _ _ _)⟩
    simp [-Res.bind_eq_ok, SwGraph.resetEdge, a3, SwContainer.reset, i0, i1, hp, hq, Vec.idx_of_lt hpl, Vec.idx_of_lt hql, hpe, hqe,
      SwEdge.isRoot, SwEdge.isAtRoot, Ne.symm hjo, hadj, Vec.put_of_lt hpl, b1, Vec.idx_of_some (hg2 _ _),
      SwContainer.pushSingle, hadj2]
    exact ⟨rfl, rfl, rfl⟩

/-- Outcome of `randomize_edge` on a root edge. -/
theorem SwEns.randomizeEdge_owned {e : SwEns T R} (h : SwOwned d e.graph) {i j o : Nat}
    (he : (⟨j, some o⟩ : SwEdge) ∈ SwGraph.raw e.graph i) :
    ∃ s e', e.randomizeEdge i j = .ok (s, e') ∧ SwStep e.graph s e'.graph ∧ e'.rProb = e.rProb ∧
      (∀ a b c, s = .rewire a b c ∨ s = .reset a b c → a = i ∧ b = j) ∧
      ((coin e.rng e.rProb).1 = false → ∀ a b c, s ≠ .rewire a b c) := by
  have hn := h.size
  have hd := h.pos
  unfold SwEns.randomizeEdge
  rcases hc : coin e.rng e.rProb with ⟨b, r1⟩
  cases b with
  | true =>
    obtain ⟨k, r2, h1, h2, h3⟩ := drawRemaining_spec r1 (index := i) (show 0 < e.graph.vertexCount - 1 by
      show 0 < e.graph.nextId - 1; omega)
    have hsub : Res.sub e.graph.vertexCount 1 = .ok (e.graph.vertexCount - 1) :=
      Res.sub_of_le (by show 1 ≤ e.graph.nextId; omega)
    have hk : k < e.graph.nextId := by
      have : k ≤ e.graph.nextId - 1 := h2
      omega
    rcases rewireEdge_owned h he hk h3 with ⟨_, h4⟩ | ⟨_, _, h4⟩ | ⟨_, _, g', h4, h5⟩
    · exact ⟨_, { e with rng := r2 }, by simp [-Res.bind_eq_ok, hsub, h1, h4], .nothing, rfl, by simp, by simp⟩
    · exact ⟨_, { e with rng := r2 }, by simp [-Res.bind_eq_ok, hsub, h1, h4], .blocked, rfl, by simp, by simp⟩
    · exact ⟨_, { e with rng := r2, graph := g' }, by simp [-Res.bind_eq_ok, hsub, h1, h4], .rewire h5, rfl,
        by simp, by simp⟩
  | false =>
    rcases resetEdge_owned h he with ⟨_, h4⟩ | ⟨_, _, h4⟩ | ⟨_, _, g', h4, h5⟩
    · exact ⟨_, { e with rng := r1 }, by simp [-Res.bind_eq_ok, h4], .nothing, rfl, by simp, by simp⟩
    · exact ⟨_, { e with rng := r1 }, by simp [-Res.bind_eq_ok, h4], .blocked, rfl, by simp, by simp⟩
    · exact ⟨_, { e with rng := r1, graph := g' }, by simp [-Res.bind_eq_ok, h4], .reset h5, rfl,
        by simp, by simp⟩

theorem SwStep.owned {g g' : SwGraph T} {s : SwChange} (st : SwStep g s g') (h : SwOwned d g) : SwOwned d g' := by
  cases st with
  | nothing => exact h
  | blocked => exact h
  | rewire m => exact m.owned h
  | reset m => exact m.owned h

/-- The other entries of the vertex stay. -/
theorem SwStep.keep_owned {g g' : SwGraph T} {s : SwChange} (st : SwStep g s g') (h : SwOwned d g) {i j : Nat}
    (hs : ∀ a b c, s = .rewire a b c ∨ s = .reset a b c → a = i ∧ b = j) {f : SwEdge} (hf : f ∈ SwGraph.raw g i)
    (hd : f.dst ≠ j) : f ∈ SwGraph.raw g' i := by
  cases st with
  | nothing => exact hf
  | blocked => exact hf
  | rewire m =>
    obtain ⟨rfl, rfl⟩ := hs _ _ _ (.inl rfl)
    exact (m.mem h.wf).mpr (.inr (.inr ⟨hf, fun hc => hd hc.2, fun hc => m.ij hc.1⟩))
  | reset m =>
    obtain ⟨rfl, rfl⟩ := hs _ _ _ (.inr rfl)
    exact (m.mem h.wf).mpr (.inr (.inr ⟨hf, fun hc => hd hc.2, fun hc => m.ij hc.1⟩))


/-- A ring is such a network. -/
theorem SwOwned.ring [Node T] {n : Nat} (hd : 1 ≤ d) (hn : 2 * d + 1 ≤ n) :
    ∃ g : SwGraph T, (GenericGraph.new n : SwGraph T).initRing d = .ok (.ok (), g) ∧ SwOwned d g ∧ g.nextId = n ∧
      g.data = (GenericGraph.new n : SwGraph T).data ∧ RingRoots g := by
  obtain ⟨g, h1, h2, h3, h4, h5, h6, h7⟩ := sw_ring (T := T) hn
  refine ⟨g, h1, ⟨h2, by omega, hd, by rw [h4, h3], fun i hi => ?_, h6.oneEnd⟩, h3, h5, h6⟩
  rw [h3] at hi ⊢
  rw [h7 i hi]

/-- The first two root edges of a vertex, in the order of the adjacency list. -/
theorem SwOwned.firstTwo {g : SwGraph T} (h : SwOwned d g) (hd : 2 ≤ d) {i : Nat} (hi : i < g.nextId) :
    ∃ d1 o1 d2 o2 l, (SwGraph.raw g i).filter SwEdge.isRoot = ⟨d1, some o1⟩ :: ⟨d2, some o2⟩ :: l ∧ d1 ≠ d2 ∧ l.length + 2 = d := by
  have hlen : ((SwGraph.raw g i).filter SwEdge.isRoot).length = d := by
    rw [filter_root_length, (h.roots i hi).length_eq]; simp
  have hnd : (((SwGraph.raw g i).filter SwEdge.isRoot).map (·.dst)).Nodup := by
    have := h.wf.nodup i
    rw [sw_nbrs] at this
    exact this.sublist (List.filter_sublist.map _)
  have hr : ∀ e ∈ (SwGraph.raw g i).filter SwEdge.isRoot, e.isRoot = true := fun e he => (List.mem_filter.mp he).2
  match hm : (SwGraph.raw g i).filter SwEdge.isRoot with
  | [] => rw [hm] at hlen; simp at hlen; omega
  | [e] => rw [hm] at hlen; simp at hlen; omega
  | ⟨d1, none⟩ :: e2 :: l => rw [hm] at hr; exact absurd (hr ⟨d1, none⟩ (by simp)) (by simp [SwEdge.isRoot])
  | ⟨d1, some o1⟩ :: ⟨d2, none⟩ :: l => rw [hm] at hr; exact absurd (hr ⟨d2, none⟩ (by simp)) (by simp [SwEdge.isRoot])
  | ⟨d1, some o1⟩ :: ⟨d2, some o2⟩ :: l =>
    rw [hm] at hnd hlen
    refine ⟨d1, o1, d2, o2, l, rfl, ?_, by simpa using hlen⟩
    simp at hnd
    tauto

/-- The body of the loop of `randomize` in a release build. -/
theorem SwEns.randomizeVertexR_owned {e : SwEns T R} (h : SwOwned d e.graph) (hd : 2 ≤ d) {i : Nat} (hi : i < e.graph.nextId) :
    ∃ e', e.randomizeVertexR i = .ok e' ∧ SwOwned d e'.graph ∧ e'.graph.nextId = e.graph.nextId ∧ e'.graph.data = e.graph.data ∧
      e'.rProb = e.rProb := by
  obtain ⟨d1, o1, d2, o2, l, h1, h3, _⟩ := h.firstTwo hd hi
  obtain ⟨c, c1, c2, c3, _⟩ := sw_container h.wf hi
  have m1 : (⟨d1, some o1⟩ : SwEdge) ∈ SwGraph.raw e.graph i := by
    have : (⟨d1, some o1⟩ : SwEdge) ∈ (SwGraph.raw e.graph i).filter SwEdge.isRoot := by rw [h1]; simp
    exact (List.mem_filter.mp this).1
  have m2 : (⟨d2, some o2⟩ : SwEdge) ∈ SwGraph.raw e.graph i := by
    have : (⟨d2, some o2⟩ : SwEdge) ∈ (SwGraph.raw e.graph i).filter SwEdge.isRoot := by rw [h1]; simp
    exact (List.mem_filter.mp this).1
  obtain ⟨s1, e1, a1, a2, a3, a4, a5⟩ := SwEns.randomizeEdge_owned h m1
  have m2' := a2.keep_owned h a4 m2 (Ne.symm h3)
  have v1 := a2.owned h
  obtain ⟨s2, e2, b1, b2, b3, b4, b5⟩ := SwEns.randomizeEdge_owned v1 m2'
  refine ⟨e2, ?_, b2.owned v1, b2.n.1.trans a2.n.1, b2.n.2.trans a2.n.2, b3.trans a3⟩
  unfold SwEns.randomizeVertexR
  rw [c3] at h1
  have r1 := (sw_randomizeEdge_same e i d1).eq_ok a1
  have r2 := (sw_randomizeEdge_same e1 i d2).eq_ok b1
  simp [Vec.idx_of_some c1, SwContainer.iterRawEdges, h1, r1, r2, Res.unwrap]

/-- `randomize` in a release build. -/
theorem SwEns.randomizeR_owned {e : SwEns T R} (h : SwOwned d e.graph) (hd : 2 ≤ d) :
    ∃ e', e.randomizeR = .ok e' ∧ SwOwned d e'.graph ∧ e'.graph.nextId = e.graph.nextId ∧ e'.graph.data = e.graph.data ∧
      e'.rProb = e.rProb := by
  unfold SwEns.randomizeR
  have key : ∀ (l : List Nat) (x : SwEns T R), (∀ i ∈ l, i < e.graph.nextId) → SwOwned d x.graph → x.graph.nextId = e.graph.nextId →
      x.graph.data = e.graph.data → x.rProb = e.rProb → ∃ e', l.foldlM SwEns.randomizeVertexR x = .ok e' ∧ SwOwned d e'.graph ∧
      e'.graph.nextId = e.graph.nextId ∧ e'.graph.data = e.graph.data ∧ e'.rProb = e.rProb := by
    intro l
    induction l with
    | nil => intro x _ h1 h2 h3 h4; exact ⟨x, rfl, h1, h2, h3, h4⟩
    | cons i l ih =>
      intro x hl h1 h2 h3 h4
      obtain ⟨y, a1, a2, a3, a4, a5⟩ := SwEns.randomizeVertexR_owned h1 hd (i := i) (by rw [h2]; exact hl i (by simp))
      rw [List.foldlM_cons, a1, Rel.ok_bind]
      exact ih y (fun j hj => hl j (by simp [hj])) a2 (a3.trans h2) (a4.trans h3) (a5.trans h4)
  exact key _ e (fun i hi => List.mem_range.mp hi) h rfl rfl rfl

end Verif
