import Verif.Spec.Sw
import Verif.Lemmas.EdgeSet
import Verif.Lemmas.Ring

/-!
# Small-world ensemble: rewiring and resetting an edge
-/

set_option linter.unusedSectionVars false
set_option linter.unusedSimpArgs false

namespace Verif
open AdjContainer GenericGraph
open scoped BigOperators

variable {T : Type}

theorem sw_nbrs (g : SwGraph T) (i : Nat) : g.nbrs i = (SwGraph.raw g i).map (·.dst) := by
  unfold GenericGraph.nbrs SwGraph.raw
  cases g.vertices[i]? <;> rfl

theorem sw_raw_of_some {g : SwGraph T} {i : Nat} {c : SwContainer T} (h : g.vertices[i]? = some c) :
    SwGraph.raw g i = c.adj := by simp [-Res.bind_eq_ok, SwGraph.raw, h]

theorem sw_mem_nbrs {g : SwGraph T} {i j : Nat} : j ∈ g.nbrs i ↔ ∃ e ∈ SwGraph.raw g i, e.dst = j := by
  rw [sw_nbrs, List.mem_map]

theorem sw_raw_inj {g : SwGraph T} (h : g.WF) {i : Nat} {e e' : SwEdge} (he : e ∈ SwGraph.raw g i)
    (he' : e' ∈ SwGraph.raw g i) (hd : e.dst = e'.dst) : e = e' := by
  have := h.nodup i
  rw [sw_nbrs] at this
  exact List.inj_on_of_nodup_map this he he' hd

theorem adjPosition_of_mem {c : SwContainer T} (hnd : (c.adj.map (·.dst)).Nodup) {e : SwEdge} (he : e ∈ c.adj) :
    ∃ i, c.adjPosition e.dst = some i ∧ ∃ hi : i < c.adj.length, c.adj[i] = e := by
  have : (c.adj.findIdx? (fun x => x.dst == e.dst)).isSome := by
    rw [List.findIdx?_isSome, List.any_eq_true]
    exact ⟨e, he, by simp⟩
  obtain ⟨i, hi⟩ := Option.isSome_iff_exists.mp this
  refine ⟨i, hi, ?_⟩
  rw [List.findIdx?_eq_some_iff_getElem] at hi
  obtain ⟨h1, h2, _⟩ := hi
  refine ⟨h1, List.inj_on_of_nodup_map hnd (List.getElem_mem h1) he (by simpa using h2)⟩

theorem adjPosition_none {c : SwContainer T} {x : Nat} (h : x ∉ c.adj.map (·.dst)) : c.adjPosition x = none := by
  unfold SwContainer.adjPosition
  rw [List.findIdx?_eq_none_iff]
  intro e he
  simp only [beq_eq_false_iff_ne]
  rintro rfl
  exact h (List.mem_map_of_mem he)

theorem sw_isAdjacent {c : SwContainer T} {x : Nat} : c.isAdjacent x = true ↔ x ∈ c.adj.map (·.dst) := by
  simp [SwContainer.isAdjacent]

theorem set_perm {α : Type} {l : List α} {i : Nat} (hi : i < l.length) (y : α) :
    ∃ L, l.Perm (l[i] :: L) ∧ (l.set i y).Perm (y :: L) :=
  ⟨l.eraseIdx i, (List.getElem_cons_eraseIdx_perm hi).symm, List.set_perm_cons_eraseIdx hi y⟩

theorem SwContainer.rewire_ok {c0 c1 c2 : SwContainer T} {o : Nat} (h0 : (c0.adj.map (·.dst)).Nodup)
    (h1 : (c1.adj.map (·.dst)).Nodup) (m0 : (⟨c1.id, some o⟩ : SwEdge) ∈ c0.adj) (m1 : (⟨c0.id, none⟩ : SwEdge) ∈ c1.adj)
    (h2 : c2.id ∉ c0.adj.map (·.dst)) :
    ∃ l0 l1, c0.rewire c1 c2 = .ok (.rewire c0.id c1.id c2.id, { c0 with adj := l0 }, { c1 with adj := l1 },
        { c2 with adj := c2.adj ++ [⟨c0.id, none⟩] }) ∧
      (∃ L, c0.adj.Perm (⟨c1.id, some o⟩ :: L) ∧ l0.Perm (⟨c2.id, some o⟩ :: L)) ∧ c1.adj.Perm (⟨c0.id, none⟩ :: l1) := by
  obtain ⟨i, hi, hil, hie⟩ := adjPosition_of_mem h0 m0
  obtain ⟨j, hj, hjl, hje⟩ := adjPosition_of_mem h1 m1
  obtain ⟨l1, a1, a2⟩ := Vec.swapRemove_of_lt hjl
  have hadj : c0.isAdjacent c2.id = false := by
    rw [Bool.eq_false_iff]; exact fun hc => h2 (sw_isAdjacent.mp hc)
  obtain ⟨L, p1, p2⟩ := set_perm hil (⟨c2.id, some o⟩ : SwEdge)
  simp only at hi hj
  refine ⟨c0.adj.set i ⟨c2.id, some o⟩, l1, ?_, ⟨L, ?_, p2⟩, ?_⟩
  · unfold SwContainer.rewire
    simp [-Res.bind_eq_ok, hi, hj, hadj, Vec.idx_of_lt hil, hie, a1, SwEdge.isRoot, Vec.put_of_lt hil]
  · rw [hie] at p1; exact p1
  · rw [hje] at a2; exact a2.symm

theorem get3_of_lt {A : Type} [AdjContainer T A] {g : GenericGraph T A} (hl : g.vertices.length = g.nextId) {i j k : Nat}
    (hi : i < g.nextId) (hj : j < g.nextId) (hk : k < g.nextId) (hij : i ≠ j) (hjk : j ≠ k) (hki : k ≠ i) :
    ∃ a b c, g.vertices[i]? = some a ∧ g.vertices[j]? = some b ∧ g.vertices[k]? = some c ∧ g.get3 i j k = .ok (a, b, c) := by
  have h1 : i < g.vertices.length := by omega
  have h2 : j < g.vertices.length := by omega
  have h3 : k < g.vertices.length := by omega
  refine ⟨g.vertices[i], g.vertices[j], g.vertices[k], List.getElem?_eq_getElem h1, List.getElem?_eq_getElem h2,
    List.getElem?_eq_getElem h3, ?_⟩
  have hne : (i != j && j != k && k != i) = true := by simp [hij, hjk, hki]
  simp [-Res.bind_eq_ok, get3, hne, hi, hj, hk, hij, hjk, hki, Vec.idx_of_lt, h1, h2, h3]

/-- The three containers written back. -/
theorem set3_getElem? {α : Type} (l : List α) {i j k : Nat} (hi : i < l.length) (hj : j < l.length) (hk : k < l.length)
    (hij : i ≠ j) (hjk : j ≠ k) (hik : i ≠ k) (a b c : α) (x : Nat) :
    (((l.set i a).set j b).set k c)[x]? =
      if x = i then some a else if x = j then some b else if x = k then some c else l[x]? := by
  simp only [List.getElem?_set, List.length_set]
  by_cases h1 : x = i
  · subst h1
    simp [hi, Ne.symm hij, Ne.symm hik]
  · by_cases h2 : x = j
    · subst h2
      simp [h1, hj, Ne.symm hjk, Ne.symm hij]
    · by_cases h3 : x = k
      · subst h3; simp [h1, h2, hk]
      · simp [h1, h2, h3, Ne.symm h1, Ne.symm h2, Ne.symm h3]

theorem SwMoved.of_set {g : SwGraph T} (h : g.WF) {i j k o : Nat} {c0 c1 c2 : SwContainer T} (hc0 : g.vertices[i]? = some c0)
    (hc1 : g.vertices[j]? = some c1) (hc2 : g.vertices[k]? = some c2) (hij : i ≠ j) (hjk : j ≠ k) (hik : i ≠ k)
    (hf : k ∉ g.nbrs i) {l0 l1 : List SwEdge}
    (p0 : ∃ L, c0.adj.Perm (⟨j, some o⟩ :: L) ∧ l0.Perm (⟨k, some o⟩ :: L)) (p1 : c1.adj.Perm (⟨i, none⟩ :: l1))
    {vs : List (SwContainer T)}
    (hvl : vs.length = g.vertices.length)
    (hvs : ∀ x, vs[x]? = if x = i then some { c0 with adj := l0 } else if x = j then some { c1 with adj := l1 } else
      if x = k then some { c2 with adj := c2.adj ++ [⟨i, none⟩] } else g.vertices[x]?) :
    SwMoved g { g with vertices := vs } i j k o := by
  have hr : ∀ x, SwGraph.raw ({ g with vertices := vs } : SwGraph T) x = if x = i then l0 else if x = j then l1 else
      if x = k then c2.adj ++ [⟨i, none⟩] else SwGraph.raw g x := by
    intro x
    unfold SwGraph.raw
    simp only [hvs]
    by_cases h1 : x = i
    · simp [h1]
    · by_cases h2 : x = j
      · simp [h1, h2, Ne.symm hij]
      · by_cases h3 : x = k
        · simp [h1, h2, h3, Ne.symm hjk, Ne.symm hik]
        · simp [h1, h2, h3]
  have hkl : k < g.nextId := by rw [← h.len]; exact (List.getElem?_eq_some_iff.mp hc2).1
  refine ⟨rfl, rfl, ?_, hvl, ?_, ?_, ?_, ?_, ?_, hij, hjk, hik, hkl, hf⟩
  · unfold GenericGraph.data
    apply List.ext_getElem?
    intro x
    simp only [List.getElem?_map, hvs]
    by_cases h1 : x = i
    · subst h1; simp [hc0]; rfl
    · by_cases h2 : x = j
      · subst h2; simp [h1, hc1]; rfl
      · by_cases h3 : x = k
        · subst h3; simp [h1, h2, hc2]; rfl
        · simp [h1, h2, h3]
  · intro x c hc
    have hids := h.ids x
    simp only [hvs] at hc
    by_cases h1 : x = i
    · subst h1; simp at hc; subst hc; exact h.ids _ c0 hc0
    · by_cases h2 : x = j
      · subst h2; simp [h1] at hc; subst hc; exact h.ids _ c1 hc1
      · by_cases h3 : x = k
        · subst h3; simp [h1, h2] at hc; subst hc; exact h.ids _ c2 hc2
        · simp [h1, h2, h3] at hc; exact h.ids _ _ hc
  · rw [hr, sw_raw_of_some hc0]; simpa using p0
  · rw [hr, sw_raw_of_some hc1]; simpa [Ne.symm hij] using p1
  · rw [hr, sw_raw_of_some hc2]; simp only [Ne.symm hik, Ne.symm hjk, if_true, if_false]
    exact List.perm_append_singleton _ _
  · intro x h1 h2 h3
    rw [hr]; simp [h1, h2, h3]

namespace SwMoved
variable {g g' : SwGraph T} {i j k o : Nat}

theorem old_mem (m : SwMoved g g' i j k o) : (⟨j, some o⟩ : SwEdge) ∈ SwGraph.raw g i := by
  obtain ⟨L, h1, _⟩ := m.pi
  rw [h1.mem_iff]; simp

theorem mem (m : SwMoved g g' i j k o) (h : g.WF) {x : Nat} {e : SwEdge} :
    e ∈ SwGraph.raw g' x ↔ (x = i ∧ e = ⟨k, some o⟩) ∨ (x = k ∧ e = ⟨i, none⟩) ∨
      (e ∈ SwGraph.raw g x ∧ ¬ (x = i ∧ e.dst = j) ∧ ¬ (x = j ∧ e.dst = i)) := by
  obtain ⟨L, h1, h2⟩ := m.pi
  have hij := m.ij
  have hjk := m.jk
  have hik := m.ik
  by_cases hx : x = i
  · subst hx
    have hL : ∀ e, e ∈ L ↔ e ∈ SwGraph.raw g x ∧ e.dst ≠ j := by
      intro e
      have hnd := h.nodup x
      rw [sw_nbrs, (h1.map _).nodup_iff, List.map_cons, List.nodup_cons] at hnd
      rw [h1.mem_iff, List.mem_cons]
      constructor
      · intro he; exact ⟨.inr he, fun hc => hnd.1 (List.mem_map.mpr ⟨e, he, hc⟩)⟩
      · rintro ⟨rfl | he, hd⟩
        · exact absurd rfl hd
        · exact he
    rw [h2.mem_iff, List.mem_cons, hL]
    simp [hij, hik]
  · by_cases hxj : x = j
    · subst hxj
      have hnd := h.nodup x
      rw [sw_nbrs, (m.pj.map _).nodup_iff, List.map_cons, List.nodup_cons] at hnd
      rw [m.pj.mem_iff, List.mem_cons]
      simp only [hx, hjk, false_and, false_or, true_and]
      constructor
      · intro he; exact ⟨.inr he, by simp, fun hc => hnd.1 (List.mem_map.mpr ⟨e, he, hc⟩)⟩
      · rintro ⟨rfl | he, _, hd⟩
        · exact absurd rfl hd
        · exact he
    · by_cases hxk : x = k
      · subst hxk
        rw [m.pk.mem_iff, List.mem_cons]
        simp [hx, hxj]
      · rw [m.fr x hx hxj hxk]
        simp [hx, hxj, hxk]

theorem mem_nbrs (m : SwMoved g g' i j k o) (h : g.WF) {x y : Nat} :
    y ∈ g'.nbrs x ↔ (x = i ∧ y = k) ∨ (x = k ∧ y = i) ∨ (y ∈ g.nbrs x ∧ ¬ (x = i ∧ y = j) ∧ ¬ (x = j ∧ y = i)) := by
  rw [sw_mem_nbrs, sw_mem_nbrs]
  constructor
  · rintro ⟨e, he, rfl⟩
    rcases (m.mem h).mp he with ⟨rfl, rfl⟩ | ⟨rfl, rfl⟩ | ⟨h1, h2, h3⟩
    · exact .inl ⟨rfl, rfl⟩
    · exact .inr (.inl ⟨rfl, rfl⟩)
    · exact .inr (.inr ⟨⟨e, h1, rfl⟩, h2, h3⟩)
  · rintro (⟨rfl, rfl⟩ | ⟨rfl, rfl⟩ | ⟨⟨e, h1, rfl⟩, h2, h3⟩)
    · exact ⟨_, (m.mem h).mpr (.inl ⟨rfl, rfl⟩), rfl⟩
    · exact ⟨_, (m.mem h).mpr (.inr (.inl ⟨rfl, rfl⟩)), rfl⟩
    · exact ⟨e, (m.mem h).mpr (.inr (.inr ⟨h1, h2, h3⟩)), rfl⟩

theorem wf (m : SwMoved g g' i j k o) (h : g.WF) : g'.WF := by
  have hjn : j ∈ g.nbrs i := sw_mem_nbrs.mpr ⟨_, m.old_mem, rfl⟩
  have hi := h.lt_left hjn
  have hj := h.lt _ _ hjn
  have hfree' : i ∉ g.nbrs k := fun hc => m.free (h.symm _ _ hc)
  obtain ⟨L, h1, h2⟩ := m.pi
  have hij := m.ij
  have hjk := m.jk
  have hik := m.ik
  apply WF.of_frame h m.n m.len
  · exact fun x c hc => ⟨m.ids x c hc, trivial⟩
  · intro x y hy
    rcases (m.mem_nbrs h).mp hy with ⟨_, rfl⟩ | ⟨_, rfl⟩ | ⟨h1, _⟩
    · exact m.hk
    · exact hi
    · exact h.lt _ _ h1
  · intro x hx
    rcases (m.mem_nbrs h).mp hx with ⟨rfl, a1⟩ | ⟨rfl, a1⟩ | ⟨a1, _⟩
    · exact hik a1
    · exact hik a1.symm
    · exact h.irrefl _ a1
  · intro x
    by_cases hx : x = i
    · subst hx
      have hnd := h.nodup x
      have hf := m.free
      rw [sw_nbrs, (h1.map _).nodup_iff, List.map_cons, List.nodup_cons] at hnd
      rw [sw_nbrs, (h1.map _).mem_iff, List.map_cons, List.mem_cons] at hf
      rw [sw_nbrs, (h2.map _).nodup_iff, List.map_cons, List.nodup_cons]
      exact ⟨fun hc => hf (.inr hc), hnd.2⟩
    · by_cases hxj : x = j
      · subst hxj
        have hnd := h.nodup x
        rw [sw_nbrs, (m.pj.map _).nodup_iff, List.map_cons, List.nodup_cons] at hnd
        rw [sw_nbrs]; exact hnd.2
      · by_cases hxk : x = k
        · subst hxk
          rw [sw_nbrs, (m.pk.map _).nodup_iff, List.map_cons, List.nodup_cons, ← sw_nbrs]
          exact ⟨hfree', h.nodup _⟩
        · rw [sw_nbrs, m.fr x hx hxj hxk, ← sw_nbrs]; exact h.nodup x
  · intro x y hy
    rcases (m.mem_nbrs h).mp hy with ⟨rfl, rfl⟩ | ⟨rfl, rfl⟩ | ⟨h1, h2, h3⟩
    · exact (m.mem_nbrs h).mpr (.inr (.inl ⟨rfl, rfl⟩))
    · exact (m.mem_nbrs h).mpr (.inl ⟨rfl, rfl⟩)
    · exact (m.mem_nbrs h).mpr (.inr (.inr ⟨h.symm _ _ h1, fun hc => h3 ⟨hc.2, hc.1⟩, fun hc => h2 ⟨hc.2, hc.1⟩⟩))
  · rw [m.count, ← h.count]
    have hlen : ∀ x, (g'.nbrs x).length + (if x = j then 1 else 0) = (g.nbrs x).length + (if x = k then 1 else 0) := by
      intro x
      simp only [sw_nbrs, List.length_map]
      by_cases hx : x = i
      · subst hx
        have a1 := h1.length_eq
        have a2 := h2.length_eq
        simp only [List.length_cons] at a1 a2
        simp [hij, hik, a1, a2]
      · by_cases hxj : x = j
        · subst hxj
          have a1 := m.pj.length_eq
          simp only [List.length_cons] at a1
          simp [hjk, a1]
        · by_cases hxk : x = k
          · subst hxk
            have a1 := m.pk.length_eq
            simp only [List.length_cons] at a1
            simp [hxj, a1]
          · simp [hxj, hxk, m.fr x hx hxj hxk]
    have hs : ∑ x ∈ Finset.range g.nextId, ((g'.nbrs x).length + (if x = j then 1 else 0)) =
        ∑ x ∈ Finset.range g.nextId, ((g.nbrs x).length + (if x = k then 1 else 0)) :=
      Finset.sum_congr rfl (fun x _ => hlen x)
    rw [Finset.sum_add_distrib, Finset.sum_add_distrib, Finset.sum_ite_eq', Finset.sum_ite_eq'] at hs
    simpa [hj, m.hk] using hs

theorem edges (m : SwMoved g g' i j k o) (h : g.WF) : g'.edges = insert s(i, k) (g.edges.erase s(i, j)) := by
  apply (m.wf h).edges_eq_of
  intro x y
  rw [Finset.mem_insert, Finset.mem_erase, h.mem_edges, m.mem_nbrs h, Sym2.eq_iff, ne_eq, Sym2.eq_iff]
  constructor
  · rintro ((⟨rfl, rfl⟩ | ⟨rfl, rfl⟩) | ⟨h1, h2⟩)
    · exact .inl ⟨rfl, rfl⟩
    · exact .inr (.inl ⟨rfl, rfl⟩)
    · exact .inr (.inr ⟨h2, fun hc => h1 (.inl hc), fun hc => h1 (.inr hc)⟩)
  · rintro (⟨rfl, rfl⟩ | ⟨rfl, rfl⟩ | ⟨h1, h2, h3⟩)
    · exact .inl (.inl ⟨rfl, rfl⟩)
    · exact .inl (.inr ⟨rfl, rfl⟩)
    · refine .inr ⟨?_, h1⟩
      rintro (hc | hc)
      · exact h2 hc
      · exact h3 hc

theorem valid (m : SwMoved g g' i j k o) (h : SwValid g) : SwValid g' := by
  obtain ⟨L, h1, h2⟩ := m.pi
  have hij := m.ij
  have hjk := m.jk
  have hik := m.ik
  refine ⟨m.wf h.wf, by rw [m.n]; exact h.size, by rw [m.count, m.n]; exact h.count, ?_, ?_⟩
  · intro x hx
    rw [m.n] at hx ⊢
    refine List.Perm.trans ?_ (h.roots x hx)
    by_cases hxi : x = i
    · subst hxi
      refine (h2.filterMap _).trans (List.Perm.trans ?_ (h1.filterMap _).symm)
      simp
    · by_cases hxj : x = j
      · subst hxj
        refine List.Perm.trans ?_ (m.pj.filterMap _).symm
        simp
      · by_cases hxk : x = k
        · subst hxk
          refine (m.pk.filterMap _).trans ?_
          simp
        · rw [m.fr x hxi hxj hxk]
  · intro x e he e' he' hd
    have mm := fun y f => m.mem h.wf (x := y) (e := f)
    rcases (mm _ _).mp he with ⟨rfl, rfl⟩ | ⟨rfl, rfl⟩ | ⟨a1, a2, a3⟩
    · rcases (mm _ _).mp he' with ⟨b1, _⟩ | ⟨_, rfl⟩ | ⟨b1, b2, b3⟩
      · exact absurd b1.symm hik
      · rfl
      · exfalso
        have : x ∈ g.nbrs k := sw_mem_nbrs.mpr ⟨e', b1, hd⟩
        exact m.free (h.wf.symm _ _ this)
    · rcases (mm _ _).mp he' with ⟨_, rfl⟩ | ⟨b1, _⟩ | ⟨b1, b2, b3⟩
      · rfl
      · exact absurd b1 hik
      · exfalso
        have : x ∈ g.nbrs i := sw_mem_nbrs.mpr ⟨e', b1, hd⟩
        exact m.free this
    · rcases (mm _ _).mp he' with ⟨b1, rfl⟩ | ⟨b1, rfl⟩ | ⟨b1, b2, b3⟩
      · exfalso
        simp only at hd
        subst hd
        have : i ∈ g.nbrs k := sw_mem_nbrs.mpr ⟨e, a1, b1⟩
        exact m.free (h.wf.symm _ _ this)
      · exfalso
        simp only at hd
        subst hd
        exact m.free (sw_mem_nbrs.mpr ⟨e, a1, b1⟩)
      · exact h.oneEnd x e a1 e' b1 hd

end SwMoved

namespace SwValid
variable {g : SwGraph T}

theorem orig_mem (h : SwValid g) {i j o : Nat} (he : (⟨j, some o⟩ : SwEdge) ∈ SwGraph.raw g i) :
    i < g.nextId ∧ (o = (i + 1) % g.nextId ∨ o = (i + 2) % g.nextId) := by
  have hi := h.wf.lt_left (sw_mem_nbrs.mpr ⟨_, he, rfl⟩)
  refine ⟨hi, ?_⟩
  have : o ∈ (SwGraph.raw g i).filterMap (·.originallyTo) := List.mem_filterMap.mpr ⟨_, he, rfl⟩
  rw [(h.roots i hi).mem_iff] at this
  simpa using this

theorem orig_lt (h : SwValid g) {i j o : Nat} (he : (⟨j, some o⟩ : SwEdge) ∈ SwGraph.raw g i) : o < g.nextId ∧ o ≠ i := by
  obtain ⟨hi, ho⟩ := h.orig_mem he
  have hn := h.size
  rcases ho with rfl | rfl
  · rcases add_mod_cases hi (show 1 < g.nextId by omega) with h1 | h1 <;> omega
  · rcases add_mod_cases hi (show 2 < g.nextId by omega) with h1 | h1 <;> omega

/-- The other end of a root edge is loose. -/
theorem loose (h : SwValid g) {i j o : Nat} (he : (⟨j, some o⟩ : SwEdge) ∈ SwGraph.raw g i) :
    (⟨i, none⟩ : SwEdge) ∈ SwGraph.raw g j := by
  have hj : j ∈ g.nbrs i := sw_mem_nbrs.mpr ⟨_, he, rfl⟩
  obtain ⟨e', h1, h2⟩ := sw_mem_nbrs.mp (h.wf.symm _ _ hj)
  have := h.oneEnd i _ he e' h1 h2
  obtain ⟨d, o'⟩ := e'
  simp only at h2
  subst h2
  cases o' with
  | none => exact h1
  | some v => simp [SwEdge.isRoot] at this

end SwValid

theorem sw_container {g : SwGraph T} (h : g.WF) {i : Nat} (hi : i < g.nextId) :
    ∃ c, g.vertices[i]? = some c ∧ c.id = i ∧ SwGraph.raw g i = c.adj ∧ (c.adj.map (·.dst)).Nodup := by
  have hl := h.lt_length hi
  refine ⟨g.vertices[i], List.getElem?_eq_getElem hl, h.ids _ _ (List.getElem?_eq_getElem hl),
    sw_raw_of_some (List.getElem?_eq_getElem hl), ?_⟩
  have := h.nodup i
  rwa [sw_nbrs, sw_raw_of_some (List.getElem?_eq_getElem hl)] at this

theorem rewireEdge_spec {g : SwGraph T} (h : SwValid g) {i j k o : Nat} (he : (⟨j, some o⟩ : SwEdge) ∈ SwGraph.raw g i)
    (hk : k < g.nextId) (hki : k ≠ i) :
    (j = k ∧ SwGraph.rewireEdge g i j k = .ok (.nothing, g)) ∨
    (j ≠ k ∧ k ∈ g.nbrs i ∧ SwGraph.rewireEdge g i j k = .ok (.blockedByExistingEdge, g)) ∨
    (j ≠ k ∧ k ∉ g.nbrs i ∧ ∃ g', SwGraph.rewireEdge g i j k = .ok (.rewire i j k, g') ∧ SwMoved g g' i j k o) := by
  have hjn : j ∈ g.nbrs i := sw_mem_nbrs.mpr ⟨_, he, rfl⟩
  have hi := h.wf.lt_left hjn
  have hj := h.wf.lt _ _ hjn
  have hij := h.wf.ne hjn
  by_cases hjk : j = k
  · exact .inl ⟨hjk, by simp [-Res.bind_eq_ok, SwGraph.rewireEdge, hjk]⟩
  obtain ⟨c0, c1, c2, a0, a1, a2, a3⟩ := get3_of_lt h.wf.len hi hj hk hij hjk hki
  have i0 : c0.id = i := h.wf.ids _ _ a0
  have i1 : c1.id = j := h.wf.ids _ _ a1
  have i2 : c2.id = k := h.wf.ids _ _ a2
  have n0 := h.wf.nodup i
  have n1 := h.wf.nodup j
  rw [sw_nbrs, sw_raw_of_some a0] at n0
  rw [sw_nbrs, sw_raw_of_some a1] at n1
  have e0 := he
  have e1 := h.loose he
  rw [sw_raw_of_some a0] at e0
  rw [sw_raw_of_some a1] at e1
  by_cases hb : k ∈ g.nbrs i
  · refine .inr (.inl ⟨hjk, hb, ?_⟩)
    have : c0.isAdjacent c2.id = true := by
      rw [sw_isAdjacent, i2, ← sw_raw_of_some a0, ← sw_nbrs]; exact hb
    obtain ⟨p, hp, _⟩ := adjPosition_of_mem n0 e0
    simp only at hp
    have hset : ((g.vertices.set i c0).set j c1).set k c2 = g.vertices := by
      obtain ⟨x1, rfl⟩ := List.getElem?_eq_some_iff.mp a0
      obtain ⟨x2, rfl⟩ := List.getElem?_eq_some_iff.mp a1
      obtain ⟨x3, rfl⟩ := List.getElem?_eq_some_iff.mp a2
      simp
    simp [-Res.bind_eq_ok, SwGraph.rewireEdge, hjk, a3, SwContainer.rewire, i1, hp, this, hset]
  · refine .inr (.inr ⟨hjk, hb, ?_⟩)
    obtain ⟨l0, l1, r1, r2, r3⟩ := SwContainer.rewire_ok (c2 := c2) n0 n1 (by rw [i1]; exact e0) (by rw [i0]; exact e1)
      (by rw [i2, ← sw_raw_of_some a0, ← sw_nbrs]; exact hb)
    rw [i0, i1, i2] at r1
    rw [i1, i2] at r2
    rw [i0] at r3
    refine ⟨_, ?_, SwMoved.of_set h.wf a0 a1 a2 hij hjk (Ne.symm hki) hb r2 r3 (by simp)
      (set3_getElem? g.vertices (h.wf.lt_length hi) (h.wf.lt_length hj) (h.wf.lt_length hk) hij hjk (Ne.symm hki) _ _ _)⟩
    simp [-Res.bind_eq_ok, SwGraph.rewireEdge, hjk, a3, r1, i0, i1, i2]

theorem resetEdge_spec {g : SwGraph T} (h : SwValid g) {i j o : Nat} (he : (⟨j, some o⟩ : SwEdge) ∈ SwGraph.raw g i) :
    (j = o ∧ SwGraph.resetEdge g i j = .ok (.nothing, g)) ∨
    (j ≠ o ∧ o ∈ g.nbrs i ∧ SwGraph.resetEdge g i j = .ok (.blockedByExistingEdge, g)) ∨
    (j ≠ o ∧ o ∉ g.nbrs i ∧ ∃ g', SwGraph.resetEdge g i j = .ok (.reset i j o, g') ∧ SwMoved g g' i j o o) := by
  have hjn : j ∈ g.nbrs i := sw_mem_nbrs.mpr ⟨_, he, rfl⟩
  have hi := h.wf.lt_left hjn
  have hj := h.wf.lt _ _ hjn
  have hij := h.wf.ne hjn
  obtain ⟨ho, hoi⟩ := h.orig_lt he
  obtain ⟨c0, c1, a0, a1, a3⟩ := get2_of_lt h.wf.len hi hj hij
  obtain ⟨c2, a2, i2, _, _⟩ := sw_container h.wf ho
  have i0 : c0.id = i := h.wf.ids _ _ a0
  have i1 : c1.id = j := h.wf.ids _ _ a1
  have n0 := h.wf.nodup i
  have n1 := h.wf.nodup j
  rw [sw_nbrs, sw_raw_of_some a0] at n0
  rw [sw_nbrs, sw_raw_of_some a1] at n1
  have e0 := he
  have e1 := h.loose he
  rw [sw_raw_of_some a0] at e0
  rw [sw_raw_of_some a1] at e1
  obtain ⟨p, hp, hpl, hpe⟩ := adjPosition_of_mem n0 e0
  obtain ⟨q, hq, hql, hqe⟩ := adjPosition_of_mem n1 e1
  simp only at hp hq
  by_cases hjo : j = o
  · subst hjo
    refine .inl ⟨rfl, ?_⟩
    simp [-Res.bind_eq_ok, SwGraph.resetEdge, a3, SwContainer.reset, i0, i1, hp, hq, Vec.idx_of_lt hpl, Vec.idx_of_lt hql, hpe, hqe,
      SwEdge.isRoot, SwEdge.isAtRoot, put2_self a0 a1]
  by_cases hb : o ∈ g.nbrs i
  · refine .inr (.inl ⟨hjo, hb, ?_⟩)
    have : c0.isAdjacent o = true := by
      rw [sw_isAdjacent, ← sw_raw_of_some a0, ← sw_nbrs]; exact hb
    simp [-Res.bind_eq_ok, SwGraph.resetEdge, a3, SwContainer.reset, i0, i1, hp, hq, Vec.idx_of_lt hpl, Vec.idx_of_lt hql, hpe, hqe,
      SwEdge.isRoot, SwEdge.isAtRoot, Ne.symm hjo, this, put2_self a0 a1]
  · refine .inr (.inr ⟨hjo, hb, ?_⟩)
    have hadj : c0.isAdjacent o = false := by
      rw [Bool.eq_false_iff]; intro hc
      rw [sw_isAdjacent, ← sw_raw_of_some a0, ← sw_nbrs] at hc; exact hb hc
    have hadj2 : c2.isAdjacent i = false := by
      rw [Bool.eq_false_iff]; intro hc
      rw [sw_isAdjacent, ← sw_raw_of_some a2, ← sw_nbrs] at hc; exact hb (h.wf.symm _ _ hc)
    obtain ⟨l1, b1, b2⟩ := Vec.swapRemove_of_lt hql
    obtain ⟨L, p1, p2⟩ := set_perm hpl (⟨o, some o⟩ : SwEdge)
    rw [hpe] at p1
    rw [hqe] at b1 b2
    have hil := h.wf.lt_length hi
    have hjl := h.wf.lt_length hj
    have hg2 : ∀ a b, (g.put2 i j a b).vertices[o]? = some c2 := by
      intro a b
      rw [put2_getElem? g hil hjl hij]; simp [hoi, Ne.symm hjo, a2]
    refine ⟨_, ?_, SwMoved.of_set h.wf a0 a1 a2 hij hjo (Ne.symm hoi) hb ⟨L, p1, p2⟩ b2.symm (by simp)
      (set3_getElem? g.vertices hil hjl (h.wf.lt_length ho) hij hjo (Ne.symm hoi) _ _ _)⟩
    simp [-Res.bind_eq_ok, SwGraph.resetEdge, a3, SwContainer.reset, i0, i1, hp, hq, Vec.idx_of_lt hpl, Vec.idx_of_lt hql, hpe, hqe,
      SwEdge.isRoot, SwEdge.isAtRoot, Ne.symm hjo, hadj, Vec.put_of_lt hpl, b1, Vec.idx_of_some (hg2 _ _),
      SwContainer.pushSingle, hadj2]
    exact ⟨rfl, rfl, rfl⟩

end Verif
