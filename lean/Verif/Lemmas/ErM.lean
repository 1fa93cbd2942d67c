import Verif.Model.Er
import Verif.Spec.Pairs
import Verif.Lemmas.Chain
import Verif.Lemmas.EdgeSet
import Verif.Lemmas.Check

/-!
# Lemmas about `ErEnsembleM`
-/

set_option linter.unusedSectionVars false
set_option linter.unusedSimpArgs false

namespace Verif
open AdjContainer GenericGraph

variable {T R : Type} [Rng R]

/-- The valid states of `ErEnsembleM`. -/
structure ErM.Inv (e : ErM T R) : Prop where
  wf : e.graph.WF
  len : e.currentEdges.length = e.m
  cur : e.graph.edges = (e.currentEdges.map toEdge).toFinset
  split : (e.currentEdges ++ e.possibleEdges).Perm (allPairs e.graph.nextId)
  all : e.allEdges.Perm (allPairs e.graph.nextId)

theorem swap_perm {α : Type} {l l' : List α} {i j : Nat} {a b : α} (hi : l[i]? = some a) (hj : l'[j]? = some b) :
    (l.set i b ++ l'.set j a).Perm (l ++ l') := by
  obtain ⟨hi', hia⟩ := List.getElem?_eq_some_iff.mp hi
  obtain ⟨hj', hjb⟩ := List.getElem?_eq_some_iff.mp hj
  have p1 : l.Perm (a :: l.eraseIdx i) := by
    have := (List.getElem_cons_eraseIdx_perm hi').symm; rwa [hia] at this
  have p2 : l'.Perm (b :: l'.eraseIdx j) := by
    have := (List.getElem_cons_eraseIdx_perm hj').symm; rwa [hjb] at this
  have q1 := List.set_perm_cons_eraseIdx hi' b
  have q2 := List.set_perm_cons_eraseIdx hj' a
  refine (q1.append q2).trans (List.Perm.trans ?_ (p1.append p2).symm)
  have h1 : (b :: l.eraseIdx i ++ a :: l'.eraseIdx j).Perm (b :: a :: (l.eraseIdx i ++ l'.eraseIdx j)) :=
    List.Perm.cons b List.perm_middle
  have h2 : (a :: l.eraseIdx i ++ b :: l'.eraseIdx j).Perm (a :: b :: (l.eraseIdx i ++ l'.eraseIdx j)) :=
    List.Perm.cons a List.perm_middle
  exact h1.trans ((List.Perm.swap a b _).trans h2.symm)

theorem ErM.Inv.nodup {e : ErM T R} (h : e.Inv) : (e.currentEdges ++ e.possibleEdges).Nodup :=
  h.split.nodup_iff.mpr (nodup_allPairs _)

theorem ErM.Inv.mem_lt {e : ErM T R} (h : e.Inv) {p : Nat × Nat} (hp : p ∈ e.currentEdges ∨ p ∈ e.possibleEdges) :
    p ∈ allPairs e.graph.nextId := h.split.mem_iff.mp (List.mem_append.mpr hp)

theorem ErM.Inv.mem_edges_iff {e : ErM T R} (h : e.Inv) {p : Nat × Nat} (hp : p ∈ allPairs e.graph.nextId) :
    toEdge p ∈ e.graph.edges ↔ p ∈ e.currentEdges := by
  rw [h.cur, List.mem_toFinset, List.mem_map]
  constructor
  · rintro ⟨q, hq, hqp⟩
    rwa [← toEdge_injOn (h.mem_lt (.inl hq)) hp hqp]
  · intro hc; exact ⟨p, hc, rfl⟩

theorem ErM.Inv.edgeCount {e : ErM T R} (h : e.Inv) : e.graph.edgeCount = e.m := by
  rw [h.wf.edgeCount_eq_card, h.cur, List.toFinset_card_of_nodup, List.length_map, h.len]
  have hn := h.nodup
  rw [List.nodup_append] at hn
  exact List.Nodup.map_on (fun p hp q hq hpq => toEdge_injOn (h.mem_lt (.inl hp)) (h.mem_lt (.inl hq)) hpq) hn.1

theorem ErM.Inv.possible_len {e : ErM T R} (h : e.Inv) :
    e.m + e.possibleEdges.length = (allPairs e.graph.nextId).length := by
  rw [← h.split.length_eq, List.length_append, h.len]

/-- The step that swaps entry `i` of the present with entry `j` of the absent edges. -/
theorem ErM.step_spec {e : ErM T R} (h : e.Inv) {i j : Nat} {c q : Nat × Nat} (hi : e.currentEdges[i]? = some c)
    (hj : e.possibleEdges[j]? = some q) :
    ∃ e', e.step ⟨c, i, q, j⟩ = .ok e' ∧ e'.Inv ∧ e'.graph.nextId = e.graph.nextId ∧ e'.graph.data = e.graph.data ∧
      e'.m = e.m ∧ e'.rng = e.rng ∧ e'.allEdges = e.allEdges ∧ e'.currentEdges = e.currentEdges.set i q ∧
      e'.possibleEdges = e.possibleEdges.set j c ∧
      e'.graph.edges = insert (toEdge q) (e.graph.edges.erase (toEdge c)) ∧ toEdge c ∈ e.graph.edges ∧
      toEdge q ∉ e.graph.edges := by
  have hcm := List.mem_of_getElem? hi
  have hqm := List.mem_of_getElem? hj
  have hcp := h.mem_lt (.inl hcm)
  have hqp := h.mem_lt (.inr hqm)
  have hce : toEdge c ∈ e.graph.edges := (h.mem_edges_iff hcp).mpr hcm
  have hqe : toEdge q ∉ e.graph.edges := by
    intro hc
    have := (h.mem_edges_iff hqp).mp hc
    have hn := h.nodup
    rw [List.nodup_append] at hn
    exact hn.2.2 _ this _ hqm rfl
  obtain ⟨g1, a1, a2, a3, a4, a5, a6⟩ := removeEdge_edges h.wf hce
  have hqlt := mem_allPairs.mp hqp
  have hq1 : s(q.1, q.2) ∉ g1.edges := by
    rw [a5]; intro hc; exact hqe (Finset.mem_of_mem_erase hc)
  obtain ⟨g2, b1, b2, b3, b4, b5, b6⟩ := addEdge_edges a2 (i := q.1) (j := q.2) (by rw [a3]; omega) (by rw [a3]; omega)
    (by omega) hq1
  have hedges : g2.edges = insert (toEdge q) (e.graph.edges.erase (toEdge c)) := by rw [b5, a5]; rfl
  refine ⟨{ e with graph := g2, currentEdges := e.currentEdges.set i q, possibleEdges := e.possibleEdges.set j c },
    ?_, ?_, b3.trans a3, b6.trans a6, rfl, rfl, rfl, rfl, rfl, hedges, hce, hqe⟩
  · simp [ErM.step, a1, b1, unwrapOk, Vec.idx_of_some hi, Vec.idx_of_some hj]
  · have hsp := (swap_perm hi hj).trans h.split
    refine ⟨b2, by simp [h.len], ?_, ?_, ?_⟩
    · -- the list of present edges
      have hnd : (e.currentEdges.set i q ++ e.possibleEdges.set j c).Nodup := hsp.nodup_iff.mpr (nodup_allPairs _)
      show g2.edges = _
      rw [hedges]
      have hn := h.nodup
      rw [List.nodup_append] at hn hnd
      obtain ⟨hil, hic⟩ := List.getElem?_eq_some_iff.mp hi
      ext x
      rw [Finset.mem_insert, Finset.mem_erase, h.cur, List.mem_toFinset, List.mem_toFinset, List.mem_map, List.mem_map]
      have hset : ∀ p, p ∈ e.currentEdges.set i q ↔ p = q ∨ (p ∈ e.currentEdges ∧ p ≠ c) := by
        intro p
        have q1 := List.set_perm_cons_eraseIdx hil q
        have p1 : e.currentEdges.Perm (c :: e.currentEdges.eraseIdx i) := by
          have := (List.getElem_cons_eraseIdx_perm hil).symm; rwa [hic] at this
        have hnc : c ∉ e.currentEdges.eraseIdx i := by
          have := p1.nodup_iff.mp hn.1; exact (List.nodup_cons.mp this).1
        rw [q1.mem_iff, List.mem_cons, p1.mem_iff, List.mem_cons]
        constructor
        · rintro (rfl | h1)
          · exact .inl rfl
          · exact .inr ⟨.inr h1, fun hc => hnc (hc ▸ h1)⟩
        · rintro (rfl | ⟨rfl | h1, h2⟩)
          · exact .inl rfl
          · exact absurd rfl h2
          · exact .inr h1
      constructor
      · rintro (rfl | ⟨h1, p, hp, rfl⟩)
        · exact ⟨q, (hset q).mpr (.inl rfl), rfl⟩
        · exact ⟨p, (hset p).mpr (.inr ⟨hp, fun hc => h1 (by rw [hc])⟩), rfl⟩
      · rintro ⟨p, hp, rfl⟩
        rcases (hset p).mp hp with rfl | ⟨h1, h2⟩
        · exact .inl rfl
        · refine .inr ⟨fun hc => h2 (toEdge_injOn (h.mem_lt (.inl h1)) hcp hc), p, h1, rfl⟩
    · show (e.currentEdges.set i q ++ e.possibleEdges.set j c).Perm (allPairs g2.nextId)
      rw [b3, a3]; exact hsp
    · show e.allEdges.Perm (allPairs g2.nextId)
      rw [b3, a3]; exact h.all

theorem set_set_self {α : Type} {l : List α} {i : Nat} {a b : α} (h : l[i]? = some a) : (l.set i b).set i a = l := by
  rw [List.set_set]
  obtain ⟨hi, rfl⟩ := List.getElem?_eq_some_iff.mp h
  exact List.set_getElem_self hi

/-- Equivalent states: same edge set, same lists, same data. -/
structure ErM.Sim (e x : ErM T R) : Prop where
  n : x.graph.nextId = e.graph.nextId
  data : x.graph.data = e.graph.data
  edges : x.graph.edges = e.graph.edges
  m : x.m = e.m
  cur : x.currentEdges = e.currentEdges
  pos : x.possibleEdges = e.possibleEdges
  all : x.allEdges = e.allEdges

theorem ErM.mStep_eq {e : ErM T R} {s : ErStepM} {e' : ErM T R} (hs : e.mStep = .ok (s, e')) :
    ∃ (i j : Nat) (c q : Nat × Nat) (r1 r2 : R), e.currentEdges[i]? = some c ∧ e.possibleEdges[j]? = some q ∧ s = ⟨c, i, q, j⟩ ∧
      genRange e.rng e.currentEdges.length = .ok (i, r1) ∧ genRange r1 e.possibleEdges.length = .ok (j, r2) ∧
      ({ e with rng := r2 } : ErM T R).step s = .ok e' := by
  unfold ErM.mStep at hs
  simp only [Res.bind_eq_ok] at hs
  obtain ⟨⟨i, r1⟩, h1, ⟨j, r2⟩, h2, c, h3, q, h4, e1, h5, h6⟩ := hs
  simp only [Res.pure_eq, Res.ok.injEq, Prod.mk.injEq] at h6
  obtain ⟨rfl, rfl⟩ := h6
  exact ⟨i, j, c, q, r1, r2, Vec.idx_eq_ok.mp h3, Vec.idx_eq_ok.mp h4, rfl, h1, h2, h5⟩

theorem ErM.Inv.withRng {e : ErM T R} (h : e.Inv) (r : R) : ({ e with rng := r } : ErM T R).Inv :=
  ⟨h.wf, h.len, h.cur, h.split, h.all⟩

theorem ErM.mStep_spec {e : ErM T R} (h : e.Inv) (h0 : 0 < e.m) (h1 : 0 < e.possibleEdges.length) :
    ∃ s e', e.mStep = .ok (s, e') ∧ e'.Inv ∧ e'.graph.nextId = e.graph.nextId ∧ e'.graph.data = e.graph.data ∧
      e'.m = e.m ∧ e'.allEdges = e.allEdges ∧
      toEdge s.removed ∈ e.graph.edges ∧ toEdge s.inserted ∉ e.graph.edges ∧
      e'.graph.edges = insert (toEdge s.inserted) (e.graph.edges.erase (toEdge s.removed)) := by
  have hl : 0 < e.currentEdges.length := by rw [h.len]; exact h0
  obtain ⟨i, r1, a1, a2⟩ := genRange_ok e.rng hl
  obtain ⟨j, r2, b1, b2⟩ := genRange_ok r1 h1
  have hi : e.currentEdges[i]? = some e.currentEdges[i] := List.getElem?_eq_getElem a2
  have hj : e.possibleEdges[j]? = some e.possibleEdges[j] := List.getElem?_eq_getElem b2
  obtain ⟨e', c1, c2, c3, c4, c5, c6, c7, c8, c9, c10, c11, c12⟩ := ErM.step_spec (h.withRng r2) hi hj
  refine ⟨⟨e.currentEdges[i], i, e.possibleEdges[j], j⟩, e', ?_, c2, c3, c4, c5, c7, c11, c12, c10⟩
  simp [ErM.mStep, a1, b1, Vec.idx_of_some hi, Vec.idx_of_some hj, c1]

theorem ErM.back {e e' x : ErM T R} {s : ErStepM} (h : e.Inv) (hs : e.mStep = .ok (s, e')) (hx : x.Inv) (hsim : e'.Sim x) :
    ∃ x', x.undoStep s = .ok (s.inverted, x') ∧ x.undoStepQuiet s = .ok x' ∧ x'.Inv ∧ e.Sim x' ∧ x'.rng = x.rng := by
  obtain ⟨i, j, c, q, r1, r2, hi, hj, rfl, _, _, hstep⟩ := ErM.mStep_eq hs
  obtain ⟨e1, c1, c2, c3, c4, c5, c6, c7, c8, c9, c10, c11, c12⟩ := ErM.step_spec (h.withRng r2) hi hj
  rw [c1] at hstep; simp at hstep; subst hstep
  have hix : x.currentEdges[i]? = some q := by
    rw [hsim.cur, c8, List.getElem?_set_self]
    exact (List.getElem?_eq_some_iff.mp hi).1
  have hjx : x.possibleEdges[j]? = some c := by
    rw [hsim.pos, c9, List.getElem?_set_self]
    exact (List.getElem?_eq_some_iff.mp hj).1
  obtain ⟨x', d1, d2, d3, d4, d5, d6, d7, d8, d9, d10, d11, d12⟩ := ErM.step_spec hx hix hjx
  refine ⟨x', ?_, ?_, d2, ⟨?_, ?_, ?_, ?_, ?_, ?_, ?_⟩, d6⟩
  · simp [ErM.undoStep, ErStepM.inverted, d1]
  · simp [ErM.undoStepQuiet, ErStepM.inverted, d1]
  · rw [d3, hsim.n, c3]
  · rw [d4, hsim.data, c4]
  · rw [d10, hsim.edges, c10]
    simp only at c11 c12 ⊢
    rw [Finset.erase_insert]
    · exact Finset.insert_erase c11
    · simp [c12]
  · rw [d5, hsim.m, c5]
  · rw [d8, hsim.cur, c8]; exact set_set_self hi
  · rw [d9, hsim.pos, c9]; exact set_set_self hj
  · rw [d7, hsim.all, c7]

/-- Adding a list of new edges one after the other. -/
theorem addEdges_spec : ∀ (l : List (Nat × Nat)) {g : Graph T}, g.WF → (∀ p ∈ l, p.1 < g.nextId ∧ p.2 < g.nextId ∧ p.1 ≠ p.2) →
    (l.map toEdge).Nodup → (∀ p ∈ l, toEdge p ∉ g.edges) →
    ∃ g', l.foldlM (fun g edge => do let p ← g.addEdge edge.1 edge.2; unwrapOk p) g = .ok g' ∧ g'.WF ∧
      g'.nextId = g.nextId ∧ g'.data = g.data ∧ g'.edges = g.edges ∪ (l.map toEdge).toFinset := by
  intro l
  induction l with
  | nil => intro g h _ _ _; exact ⟨g, rfl, h, rfl, rfl, by simp⟩
  | cons p l ih =>
    intro g h hlt hnd hnew
    obtain ⟨a1, a2, a3⟩ := hlt p (by simp)
    obtain ⟨g1, b1, b2, b3, b4, b5, b6⟩ := addEdge_edges h a1 a2 a3 (hnew p (by simp))
    simp only [List.map_cons, List.nodup_cons] at hnd
    obtain ⟨g', c1, c2, c3, c4, c5⟩ := ih b2 (fun q hq => by rw [b3]; exact hlt q (by simp [hq])) hnd.2 (by
      intro q hq hc
      rw [b5, Finset.mem_insert] at hc
      rcases hc with hc | hc
      · exact hnd.1 (List.mem_map.mpr ⟨q, hq, hc⟩)
      · exact hnew q (by simp [hq]) hc)
    refine ⟨g', ?_, c2, c3.trans b3, c4.trans b6, ?_⟩
    · rw [List.foldlM_cons, b1]; simpa [unwrapOk] using c1
    · rw [c5, b5]
      ext x
      simp only [toEdge, Finset.mem_union, Finset.mem_insert, List.map_cons, List.toFinset_cons]
      tauto

theorem clearEdges_edges {A : Type} [AdjContainer T A] [LawfulAdj T A] {g : GenericGraph T A} (h : g.WF) :
    g.clearEdges.edges = ∅ := by
  ext e; rw [mem_edges_iff]; simp [clearEdges_nbrs h]

/-- `randomize` needs only the sizes of the two lists and the list of all pairs. -/
theorem ErM.randomize_spec {e : ErM T R} (hwf : e.graph.WF) (hall : e.allEdges.Perm (allPairs e.graph.nextId))
    (hc : e.currentEdges.length = e.m) (hp : e.m + e.possibleEdges.length = (allPairs e.graph.nextId).length) :
    ∃ e', e.randomize = .ok e' ∧ e'.Inv ∧ e'.graph.nextId = e.graph.nextId ∧ e'.graph.data = e.graph.data ∧ e'.m = e.m ∧
      e'.allEdges = (Rng.shuffle e.rng e.allEdges).1 ∧ e'.rng = (Rng.shuffle e.rng e.allEdges).2 ∧
      e'.currentEdges = e'.allEdges.take e.m ∧ e'.possibleEdges = e'.allEdges.drop e.m := by
  set A := (Rng.shuffle e.rng e.allEdges).1 with hA
  set r := (Rng.shuffle e.rng e.allEdges).2 with hr
  have hperm : A.Perm (allPairs e.graph.nextId) := (Rng.shuffle_perm e.rng e.allEdges).trans hall
  have hlen := hperm.length_eq
  have hml : e.m ≤ A.length := by omega
  have hnd : A.Nodup := hperm.nodup_iff.mpr (nodup_allPairs _)
  have hsub : ∀ p ∈ A.take e.m, p ∈ allPairs e.graph.nextId := fun p hpp => hperm.mem_iff.mp (List.mem_of_mem_take hpp)
  obtain ⟨g', c1, c2, c3, c4, c5⟩ := addEdges_spec (A.take e.m) (clearEdges_wf hwf) (by
      intro p hpp
      have := mem_allPairs.mp (hsub p hpp)
      rw [clearEdges_nextId]; omega) (by
      apply List.Nodup.map_on _ (hnd.sublist (List.take_sublist _ _))
      intro p hpp q hqq hpq
      exact toEdge_injOn (hsub p hpp) (hsub q hqq) hpq) (by simp [clearEdges_edges hwf])
  rw [clearEdges_nextId] at c3
  rw [clearEdges_data] at c4
  rw [clearEdges_edges hwf, Finset.empty_union] at c5
  refine ⟨{ e with graph := g', rng := r, allEdges := A, currentEdges := A.take e.m, possibleEdges := A.drop e.m },
    ?_, ⟨c2, ?_, c5, ?_, ?_⟩, c3, c4, rfl, rfl, rfl, rfl, rfl⟩
  · unfold ErM.randomize
    simp only [← hA, ← hr]
    have l1 : e.currentEdges.length = (A.take e.m).length := by rw [hc, List.length_take]; omega
    have l2 : e.possibleEdges.length = (A.drop e.m).length := by rw [List.length_drop]; omega
    simp [hml, copyFromSlice, l1, l2, c1]
  · show (A.take e.m).length = e.m
    rw [List.length_take]; omega
  · show (A.take e.m ++ A.drop e.m).Perm (allPairs g'.nextId)
    rw [List.take_append_drop, c3]; exact hperm
  · show A.Perm (allPairs g'.nextId)
    rw [c3]; exact hperm

theorem ErM.new_spec [Node T] {n m : Nat} (hn : 1 ≤ n) (hm : m ≤ n * (n - 1) / 2) (r : R) :
    ∃ e : ErM T R, ErM.new n m r = .ok e ∧ e.Inv ∧ e.graph.nextId = n ∧ e.m = m ∧
      e.graph.data = (List.range n).map Node.newFromIndex := by
  let e0 : ErM T R := ⟨GenericGraph.new n, m, r, allPairs n, List.replicate (n * (n - 1) / 2 - m) (0, 0),
    List.replicate m (0, 0)⟩
  obtain ⟨e, h1, h2, h3, h4, h5, _⟩ := ErM.randomize_spec (e := e0) (new_wf n) (List.Perm.refl _) (by simp [e0])
    (by simp only [e0]; rw [List.length_replicate]; show _ = (allPairs n).length; rw [length_allPairs]; omega)
  refine ⟨e, ?_, h2, h3, h5, ?_⟩
  · unfold ErM.new
    simp only [Res.sub_of_le hn, Res.ok_bind, hm, decide_true, Res.assert_true]
    exact h1
  · rw [h4]
    show (GenericGraph.new n : Graph T).data = _
    rw [new_eq_fromVec, fromVec_data]

end Verif
