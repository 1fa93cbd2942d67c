import Verif.Lemmas.Dual
import Verif.Spec.DualAny

/-!
# Searches on dual graphs whose members were exchanged

`graph_1_mut`, `graph_2_mut` hand out `&mut GenericGraph`, so that a member can be exchanged for a graph of another size while
the lists of cross edges stay as they are.  Only the members are assumed to be valid here; the lists are arbitrary.
-/

set_option linter.unusedSectionVars false
set_option linter.unusedSimpArgs false

namespace Verif
open AdjContainer GenericGraph

variable {J T1 A1 T2 A2 : Type} [AdjTrait J] [AdjContainer T1 A1] [AdjContainer T2 A2] [LawfulAdj T1 A1] [LawfulAdj T2 A2]

theorem idx_panic {α : Type} {l : List α} {i : Nat} (h : l.length ≤ i) : Vec.idx l i = .panic := by
  simp [Vec.idx, List.getElem?_eq_none h]

theorem visitStackW_panic (mk : Nat → DualIndex) : ∀ (l : List Nat) (handled : List Bool) (stack : List DualIndex),
    (∃ i ∈ l, handled.length ≤ i) → visitStackW mk l handled stack = .panic := by
  intro l
  induction l with
  | nil => rintro _ _ ⟨i, hi, _⟩; simp at hi
  | cons i l ih =>
    rintro handled stack ⟨j, hj, hge⟩
    by_cases hi : i < handled.length
    · have hjl : j ∈ l := by
        rcases List.mem_cons.mp hj with rfl | h
        · omega
        · exact h
      cases hb : handled[i] with
      | true => simp [visitStackW, Vec.idx_of_lt hi, hb, ih handled stack ⟨j, hjl, hge⟩]
      | false =>
        simp [visitStackW, Vec.idx_of_lt hi, hb, Vec.put_of_lt hi,
          ih (handled.set i true) (mk i :: stack) ⟨j, hjl, by simpa using hge⟩]
    · simp [visitStackW, Vec.idx, List.getElem?_eq_none (by omega : handled.length ≤ i)]

theorem visitQueueW_panic (mk : Nat → DualIndex) : ∀ (l : List Nat) (nh : List Bool) (queue : List DualIndex),
    (∃ i ∈ l, nh.length ≤ i) → visitQueueW mk l nh queue = .panic := by
  intro l
  induction l with
  | nil => rintro _ _ ⟨i, hi, _⟩; simp at hi
  | cons i l ih =>
    rintro nh queue ⟨j, hj, hge⟩
    by_cases hi : i < nh.length
    · have hjl : j ∈ l := by
        rcases List.mem_cons.mp hj with rfl | h
        · omega
        · exact h
      cases hb : nh[i] with
      | false => simp [visitQueueW, Vec.idx_of_lt hi, hb, ih nh queue ⟨j, hjl, hge⟩]
      | true =>
        simp [visitQueueW, Vec.idx_of_lt hi, hb, Vec.put_of_lt hi,
          ih (nh.set i false) (queue ++ [mk i]) ⟨j, hjl, by simpa using hge⟩]
    · simp [visitQueueW, Vec.idx, List.getElem?_eq_none (by omega : nh.length ≤ i)]

/-- Running an iterator that may panic in a step. -/
theorem collect_spec_or {σ ι : Type} {next : σ → Res (Option ι × σ)} (I Fin : σ → List ι → Prop) (Bad : Prop) (n : Nat)
    (hstep : ∀ s L, I s L → (∃ s', next s = .ok (none, s') ∧ Fin s' L) ∨
      (∃ x s', next s = .ok (some x, s') ∧ I s' (L ++ [x])) ∨ (next s = .panic ∧ Bad))
    (hbound : ∀ s L, I s L → L.length ≤ n) :
    ∀ (fuel : Nat) (s : σ) (L : List ι), I s L → n < fuel + L.length →
      (∃ L' s', collect next fuel s = .ok (L', s') ∧ Fin s' (L ++ L')) ∨ (collect next fuel s = .panic ∧ Bad) := by
  intro fuel
  induction fuel with
  | zero =>
    intro s L hI hf
    have := hbound s L hI; omega
  | succ fuel ih =>
    intro s L hI hf
    rcases hstep s L hI with ⟨s', h1, h2⟩ | ⟨x, s', h1, h2⟩ | ⟨h1, h2⟩
    · exact Or.inl ⟨[], s', by simp [collect, h1], by simpa using h2⟩
    · rcases ih s' (L ++ [x]) h2 (by simp; omega) with ⟨L', s'', h3, h4⟩ | ⟨h3, h4⟩
      · exact Or.inl ⟨x :: L', s'', by simp [collect, h1, h3], by simpa using h4⟩
      · exact Or.inr ⟨by simp [collect, h1, h3], h4⟩
    · exact Or.inr ⟨by simp [collect, h1], h2⟩

namespace DualGraph
variable {d : DualGraph J T1 A1 T2 A2}

theorem succ_iff (w1 : d.graph1.WF) (w2 : d.graph2.WF) {v w : DualIndex} : d.Succ v w ↔ w ∈ d.nbrs v := by
  rcases v with i | i <;> rcases w with j | j
  · simp [Succ, nbrs, w1.adj_iff]
  · simp [Succ, nbrs]
  · simp [Succ, nbrs]
  · simp [Succ, nbrs, w2.adj_iff]

theorem totalVertices_eq (w1 : d.graph1.WF) (w2 : d.graph2.WF) : d.all.length = d.totalVertices := by
  unfold all totalVertices
  rw [w1.len, w2.len]
  simp

/-- What is left of the invariant of the depth first search. -/
structure DfsA (d : DualGraph J T1 A1 T2 A2) (v0 : DualIndex) (s : DfsDual) (D : List DualIndex) : Prop where
  inv : SearchInv d.Succ v0 (Marked s.handled1 s.handled2) s.stack D
  len1 : s.handled1.length = d.graph1.nextId
  len2 : s.handled2.length = d.graph2.nextId
  sound : ∀ v ∈ D, d.Sound v

theorem DfsA.vertex {v0 : DualIndex} {s : DfsDual} {D : List DualIndex} (h : DfsA d v0 s D) {v : DualIndex}
    (hv : v ∈ s.stack ∨ v ∈ D) : d.IsVertex v := by
  have := (h.inv.handled v).mpr hv
  rcases v with i | i
  · show i < d.graph1.nextId
    rw [← h.len1]; exact (List.getElem?_eq_some_iff.mp this).1
  · show i < d.graph2.nextId
    rw [← h.len2]; exact (List.getElem?_eq_some_iff.mp this).1

/-- Why a vertex is not sound. -/
theorem not_sound1 (w1 : d.graph1.WF) {i : Nat} (h : ¬ d.Sound (.graph1 i)) :
    d.adj1.length ≤ i ∨ (i < d.adj1.length ∧ ∃ j ∈ d.list1 i, d.graph2.nextId ≤ j) := by
  by_contra hc
  push Not at hc
  refine h ⟨hc.1, ?_⟩
  rintro (j | j) hj
  · exact w1.lt _ _ (w1.adj_iff.mp hj)
  · exact hc.2 hc.1 j hj

theorem not_sound2 (w2 : d.graph2.WF) {i : Nat} (h : ¬ d.Sound (.graph2 i)) :
    d.adj2.length ≤ i ∨ (i < d.adj2.length ∧ ∃ j ∈ d.list2 i, d.graph1.nextId ≤ j) := by
  by_contra hc
  push Not at hc
  refine h ⟨hc.1, ?_⟩
  rintro (j | j) hj
  · exact hc.2 hc.1 j hj
  · exact w2.lt _ _ (w2.adj_iff.mp hj)

theorem DfsA.step (w1 : d.graph1.WF) (w2 : d.graph2.WF) {v0 v : DualIndex} {s : DfsDual} {st D : List DualIndex}
    (hI : DfsA d v0 s D) (hs : s.stack = v :: st) (hsd : d.Sound v) :
    ∃ s', dfsDualNext d s = .ok (some v, s') ∧ DfsA d v0 s' (D ++ [v]) := by
  obtain ⟨h1, h2, stack⟩ := s
  simp only at hs
  subst hs
  have hvx := hI.vertex (v := v) (Or.inl List.mem_cons_self)
  have l1 : h1.length = d.graph1.nextId := hI.len1
  have l2 : h2.length = d.graph2.nextId := hI.len2
  have hH := hI.inv
  simp only at hH
  have hsound : ∀ x ∈ D ++ [v], d.Sound x := by
    intro x hx
    rcases List.mem_append.mp hx with hx | hx
    · exact hI.sound x hx
    · simp at hx; subst hx; exact hsd
  rcases v with i | i
  · have hi : i < d.graph1.vertices.length := w1.lt_length hvx
    obtain ⟨e1, e2⟩ := idx_nbrs hi
    obtain ⟨a, f1, f2⟩ := idx_list1 (d := d) (i := i) hsd.1
    have hlt1 : ∀ j ∈ d.graph1.nbrs i, j < h1.length := fun j hj => by rw [l1]; exact w1.lt _ _ hj
    have hlt2 : ∀ j ∈ d.list1 i, j < h2.length := fun j hj => by rw [l2]; exact hsd.2 (.graph2 j) hj
    obtain ⟨h1', new1, g1, g2⟩ := visitStackW_spec .graph1 _ h1 st hlt1
    obtain ⟨h2', new2, k1, k2⟩ := visitStackW_spec .graph2 _ h2 ((new1.map WhichGraph.graph1).reverse ++ st) hlt2
    obtain ⟨m1, m2, m3⟩ := visited_both hlt1 hlt2 g2 k2 (d.nbrs (.graph1 i)) (by intro w; simp [nbrs])
    refine ⟨⟨h1', h2', (new2.map WhichGraph.graph2).reverse ++ ((new1.map WhichGraph.graph1).reverse ++ st)⟩, ?_, ?_⟩
    · simp [dfsDualNext, e1, e2, g1, f1, f2, k1]
    · refine ⟨hH.step (new := new1.map WhichGraph.graph1 ++ new2.map WhichGraph.graph2) ?_ m3 ?_ ?_, by rw [g2.len, l1], by rw [k2.len, l2], hsound⟩
      · intro w
        rw [List.mem_append, m1, succ_iff w1 w2]
      · intro w
        rw [List.mem_append]; exact m2 w
      · rw [List.append_assoc]
        refine (List.Perm.append (List.reverse_perm _) ((List.reverse_perm _).append_right st)).trans ?_
        rw [← List.append_assoc, ← List.append_assoc]
        exact List.perm_append_comm.append_right st
  · have hi : i < d.graph2.vertices.length := w2.lt_length hvx
    obtain ⟨e1, e2⟩ := idx_nbrs hi
    obtain ⟨a, f1, f2⟩ := idx_list2 (d := d) (i := i) hsd.1
    have hlt2 : ∀ j ∈ d.graph2.nbrs i, j < h2.length := fun j hj => by rw [l2]; exact w2.lt _ _ hj
    have hlt1 : ∀ j ∈ d.list2 i, j < h1.length := fun j hj => by rw [l1]; exact hsd.2 (.graph1 j) hj
    obtain ⟨h2', new2, g1, g2⟩ := visitStackW_spec .graph2 _ h2 st hlt2
    obtain ⟨h1', new1, k1, k2⟩ := visitStackW_spec .graph1 _ h1 ((new2.map WhichGraph.graph2).reverse ++ st) hlt1
    obtain ⟨m1, m2, m3⟩ := visited_both hlt1 hlt2 k2 g2 (d.nbrs (.graph2 i)) (by intro w; rw [nbrs, List.mem_append]; exact or_comm)
    refine ⟨⟨h1', h2', (new1.map WhichGraph.graph1).reverse ++ ((new2.map WhichGraph.graph2).reverse ++ st)⟩, ?_, ?_⟩
    · simp [dfsDualNext, e1, e2, g1, f1, f2, k1]
    · refine ⟨hH.step (new := new1.map WhichGraph.graph1 ++ new2.map WhichGraph.graph2) ?_ m3 ?_ ?_, by rw [k2.len, l1], by rw [g2.len, l2], hsound⟩
      · intro w
        rw [List.mem_append, m1, succ_iff w1 w2]
      · intro w
        rw [List.mem_append]; exact m2 w
      · rw [List.append_assoc]
        exact List.Perm.append (List.reverse_perm _) ((List.reverse_perm _).append_right st)

theorem DfsA.step_panic (w1 : d.graph1.WF) (w2 : d.graph2.WF) {v0 v : DualIndex} {s : DfsDual} {st D : List DualIndex}
    (hI : DfsA d v0 s D) (hs : s.stack = v :: st) (hsd : ¬ d.Sound v) : dfsDualNext d s = .panic := by
  obtain ⟨h1, h2, stack⟩ := s
  simp only at hs
  subst hs
  have hvx := hI.vertex (v := v) (Or.inl List.mem_cons_self)
  have l1 : h1.length = d.graph1.nextId := hI.len1
  have l2 : h2.length = d.graph2.nextId := hI.len2
  rcases v with i | i
  · have hi : i < d.graph1.vertices.length := w1.lt_length hvx
    obtain ⟨e1, e2⟩ := idx_nbrs hi
    have hlt1 : ∀ j ∈ d.graph1.nbrs i, j < h1.length := fun j hj => by rw [l1]; exact w1.lt _ _ hj
    obtain ⟨h1', new1, g1, g2⟩ := visitStackW_spec .graph1 _ h1 st hlt1
    rcases not_sound1 w1 hsd with hge | ⟨hlt, j, hj, hge⟩
    · simp [dfsDualNext, e1, e2, g1, idx_panic hge]
    · obtain ⟨a, f1, f2⟩ := idx_list1 (d := d) (i := i) hlt
      simp [dfsDualNext, e1, e2, g1, f1, f2, visitStackW_panic .graph2 (d.list1 i) h2 _ ⟨j, hj, by omega⟩]
  · have hi : i < d.graph2.vertices.length := w2.lt_length hvx
    obtain ⟨e1, e2⟩ := idx_nbrs hi
    have hlt2 : ∀ j ∈ d.graph2.nbrs i, j < h2.length := fun j hj => by rw [l2]; exact w2.lt _ _ hj
    obtain ⟨h2', new2, g1, g2⟩ := visitStackW_spec .graph2 _ h2 st hlt2
    rcases not_sound2 w2 hsd with hge | ⟨hlt, j, hj, hge⟩
    · simp [dfsDualNext, e1, e2, g1, idx_panic hge]
    · obtain ⟨a, f1, f2⟩ := idx_list2 (d := d) (i := i) hlt
      simp [dfsDualNext, e1, e2, g1, f1, f2, visitStackW_panic .graph1 (d.list2 i) h1 _ ⟨j, hj, by omega⟩]

theorem DfsA.init (w1 : d.graph1.WF) (w2 : d.graph2.WF) {v : DualIndex} (hv : d.IsVertex v) : DfsA d v (DfsDual.new d v) [] := by
  have L1 := w1.len
  have L2 := w2.len
  rcases v with i | i
  · have hi : i < d.graph1.nextId := hv
    have : DfsDual.new d (.graph1 i) = ⟨(List.replicate d.graph1.nextId false).set i true, List.replicate d.graph2.nextId false,
        [.graph1 i]⟩ := by simp [DfsDual.new, L1, L2, hi]
    rw [this]
    refine ⟨SearchInv.init ?_, by simp, by simp, by simp⟩
    rintro (k | k)
    · simp only [Marked, List.getElem?_set, WhichGraph.graph1.injEq]
      by_cases hk : i = k
      · subst hk; simp [hi]
      · simp [hk, List.getElem?_replicate, Ne.symm hk]
    · simp [Marked, List.getElem?_replicate]
  · have hi : i < d.graph2.nextId := hv
    have : DfsDual.new d (.graph2 i) = ⟨List.replicate d.graph1.nextId false, (List.replicate d.graph2.nextId false).set i true,
        [.graph2 i]⟩ := by simp [DfsDual.new, L1, L2, hi]
    rw [this]
    refine ⟨SearchInv.init ?_, by simp, by simp, by simp⟩
    rintro (k | k)
    · simp [Marked, List.getElem?_replicate]
    · simp only [Marked, List.getElem?_set, WhichGraph.graph2.injEq]
      by_cases hk : i = k
      · subst hk; simp [hi]
      · simp [hk, List.getElem?_replicate, Ne.symm hk]

theorem length_le_total (w1 : d.graph1.WF) (w2 : d.graph2.WF) {L : List DualIndex} (hn : L.Nodup) (hv : ∀ v ∈ L, d.IsVertex v) :
    L.length ≤ d.totalVertices := by
  rw [← totalVertices_eq w1 w2]
  exact (hn.subperm (fun v hv' => mem_all.mpr (hv v hv'))).length_le

/-- `DfsDualIndex` run to its end on arbitrary cross lists. -/
theorem dfsIndex_or (w1 : d.graph1.WF) (w2 : d.graph2.WF) {v : DualIndex} (hv : d.IsVertex v) {fuel : Nat}
    (hf : d.totalVertices < fuel) :
    (∃ L, d.dfsIndex v fuel = .ok L ∧ L.Nodup ∧ L.head? = some v ∧ (∀ w, w ∈ L ↔ Relation.ReflTransGen d.Succ v w) ∧
      (∀ w ∈ L, d.IsVertex w ∧ d.Sound w)) ∨
    (d.dfsIndex v fuel = .panic ∧ ∃ w, Relation.ReflTransGen d.Succ v w ∧ ¬ d.Sound w) := by
  rcases collect_spec_or (next := dfsDualNext d) (fun s L => DfsA d v s L)
    (fun _ L => L.Nodup ∧ L.head? = some v ∧ (∀ w, w ∈ L ↔ Relation.ReflTransGen d.Succ v w) ∧ (∀ w ∈ L, d.IsVertex w ∧ d.Sound w))
    (∃ w, Relation.ReflTransGen d.Succ v w ∧ ¬ d.Sound w) d.totalVertices
    (by
      intro s L hI
      cases hs : s.stack with
      | nil =>
        have hb := hI.inv
        rw [hs] at hb
        refine Or.inl ⟨s, by simp [dfsDualNext, hs], hb.nodup_done, ?_, hb.done,
          fun w hw => ⟨hI.vertex (Or.inr hw), hI.sound w hw⟩⟩
        rcases hb.first with ⟨_, h2⟩ | h2
        · simp at h2
        · exact h2
      | cons x st =>
        by_cases hx : d.Sound x
        · obtain ⟨s', e1, e2⟩ := hI.step w1 w2 hs hx
          exact Or.inr (Or.inl ⟨x, s', e1, e2⟩)
        · refine Or.inr (Or.inr ⟨hI.step_panic w1 w2 hs hx, x, hI.inv.reach x ((hI.inv.handled x).mpr (Or.inl ?_)), hx⟩)
          rw [hs]; exact List.mem_cons_self)
    (fun s L hI => length_le_total w1 w2 hI.inv.nodup_done (fun _ hv => hI.vertex (Or.inr hv))) fuel (DfsDual.new d v) []
    (DfsA.init w1 w2 hv) (by simpa using hf) with ⟨L', s', h1, h2⟩ | ⟨h1, h2⟩
  · exact Or.inl ⟨L', by simp [dfsIndex, h1], by simpa using h2⟩
  · exact Or.inr ⟨by simp [dfsIndex, h1], h2⟩

/-! ### Breadth first search -/

theorem Steps.reach {n : Nat} {v w : DualIndex} (h : d.Steps n v w) : Relation.ReflTransGen d.Succ v w := by
  induction n generalizing w with
  | zero => rw [show w = v from h]
  | succ n ih =>
    obtain ⟨y, h1, h2⟩ := h
    exact (ih h1).tail h2

theorem exists_steps {v w : DualIndex} (h : Relation.ReflTransGen d.Succ v w) : ∃ n, d.Steps n v w := by
  induction h with
  | refl => exact ⟨0, rfl⟩
  | tail _ ha ih =>
    obtain ⟨n, hn⟩ := ih
    exact ⟨n + 1, _, hn, ha⟩

/-- Invariant of the breadth first search. -/
structure BfsA (d : DualGraph J T1 A1 T2 A2) (v0 : DualIndex) (s : BfsDual) (L : List (DualIndex × Nat)) : Prop where
  inv : SearchInv d.Succ v0 (Marked (s.notHandled1.map not) (s.notHandled2.map not)) (s.queue0 ++ s.queue1) (L.map (·.1))
  len1 : s.notHandled1.length = d.graph1.nextId
  len2 : s.notHandled2.length = d.graph2.nextId
  q0 : ∀ x ∈ s.queue0, d.Far v0 x s.depth
  q1 : ∀ x ∈ s.queue1, d.Far v0 x (s.depth + 1)
  items : ∀ p ∈ L, d.Far v0 p.1 p.2 ∧ p.2 ≤ s.depth
  sorted : (L.map (·.2)).Pairwise (· ≤ ·)
  all : ∀ w m, m ≤ s.depth → d.Steps m v0 w → Marked (s.notHandled1.map not) (s.notHandled2.map not) w
  sound : ∀ p ∈ L, d.Sound p.1

theorem BfsA.vertex {v0 : DualIndex} {s : BfsDual} {L : List (DualIndex × Nat)} (h : BfsA d v0 s L) {v : DualIndex}
    (hv : v ∈ s.queue0 ∨ v ∈ s.queue1 ∨ v ∈ L.map (·.1)) : d.IsVertex v := by
  have := (h.inv.handled v).mpr (by simp only [List.mem_append]; tauto)
  rcases v with i | i
  · have := (List.getElem?_eq_some_iff.mp this).1
    rw [List.length_map, h.len1] at this; exact this
  · have := (List.getElem?_eq_some_iff.mp this).1
    rw [List.length_map, h.len2] at this; exact this

/-- The part of a step that is the same for both graphs. -/
theorem BfsA.pop {v0 v : DualIndex} {nh1 nh2 nh1' nh2' : List Bool} {dep : Nat} {q0 q1 new : List DualIndex}
    {L : List (DualIndex × Nat)} (hI : BfsA d v0 ⟨nh1, nh2, dep, v :: q0, q1⟩ L) (hsd : d.Sound v)
    (hl1 : nh1'.length = nh1.length) (hl2 : nh2'.length = nh2.length)
    (hnew : ∀ w, w ∈ new ↔ d.Succ v w ∧ ¬ Marked (nh1.map not) (nh2.map not) w) (hnd : new.Nodup)
    (hM : ∀ w, Marked (nh1'.map not) (nh2'.map not) w ↔ Marked (nh1.map not) (nh2.map not) w ∨ w ∈ new) :
    BfsA d v0 ⟨nh1', nh2', dep, q0, q1 ++ new⟩ (L ++ [(v, dep)]) := by
  have hv0 : d.Far v0 v dep := hI.q0 v List.mem_cons_self
  refine ⟨?_, hl1.trans hI.len1, hl2.trans hI.len2, fun x hx => hI.q0 x (List.mem_cons_of_mem _ hx), ?_, ?_, ?_, ?_, ?_⟩
  · rw [List.map_append]
    have hH : SearchInv d.Succ v0 (Marked (nh1.map not) (nh2.map not)) (v :: (q0 ++ q1)) (L.map (·.1)) := hI.inv
    refine hH.step hnew hnd hM ?_
    show (q0 ++ (q1 ++ new)).Perm _
    rw [← List.append_assoc]
    exact List.perm_append_comm
  · intro x hx
    rcases List.mem_append.mp hx with hx | hx
    · exact hI.q1 x hx
    · obtain ⟨h1, h2⟩ := (hnew x).mp hx
      exact ⟨⟨v, hv0.1, h1⟩, fun m hm hs => h2 (hI.all x m (Nat.lt_succ_iff.mp hm) hs)⟩
  · intro p hp
    rcases List.mem_append.mp hp with hp | hp
    · exact hI.items p hp
    · simp at hp; subst hp
      exact ⟨hv0, le_refl _⟩
  · rw [List.map_append, List.pairwise_append]
    refine ⟨hI.sorted, by simp, ?_⟩
    intro a ha b hb
    simp at hb; subst hb
    obtain ⟨p, hp, rfl⟩ := List.mem_map.mp ha
    exact (hI.items p hp).2
  · intro w m hm hs
    exact (hM w).mpr (Or.inl (hI.all w m hm hs))
  · intro p hp
    rcases List.mem_append.mp hp with hp | hp
    · exact hI.sound p hp
    · simp at hp; subst hp; exact hsd

theorem BfsA.visit (w1 : d.graph1.WF) (w2 : d.graph2.WF) {v0 v : DualIndex} {nh1 nh2 : List Bool} {dep : Nat} {q0 q1 : List DualIndex}
    {L : List (DualIndex × Nat)} (hI : BfsA d v0 ⟨nh1, nh2, dep, v :: q0, q1⟩ L) (hsd : d.Sound v) :
    ∃ s', (∀ qq, bfsDualVisit d ⟨nh1, nh2, dep, qq, q1⟩ v q0 = .ok (some (v, dep), s')) ∧ BfsA d v0 s' (L ++ [(v, dep)]) := by
  have hvx := hI.vertex (v := v) (Or.inl List.mem_cons_self)
  have l1 : nh1.length = d.graph1.nextId := hI.len1
  have l2 : nh2.length = d.graph2.nextId := hI.len2
  rcases v with i | i
  · have hi : i < d.graph1.vertices.length := w1.lt_length hvx
    obtain ⟨e1, e2⟩ := idx_nbrs hi
    obtain ⟨a, f1, f2⟩ := idx_list1 (d := d) (i := i) hsd.1
    have hlt1 : ∀ j ∈ d.graph1.nbrs i, j < nh1.length := fun j hj => by rw [l1]; exact w1.lt _ _ hj
    have hlt2 : ∀ j ∈ d.list1 i, j < nh2.length := fun j hj => by rw [l2]; exact hsd.2 (.graph2 j) hj
    obtain ⟨nh1', new1, g1, g2⟩ := visitQueueW_spec .graph1 _ nh1 q1 hlt1
    obtain ⟨nh2', new2, k1, k2⟩ := visitQueueW_spec .graph2 _ nh2 (q1 ++ new1.map WhichGraph.graph1) hlt2
    obtain ⟨m1, m2, m3⟩ := visited_both (by simpa using hlt1) (by simpa using hlt2) g2 k2 (d.nbrs (.graph1 i)) (by intro w; simp [nbrs])
    have gl := g2.len
    have kl := k2.len
    simp only [List.length_map] at gl kl
    refine ⟨⟨nh1', nh2', dep, q0, q1 ++ (new1.map WhichGraph.graph1 ++ new2.map WhichGraph.graph2)⟩, ?_, ?_⟩
    · intro qq; simp [bfsDualVisit, e1, e2, g1, f1, f2, k1]
    · refine hI.pop hsd gl kl ?_ m3 ?_
      · intro w
        rw [List.mem_append, m1, succ_iff w1 w2]
      · intro w
        rw [List.mem_append]; exact m2 w
  · have hi : i < d.graph2.vertices.length := w2.lt_length hvx
    obtain ⟨e1, e2⟩ := idx_nbrs hi
    obtain ⟨a, f1, f2⟩ := idx_list2 (d := d) (i := i) hsd.1
    have hlt2 : ∀ j ∈ d.graph2.nbrs i, j < nh2.length := fun j hj => by rw [l2]; exact w2.lt _ _ hj
    have hlt1 : ∀ j ∈ d.list2 i, j < nh1.length := fun j hj => by rw [l1]; exact hsd.2 (.graph1 j) hj
    obtain ⟨nh2', new2, g1, g2⟩ := visitQueueW_spec .graph2 _ nh2 q1 hlt2
    obtain ⟨nh1', new1, k1, k2⟩ := visitQueueW_spec .graph1 _ nh1 (q1 ++ new2.map WhichGraph.graph2) hlt1
    obtain ⟨m1, m2, m3⟩ := visited_both (by simpa using hlt1) (by simpa using hlt2) k2 g2 (d.nbrs (.graph2 i)) (by intro w; rw [nbrs, List.mem_append]; exact or_comm)
    have gl := g2.len
    have kl := k2.len
    simp only [List.length_map] at gl kl
    refine ⟨⟨nh1', nh2', dep, q0, q1 ++ (new2.map WhichGraph.graph2 ++ new1.map WhichGraph.graph1)⟩, ?_, ?_⟩
    · intro qq; simp [bfsDualVisit, e1, e2, g1, f1, f2, k1]
    · refine hI.pop hsd kl gl ?_ ?_ ?_
      · intro w
        rw [List.mem_append, or_comm, m1, succ_iff w1 w2]
      · exact (List.perm_append_comm.nodup_iff).mp m3
      · intro w
        rw [List.mem_append, or_comm (a := w ∈ _)]; exact m2 w

theorem BfsA.visit_panic (w1 : d.graph1.WF) (w2 : d.graph2.WF) {v0 v : DualIndex} {nh1 nh2 : List Bool} {dep : Nat}
    {q0 q1 : List DualIndex} {L : List (DualIndex × Nat)} (hI : BfsA d v0 ⟨nh1, nh2, dep, v :: q0, q1⟩ L) (hsd : ¬ d.Sound v)
    (qq : List DualIndex) : bfsDualVisit d ⟨nh1, nh2, dep, qq, q1⟩ v q0 = .panic := by
  have hvx := hI.vertex (v := v) (Or.inl List.mem_cons_self)
  have l1 : nh1.length = d.graph1.nextId := hI.len1
  have l2 : nh2.length = d.graph2.nextId := hI.len2
  rcases v with i | i
  · have hi : i < d.graph1.vertices.length := w1.lt_length hvx
    obtain ⟨e1, e2⟩ := idx_nbrs hi
    have hlt1 : ∀ j ∈ d.graph1.nbrs i, j < nh1.length := fun j hj => by rw [l1]; exact w1.lt _ _ hj
    obtain ⟨nh1', new1, g1, g2⟩ := visitQueueW_spec .graph1 _ nh1 q1 hlt1
    rcases not_sound1 w1 hsd with hge | ⟨hlt, j, hj, hge⟩
    · simp [bfsDualVisit, e1, e2, g1, idx_panic hge]
    · obtain ⟨a, f1, f2⟩ := idx_list1 (d := d) (i := i) hlt
      simp [bfsDualVisit, e1, e2, g1, f1, f2, visitQueueW_panic .graph2 (d.list1 i) nh2 _ ⟨j, hj, by omega⟩]
  · have hi : i < d.graph2.vertices.length := w2.lt_length hvx
    obtain ⟨e1, e2⟩ := idx_nbrs hi
    have hlt2 : ∀ j ∈ d.graph2.nbrs i, j < nh2.length := fun j hj => by rw [l2]; exact w2.lt _ _ hj
    obtain ⟨nh2', new2, g1, g2⟩ := visitQueueW_spec .graph2 _ nh2 q1 hlt2
    rcases not_sound2 w2 hsd with hge | ⟨hlt, j, hj, hge⟩
    · simp [bfsDualVisit, e1, e2, g1, idx_panic hge]
    · obtain ⟨a, f1, f2⟩ := idx_list2 (d := d) (i := i) hlt
      simp [bfsDualVisit, e1, e2, g1, f1, f2, visitQueueW_panic .graph1 (d.list2 i) nh1 _ ⟨j, hj, by omega⟩]

theorem BfsA.swap {v0 : DualIndex} {nh1 nh2 : List Bool} {dep : Nat} {q1 : List DualIndex} {L : List (DualIndex × Nat)}
    (hI : BfsA d v0 ⟨nh1, nh2, dep, [], q1⟩ L) : BfsA d v0 ⟨nh1, nh2, dep + 1, q1, []⟩ L := by
  have hH : SearchInv d.Succ v0 (Marked (nh1.map not) (nh2.map not)) q1 (L.map (·.1)) := hI.inv
  refine ⟨by simpa using hH, hI.len1, hI.len2, hI.q1, by simp, fun p hp => ⟨(hI.items p hp).1, Nat.le_succ_of_le (hI.items p hp).2⟩,
    hI.sorted, ?_, hI.sound⟩
  intro w m hm hs
  show Marked (nh1.map not) (nh2.map not) w
  by_cases hm' : m ≤ dep
  · exact hI.all w m hm' hs
  · obtain rfl : m = dep + 1 := by show m = dep + 1; have : m ≤ dep + 1 := hm; omega
    obtain ⟨y, hy, ha⟩ := hs
    rcases (hH.handled y).mp (hI.all y dep (le_refl _) hy) with h | h
    · exact absurd hy ((hI.q1 y h).2 dep (Nat.lt_succ_self _))
    · exact hH.closed y h w ha

theorem bfsNext_or (w1 : d.graph1.WF) (w2 : d.graph2.WF) {v0 : DualIndex} {s : BfsDual} {L : List (DualIndex × Nat)}
    (hI : BfsA d v0 s L) :
    (bfsDualNext d s = .ok (none, s) ∧ s.queue0 = [] ∧ s.queue1 = []) ∨
    (∃ x s', bfsDualNext d s = .ok (some x, s') ∧ BfsA d v0 s' (L ++ [x])) ∨
    (bfsDualNext d s = .panic ∧ ∃ w, Relation.ReflTransGen d.Succ v0 w ∧ ¬ d.Sound w) := by
  obtain ⟨nh1, nh2, dep, q0, q1⟩ := s
  cases q0 with
  | cons v q0 =>
    by_cases hv : d.Sound v
    · obtain ⟨s', e1, e2⟩ := hI.visit w1 w2 hv
      exact Or.inr (Or.inl ⟨_, s', e1 _, e2⟩)
    · exact Or.inr (Or.inr ⟨hI.visit_panic w1 w2 hv _, v, (hI.q0 v List.mem_cons_self).1.reach, hv⟩)
  | nil =>
    cases q1 with
    | nil => exact Or.inl ⟨rfl, rfl, rfl⟩
    | cons v q1 =>
      by_cases hv : d.Sound v
      · obtain ⟨s', e1, e2⟩ := hI.swap.visit w1 w2 hv
        exact Or.inr (Or.inl ⟨_, s', e1 _, e2⟩)
      · exact Or.inr (Or.inr ⟨hI.swap.visit_panic w1 w2 hv _, v, (hI.q1 v List.mem_cons_self).1.reach, hv⟩)

/-- A fresh or reused state. -/
theorem BfsA.start {v : DualIndex} (hv : d.IsVertex v) {s : BfsDual}
    (hs : s = match v with
      | .graph1 i => ⟨(List.replicate d.graph1.nextId true).set i false, List.replicate d.graph2.nextId true, 0, [.graph1 i], []⟩
      | .graph2 i => ⟨List.replicate d.graph1.nextId true, (List.replicate d.graph2.nextId true).set i false, 0, [.graph2 i], []⟩) :
    BfsA d v s [] := by
  rcases v with i | i
  · have hi : i < d.graph1.nextId := hv
    simp only at hs
    subst hs
    have hM : ∀ w, Marked (((List.replicate d.graph1.nextId true).set i false).map not)
        ((List.replicate d.graph2.nextId true).map not) w ↔ w = .graph1 i := by
      rintro (k | k)
      · simp only [Marked, List.map_set, List.getElem?_set, WhichGraph.graph1.injEq]
        by_cases hk : i = k
        · subst hk; simp [hi]
        · simp [hk, List.getElem?_replicate, Ne.symm hk]
      · simp [Marked, List.getElem?_replicate]
    refine ⟨SearchInv.init hM, by simp, by simp, ?_, by simp, by simp, by simp, ?_, by simp⟩
    · intro x hx
      simp at hx; subst hx
      exact ⟨rfl, fun m hm => absurd hm (Nat.not_lt_zero m)⟩
    · intro w m hm hst
      obtain rfl : m = 0 := Nat.le_zero.mp hm
      exact (hM w).mpr hst
  · have hi : i < d.graph2.nextId := hv
    simp only at hs
    subst hs
    have hM : ∀ w, Marked ((List.replicate d.graph1.nextId true).map not)
        (((List.replicate d.graph2.nextId true).set i false).map not) w ↔ w = .graph2 i := by
      rintro (k | k)
      · simp [Marked, List.getElem?_replicate]
      · simp only [Marked, List.map_set, List.getElem?_set, WhichGraph.graph2.injEq]
        by_cases hk : i = k
        · subst hk; simp [hi]
        · simp [hk, List.getElem?_replicate, Ne.symm hk]
    refine ⟨SearchInv.init hM, by simp, by simp, ?_, by simp, by simp, by simp, ?_, by simp⟩
    · intro x hx
      simp at hx; subst hx
      exact ⟨rfl, fun m hm => absurd hm (Nat.not_lt_zero m)⟩
    · intro w m hm hst
      obtain rfl : m = 0 := Nat.le_zero.mp hm
      exact (hM w).mpr hst

theorem BfsA.init (w1 : d.graph1.WF) (w2 : d.graph2.WF) {v : DualIndex} (hv : d.IsVertex v) : BfsA d v (BfsDual.new d v) [] := by
  have L1 := w1.len
  have L2 := w2.len
  refine BfsA.start hv ?_
  rcases v with i | i
  · have hi : i < d.graph1.nextId := hv
    simp [BfsDual.new, L1, L2, hi]
  · have hi : i < d.graph2.nextId := hv
    simp [BfsDual.new, L1, L2, hi]

theorem BfsA.reuse (w1 : d.graph1.WF) (w2 : d.graph2.WF) {v : DualIndex} (hv : d.IsVertex v) {s : BfsDual}
    (h1 : s.notHandled1.length = d.graph1.nextId) (h2 : s.notHandled2.length = d.graph2.nextId) :
    ∃ s', BfsDual.reuse d s v = .ok s' ∧ BfsA d v s' [] := by
  have L1 := w1.len
  have L2 := w2.len
  have m1 : s.notHandled1.map (fun _ => true) = List.replicate d.graph1.nextId true := by
    rw [← h1]; exact List.map_const' ..
  have m2 : s.notHandled2.map (fun _ => true) = List.replicate d.graph2.nextId true := by
    rw [← h2]; exact List.map_const' ..
  rcases v with i | i
  · have hi : i < d.graph1.nextId := hv
    exact ⟨_, by simp [BfsDual.reuse, L1, hi, m1, m2, Vec.put_of_lt], BfsA.start (v := .graph1 i) hv rfl⟩
  · have hi : i < d.graph2.nextId := hv
    exact ⟨_, by simp [BfsDual.reuse, L2, hi, m1, m2, Vec.put_of_lt], BfsA.start (v := .graph2 i) hv rfl⟩

theorem collect_bfs_or (w1 : d.graph1.WF) (w2 : d.graph2.WF) {v : DualIndex} {s : BfsDual} (hI : BfsA d v s []) {fuel : Nat}
    (hf : d.totalVertices < fuel) :
    (∃ L s', collect (bfsDualNext d) fuel s = .ok (L, s') ∧ d.Layers v L ∧ (∀ p ∈ L, d.IsVertex p.1 ∧ d.Sound p.1) ∧
      s'.notHandled1.length = d.graph1.nextId ∧ s'.notHandled2.length = d.graph2.nextId) ∨
    (collect (bfsDualNext d) fuel s = .panic ∧ ∃ w, Relation.ReflTransGen d.Succ v w ∧ ¬ d.Sound w) := by
  rcases collect_spec_or (next := bfsDualNext d) (fun s L => BfsA d v s L)
    (fun s L => d.Layers v L ∧ (∀ p ∈ L, d.IsVertex p.1 ∧ d.Sound p.1) ∧
      s.notHandled1.length = d.graph1.nextId ∧ s.notHandled2.length = d.graph2.nextId)
    (∃ w, Relation.ReflTransGen d.Succ v w ∧ ¬ d.Sound w) d.totalVertices
    (by
      intro s L hI
      rcases bfsNext_or w1 w2 hI with ⟨e1, e2, e3⟩ | h | h
      · have hb := hI.inv
        rw [e2, e3] at hb
        exact Or.inl ⟨s, e1, ⟨hb.nodup_done, hb.done, fun p hp => (hI.items p hp).1, hI.sorted⟩,
          fun p hp => ⟨hI.vertex (Or.inr (Or.inr (List.mem_map_of_mem hp))), hI.sound p hp⟩, hI.len1, hI.len2⟩
      · exact Or.inr (Or.inl h)
      · exact Or.inr (Or.inr h))
    (fun s L hI => by
      have := length_le_total w1 w2 hI.inv.nodup_done (fun _ hv => hI.vertex (Or.inr (Or.inr hv)))
      simpa using this) fuel s [] hI (by simpa using hf) with ⟨L', s', h1, h2⟩ | ⟨h1, h2⟩
  · exact Or.inl ⟨L', s', h1, by simpa using h2⟩
  · exact Or.inr ⟨h1, h2⟩

end DualGraph
end Verif
