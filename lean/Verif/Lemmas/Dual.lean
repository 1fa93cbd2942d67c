import Verif.Spec.Dual
import Verif.Lemmas.Connect

/-!
# Dual graphs: cross edges and searches
-/

set_option linter.unusedSectionVars false
set_option linter.unusedSimpArgs false

namespace Verif
open AdjContainer GenericGraph

variable {J T1 A1 T2 A2 : Type} [AdjTrait J] [AdjContainer T1 A1] [AdjContainer T2 A2] [LawfulAdj T1 A1] [LawfulAdj T2 A2]

namespace DualGraph
variable {d : DualGraph J T1 A1 T2 A2}

theorem idx_list1 {i : Nat} (hi : i < d.adj1.length) : ∃ a, Vec.idx d.adj1 i = .ok a ∧ AdjTrait.slice a = d.list1 i :=
  ⟨d.adj1[i], Vec.idx_of_lt hi, by simp [list1, hi]⟩

theorem idx_list2 {i : Nat} (hi : i < d.adj2.length) : ∃ a, Vec.idx d.adj2 i = .ok a ∧ AdjTrait.slice a = d.list2 i :=
  ⟨d.adj2[i], Vec.idx_of_lt hi, by simp [list2, hi]⟩

theorem list1_lt {i j : Nat} (h : j ∈ d.list1 i) : i < d.adj1.length := by
  by_contra hc
  rw [list1, List.getElem?_eq_none (by omega)] at h
  simp at h

theorem list2_lt {i j : Nat} (h : j ∈ d.list2 i) : i < d.adj2.length := by
  by_contra hc
  rw [list2, List.getElem?_eq_none (by omega)] at h
  simp at h

theorem WF.lt (h : d.WF) {i j : Nat} (hij : j ∈ d.list1 i) : i < d.graph1.nextId ∧ j < d.graph2.nextId := by
  have h1 := list1_lt hij
  have h2 := list2_lt ((h.inv i j).mp hij)
  rw [h.len1] at h1
  rw [h.len2] at h2
  exact ⟨h1, h2⟩

/-- The neighbours of a vertex in the order in which they are visited. -/
def nbrs (d : DualGraph J T1 A1 T2 A2) : DualIndex → List DualIndex
  | .graph1 i => (d.graph1.nbrs i).map .graph1 ++ (d.list1 i).map .graph2
  | .graph2 i => (d.graph2.nbrs i).map .graph2 ++ (d.list2 i).map .graph1

theorem WF.adj_iff (h : d.WF) {v w : DualIndex} : d.union.Adj v w ↔ w ∈ d.nbrs v := by
  rcases v with i | i <;> rcases w with j | j
  · simp [union, nbrs, h.wf1.adj_iff]
  · simp [union, nbrs, cross]
  · simp [union, nbrs, cross, h.inv]
  · simp [union, nbrs, h.wf2.adj_iff]

theorem WF.vertex_of_adj (h : d.WF) {v w : DualIndex} (ha : d.union.Adj v w) : d.IsVertex w := by
  rcases v with i | i <;> rcases w with j | j
  · exact h.wf1.lt _ _ (h.wf1.adj_iff.mp ha)
  · exact (h.lt ha).2
  · exact (h.lt ha).1
  · exact h.wf2.lt _ _ (h.wf2.adj_iff.mp ha)

theorem WF.vertex_of_reachable (h : d.WF) {v w : DualIndex} (hr : d.union.Reachable v w) (hv : d.IsVertex v) : d.IsVertex w := by
  rw [reachable_iff_rtg] at hr
  induction hr with
  | refl => exact hv
  | tail _ ha _ => exact h.vertex_of_adj ha

/-- All vertices. -/
def all (d : DualGraph J T1 A1 T2 A2) : List DualIndex :=
  (List.range d.graph1.nextId).map .graph1 ++ (List.range d.graph2.nextId).map .graph2

theorem mem_all {v : DualIndex} : v ∈ d.all ↔ d.IsVertex v := by
  rcases v with i | i <;> simp [all, IsVertex, GenericGraph.vertexCount]

theorem all_nodup : d.all.Nodup := by
  unfold all
  rw [List.nodup_append]
  refine ⟨List.nodup_range.map (fun a b h => by simpa using h), List.nodup_range.map (fun a b h => by simpa using h), ?_⟩
  intro a ha b hb
  obtain ⟨i, _, rfl⟩ := List.mem_map.mp ha
  obtain ⟨j, _, rfl⟩ := List.mem_map.mp hb
  simp

theorem WF.all_length (h : d.WF) : d.all.length = d.totalVertices := by
  unfold all totalVertices
  rw [h.wf1.len, h.wf2.len]
  simp

theorem WF.length_le (h : d.WF) {L : List DualIndex} (hn : L.Nodup) (hv : ∀ v ∈ L, d.IsVertex v) : L.length ≤ d.totalVertices := by
  rw [← h.all_length]
  exact (hn.subperm (fun v hv' => mem_all.mpr (hv v hv'))).length_le

end DualGraph

/-! ### The loops over neighbours -/

theorem visitStackW_spec (mk : Nat → DualIndex) : ∀ (l : List Nat) (handled : List Bool) (stack : List DualIndex),
    (∀ i ∈ l, i < handled.length) → ∃ handled' new, visitStackW mk l handled stack =
      .ok (handled', (new.map mk).reverse ++ stack) ∧ Visited l handled handled' new := by
  intro l
  induction l with
  | nil =>
    intro handled stack _
    exact ⟨handled, [], rfl, rfl, List.nodup_nil, by simp, by simp⟩
  | cons i l ih =>
    intro handled stack hl
    have hi := hl i (by simp)
    cases hb : handled[i] with
    | true =>
      obtain ⟨handled', new, h1, h2⟩ := ih handled stack (fun j hj => hl j (by simp [hj]))
      exact ⟨handled', new, by simp [visitStackW, Vec.idx_of_lt hi, hb, h1], h2.cons_old (by simp [hi, hb])⟩
    | false =>
      obtain ⟨handled', new, h1, h2⟩ := ih (handled.set i true) (mk i :: stack)
        (fun j hj => by simpa using hl j (by simp [hj]))
      exact ⟨handled', i :: new, by simp [visitStackW, Vec.idx_of_lt hi, hb, Vec.put_of_lt hi, h1],
        h2.cons_new (by simp [hi, hb]) hi⟩

theorem visitQueueW_spec (mk : Nat → DualIndex) : ∀ (l : List Nat) (nh : List Bool) (queue : List DualIndex),
    (∀ i ∈ l, i < nh.length) → ∃ nh' new, visitQueueW mk l nh queue = .ok (nh', queue ++ new.map mk) ∧
      Visited l (nh.map not) (nh'.map not) new := by
  intro l
  induction l with
  | nil =>
    intro nh queue _
    exact ⟨nh, [], by simp [visitQueueW], rfl, List.nodup_nil, by simp, by simp⟩
  | cons i l ih =>
    intro nh queue hl
    have hi := hl i (by simp)
    cases hb : nh[i] with
    | false =>
      obtain ⟨nh', new, h1, h2⟩ := ih nh queue (fun j hj => hl j (by simp [hj]))
      exact ⟨nh', new, by simp [visitQueueW, Vec.idx_of_lt hi, hb, h1], h2.cons_old (by simp [hi, hb])⟩
    | true =>
      obtain ⟨nh', new, h1, h2⟩ := ih (nh.set i false) (queue ++ [mk i])
        (fun j hj => by simpa using hl j (by simp [hj]))
      refine ⟨nh', i :: new, by simp [visitQueueW, Vec.idx_of_lt hi, hb, Vec.put_of_lt hi, h1], ?_⟩
      rw [List.map_set] at h2
      exact h2.cons_new (by simp [hi, hb]) (by simpa using hi)

theorem visited_iff {l : List Nat} {handled handled' : List Bool} {new : List Nat} (hlt : ∀ i ∈ l, i < handled.length)
    (hv : Visited l handled handled' new) :
    (∀ w, w ∈ new ↔ w ∈ l ∧ ¬ handled[w]? = some true) ∧
    (∀ w, handled'[w]? = some true ↔ handled[w]? = some true ∨ w ∈ new) := by
  have hb : ∀ w, w ∈ l → (handled[w]? = some false ↔ ¬ handled[w]? = some true) := by
    intro w hw
    rw [List.getElem?_eq_getElem (hlt w hw)]
    cases handled[w]'(hlt w hw) <;> simp
  constructor
  · intro w
    rw [hv.mem]
    constructor
    · rintro ⟨h1, h2⟩; exact ⟨h1, (hb w h1).mp h2⟩
    · rintro ⟨h1, h2⟩; exact ⟨h1, (hb w h1).mpr h2⟩
  · intro w
    rw [hv.get, hv.mem]
    by_cases hw : w ∈ l
    · simp only [hw, if_true, true_and, true_iff]
      rw [hb w hw]; tauto
    · simp [hw]

/-- The vertices marked in two lists. -/
def Marked (h1 h2 : List Bool) : DualIndex → Prop
  | .graph1 i => h1[i]? = some true
  | .graph2 i => h2[i]? = some true

/-- Two loops, one for each graph, as one search step. -/
theorem visited_both {l1 l2 : List Nat} {h1 h1' h2 h2' : List Bool} {new1 new2 : List Nat}
    (hlt1 : ∀ i ∈ l1, i < h1.length) (hlt2 : ∀ i ∈ l2, i < h2.length) (hv1 : Visited l1 h1 h1' new1) (hv2 : Visited l2 h2 h2' new2)
    (ws : List DualIndex) (hws : ∀ w, w ∈ ws ↔ w ∈ l1.map WhichGraph.graph1 ∨ w ∈ l2.map WhichGraph.graph2) :
    (∀ w, (w ∈ new1.map WhichGraph.graph1 ∨ w ∈ new2.map WhichGraph.graph2) ↔ w ∈ ws ∧ ¬ Marked h1 h2 w) ∧
    (∀ w, Marked h1' h2' w ↔ Marked h1 h2 w ∨ (w ∈ new1.map WhichGraph.graph1 ∨ w ∈ new2.map WhichGraph.graph2)) ∧
    (new1.map WhichGraph.graph1 ++ new2.map WhichGraph.graph2).Nodup := by
  obtain ⟨a1, a2⟩ := visited_iff hlt1 hv1
  obtain ⟨b1, b2⟩ := visited_iff hlt2 hv2
  refine ⟨?_, ?_, ?_⟩
  · intro w
    rw [hws]
    rcases w with i | i
    · simp [Marked, a1]
    · simp [Marked, b1]
  · intro w
    rcases w with i | i
    · simp [Marked, a2]
    · simp [Marked, b2]
  · rw [List.nodup_append]
    refine ⟨hv1.nodup.map (fun a b h => by simpa using h), hv2.nodup.map (fun a b h => by simpa using h), ?_⟩
    intro a ha b hb
    obtain ⟨i, _, rfl⟩ := List.mem_map.mp ha
    obtain ⟨j, _, rfl⟩ := List.mem_map.mp hb
    simp

namespace DualGraph
variable {d : DualGraph J T1 A1 T2 A2}

/-! ### Depth first search -/

/-- Invariant of the depth first search. -/
structure DfsI (d : DualGraph J T1 A1 T2 A2) (v0 : DualIndex) (s : DfsDual) (D : List DualIndex) : Prop where
  inv : SearchInv d.union.Adj v0 (Marked s.handled1 s.handled2) s.stack D
  len1 : s.handled1.length = d.graph1.nextId
  len2 : s.handled2.length = d.graph2.nextId

theorem DfsI.vertex {v0 : DualIndex} {s : DfsDual} {D : List DualIndex} (h : DfsI d v0 s D) {v : DualIndex}
    (hv : v ∈ s.stack ∨ v ∈ D) : d.IsVertex v := by
  have := (h.inv.handled v).mpr hv
  rcases v with i | i
  · show i < d.graph1.nextId
    rw [← h.len1]; exact (List.getElem?_eq_some_iff.mp this).1
  · show i < d.graph2.nextId
    rw [← h.len2]; exact (List.getElem?_eq_some_iff.mp this).1

theorem DfsI.step (h : d.WF) {v0 v : DualIndex} {s : DfsDual} {st D : List DualIndex} (hI : DfsI d v0 s D)
    (hs : s.stack = v :: st) : ∃ s', dfsDualNext d s = .ok (some v, s') ∧ DfsI d v0 s' (D ++ [v]) := by
  obtain ⟨h1, h2, stack⟩ := s
  simp only at hs
  subst hs
  have hvx := hI.vertex (v := v) (Or.inl List.mem_cons_self)
  have l1 : h1.length = d.graph1.nextId := hI.len1
  have l2 : h2.length = d.graph2.nextId := hI.len2
  have hH := hI.inv
  simp only at hH
  rcases v with i | i
  · have hi : i < d.graph1.vertices.length := h.wf1.lt_length hvx
    obtain ⟨e1, e2⟩ := idx_nbrs hi
    obtain ⟨a, f1, f2⟩ := idx_list1 (d := d) (i := i) (by rw [h.len1]; exact hvx)
    have hlt1 : ∀ j ∈ d.graph1.nbrs i, j < h1.length := fun j hj => by rw [l1]; exact h.wf1.lt _ _ hj
    have hlt2 : ∀ j ∈ d.list1 i, j < h2.length := fun j hj => by rw [l2]; exact (h.lt hj).2
    obtain ⟨h1', new1, g1, g2⟩ := visitStackW_spec .graph1 _ h1 st hlt1
    obtain ⟨h2', new2, k1, k2⟩ := visitStackW_spec .graph2 _ h2 ((new1.map WhichGraph.graph1).reverse ++ st) hlt2
    obtain ⟨m1, m2, m3⟩ := visited_both hlt1 hlt2 g2 k2 (d.nbrs (.graph1 i)) (by intro w; simp [nbrs])
    refine ⟨⟨h1', h2', (new2.map WhichGraph.graph2).reverse ++ ((new1.map WhichGraph.graph1).reverse ++ st)⟩, ?_, ?_⟩
    · simp [dfsDualNext, e1, e2, g1, f1, f2, k1]
    · refine ⟨hH.step (new := new1.map WhichGraph.graph1 ++ new2.map WhichGraph.graph2) ?_ m3 ?_ ?_, by rw [g2.len, l1], by rw [k2.len, l2]⟩
      · intro w
        rw [List.mem_append, m1, h.adj_iff]
      · intro w
        rw [List.mem_append]; exact m2 w
      · rw [List.append_assoc]
        refine (List.Perm.append (List.reverse_perm _) ((List.reverse_perm _).append_right st)).trans ?_
        rw [← List.append_assoc, ← List.append_assoc]
        exact List.perm_append_comm.append_right st
  · have hi : i < d.graph2.vertices.length := h.wf2.lt_length hvx
    obtain ⟨e1, e2⟩ := idx_nbrs hi
    obtain ⟨a, f1, f2⟩ := idx_list2 (d := d) (i := i) (by rw [h.len2]; exact hvx)
    have hlt2 : ∀ j ∈ d.graph2.nbrs i, j < h2.length := fun j hj => by rw [l2]; exact h.wf2.lt _ _ hj
    have hlt1 : ∀ j ∈ d.list2 i, j < h1.length := fun j hj => by rw [l1]; exact (h.lt ((h.inv _ _).mpr hj)).1
    obtain ⟨h2', new2, g1, g2⟩ := visitStackW_spec .graph2 _ h2 st hlt2
    obtain ⟨h1', new1, k1, k2⟩ := visitStackW_spec .graph1 _ h1 ((new2.map WhichGraph.graph2).reverse ++ st) hlt1
    obtain ⟨m1, m2, m3⟩ := visited_both hlt1 hlt2 k2 g2 (d.nbrs (.graph2 i)) (by intro w; rw [nbrs, List.mem_append]; exact or_comm)
    refine ⟨⟨h1', h2', (new1.map WhichGraph.graph1).reverse ++ ((new2.map WhichGraph.graph2).reverse ++ st)⟩, ?_, ?_⟩
    · simp [dfsDualNext, e1, e2, g1, f1, f2, k1]
    · refine ⟨hH.step (new := new1.map WhichGraph.graph1 ++ new2.map WhichGraph.graph2) ?_ m3 ?_ ?_, by rw [k2.len, l1], by rw [g2.len, l2]⟩
      · intro w
        rw [List.mem_append, m1, h.adj_iff]
      · intro w
        rw [List.mem_append]; exact m2 w
      · rw [List.append_assoc]
        exact List.Perm.append (List.reverse_perm _) ((List.reverse_perm _).append_right st)

theorem DfsI.init (h : d.WF) {v : DualIndex} (hv : d.IsVertex v) : DfsI d v (DfsDual.new d v) [] := by
  have L1 := h.wf1.len
  have L2 := h.wf2.len
  rcases v with i | i
  · have hi : i < d.graph1.nextId := hv
    have : DfsDual.new d (.graph1 i) = ⟨(List.replicate d.graph1.nextId false).set i true, List.replicate d.graph2.nextId false,
        [.graph1 i]⟩ := by simp [DfsDual.new, L1, L2, hi]
    rw [this]
    refine ⟨SearchInv.init ?_, by simp, by simp⟩
    rintro (k | k)
    · simp only [Marked, List.getElem?_set, WhichGraph.graph1.injEq]
      by_cases hk : i = k
      · subst hk; simp [hi]
      · simp [hk, List.getElem?_replicate, Ne.symm hk]
    · simp [Marked, List.getElem?_replicate]
  · have hi : i < d.graph2.nextId := hv
    have : DfsDual.new d (.graph2 i) = ⟨List.replicate d.graph1.nextId false, (List.replicate d.graph2.nextId false).set i true,
        [.graph2 i]⟩ := by simp [DfsDual.new, L1, L2, hi]
    rw [this]
    refine ⟨SearchInv.init ?_, by simp, by simp⟩
    rintro (k | k)
    · simp [Marked, List.getElem?_replicate]
    · simp only [Marked, List.getElem?_set, WhichGraph.graph2.injEq]
      by_cases hk : i = k
      · subst hk; simp [hi]
      · simp [hk, List.getElem?_replicate, Ne.symm hk]

theorem DfsI.length_le (h : d.WF) {v0 : DualIndex} {s : DfsDual} {D : List DualIndex} (hI : DfsI d v0 s D) :
    D.length ≤ d.totalVertices :=
  h.length_le hI.inv.nodup_done (fun _ hv => hI.vertex (Or.inr hv))

theorem DfsI.order {v0 : DualIndex} {s : DfsDual} {D : List DualIndex} (hI : DfsI d v0 s D) (hs : s.stack = []) :
    SearchOrder d.union v0 D := by
  have hb := hI.inv
  rw [hs] at hb
  have hh : D.head? = some v0 := by
    rcases hb.first with ⟨_, h2⟩ | h2
    · simp at h2
    · exact h2
  refine ⟨hb.nodup_done, fun w => by rw [hb.done, reachable_iff_rtg], hh, ?_⟩
  intro L1 x L2 hD hne
  have hx : x ≠ v0 := by
    rintro rfl
    have hnd := hb.nodup_done
    cases L1 with
    | nil => exact hne rfl
    | cons y L1 =>
      subst hD
      simp at hh; subst hh
      simp at hnd
  exact hb.chain L1 x L2 hD hx

/-- `DfsDualIndex` run to its end. -/
theorem dfsIndex_spec (h : d.WF) {v : DualIndex} (hv : d.IsVertex v) {fuel : Nat} (hf : d.totalVertices < fuel) :
    ∃ L, d.dfsIndex v fuel = .ok L ∧ SearchOrder d.union v L := by
  obtain ⟨L', s', h1, h2⟩ := collect_spec (next := dfsDualNext d) (fun s L => DfsI d v s L)
    (fun _ L => SearchOrder d.union v L) d.totalVertices
    (by
      intro s L hI
      cases hs : s.stack with
      | nil => exact Or.inl ⟨s, by simp [dfsDualNext, hs], hI.order hs⟩
      | cons x st =>
        obtain ⟨s', e1, e2⟩ := hI.step h hs
        exact Or.inr ⟨x, s', e1, e2⟩)
    (fun s L hI => hI.length_le h) fuel (DfsDual.new d v) [] (DfsI.init h hv) (by simpa using hf)
  exact ⟨L', by simp [dfsIndex, h1], by simpa using h2⟩

/-! ### Breadth first search -/

/-- Invariant of the breadth first search. -/
structure BfsI (d : DualGraph J T1 A1 T2 A2) (v0 : DualIndex) (s : BfsDual) (L : List (DualIndex × Nat)) : Prop where
  inv : BfsInv d.union v0 (Marked (s.notHandled1.map not) (s.notHandled2.map not)) s.queue0 s.queue1 s.depth (L.map (·.1))
  len1 : s.notHandled1.length = d.graph1.nextId
  len2 : s.notHandled2.length = d.graph2.nextId
  items : ∀ p ∈ L, p.2 = d.union.dist v0 p.1 ∧ p.2 ≤ s.depth
  sorted : (L.map (·.2)).Pairwise (· ≤ ·)

theorem BfsI.vertex {v0 : DualIndex} {s : BfsDual} {L : List (DualIndex × Nat)} (h : BfsI d v0 s L) {v : DualIndex}
    (hv : v ∈ s.queue0 ∨ v ∈ s.queue1 ∨ v ∈ L.map (·.1)) : d.IsVertex v := by
  have := (h.inv.base.handled v).mpr (by simp only [List.mem_append]; tauto)
  rcases v with i | i
  · have := (List.getElem?_eq_some_iff.mp this).1
    rw [List.length_map, h.len1] at this; exact this
  · have := (List.getElem?_eq_some_iff.mp this).1
    rw [List.length_map, h.len2] at this; exact this

theorem BfsI.length_le (h : d.WF) {v0 : DualIndex} {s : BfsDual} {L : List (DualIndex × Nat)} (hI : BfsI d v0 s L) :
    L.length ≤ d.totalVertices := by
  have := h.length_le hI.inv.base.nodup_done (fun _ hv => hI.vertex (Or.inr (Or.inr hv)))
  simpa using this

theorem BfsI.visit (h : d.WF) {v0 v : DualIndex} {nh1 nh2 : List Bool} {dep : Nat} {q0 q1 : List DualIndex}
    {L : List (DualIndex × Nat)} (hI : BfsI d v0 ⟨nh1, nh2, dep, v :: q0, q1⟩ L) :
    ∃ s', (∀ qq, bfsDualVisit d ⟨nh1, nh2, dep, qq, q1⟩ v q0 = .ok (some (v, dep), s')) ∧ BfsI d v0 s' (L ++ [(v, dep)]) := by
  have hvx := hI.vertex (v := v) (Or.inl List.mem_cons_self)
  have l1 : nh1.length = d.graph1.nextId := hI.len1
  have l2 : nh2.length = d.graph2.nextId := hI.len2
  have hH := hI.inv
  simp only at hH
  have hitems : ∀ p ∈ L ++ [(v, dep)], p.2 = d.union.dist v0 p.1 ∧ p.2 ≤ dep := by
    intro p hp
    rcases List.mem_append.mp hp with hp | hp
    · exact hI.items p hp
    · simp at hp; subst hp
      exact ⟨(hH.d0 v List.mem_cons_self).symm, le_refl _⟩
  have hsorted : ((L ++ [(v, dep)]).map (·.2)).Pairwise (· ≤ ·) := by
    rw [List.map_append, List.pairwise_append]
    refine ⟨hI.sorted, by simp, ?_⟩
    intro a ha b hb
    simp at hb; subst hb
    obtain ⟨p, hp, rfl⟩ := List.mem_map.mp ha
    exact (hI.items p hp).2
  rcases v with i | i
  · have hi : i < d.graph1.vertices.length := h.wf1.lt_length hvx
    obtain ⟨e1, e2⟩ := idx_nbrs hi
    obtain ⟨a, f1, f2⟩ := idx_list1 (d := d) (i := i) (by rw [h.len1]; exact hvx)
    have hlt1 : ∀ j ∈ d.graph1.nbrs i, j < nh1.length := fun j hj => by rw [l1]; exact h.wf1.lt _ _ hj
    have hlt2 : ∀ j ∈ d.list1 i, j < nh2.length := fun j hj => by rw [l2]; exact (h.lt hj).2
    obtain ⟨nh1', new1, g1, g2⟩ := visitQueueW_spec .graph1 _ nh1 q1 hlt1
    obtain ⟨nh2', new2, k1, k2⟩ := visitQueueW_spec .graph2 _ nh2 (q1 ++ new1.map WhichGraph.graph1) hlt2
    obtain ⟨m1, m2, m3⟩ := visited_both (by simpa using hlt1) (by simpa using hlt2) g2 k2 (d.nbrs (.graph1 i)) (by intro w; simp [nbrs])
    have gl := g2.len
    have kl := k2.len
    simp only [List.length_map] at gl kl
    refine ⟨⟨nh1', nh2', dep, q0, q1 ++ new1.map WhichGraph.graph1 ++ new2.map WhichGraph.graph2⟩, ?_, ?_⟩
    · intro qq; simp [bfsDualVisit, e1, e2, g1, f1, f2, k1]
    · refine ⟨?_, by show nh1'.length = _; omega, by show nh2'.length = _; omega, hitems, hsorted⟩
      rw [List.map_append]
      refine hH.pop (new := new1.map WhichGraph.graph1 ++ new2.map WhichGraph.graph2) ?_ m3 ?_ (by rw [List.append_assoc])
      · intro w
        rw [List.mem_append, m1, h.adj_iff]
      · intro w
        rw [List.mem_append]; exact m2 w
  · have hi : i < d.graph2.vertices.length := h.wf2.lt_length hvx
    obtain ⟨e1, e2⟩ := idx_nbrs hi
    obtain ⟨a, f1, f2⟩ := idx_list2 (d := d) (i := i) (by rw [h.len2]; exact hvx)
    have hlt2 : ∀ j ∈ d.graph2.nbrs i, j < nh2.length := fun j hj => by rw [l2]; exact h.wf2.lt _ _ hj
    have hlt1 : ∀ j ∈ d.list2 i, j < nh1.length := fun j hj => by rw [l1]; exact (h.lt ((h.inv _ _).mpr hj)).1
    obtain ⟨nh2', new2, g1, g2⟩ := visitQueueW_spec .graph2 _ nh2 q1 hlt2
    obtain ⟨nh1', new1, k1, k2⟩ := visitQueueW_spec .graph1 _ nh1 (q1 ++ new2.map WhichGraph.graph2) hlt1
    obtain ⟨m1, m2, m3⟩ := visited_both (by simpa using hlt1) (by simpa using hlt2) k2 g2 (d.nbrs (.graph2 i)) (by intro w; rw [nbrs, List.mem_append]; exact or_comm)
    have gl := g2.len
    have kl := k2.len
    simp only [List.length_map] at gl kl
    refine ⟨⟨nh1', nh2', dep, q0, q1 ++ new2.map WhichGraph.graph2 ++ new1.map WhichGraph.graph1⟩, ?_, ?_⟩
    · intro qq; simp [bfsDualVisit, e1, e2, g1, f1, f2, k1]
    · refine ⟨?_, by show nh1'.length = _; omega, by show nh2'.length = _; omega, hitems, hsorted⟩
      rw [List.map_append]
      refine hH.pop (new := new2.map WhichGraph.graph2 ++ new1.map WhichGraph.graph1) ?_ ?_ ?_ (by rw [List.append_assoc])
      · intro w
        rw [List.mem_append, or_comm, m1, h.adj_iff]
      · exact (List.perm_append_comm.nodup_iff).mp m3
      · intro w
        rw [List.mem_append, or_comm (a := w ∈ _)]; exact m2 w

theorem bfsNext_step (h : d.WF) {v0 : DualIndex} {s : BfsDual} {L : List (DualIndex × Nat)} (hI : BfsI d v0 s L) :
    (bfsDualNext d s = .ok (none, s) ∧ s.queue0 = [] ∧ s.queue1 = []) ∨
    (∃ x s', bfsDualNext d s = .ok (some x, s') ∧ BfsI d v0 s' (L ++ [x])) := by
  obtain ⟨nh1, nh2, dep, q0, q1⟩ := s
  cases q0 with
  | cons v q0 =>
    obtain ⟨s', e1, e2⟩ := hI.visit h
    exact Or.inr ⟨_, s', e1 _, e2⟩
  | nil =>
    cases q1 with
    | nil => exact Or.inl ⟨rfl, rfl, rfl⟩
    | cons v q1 =>
      have hI' : BfsI d v0 ⟨nh1, nh2, dep + 1, v :: q1, []⟩ L :=
        ⟨hI.inv.swap, hI.len1, hI.len2, fun p hp => by
          obtain ⟨a, b⟩ := hI.items p hp
          exact ⟨a, Nat.le_succ_of_le b⟩, hI.sorted⟩
      obtain ⟨s', e1, e2⟩ := hI'.visit h
      exact Or.inr ⟨_, s', e1 _, e2⟩

theorem BfsI.order {v0 : DualIndex} {s : BfsDual} {L : List (DualIndex × Nat)} (h : BfsI d v0 s L) (h0 : s.queue0 = [])
    (h1 : s.queue1 = []) : LayerOrder d.union v0 L := by
  have hb := h.inv.base
  rw [h0, h1] at hb
  refine ⟨hb.nodup_done, ?_, ?_, fun p hp => (h.items p hp).1, h.sorted⟩
  · intro w; rw [hb.done, reachable_iff_rtg]
  · rcases hb.first with ⟨_, h2⟩ | h2
    · simp at h2
    · exact h2

theorem BfsI.init (h : d.WF) {v : DualIndex} (hv : d.IsVertex v) : BfsI d v (BfsDual.new d v) [] := by
  have L1 := h.wf1.len
  have L2 := h.wf2.len
  rcases v with i | i
  · have hi : i < d.graph1.nextId := hv
    have : BfsDual.new d (.graph1 i) = ⟨(List.replicate d.graph1.nextId true).set i false, List.replicate d.graph2.nextId true, 0,
        [.graph1 i], []⟩ := by simp [BfsDual.new, L1, L2, hi]
    rw [this]
    refine ⟨BfsInv.init ?_, by simp, by simp, by simp, by simp⟩
    rintro (k | k)
    · simp only [Marked, List.map_set, List.getElem?_set, WhichGraph.graph1.injEq]
      by_cases hk : i = k
      · subst hk; simp [hi]
      · simp [hk, List.getElem?_replicate, Ne.symm hk]
    · simp [Marked, List.getElem?_replicate]
  · have hi : i < d.graph2.nextId := hv
    have : BfsDual.new d (.graph2 i) = ⟨List.replicate d.graph1.nextId true, (List.replicate d.graph2.nextId true).set i false, 0,
        [.graph2 i], []⟩ := by simp [BfsDual.new, L1, L2, hi]
    rw [this]
    refine ⟨BfsInv.init ?_, by simp, by simp, by simp, by simp⟩
    rintro (k | k)
    · simp [Marked, List.getElem?_replicate]
    · simp only [Marked, List.map_set, List.getElem?_set, WhichGraph.graph2.injEq]
      by_cases hk : i = k
      · subst hk; simp [hi]
      · simp [hk, List.getElem?_replicate, Ne.symm hk]

theorem collect_bfs (h : d.WF) {v : DualIndex} (hv : d.IsVertex v) {fuel : Nat} (hf : d.totalVertices < fuel) :
    ∃ L s', collect (bfsDualNext d) fuel (BfsDual.new d v) = .ok (L, s') ∧ LayerOrder d.union v L ∧
      s'.notHandled1.length = d.graph1.nextId ∧ s'.notHandled2.length = d.graph2.nextId := by
  obtain ⟨L', s', h1, h2⟩ := collect_spec (next := bfsDualNext d) (fun s L => BfsI d v s L)
    (fun s L => LayerOrder d.union v L ∧ s.notHandled1.length = d.graph1.nextId ∧ s.notHandled2.length = d.graph2.nextId)
    d.totalVertices
    (by
      intro s L hI
      rcases bfsNext_step h hI with ⟨e1, e2, e3⟩ | ⟨x, s', e1, e2⟩
      · exact Or.inl ⟨s, e1, hI.order e2 e3, hI.len1, hI.len2⟩
      · exact Or.inr ⟨x, s', e1, e2⟩)
    (fun s L hI => hI.length_le h) fuel (BfsDual.new d v) [] (BfsI.init h hv) (by simpa using hf)
  exact ⟨L', s', h1, by simpa using h2⟩

theorem map_const_replicate {α β : Type} (l : List α) (b : β) {n : Nat} (hn : l.length = n) :
    l.map (fun _ => b) = List.replicate n b := by
  rw [List.map_const', hn]

/-- `reuse` gives the state of a fresh iterator. -/
theorem reuse_eq_new (h : d.WF) {s : BfsDual} (h1 : s.notHandled1.length = d.graph1.nextId)
    (h2 : s.notHandled2.length = d.graph2.nextId) (v : DualIndex) : BfsDual.reuse d s v = .ok (BfsDual.new d v) := by
  have L1 := h.wf1.len
  have L2 := h.wf2.len
  rcases v with i | i
  · by_cases hi : i < d.graph1.nextId
    · simp only [BfsDual.reuse, BfsDual.new, L1, L2, hi, if_true, map_const_replicate _ _ h1, map_const_replicate _ _ h2]
      rw [Vec.put_of_lt (by simpa using hi)]
      rfl
    · simp only [BfsDual.reuse, BfsDual.new, L1, L2, hi, if_false, map_const_replicate _ _ h1, map_const_replicate _ _ h2]
  · by_cases hi : i < d.graph2.nextId
    · simp only [BfsDual.reuse, BfsDual.new, L1, L2, hi, if_true, map_const_replicate _ _ h1, map_const_replicate _ _ h2]
      rw [Vec.put_of_lt (by simpa using hi)]
      rfl
    · simp only [BfsDual.reuse, BfsDual.new, L1, L2, hi, if_false, map_const_replicate _ _ h1, map_const_replicate _ _ h2]

theorem new_lengths (h : d.WF) (v : DualIndex) : (BfsDual.new d v).notHandled1.length = d.graph1.nextId ∧
    (BfsDual.new d v).notHandled2.length = d.graph2.nextId := by
  have L1 := h.wf1.len
  have L2 := h.wf2.len
  rcases v with i | i <;> simp only [BfsDual.new] <;> split <;> simp [L1, L2]

/-- A start out of range gives an iterator without items. -/
theorem new_of_not (h : d.WF) {v : DualIndex} (hv : ¬ d.IsVertex v) : (BfsDual.new d v).queue0 = [] ∧ (BfsDual.new d v).queue1 = [] ∧
    (DfsDual.new d v).stack = [] := by
  have L1 := h.wf1.len
  have L2 := h.wf2.len
  rcases v with i | i
  · have : ¬ i < d.graph1.nextId := hv
    simp [BfsDual.new, DfsDual.new, L1, L2, this]
  · have : ¬ i < d.graph2.nextId := hv
    simp [BfsDual.new, DfsDual.new, L1, L2, this]

/-- The depth of the last item is the maximum distance. -/
theorem _root_.Verif.LayerOrder.last {V : Type} {G : SimpleGraph V} {v : V} {L : List (V × Nat)}
    (h : LayerOrder G v L) : ∃ x, L.getLast? = some x ∧ G.Reachable v x.1 ∧ x.2 = G.dist v x.1 ∧
      ∀ w, G.Reachable v w → G.dist v w ≤ x.2 := by
  have hne : L ≠ [] := by
    rintro rfl
    have := h.head; simp at this
  refine ⟨L.getLast hne, List.getLast?_eq_some_getLast hne, ?_, ?_, ?_⟩
  · exact (h.mem _).mp (List.mem_map_of_mem (List.getLast_mem hne))
  · exact h.dist _ (List.getLast_mem hne)
  · intro w hw
    obtain ⟨p, hp, hpw⟩ := List.mem_map.mp ((h.mem w).mpr hw)
    subst hpw
    rw [← h.dist p hp]
    have hs := h.sorted
    rw [← List.dropLast_append_getLast hne, List.map_append, List.pairwise_append] at hs
    rw [← List.dropLast_append_getLast hne] at hp
    rcases List.mem_append.mp hp with hp | hp
    · exact hs.2.2 _ (List.mem_map_of_mem hp) _ (by simp)
    · simp at hp; rw [hp]

/-- One round of the loops in `diameter`. -/
theorem diamBody_spec (h : d.WF) (mk : Nat → DualIndex) {i : Nat} (hv : d.IsVertex (mk i)) {s : BfsDual × Nat}
    (h1 : s.1.notHandled1.length = d.graph1.nextId) (h2 : s.1.notHandled2.length = d.graph2.nextId) :
    ∃ s' m, d.diamBody mk s i = .ok (s', Nat.max s.2 m) ∧ s'.notHandled1.length = d.graph1.nextId ∧
      s'.notHandled2.length = d.graph2.nextId ∧ (∃ w, d.union.Reachable (mk i) w ∧ d.union.dist (mk i) w = m) ∧
      ∀ w, d.union.Reachable (mk i) w → d.union.dist (mk i) w ≤ m := by
  obtain ⟨L, s', e1, e2, e3, e4⟩ := collect_bfs h hv (fuel := d.totalVertices + 1) (by omega)
  obtain ⟨x, f1, f2, f3, f4⟩ := e2.last
  refine ⟨s', x.2, ?_, e3, e4, ⟨x.1, f2, f3.symm⟩, f4⟩
  simp only [diamBody, reuse_eq_new h h1 h2, Res.ok_bind, e1, f1, Res.unwrap, Res.pure_eq]

end DualGraph

end Verif
