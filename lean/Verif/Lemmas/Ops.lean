import Verif.Lemmas.Edit
import Mathlib.Algebra.Order.BigOperators.Group.Finset
import Mathlib.Tactic.Ring
import Mathlib.Data.Nat.ModEq

/-!
# `clear_edges`, `init_ring`, sorting, shuffling, constructors and conversions
-/

set_option linter.unusedSectionVars false
set_option linter.unusedSimpArgs false

namespace Verif
open AdjContainer
open scoped BigOperators

/-- Pointwise successful monadic map. -/
theorem mapM_forall₂ {α β : Type} {f : α → Res β} {P : α → β → Prop} :
    ∀ (l : List α), (∀ a ∈ l, ∃ b, f a = .ok b ∧ P a b) → ∃ l', l.mapM f = .ok l' ∧ List.Forall₂ P l l' := by
  intro l
  induction l with
  | nil => intro _; exact ⟨[], rfl, List.Forall₂.nil⟩
  | cons a l ih =>
    intro h
    obtain ⟨b, h1, h2⟩ := h a (by simp)
    obtain ⟨l', h3, h4⟩ := ih (fun x hx => h x (by simp [hx]))
    exact ⟨b :: l', by simp [List.mapM_cons, h1, h3], List.Forall₂.cons h2 h4⟩

theorem forall₂_getElem? {α β : Type} {P : α → β → Prop} {l : List α} {l' : List β} (h : List.Forall₂ P l l')
    (i : Nat) : (l[i]? = none ∧ l'[i]? = none) ∨ ∃ a b, l[i]? = some a ∧ l'[i]? = some b ∧ P a b := by
  induction h generalizing i with
  | nil => left; simp
  | cons hab _ ih =>
    cases i with
    | zero => right; exact ⟨_, _, rfl, rfl, hab⟩
    | succ i => simpa using ih i

namespace GenericGraph
variable {T A : Type} [AdjContainer T A]

/-- Two graphs have the same vertices, the same adjacency relation and the same edge counter. -/
structure TopoEq (g g' : GenericGraph T A) : Prop where
  n : g'.nextId = g.nextId
  ec : g'.edgeCount = g.edgeCount
  adj : ∀ i j, j ∈ g'.nbrs i ↔ j ∈ g.nbrs i

theorem TopoEq.refl (g : GenericGraph T A) : TopoEq g g := ⟨rfl, rfl, fun _ _ => Iff.rfl⟩
theorem TopoEq.symm {g g' : GenericGraph T A} (h : TopoEq g g') : TopoEq g' g :=
  ⟨h.n.symm, h.ec.symm, fun i j => (h.adj i j).symm⟩
theorem TopoEq.trans {g g' g'' : GenericGraph T A} (h : TopoEq g g') (h' : TopoEq g' g'') : TopoEq g g'' :=
  ⟨h'.n.trans h.n, h'.ec.trans h.ec, fun i j => (h'.adj i j).trans (h.adj i j)⟩

variable [LawfulAdj T A]

/-! ### Constructors -/

theorem fromVec_nbrs (l : List T) (i : Nat) : (fromVec l : GenericGraph T A).nbrs i = [] := by
  unfold nbrs fromVec
  simp only [List.getElem?_map, List.getElem?_zipIdx]
  cases l[i]? <;> simp [LawfulAdj.neighbors_new]

theorem fromVec_wf (l : List T) : (fromVec l : GenericGraph T A).WF where
  len := rfl
  ids i a ha := by
    simp only [fromVec, List.getElem?_map, List.getElem?_zipIdx, Option.map_map] at ha
    cases h : l[i]? <;> simp [h] at ha
    subst ha; simp [LawfulAdj.id_new]
  inv a ha := by
    simp only [fromVec, List.mem_map] at ha
    obtain ⟨p, _, rfl⟩ := ha; exact LawfulAdj.inv_new _ _
  lt i j h := by simp [fromVec_nbrs] at h
  irrefl i h := by simp [fromVec_nbrs] at h
  nodup i := by simp [fromVec_nbrs]
  symm i j h := by simp [fromVec_nbrs] at h
  count := by simp [fromVec_nbrs]; rfl

theorem fromVec_data (l : List T) : (fromVec l : GenericGraph T A).data = l := by
  unfold data fromVec
  apply List.ext_getElem?
  intro i
  simp only [List.getElem?_map, List.getElem?_zipIdx]
  cases l[i]? <;> simp [LawfulAdj.contained_new]

theorem new_eq_fromVec [Node T] (n : Nat) :
    (new n : GenericGraph T A) = fromVec ((List.range n).map Node.newFromIndex) := by
  unfold new fromVec
  simp only [List.length_map, List.length_zipIdx, List.length_range]
  congr 1
  apply List.ext_getElem?
  intro i
  simp only [List.getElem?_map, List.getElem?_zipIdx]
  cases h : (List.range n)[i]? with
  | none => simp [h]
  | some v =>
    rw [List.getElem?_eq_some_iff] at h
    obtain ⟨h1, h2⟩ := h
    simp at h2; subst h2
    simp

theorem new_nbrs [Node T] (n i : Nat) : (new n : GenericGraph T A).nbrs i = [] := by
  rw [new_eq_fromVec]; exact fromVec_nbrs _ _

theorem new_wf [Node T] (n : Nat) : (new n : GenericGraph T A).WF := by
  rw [new_eq_fromVec]; exact fromVec_wf _

/-! ### Bounds -/

theorem WF.degree_lt {g : GenericGraph T A} (h : g.WF) {i : Nat} (hi : i < g.nextId) :
    (g.nbrs i).length < g.nextId := by
  have h1 : (i :: g.nbrs i).Nodup := List.nodup_cons.mpr ⟨h.irrefl i, h.nodup i⟩
  have h2 : (i :: g.nbrs i) ⊆ List.range g.nextId := by
    intro x hx
    rcases List.mem_cons.mp hx with rfl | hx
    · simpa using hi
    · simpa using h.lt _ _ hx
  have := (h1.subperm h2).length_le
  simp at this; omega

theorem WF.edgeCount_le {g : GenericGraph T A} (h : g.WF) : 2 * g.edgeCount ≤ g.nextId * (g.nextId - 1) := by
  rw [← h.count]
  calc ∑ i ∈ Finset.range g.nextId, (g.nbrs i).length
      ≤ ∑ i ∈ Finset.range g.nextId, (g.nextId - 1) := by
        apply Finset.sum_le_sum
        intro i hi
        have := h.degree_lt (Finset.mem_range.mp hi)
        omega
    _ = g.nextId * (g.nextId - 1) := by simp

theorem WF.nbrs_nil_of_edgeCount {g : GenericGraph T A} (h : g.WF) (h0 : g.edgeCount = 0) (i : Nat) : g.nbrs i = [] := by
  by_cases hi : i < g.nextId
  · have := h.count
    rw [h0, Nat.mul_zero, Finset.sum_eq_zero_iff] at this
    exact List.length_eq_zero_iff.mp (this i (Finset.mem_range.mpr hi))
  · exact nbrs_of_ge (by rw [h.len]; omega)

/-! ### clear_edges -/

theorem clearEdges_nbrs {g : GenericGraph T A} (h : g.WF) (i : Nat) : g.clearEdges.nbrs i = [] := by
  unfold clearEdges
  by_cases h0 : g.edgeCount = 0
  · simp [h0, h.nbrs_nil_of_edgeCount h0]
  · have : (g.edgeCount != 0) = true := by simpa using h0
    simp only [this, if_true, nbrs, List.getElem?_map]
    cases g.vertices[i]? <;> simp [LawfulAdj.neighbors_clear]

theorem clearEdges_nextId (g : GenericGraph T A) : g.clearEdges.nextId = g.nextId := by
  unfold clearEdges; split <;> rfl

theorem clearEdges_edgeCount (g : GenericGraph T A) : g.clearEdges.edgeCount = 0 := by
  unfold clearEdges
  by_cases h0 : g.edgeCount = 0
  · simp [h0]
  · have : (g.edgeCount != 0) = true := by simpa using h0
    simp [this]

theorem clearEdges_length (g : GenericGraph T A) : g.clearEdges.vertices.length = g.vertices.length := by
  unfold clearEdges; split <;> simp

theorem clearEdges_data (g : GenericGraph T A) : g.clearEdges.data = g.data := by
  unfold clearEdges; split
  · simp [data, Function.comp_def, LawfulAdj.contained_clear]
  · rfl

theorem clearEdges_wf {g : GenericGraph T A} (h : g.WF) : g.clearEdges.WF := by
  refine h.of_frame (clearEdges_nextId g) (clearEdges_length g) ?_ ?_ ?_ ?_ ?_ ?_
  · intro i a ha
    unfold clearEdges at ha
    split at ha
    · simp only [List.getElem?_map] at ha
      cases hb : g.vertices[i]? with
      | none => simp [hb] at ha
      | some b =>
        simp [hb] at ha; subst ha
        exact ⟨by rw [LawfulAdj.id_clear]; exact h.ids _ _ hb, LawfulAdj.inv_clear _⟩
    · exact ⟨h.ids _ _ ha, h.inv _ (List.mem_of_getElem? ha)⟩
  all_goals simp [clearEdges_nbrs h, clearEdges_edgeCount]

/-! ### Sorting and shuffling -/

/-- Replacing every container by one with the same id, data and (up to order) neighbours. -/
theorem WF.of_forall₂ {g : GenericGraph T A} (h : g.WF) {vs : List A}
    (hv : List.Forall₂ (fun a a' => LawfulAdj.inv a' ∧ (neighbors a').Perm (neighbors a) ∧
      AdjContainer.id a' = AdjContainer.id a ∧ contained a' = contained a) g.vertices vs) :
    ({ g with vertices := vs } : GenericGraph T A).WF ∧ TopoEq g { g with vertices := vs } ∧
    ({ g with vertices := vs } : GenericGraph T A).data = g.data ∧
    ∀ i, (nbrs { g with vertices := vs } i).Perm (g.nbrs i) := by
  have hperm : ∀ i, (nbrs { g with vertices := vs } i).Perm (g.nbrs i) := by
    intro i
    unfold nbrs
    rcases forall₂_getElem? hv i with ⟨h1, h2⟩ | ⟨a, b, h1, h2, h3⟩
    · simp [h1, h2]
    · simp [h1, h2, h3.2.1]
  have hmem : ∀ i j, j ∈ nbrs { g with vertices := vs } i ↔ j ∈ g.nbrs i := fun i j => (hperm i).mem_iff
  refine ⟨?_, ⟨rfl, rfl, hmem⟩, ?_, hperm⟩
  · refine h.of_frame rfl hv.length_eq.symm ?_ ?_ ?_ ?_ ?_ ?_
    · intro i a' ha'
      rcases forall₂_getElem? hv i with ⟨h1, h2⟩ | ⟨a, b, h1, h2, h3⟩
      · simp [h2] at ha'
      · simp [h2] at ha'; subst ha'
        exact ⟨by rw [h3.2.2.1]; exact h.ids _ _ h1, h3.1⟩
    · intro i j hj; exact h.lt i j ((hmem i j).mp hj)
    · intro i hi; exact h.irrefl i ((hmem i i).mp hi)
    · intro i; exact (hperm i).nodup_iff.mpr (h.nodup i)
    · intro i j hj; exact (hmem j i).mpr (h.symm _ _ ((hmem i j).mp hj))
    · rw [← h.count]
      exact Finset.sum_congr rfl (fun i _ => (hperm i).length_eq)
  · unfold data
    apply List.ext_getElem?
    intro i
    rcases forall₂_getElem? hv i with ⟨h1, h2⟩ | ⟨a, b, h1, h2, h3⟩
    · simp [h1, h2]
    · simp [h1, h2, h3.2.2.2]

theorem sortAdj_spec {g : GenericGraph T A} (h : g.WF) :
    ∃ g', g.sortAdj = .ok g' ∧ g'.WF ∧ TopoEq g g' ∧ g'.data = g.data ∧ (∀ i, (g'.nbrs i).Perm (g.nbrs i)) ∧
      ∀ i, (g'.nbrs i).Pairwise (· ≤ ·) := by
  obtain ⟨vs, h1, h2⟩ := mapM_forall₂ (f := AdjContainer.sortAdj)
    (P := fun a a' => LawfulAdj.inv a' ∧ (neighbors a').Perm (neighbors a) ∧
      (neighbors a').Pairwise (· ≤ ·) ∧ AdjContainer.id a' = AdjContainer.id a ∧ contained a' = contained a)
    g.vertices (fun a ha => LawfulAdj.sort_spec a (h.inv a ha))
  obtain ⟨w1, w2, w3, w4⟩ := h.of_forall₂ (vs := vs)
    (h2.imp (fun a b hab => ⟨hab.1, hab.2.1, hab.2.2.2.1, hab.2.2.2.2⟩))
  refine ⟨{ g with vertices := vs }, by simp [sortAdj, h1], w1, w2, w3, w4, ?_⟩
  intro i
  unfold nbrs
  rcases forall₂_getElem? h2 i with ⟨_, h4⟩ | ⟨a, b, _, h4, h5⟩
  · simp [h4]
  · simp [h4, h5.2.2.1]

theorem shuffleAdjsAux_spec {R : Type} [Rng R] : ∀ (l : List A) (r : R), (∀ a ∈ l, LawfulAdj.inv a) →
    ∃ l' r', shuffleAdjsAux l r = .ok (l', r') ∧
      List.Forall₂ (fun a a' => LawfulAdj.inv a' ∧ (neighbors a').Perm (neighbors a) ∧
      AdjContainer.id a' = AdjContainer.id a ∧ contained a' = contained a) l l' := by
  intro l
  induction l with
  | nil => intro r _; exact ⟨[], r, rfl, List.Forall₂.nil⟩
  | cons a l ih =>
    intro r h
    obtain ⟨a', r', h1, h2⟩ := LawfulAdj.shuffle_spec a r (h a (by simp))
    obtain ⟨l', r'', h3, h4⟩ := ih r' (fun x hx => h x (by simp [hx]))
    refine ⟨a' :: l', r'', ?_, List.Forall₂.cons h2 h4⟩
    simp [shuffleAdjsAux, h1, h3]

theorem shuffleAdjs_spec {R : Type} [Rng R] {g : GenericGraph T A} (h : g.WF) (r : R) :
    ∃ g' r', g.shuffleAdjs r = .ok (g', r') ∧ g'.WF ∧ TopoEq g g' ∧ g'.data = g.data ∧
      (∀ i, (g'.nbrs i).Perm (g.nbrs i)) := by
  obtain ⟨vs, r', h1, h2⟩ := shuffleAdjsAux_spec g.vertices r h.inv
  obtain ⟨w1, w2, w3, w4⟩ := h.of_forall₂ h2
  exact ⟨{ g with vertices := vs }, r', by simp [shuffleAdjs, h1], w1, w2, w3, w4⟩

theorem shuffleAdj_spec {R : Type} [Rng R] {g : GenericGraph T A} (h : g.WF) (r : R) {i : Nat} (hi : i < g.nextId) :
    ∃ g' r', g.shuffleAdj r i = .ok (g', r') ∧ g'.WF ∧ TopoEq g g' ∧ g'.data = g.data ∧
      (∀ i, (g'.nbrs i).Perm (g.nbrs i)) := by
  have hl := h.lt_length hi
  obtain ⟨a', r', h1, h2⟩ := LawfulAdj.shuffle_spec g.vertices[i] r (h.inv _ (List.getElem_mem hl))
  have h3 : List.Forall₂ (fun a a' => LawfulAdj.inv a' ∧ (neighbors a').Perm (neighbors a) ∧
      AdjContainer.id a' = AdjContainer.id a ∧ contained a' = contained a) g.vertices (g.vertices.set i a') := by
    rw [List.forall₂_iff_get]
    refine ⟨by simp, ?_⟩
    intro k hk1 hk2
    simp only [List.get_eq_getElem, List.getElem_set]
    split
    · rename_i heq; subst heq; exact h2
    · exact ⟨h.inv _ (List.getElem_mem hk1), List.Perm.refl _, rfl, rfl⟩
  obtain ⟨w1, w2, w3, w4⟩ := h.of_forall₂ h3
  exact ⟨{ g with vertices := g.vertices.set i a' }, r', by simp [shuffleAdj, Vec.idx_of_lt hl, h1], w1, w2, w3, w4⟩

/-! ### Assignment to stored data -/

theorem setAt_spec {g : GenericGraph T A} (h : g.WF) {i : Nat} (hi : i < g.nextId) (t : T) :
    ∃ g', g.setAt i t = .ok g' ∧ g'.WF ∧ g'.nextId = g.nextId ∧ g'.edgeCount = g.edgeCount ∧
      (∀ k, g'.nbrs k = g.nbrs k) ∧ g'.data = g.data.set i t := by
  have hl := h.lt_length hi
  let g' : GenericGraph T A := { g with vertices := g.vertices.set i (setContained g.vertices[i] t) }
  have hn : ∀ k, g'.nbrs k = g.nbrs k := by
    intro k
    simp only [nbrs, g', List.getElem?_set]
    by_cases hk : i = k
    · subst hk; simp [hl, LawfulAdj.neighbors_set]
    · simp [hk]
  refine ⟨g', by simp [setAt, container, Vec.idx_of_lt hl, g'], ?_, rfl, rfl, hn, ?_⟩
  · refine h.of_frame rfl (by simp [g']) ?_ ?_ ?_ ?_ ?_ ?_
    · intro k a ha
      simp only [g', List.getElem?_set] at ha
      by_cases hk : i = k
      · subst hk
        simp [hl] at ha
        subst ha
        refine ⟨by rw [LawfulAdj.id_set]; exact h.ids _ _ (List.getElem?_eq_getElem hl),
          LawfulAdj.inv_set _ _ (h.inv _ (List.getElem_mem hl))⟩
      · simp [hk] at ha
        exact ⟨h.ids _ _ ha, h.inv _ (List.mem_of_getElem? ha)⟩
    · intro k l hkl; rw [hn] at hkl; exact h.lt _ _ hkl
    · intro k hk; rw [hn] at hk; exact h.irrefl _ hk
    · intro k; rw [hn]; exact h.nodup _
    · intro k l; rw [hn, hn]; exact h.symm _ _
    · rw [← h.count]; exact Finset.sum_congr rfl (fun k _ => by rw [hn])
  · simp [data, g', List.map_set, LawfulAdj.contained_set]

/-! ### Conversions -/

/-- Graphs over two container types with the same neighbour lists. -/
theorem wf_transfer {T2 A2 : Type} [AdjContainer T2 A2] [LawfulAdj T2 A2] {g : GenericGraph T A} (h : g.WF)
    {g' : GenericGraph T2 A2} (hn : g'.nextId = g.nextId) (hec : g'.edgeCount = g.edgeCount)
    (hl : g'.vertices.length = g.vertices.length)
    (hid : ∀ (i : Nat) (a' : A2), g'.vertices[i]? = some a' → AdjContainer.id a' = i ∧ LawfulAdj.inv a')
    (hnb : ∀ i, g'.nbrs i = g.nbrs i) : g'.WF where
  len := by rw [hl, h.len, hn]
  ids i a ha := (hid i a ha).1
  inv a ha := by
    obtain ⟨i, hi, rfl⟩ := List.mem_iff_getElem.mp ha
    exact (hid i _ (List.getElem?_eq_getElem hi)).2
  lt i j hj := by rw [hnb] at hj; rw [hn]; exact h.lt i j hj
  irrefl i := by rw [hnb]; exact h.irrefl i
  nodup i := by rw [hnb]; exact h.nodup i
  symm i j := by rw [hnb, hnb]; exact h.symm i j
  count := by rw [hn, hec, ← h.count]; exact Finset.sum_congr rfl (fun i _ => by rw [hnb])

theorem cloneTopology_nbrs {T2 : Type} (g : GenericGraph T A) (f : T → T2) (i : Nat) :
    (g.cloneTopology f).nbrs i = g.nbrs i := by
  unfold nbrs cloneTopology
  simp only [List.getElem?_map, List.getElem?_zipIdx]
  cases g.vertices[i]? <;> simp [neighbors]

theorem cloneTopology_wf {T2 : Type} {g : GenericGraph T A} (h : g.WF) (f : T → T2) : (g.cloneTopology f).WF := by
  refine wf_transfer h ?_ rfl ?_ ?_ (cloneTopology_nbrs g f)
  · simp [cloneTopology, h.len]
  · simp [cloneTopology]
  · intro i a' ha'
    simp only [cloneTopology, List.getElem?_map, List.getElem?_zipIdx] at ha'
    cases hb : g.vertices[i]? with
    | none => simp [hb] at ha'
    | some b => simp [hb] at ha'; subst ha'; exact ⟨rfl, trivial⟩

theorem cloneTopology_data {T2 : Type} (g : GenericGraph T A) (f : T → T2) : (g.cloneTopology f).data = g.data.map f := by
  unfold data cloneTopology
  apply List.ext_getElem?
  intro i
  simp only [List.getElem?_map, List.getElem?_zipIdx]
  cases g.vertices[i]? <;> simp [contained]

theorem toGraph_nbrs (g : GenericGraph T A) (i : Nat) : g.toGraph.nbrs i = g.nbrs i := by
  unfold nbrs toGraph
  simp only [List.getElem?_map]
  cases g.vertices[i]? <;> simp [neighbors]

theorem toGraph_wf {g : GenericGraph T A} (h : g.WF) : g.toGraph.WF := by
  refine wf_transfer h rfl rfl (by simp [toGraph]) ?_ (toGraph_nbrs g)
  intro i a' ha'
  simp only [toGraph, List.getElem?_map] at ha'
  cases hb : g.vertices[i]? with
  | none => simp [hb] at ha'
  | some b => simp [hb] at ha'; subst ha'; exact ⟨h.ids _ _ hb, trivial⟩

theorem toGraph_data (g : GenericGraph T A) : g.toGraph.data = g.data := by
  simp [data, toGraph, Function.comp_def]; intro _ _; rfl

/-! ### complete_graph -/

theorem completeGraph_zero [Node T] : (completeGraph 0 : Res (Graph T)) = .panic := by
  simp [completeGraph, Res.sub]

theorem completeGraph_spec [Node T] {n : Nat} (hn : 1 ≤ n) :
    ∃ g : Graph T, completeGraph n = .ok g ∧ g.WF ∧ g.nextId = n ∧ g.edgeCount = n * (n - 1) / 2 ∧
      (∀ i j, j ∈ g.nbrs i ↔ i < n ∧ j < n ∧ i ≠ j) ∧ g.data = (List.range n).map Node.newFromIndex := by
  let g : Graph T := { nextId := n, edgeCount := n * (n - 1) / 2, vertices := (List.range n).map (fun i =>
             { id := i, node := Node.newFromIndex i, adj := List.range i ++ List.range' (i + 1) (n - (i + 1)) }) }
  have hnb : ∀ i, g.nbrs i = if i < n then List.range i ++ List.range' (i + 1) (n - (i + 1)) else [] := by
    intro i
    unfold nbrs
    simp only [g, List.getElem?_map]
    by_cases hi : i < n
    · simp [hi, neighbors]
    · simp [hi, List.getElem?_eq_none]
  have hmem : ∀ i j, j ∈ g.nbrs i ↔ i < n ∧ j < n ∧ i ≠ j := by
    intro i j
    rw [hnb]
    by_cases hi : i < n
    · simp only [hi, if_true, List.mem_append, List.mem_range, List.mem_range'_1, true_and]
      omega
    · simp [hi]
  refine ⟨g, by simp [completeGraph, Res.sub_of_le hn, g], ?_, rfl, rfl, hmem, ?_⟩
  · refine ⟨by simp [g], ?_, fun _ _ => trivial, ?_, ?_, ?_, ?_, ?_⟩
    · intro i a ha
      simp only [g, List.getElem?_map] at ha
      by_cases hi : i < n
      · simp [hi] at ha; subst ha; rfl
      · simp [List.getElem?_eq_none, hi] at ha
    · intro i j hj; exact ((hmem i j).mp hj).2.1
    · intro i hi; exact ((hmem i i).mp hi).2.2 rfl
    · intro i
      rw [hnb]
      by_cases hi : i < n
      · simp only [hi, if_true]
        rw [List.nodup_append]
        refine ⟨List.nodup_range, List.nodup_range', ?_⟩
        intro x hx y hy
        simp at hx; rw [List.mem_range'_1] at hy; omega
      · simp [hi]
    · intro i j hj
      rw [hmem] at hj ⊢; exact ⟨hj.2.1, hj.1, hj.2.2.symm⟩
    · show ∑ i ∈ Finset.range n, (g.nbrs i).length = 2 * (n * (n - 1) / 2)
      have : ∀ i ∈ Finset.range n, (g.nbrs i).length = n - 1 := by
        intro i hi
        have hi := Finset.mem_range.mp hi
        rw [hnb]; simp [hi]; omega
      rw [Finset.sum_congr rfl this]
      simp only [Finset.sum_const, Finset.card_range, smul_eq_mul]
      have : 2 ∣ n * (n - 1) := (Nat.even_mul_pred_self n).two_dvd
      omega
  · simp [data, g, Function.comp_def]; intro a _; rfl

end GenericGraph
end Verif
