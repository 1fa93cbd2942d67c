import Verif.Lemmas.Basic

/-!
# What the generic graph code needs from a container

`LawfulAdj` collects the contract of the trait `AdjContainer`; it is proved for the four containers.
-/

namespace Verif
open AdjContainer

/-- Contract of an adjacency container.  `inv` is the container's own data invariant. -/
class LawfulAdj (T : outParam Type) (A : Type) [AdjContainer T A] where
  inv : A → Prop
  inv_new : ∀ i (t : T), inv (new i t : A)
  neighbors_new : ∀ i (t : T), neighbors (new i t : A) = []
  id_new : ∀ i (t : T), AdjContainer.id (new i t : A) = i
  contained_new : ∀ i (t : T), contained (new i t : A) = t
  degree_eq : ∀ a : A, degree a = (neighbors a).length
  isAdjacent_iff : ∀ (a : A) x, isAdjacent a x = true ↔ x ∈ neighbors a
  getAdjFirst_eq : ∀ a : A, getAdjFirst a = (neighbors a).head?
  inv_set : ∀ (a : A) t, inv a → inv (setContained a t)
  neighbors_set : ∀ (a : A) t, neighbors (setContained a t) = neighbors a
  id_set : ∀ (a : A) t, AdjContainer.id (setContained a t) = AdjContainer.id a
  contained_set : ∀ (a : A) t, contained (setContained a t) = t
  inv_clear : ∀ a : A, inv (clearEdges a)
  neighbors_clear : ∀ a : A, neighbors (clearEdges a) = []
  id_clear : ∀ a : A, AdjContainer.id (clearEdges a) = AdjContainer.id a
  contained_clear : ∀ a : A, contained (clearEdges a) = contained a
  push_exists : ∀ a b : A, AdjContainer.id b ∈ neighbors a → push a b = .ok (.error .edgeExists, a, b)
  push_new : ∀ a b : A, inv a → inv b → AdjContainer.id b ∉ neighbors a →
    ∃ a' b', push a b = .ok (.ok (), a', b') ∧ inv a' ∧ inv b' ∧
      neighbors a' = neighbors a ++ [AdjContainer.id b] ∧ neighbors b' = neighbors b ++ [AdjContainer.id a] ∧
      AdjContainer.id a' = AdjContainer.id a ∧ AdjContainer.id b' = AdjContainer.id b ∧
      contained a' = contained a ∧ contained b' = contained b
  remove_absent : ∀ a b : A, AdjContainer.id b ∉ neighbors a →
    remove a b = .ok (.error .edgeDoesNotExist, a, b)
  remove_present : ∀ a b : A, inv a → inv b → AdjContainer.id b ∈ neighbors a →
    AdjContainer.id a ∈ neighbors b →
    ∃ a' b', remove a b = .ok (.ok (), a', b') ∧ inv a' ∧ inv b' ∧
      (AdjContainer.id b :: neighbors a').Perm (neighbors a) ∧
      (AdjContainer.id a :: neighbors b').Perm (neighbors b) ∧
      AdjContainer.id a' = AdjContainer.id a ∧ AdjContainer.id b' = AdjContainer.id b ∧
      contained a' = contained a ∧ contained b' = contained b
  sort_spec : ∀ a : A, inv a → ∃ a', sortAdj a = .ok a' ∧ inv a' ∧ (neighbors a').Perm (neighbors a) ∧
    (neighbors a').Pairwise (· ≤ ·) ∧ AdjContainer.id a' = AdjContainer.id a ∧ contained a' = contained a
  shuffle_spec : ∀ {R : Type} [Rng R] (a : A) (r : R), inv a →
    ∃ a' r', shuffleAdj a r = .ok (a', r') ∧ inv a' ∧ (neighbors a').Perm (neighbors a) ∧
    AdjContainer.id a' = AdjContainer.id a ∧ contained a' = contained a

/-! ## NodeContainer -/
namespace NodeContainer
variable {T : Type}

theorem isAdjacent_iff (c : NodeContainer T) (x : Nat) : c.isAdjacent x = true ↔ x ∈ c.adj := by
  simp [isAdjacent]

theorem swapRemoveElement_mem (c : NodeContainer T) {x : Nat} (h : x ∈ c.adj) :
    ∃ adj, c.swapRemoveElement x = .ok { c with adj := adj } ∧ (x :: adj).Perm c.adj := by
  obtain ⟨i, hi, hlt, hx⟩ := findIdx?_mem h
  obtain ⟨l', h1, h2⟩ := Vec.swapRemove_of_lt hlt
  refine ⟨l', ?_, ?_⟩
  · simp [swapRemoveElement, hi, h1]
  · rw [hx] at h2; exact h2

instance : LawfulAdj T (NodeContainer T) where
  inv _ := True
  inv_new _ _ := trivial
  neighbors_new _ _ := rfl
  id_new _ _ := rfl
  contained_new _ _ := rfl
  degree_eq _ := rfl
  isAdjacent_iff a x := isAdjacent_iff a x
  getAdjFirst_eq _ := rfl
  inv_set _ _ _ := trivial
  neighbors_set _ _ := rfl
  id_set _ _ := rfl
  contained_set _ _ := rfl
  inv_clear _ := trivial
  neighbors_clear _ := rfl
  id_clear _ := rfl
  contained_clear _ := rfl
  push_exists a b h := by
    have : a.isAdjacent b.id = true := (isAdjacent_iff a _).mpr h
    simp [AdjContainer.push, push, this]
  push_new a b _ _ h := by
    have : a.isAdjacent b.id = false := by
      rw [Bool.eq_false_iff]; exact fun e => h ((isAdjacent_iff a _).mp e)
    exact ⟨{ a with adj := a.adj ++ [b.id] }, { b with adj := b.adj ++ [a.id] },
      by simp [AdjContainer.push, push, this], trivial, trivial, rfl, rfl, rfl, rfl, rfl, rfl⟩
  remove_absent a b h := by
    have : a.isAdjacent b.id = false := by
      rw [Bool.eq_false_iff]; exact fun e => h ((isAdjacent_iff a _).mp e)
    simp [AdjContainer.remove, remove, this]
  remove_present a b _ _ h1 h2 := by
    have : a.isAdjacent b.id = true := (isAdjacent_iff a _).mpr h1
    obtain ⟨l1, e1, p1⟩ := swapRemoveElement_mem a h1
    obtain ⟨l2, e2, p2⟩ := swapRemoveElement_mem b h2
    refine ⟨{ a with adj := l1 }, { b with adj := l2 }, ?_, trivial, trivial, p1, p2, rfl, rfl, rfl, rfl⟩
    have e1' : a.swapRemoveElement b.id = .ok { a with adj := l1 } := e1
    have e2' : b.swapRemoveElement a.id = .ok { b with adj := l2 } := e2
    simp [AdjContainer.remove, remove, this, e1', e2']
  sort_spec a _ := ⟨_, rfl, trivial, sortBy_perm _ _, sortBy_sorted _ _, rfl, rfl⟩
  shuffle_spec a r _ := ⟨_, _, rfl, trivial, Rng.shuffle_perm r a.adj, rfl, rfl⟩

end NodeContainer

/-! ## SpacialNodeContainer -/
namespace SpacialNodeContainer
variable {T : Type}

theorem isAdjacent_iff (c : SpacialNodeContainer T) (x : Nat) : c.isAdjacent x = true ↔ x ∈ c.adj := by
  simp [isAdjacent]

theorem swapRemoveElement_mem (c : SpacialNodeContainer T) {x : Nat} (h : x ∈ c.adj) :
    ∃ adj, c.swapRemoveElement x = .ok { c with adj := adj } ∧ (x :: adj).Perm c.adj := by
  obtain ⟨i, hi, hlt, hx⟩ := findIdx?_mem h
  obtain ⟨l', h1, h2⟩ := Vec.swapRemove_of_lt hlt
  refine ⟨l', ?_, ?_⟩
  · simp [swapRemoveElement, hi, h1]
  · rw [hx] at h2; exact h2

instance : LawfulAdj T (SpacialNodeContainer T) where
  inv _ := True
  inv_new _ _ := trivial
  neighbors_new _ _ := rfl
  id_new _ _ := rfl
  contained_new _ _ := rfl
  degree_eq _ := rfl
  isAdjacent_iff a x := isAdjacent_iff a x
  getAdjFirst_eq _ := rfl
  inv_set _ _ _ := trivial
  neighbors_set _ _ := rfl
  id_set _ _ := rfl
  contained_set _ _ := rfl
  inv_clear _ := trivial
  neighbors_clear _ := rfl
  id_clear _ := rfl
  contained_clear _ := rfl
  push_exists a b h := by
    have : a.isAdjacent b.id = true := (isAdjacent_iff a _).mpr h
    simp [AdjContainer.push, push, this]
  push_new a b _ _ h := by
    have : a.isAdjacent b.id = false := by
      rw [Bool.eq_false_iff]; exact fun e => h ((isAdjacent_iff a _).mp e)
    exact ⟨{ a with adj := a.adj ++ [b.id] }, { b with adj := b.adj ++ [a.id] },
      by simp [AdjContainer.push, push, this], trivial, trivial, rfl, rfl, rfl, rfl, rfl, rfl⟩
  remove_absent a b h := by
    have : a.isAdjacent b.id = false := by
      rw [Bool.eq_false_iff]; exact fun e => h ((isAdjacent_iff a _).mp e)
    simp [AdjContainer.remove, remove, this]
  remove_present a b _ _ h1 h2 := by
    have : a.isAdjacent b.id = true := (isAdjacent_iff a _).mpr h1
    obtain ⟨l1, e1, p1⟩ := swapRemoveElement_mem a h1
    obtain ⟨l2, e2, p2⟩ := swapRemoveElement_mem b h2
    refine ⟨{ a with adj := l1 }, { b with adj := l2 }, ?_, trivial, trivial, p1, p2, rfl, rfl, rfl, rfl⟩
    have e1' : a.swapRemoveElement b.id = .ok { a with adj := l1 } := e1
    have e2' : b.swapRemoveElement a.id = .ok { b with adj := l2 } := e2
    simp [AdjContainer.remove, remove, this, e1', e2']
  sort_spec a _ := ⟨_, rfl, trivial, sortBy_perm _ _, sortBy_sorted _ _, rfl, rfl⟩
  shuffle_spec a r _ := ⟨_, _, rfl, trivial, Rng.shuffle_perm r a.adj, rfl, rfl⟩

end SpacialNodeContainer

/-! ## SwContainer -/
namespace SwContainer
variable {T : Type}

theorem isAdjacent_iff (c : SwContainer T) (x : Nat) : c.isAdjacent x = true ↔ x ∈ c.adj.map (·.dst) := by
  simp [isAdjacent]

theorem adjPosition_mem (c : SwContainer T) {x : Nat} (h : x ∈ c.adj.map (·.dst)) :
    ∃ i, c.adjPosition x = some i ∧ ∃ hi : i < c.adj.length, (c.adj[i]).dst = x := by
  have : (c.adjPosition x).isSome := by
    unfold adjPosition
    rw [List.findIdx?_isSome]
    simpa using h
  obtain ⟨i, hi⟩ := Option.isSome_iff_exists.mp this
  refine ⟨i, hi, ?_⟩
  unfold adjPosition at hi
  rw [List.findIdx?_eq_some_iff_getElem] at hi
  obtain ⟨h1, h2, _⟩ := hi
  exact ⟨h1, by simpa using h2⟩

/-- Removing the entry that points to `x`; `e` is the removed entry. -/
theorem swapRemoveElement_mem (c : SwContainer T) {x : Nat} (h : x ∈ c.adj.map (·.dst)) :
    ∃ adj e, c.swapRemoveElement x = .ok { c with adj := adj } ∧ e.dst = x ∧ (e :: adj).Perm c.adj := by
  obtain ⟨i, hi, hlt, hx⟩ := adjPosition_mem c h
  obtain ⟨l', h1, h2⟩ := Vec.swapRemove_of_lt hlt
  refine ⟨l', c.adj[i], ?_, hx, h2⟩
  simp [swapRemoveElement, hi, h1]

instance : LawfulAdj T (SwContainer T) where
  inv _ := True
  inv_new _ _ := trivial
  neighbors_new _ _ := rfl
  id_new _ _ := rfl
  contained_new _ _ := rfl
  degree_eq _ := by simp [AdjContainer.degree, neighbors]
  isAdjacent_iff a x := isAdjacent_iff a x
  getAdjFirst_eq a := by simp [AdjContainer.getAdjFirst, neighbors]
  inv_set _ _ _ := trivial
  neighbors_set _ _ := rfl
  id_set _ _ := rfl
  contained_set _ _ := rfl
  inv_clear _ := trivial
  neighbors_clear _ := rfl
  id_clear _ := rfl
  contained_clear _ := rfl
  push_exists a b h := by
    have : a.isAdjacent b.id = true := (isAdjacent_iff a _).mpr h
    simp [AdjContainer.push, push, this]
  push_new a b _ _ h := by
    have : a.isAdjacent b.id = false := by
      rw [Bool.eq_false_iff]; exact fun e => h ((isAdjacent_iff a _).mp e)
    exact ⟨{ a with adj := a.adj ++ [{ dst := b.id, originallyTo := some b.id }] },
      { b with adj := b.adj ++ [{ dst := a.id, originallyTo := none }] },
      by simp [AdjContainer.push, push, this], trivial, trivial,
      by simp [neighbors, AdjContainer.id], by simp [neighbors, AdjContainer.id], rfl, rfl, rfl, rfl⟩
  remove_absent a b h := by
    have : a.isAdjacent b.id = false := by
      rw [Bool.eq_false_iff]; exact fun e => h ((isAdjacent_iff a _).mp e)
    simp [AdjContainer.remove, remove, this]
  remove_present a b _ _ h1 h2 := by
    have : a.isAdjacent b.id = true := (isAdjacent_iff a _).mpr h1
    obtain ⟨l1, x1, e1, d1, p1⟩ := swapRemoveElement_mem a h1
    obtain ⟨l2, x2, e2, d2, p2⟩ := swapRemoveElement_mem b h2
    refine ⟨{ a with adj := l1 }, { b with adj := l2 }, ?_, trivial, trivial, ?_, ?_, rfl, rfl, rfl, rfl⟩
    · have e2' : b.swapRemoveElement a.id = .ok { b with adj := l2 } := e2
      have e1' : a.swapRemoveElement b.id = .ok { a with adj := l1 } := e1
      simp [AdjContainer.remove, remove, this, e1', e2']
    · have := p1.map (·.dst); rw [List.map_cons, d1] at this; exact this
    · have := p2.map (·.dst); rw [List.map_cons, d2] at this; exact this
  sort_spec a _ := ⟨_, rfl, trivial, (sortBy_perm _ _).map _,
    by simpa [neighbors, List.pairwise_map] using sortBy_sorted (·.dst) a.adj, rfl, rfl⟩
  shuffle_spec a r _ := ⟨_, _, rfl, trivial, (Rng.shuffle_perm r a.adj).map _, rfl, rfl⟩

end SwContainer

/-! ## WSContainer -/
namespace WSContainer
variable {T : Type}

theorem isAdjacent_iff (c : WSContainer T) (x : Nat) : c.isAdjacent x = true ↔ x ∈ c.dst := by
  simp [isAdjacent]

theorem swapRemoveElem_mem (c : WSContainer T) (hc : c.dst.length = c.original.length) {x : Nat} (h : x ∈ c.dst) :
    ∃ l1 l2 i, ∃ h1 : i < c.dst.length, ∃ h2 : i < c.original.length,
      c.swapRemoveElem x = .ok { c with dst := l1, original := l2 } ∧ c.dst[i] = x ∧
      Vec.swapRemove c.dst i = .ok (x, l1) ∧ Vec.swapRemove c.original i = .ok (c.original[i], l2) ∧
      (x :: l1).Perm c.dst ∧ (c.original[i] :: l2).Perm c.original := by
  obtain ⟨i, hi, hlt, hx⟩ := findIdx?_mem h
  obtain ⟨l1, h1, p1⟩ := Vec.swapRemove_of_lt hlt
  have hlt2 : i < c.original.length := hc ▸ hlt
  obtain ⟨l2, h2, p2⟩ := Vec.swapRemove_of_lt hlt2
  rw [hx] at h1 p1
  refine ⟨l1, l2, i, hlt, hlt2, ?_, hx, h1, h2, p1, p2⟩
  simp [swapRemoveElem, hi, h1, h2]

theorem applySlice_eq {α : Type} (v : List α) (d : α) : ∀ (p : List Nat), (∀ i ∈ p, i < v.length) →
    applySlice p v = .ok (p.map (fun i => v.getD i d)) := by
  intro p
  induction p with
  | nil => intro _; rfl
  | cons i p ih =>
    intro h
    have h1 : i < v.length := h i (by simp)
    have h2 := ih (fun j hj => h j (by simp [hj]))
    unfold applySlice at h2 ⊢
    rw [List.mapM_cons, Vec.idx_of_lt h1, Res.ok_bind, h2]
    simp [h1]

theorem map_getD_range {α : Type} (v : List α) (d : α) : (List.range v.length).map (fun i => v.getD i d) = v := by
  apply List.ext_getElem
  · simp
  · intro i h1 h2; simp at h1; simp [h1]

/-- Applying a permutation of the positions permutes the vector. -/
theorem applySlice_perm {α : Type} (v : List α) {p : List Nat} (hp : p.Perm (List.range v.length)) :
    ∃ w, applySlice p v = .ok w ∧ w.Perm v ∧ w.length = v.length := by
  cases v with
  | nil => simp at hp; subst hp; exact ⟨[], rfl, List.Perm.nil, rfl⟩
  | cons d v' =>
    refine ⟨_, applySlice_eq _ d p ?_, ?_, ?_⟩
    · intro i hi; simpa using (hp.mem_iff.mp hi)
    · have := hp.map (fun i => (d :: v').getD i d)
      rwa [map_getD_range] at this
    · simpa using hp.length_eq

theorem sortPerm_perm (l : List Nat) : (sortPerm l).Perm (List.range l.length) := sortBy_perm _ _

theorem sortPerm_sorted (l : List Nat) : ((sortPerm l).map (fun i => l.getD i 0)).Pairwise (· ≤ ·) := by
  rw [List.pairwise_map]; exact sortBy_sorted _ _

instance : LawfulAdj T (WSContainer T) where
  inv c := c.dst.length = c.original.length
  inv_new _ _ := rfl
  neighbors_new _ _ := rfl
  id_new _ _ := rfl
  contained_new _ _ := rfl
  degree_eq _ := rfl
  isAdjacent_iff a x := isAdjacent_iff a x
  getAdjFirst_eq _ := rfl
  inv_set _ _ h := h
  neighbors_set _ _ := rfl
  id_set _ _ := rfl
  contained_set _ _ := rfl
  inv_clear _ := rfl
  neighbors_clear _ := rfl
  id_clear _ := rfl
  contained_clear _ := rfl
  push_exists a b h := by
    have : a.isAdjacent b.id = true := (isAdjacent_iff a _).mpr h
    simp [AdjContainer.push, push, this]
  push_new a b ha hb h := by
    have : a.isAdjacent b.id = false := by
      rw [Bool.eq_false_iff]; exact fun e => h ((isAdjacent_iff a _).mp e)
    exact ⟨{ a with dst := a.dst ++ [b.id], original := a.original ++ [⟨asU32 a.id, asU32 b.id, true⟩] },
      { b with dst := b.dst ++ [a.id], original := b.original ++ [⟨asU32 b.id, asU32 a.id, true⟩] },
      by simp [AdjContainer.push, push, this], by simp [ha], by simp [hb],
      rfl, rfl, rfl, rfl, rfl, rfl⟩
  remove_absent a b h := by
    have : a.isAdjacent b.id = false := by
      rw [Bool.eq_false_iff]; exact fun e => h ((isAdjacent_iff a _).mp e)
    simp [AdjContainer.remove, remove, this]
  remove_present a b ha hb h1 h2 := by
    have : a.isAdjacent b.id = true := (isAdjacent_iff a _).mpr h1
    obtain ⟨l1, o1, i1, _, _, e1, _, _, _, p1, q1⟩ := swapRemoveElem_mem a ha h1
    obtain ⟨l2, o2, i2, _, _, e2, _, _, _, p2, q2⟩ := swapRemoveElem_mem b hb h2
    have e1' : a.swapRemoveElem b.id = .ok { a with dst := l1, original := o1 } := e1
    have e2' : b.swapRemoveElem a.id = .ok { b with dst := l2, original := o2 } := e2
    refine ⟨{ a with dst := l1, original := o1 }, { b with dst := l2, original := o2 }, ?_, ?_, ?_,
      p1, p2, rfl, rfl, rfl, rfl⟩
    · simp [AdjContainer.remove, remove, this, e1', e2']
    · have h3 := p1.length_eq; have h4 := q1.length_eq; simp at h3 h4 ⊢; omega
    · have h3 := p2.length_eq; have h4 := q2.length_eq; simp at h3 h4 ⊢; omega
  sort_spec a ha := by
    have h1 : (sortPerm a.dst).Perm (List.range a.original.length) := by
      have := sortPerm_perm a.dst; rwa [ha] at this
    obtain ⟨w2, e2, p2, l2⟩ := applySlice_perm a.original h1
    obtain ⟨w1, e1, p1, l1⟩ := applySlice_perm a.dst (sortPerm_perm a.dst)
    refine ⟨{ a with dst := w1, original := w2 }, ?_, ?_, p1, ?_, rfl, rfl⟩
    · simp [AdjContainer.sortAdj, sortAdj, e1, e2]
    · simp; omega
    · have h3 := applySlice_eq a.dst 0 (sortPerm a.dst) (fun i hi => by
        simpa using ((sortPerm_perm a.dst).mem_iff.mp hi))
      rw [e1] at h3
      simp only [Res.ok.injEq] at h3
      rw [h3]; exact sortPerm_sorted a.dst
  shuffle_spec {R} _ a r ha := by
    have hp := Rng.shuffle_perm r (List.range a.original.length)
    obtain ⟨w2, e2, p2, l2⟩ := applySlice_perm a.original hp
    have hp1 : ((Rng.shuffle r (List.range a.original.length)).1).Perm (List.range a.dst.length) := by
      rw [ha]; exact hp
    obtain ⟨w1, e1, p1, l1⟩ := applySlice_perm a.dst hp1
    refine ⟨{ a with dst := w1, original := w2 }, (Rng.shuffle r (List.range a.original.length)).2, ?_, ?_, p1, rfl, rfl⟩
    · simp [AdjContainer.shuffleAdj, shuffleAdj, e1, e2]
    · simp; omega

end WSContainer

end Verif
