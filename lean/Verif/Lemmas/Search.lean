import Verif.Model.Iterators
import Verif.Lemmas.Basic
import Mathlib.Logic.Relation
import Mathlib.Combinatorics.SimpleGraph.Metric

/-!
# Abstract search

Correctness of graph search, independent of the data structures used: which vertices are handled, which are
waiting and which are done.
-/

namespace Verif

/-- Invariant of a search started at `s`: `H` handled, `F` waiting, `D` done (in order). -/
structure SearchInv {V : Type} (Adj : V → V → Prop) (s : V) (H : V → Prop) (F D : List V) : Prop where
  handled : ∀ v, H v ↔ v ∈ F ∨ v ∈ D
  nodup : (F ++ D).Nodup
  reach : ∀ v, H v → Relation.ReflTransGen Adj s v
  closed : ∀ v ∈ D, ∀ w, Adj v w → H w
  start : H s
  par : ∀ v ∈ F, v ≠ s → ∃ y ∈ D, Adj y v
  chain : ∀ D1 x D2, D = D1 ++ x :: D2 → x ≠ s → ∃ y ∈ D1, Adj y x
  first : (D = [] ∧ F = [s]) ∨ D.head? = some s

namespace SearchInv
variable {V : Type} {Adj : V → V → Prop} {s : V} {H H' : V → Prop} {F F' D : List V}

/-- The start state. -/
theorem init (hH : ∀ v, H v ↔ v = s) : SearchInv Adj s H [s] [] where
  handled v := by simp [hH]
  nodup := by simp
  reach v hv := by rw [(hH v).mp hv]
  closed v hv := by simp at hv
  start := (hH s).mpr rfl
  par v hv hne := by simp at hv; exact absurd hv hne
  chain D1 x D2 h := by simp at h
  first := Or.inl ⟨rfl, rfl⟩

/-- One search step. -/
theorem step {v : V} {new : List V} (h : SearchInv Adj s H (v :: F) D)
    (hnew : ∀ w, w ∈ new ↔ Adj v w ∧ ¬ H w) (hnd : new.Nodup)
    (hH' : ∀ w, H' w ↔ H w ∨ w ∈ new) (hF' : F'.Perm (new ++ F)) : SearchInv Adj s H' F' (D ++ [v]) := by
  have hv : H v := (h.handled v).mpr (Or.inl (by simp))
  have hnd0 := h.nodup
  simp only [List.cons_append, List.nodup_cons, List.mem_append, not_or] at hnd0
  refine ⟨?_, ?_, ?_, ?_, ?_, ?_, ?_, ?_⟩
  · intro w
    rw [hH', h.handled w, hF'.mem_iff]
    simp only [List.mem_cons, List.mem_append, List.not_mem_nil, or_false]
    tauto
  · have : (F' ++ (D ++ [v])).Perm ((new ++ F) ++ (D ++ [v])) := hF'.append_right _
    rw [this.nodup_iff, List.append_assoc, List.nodup_append]
    refine ⟨hnd, ?_, ?_⟩
    · have p2 : (F ++ (D ++ [v])).Perm (v :: (F ++ D)) := by
        rw [← List.append_assoc]; exact List.perm_append_singleton _ _
      rw [p2.nodup_iff]; simpa using hnd0
    · intro a ha b hb hab
      subst hab
      apply ((hnew a).mp ha).2
      rw [h.handled]
      simp only [List.mem_append, List.mem_cons, List.not_mem_nil, or_false] at hb ⊢
      tauto
  · intro w hw
    rcases (hH' w).mp hw with hw | hw
    · exact h.reach w hw
    · exact (h.reach v hv).tail ((hnew w).mp hw).1
  · intro x hx w hxw
    rw [hH']
    rcases List.mem_append.mp hx with hx | hx
    · exact Or.inl (h.closed x hx w hxw)
    · simp at hx; subst hx
      by_cases hw : H w
      · exact Or.inl hw
      · exact Or.inr ((hnew w).mpr ⟨hxw, hw⟩)
  · exact (hH' s).mpr (Or.inl h.start)
  · intro w hw hne
    rw [hF'.mem_iff] at hw
    rcases List.mem_append.mp hw with hw | hw
    · exact ⟨v, by simp, ((hnew w).mp hw).1⟩
    · obtain ⟨y, hy, ha⟩ := h.par w (by simp [hw]) hne
      exact ⟨y, by simp [hy], ha⟩
  · intro D1 x D2 hD hx
    rcases List.eq_nil_or_concat D2 with rfl | ⟨D2', z, rfl⟩
    · obtain ⟨rfl, h2⟩ := List.append_inj' hD rfl
      simp at h2; subst h2
      exact h.par v (by simp) hx
    · have : D ++ [v] = (D1 ++ x :: D2') ++ [z] := by rw [hD]; simp
      obtain ⟨h1, _⟩ := List.append_inj' this rfl
      exact h.chain D1 x D2' h1 hx
  · right
    rcases h.first with ⟨rfl, h2⟩ | h2
    · simp at h2; simp [h2.1]
    · rw [List.head?_append, h2]; rfl

/-- The end: nothing is waiting. -/
theorem done (h : SearchInv Adj s H [] D) : ∀ v, v ∈ D ↔ Relation.ReflTransGen Adj s v := by
  intro v
  have hD : ∀ w, H w ↔ w ∈ D := fun w => by rw [h.handled]; simp
  constructor
  · intro hv; exact h.reach v ((hD v).mpr hv)
  · intro hr
    induction hr with
    | refl => exact (hD s).mp h.start
    | tail _ ha ih => exact (hD _).mp (h.closed _ ih _ ha)

theorem nodup_done (h : SearchInv Adj s H F D) : D.Nodup := (List.nodup_append.mp h.nodup).2.1

end SearchInv

/-- Reachability in a simple graph as reflexive transitive closure. -/
theorem reachable_iff_rtg {V : Type} (G : SimpleGraph V) (a b : V) :
    G.Reachable a b ↔ Relation.ReflTransGen G.Adj a b := by
  rw [SimpleGraph.reachable_iff_reflTransGen]

/-- Invariant of a breadth first search: additionally the distances of the vertices in the two queues. -/
structure BfsInv {V : Type} (G : SimpleGraph V) (s : V) (H : V → Prop) (q0 q1 : List V) (d : Nat)
    (D : List V) : Prop where
  base : SearchInv G.Adj s H (q0 ++ q1) D
  d0 : ∀ v ∈ q0, G.dist s v = d
  d1 : ∀ v ∈ q1, G.dist s v = d + 1
  dD : ∀ v ∈ D, G.dist s v ≤ d
  all : ∀ v, G.Reachable s v → G.dist s v ≤ d → H v

namespace BfsInv
variable {V : Type} {G : SimpleGraph V} {s : V} {H H' : V → Prop} {q0 q1 q1' D : List V} {d : Nat}

theorem init (hH : ∀ v, H v ↔ v = s) : BfsInv G s H [s] [] 0 [] where
  base := SearchInv.init hH
  d0 v hv := by simp at hv; subst hv; simp
  d1 v hv := by simp at hv
  dD v hv := by simp at hv
  all v hr hd := by
    rw [hH]
    have : G.dist s v = 0 := by omega
    rw [hr.dist_eq_zero_iff] at this
    exact this.symm

theorem reach (h : BfsInv G s H q0 q1 d D) {v : V} (hv : H v) : G.Reachable s v :=
  (reachable_iff_rtg G s v).mpr (h.base.reach v hv)

/-- Taking a vertex from the current queue. -/
theorem pop {v : V} {new : List V} (h : BfsInv G s H (v :: q0) q1 d D)
    (hnew : ∀ w, w ∈ new ↔ G.Adj v w ∧ ¬ H w) (hnd : new.Nodup)
    (hH' : ∀ w, H' w ↔ H w ∨ w ∈ new) (hq : q1' = q1 ++ new) : BfsInv G s H' q0 q1' d (D ++ [v]) := by
  subst hq
  have hbase := h.base.step (H' := H') (F' := q0 ++ (q1 ++ new)) hnew hnd hH'
    (by rw [← List.append_assoc]; exact List.perm_append_comm)
  have hv : H v := (h.base.handled v).mpr (Or.inl (by simp))
  refine ⟨hbase, fun w hw => h.d0 w (by simp [hw]), ?_, ?_, ?_⟩
  · intro w hw
    rcases List.mem_append.mp hw with hw | hw
    · exact h.d1 w hw
    · obtain ⟨ha, hn⟩ := (hnew w).mp hw
      have hrv := h.reach hv
      have hrw : G.Reachable s w := hrv.trans ha.reachable
      have hdv := h.d0 v (by simp)
      have h1 : ¬ G.dist s w ≤ d := fun hc => hn (h.all w hrw hc)
      have h2 : G.dist s w ≤ d + 1 := by
        obtain ⟨p, hp⟩ := hrv.exists_walk_length_eq_dist
        have h3 := SimpleGraph.dist_le (p.append (SimpleGraph.Walk.cons ha SimpleGraph.Walk.nil))
        rw [SimpleGraph.Walk.length_append] at h3
        simp at h3
        omega
      omega
  · intro w hw
    rcases List.mem_append.mp hw with hw | hw
    · exact h.dD w hw
    · simp at hw; subst hw; exact le_of_eq (h.d0 w (by simp))
  · intro w hr hd; exact (hH' w).mpr (Or.inl (h.all w hr hd))

/-- Swapping the queues. -/
theorem swap (h : BfsInv G s H [] q1 d D) : BfsInv G s H q1 [] (d + 1) D := by
  refine ⟨by simpa using h.base, h.d1, by simp, fun v hv => by have := h.dD v hv; omega, ?_⟩
  intro w hr hd
  by_cases hle : G.dist s w ≤ d
  · exact h.all w hr hle
  · have hdw : G.dist s w = d + 1 := by omega
    obtain ⟨p, hp⟩ := hr.symm.exists_walk_length_eq_dist
    cases p with
    | nil => exact h.base.start
    | @cons _ u _ hadj p' =>
      have hru : G.Reachable s u := ⟨p'.reverse⟩
      have hdu : G.dist s u ≤ d := by
        have := SimpleGraph.dist_le p'.reverse
        rw [SimpleGraph.Walk.length_reverse] at this
        rw [SimpleGraph.dist_comm] at hp
        simp at hp
        omega
      have hu := h.all u hru hdu
      rcases (h.base.handled u).mp hu with hq | hD
      · simp at hq
        have := h.d1 u hq; omega
      · exact h.base.closed u hD w hadj.symm

end BfsInv

/-- Running an iterator to its end: from an invariant, a bound on the number of items and enough fuel. -/
theorem collect_spec {σ ι : Type} {next : σ → Res (Option ι × σ)} (I Fin : σ → List ι → Prop) (n : Nat)
    (hstep : ∀ s L, I s L → (∃ s', next s = .ok (none, s') ∧ Fin s' L) ∨
      (∃ x s', next s = .ok (some x, s') ∧ I s' (L ++ [x])))
    (hbound : ∀ s L, I s L → L.length ≤ n) :
    ∀ (fuel : Nat) (s : σ) (L : List ι), I s L → n < fuel + L.length →
      ∃ L' s', collect next fuel s = .ok (L', s') ∧ Fin s' (L ++ L') := by
  intro fuel
  induction fuel with
  | zero =>
    intro s L hI hf
    have := hbound s L hI; omega
  | succ fuel ih =>
    intro s L hI hf
    rcases hstep s L hI with ⟨s', h1, h2⟩ | ⟨x, s', h1, h2⟩
    · exact ⟨[], s', by simp [collect, h1], by simpa using h2⟩
    · obtain ⟨L', s'', h3, h4⟩ := ih s' (L ++ [x]) h2 (by simp; omega)
      refine ⟨x :: L', s'', by simp [collect, h1, h3], ?_⟩
      simpa using h4

/-- Partly consuming an iterator keeps its invariant. -/
theorem advance_inv {σ ι : Type} {next : σ → Res (Option ι × σ)} (I : σ → Prop)
    (hstep : ∀ s, I s → ∃ o s', next s = .ok (o, s') ∧ I s') :
    ∀ (k : Nat) (s : σ), I s → ∃ s', advance next k s = .ok s' ∧ I s' := by
  intro k
  induction k with
  | zero => intro s h; exact ⟨s, rfl, h⟩
  | succ k ih =>
    intro s h
    obtain ⟨o, s1, h1, h2⟩ := hstep s h
    obtain ⟨s2, h3, h4⟩ := ih s1 h2
    exact ⟨s2, by simp [advance, h1, h3], h4⟩

/-! ### The loops over neighbours -/

/-- What a visiting loop did: `new` are the vertices met for the first time. -/
structure Visited (l : List Nat) (handled handled' : List Bool) (new : List Nat) : Prop where
  len : handled'.length = handled.length
  nodup : new.Nodup
  mem : ∀ w, w ∈ new ↔ w ∈ l ∧ handled[w]? = some false
  get : ∀ w, handled'[w]? = if w ∈ l then some true else handled[w]?

theorem Visited.cons_new {i : Nat} {l handled handled' new} (hi : handled[i]? = some false)
    (hl : i < handled.length)
    (h : Visited l (handled.set i true) handled' new) : Visited (i :: l) handled handled' (i :: new) := by
  have hni : i ∉ new := by
    intro hc
    have := ((h.mem i).mp hc).2
    simp [hl] at this
  refine ⟨by rw [h.len]; simp, List.nodup_cons.mpr ⟨hni, h.nodup⟩, ?_, ?_⟩
  · intro w
    rw [List.mem_cons, h.mem, List.mem_cons]
    by_cases hw : w = i
    · subst hw; simp [hi]
    · simp [List.getElem?_set_ne (Ne.symm hw), hw]
  · intro w
    rw [h.get]
    by_cases hw : w = i
    · subst hw; simp [hl]
    · simp [List.getElem?_set_ne (Ne.symm hw), hw]

theorem Visited.cons_old {i : Nat} {l handled handled' new} (hi : handled[i]? = some true)
    (h : Visited l handled handled' new) : Visited (i :: l) handled handled' new := by
  refine ⟨h.len, h.nodup, ?_, ?_⟩
  · intro w
    rw [h.mem, List.mem_cons]
    by_cases hw : w = i
    · subst hw; simp [hi]
    · simp [hw]
  · intro w
    rw [h.get]
    by_cases hw : w = i
    · subst hw; simp [hi]
    · simp [hw]

theorem visitStack_spec : ∀ (l : List Nat) (handled : List Bool) (stack : List Nat), (∀ i ∈ l, i < handled.length) →
    ∃ handled' new, visitStack l handled stack = .ok (handled', new.reverse ++ stack) ∧ Visited l handled handled' new := by
  intro l
  induction l with
  | nil =>
    intro handled stack _
    exact ⟨handled, [], rfl, rfl, List.nodup_nil, by simp, by simp⟩
  | cons i l ih =>
    intro handled stack hl
    have hi := hl i (by simp)
    cases hb : handled[i] with
    | true =>
      obtain ⟨handled', new, h1, h2⟩ := ih handled stack (fun j hj => hl j (by simp [hj]))
      exact ⟨handled', new, by simp [visitStack, Vec.idx_of_lt hi, hb, h1], h2.cons_old (by simp [hi, hb])⟩
    | false =>
      obtain ⟨handled', new, h1, h2⟩ := ih (handled.set i true) (i :: stack)
        (fun j hj => by simpa using hl j (by simp [hj]))
      exact ⟨handled', i :: new, by simp [visitStack, Vec.idx_of_lt hi, hb, Vec.put_of_lt hi, h1],
        h2.cons_new (by simp [hi, hb]) hi⟩

theorem visitQueue_spec : ∀ (l : List Nat) (handled : List Bool) (queue : List Nat), (∀ i ∈ l, i < handled.length) →
    ∃ handled' new, visitQueue l handled queue = .ok (handled', queue ++ new) ∧ Visited l handled handled' new := by
  intro l
  induction l with
  | nil =>
    intro handled stack _
    exact ⟨handled, [], by simp [visitQueue], rfl, List.nodup_nil, by simp, by simp⟩
  | cons i l ih =>
    intro handled queue hl
    have hi := hl i (by simp)
    cases hb : handled[i] with
    | true =>
      obtain ⟨handled', new, h1, h2⟩ := ih handled queue (fun j hj => hl j (by simp [hj]))
      exact ⟨handled', new, by simp [visitQueue, Vec.idx_of_lt hi, hb, h1], h2.cons_old (by simp [hi, hb])⟩
    | false =>
      obtain ⟨handled', new, h1, h2⟩ := ih (handled.set i true) (queue ++ [i])
        (fun j hj => by simpa using hl j (by simp [hj]))
      exact ⟨handled', i :: new, by simp [visitQueue, Vec.idx_of_lt hi, hb, Vec.put_of_lt hi, h1],
        h2.cons_new (by simp [hi, hb]) hi⟩

end Verif
