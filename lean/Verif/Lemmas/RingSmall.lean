import Verif.Lemmas.Ring
import Verif.Props.Release

/-!
# `init_ring` on a ring that is too small
-/

set_option linter.unusedSectionVars false
set_option linter.unusedSimpArgs false

namespace Verif
open AdjContainer

namespace GenericGraph
variable {T A : Type} [AdjContainer T A] [LawfulAdj T A]

/-- The loops have treated the vertices below `i` and at `i` the distances below `s`, and did not yet get around the ring. -/
structure Straight (n d i s : Nat) (g : GenericGraph T A) : Prop where
  wf : g.WF
  size : g.nextId = n
  adj : ∀ k l, l ∈ g.nbrs k ↔
    (k < l ∧ l < n ∧ l ≤ k + d ∧ (k < i ∨ (k = i ∧ l < k + s))) ∨ (l < k ∧ k < n ∧ k ≤ l + d ∧ (l < i ∨ (l = i ∧ k < l + s)))

theorem Straight.inner {n d i : Nat} : ∀ (k s : Nat) (g : GenericGraph T A), 1 ≤ s → s + k ≤ d + 1 → i + s + k ≤ n → Straight n d i s g →
    ∃ g', Straight n d i (s + k) g' ∧ (∀ rest, initRingInner n i (List.range' s k ++ rest) g = initRingInner n i rest g') ∧
      ∀ rest, initRingInnerR n i (List.range' s k ++ rest) g = initRingInnerR n i rest g' := by
  intro k
  induction k with
  | zero => intro s g _ _ _ h; exact ⟨g, h, fun _ => rfl, fun _ => rfl⟩
  | succ k ih =>
    intro s g hs hd hn h
    have hnew : i + s ∉ g.nbrs i := by
      rw [h.adj]; omega
    obtain ⟨g1, a1, a2, a3, _, a5, _⟩ := addEdge_spec h.wf (i := i) (j := i + s) (by rw [h.size]; omega) (by rw [h.size]; omega) (by omega) hnew
    have h1 : Straight n d i (s + 1) g1 := ⟨a2, a3.trans h.size, fun k l => by rw [a5, h.adj]; omega⟩
    obtain ⟨g', b1, b2, b3⟩ := ih (s + 1) g1 (by omega) (by omega) (by omega) h1
    have hi : ¬ (i + s ≥ n) := by omega
    have r1 := (addEdge_same g i (i + s)).eq_ok a1
    refine ⟨g', by rw [show s + (k + 1) = s + 1 + k by omega]; exact b1, fun rest => ?_, fun rest => ?_⟩
    · rw [List.range'_succ, List.cons_append, initRingInner]
      simp only [if_neg hi, a1, Res.ok_bind]
      exact b2 rest
    · rw [List.range'_succ, List.cons_append, initRingInnerR]
      simp only [if_neg hi, r1, Rel.ok_bind]
      exact b3 rest

theorem Straight.next {n d i : Nat} {g : GenericGraph T A} (h : Straight n d i (d + 1) g) : Straight n d (i + 1) 1 g :=
  ⟨h.wf, h.size, fun k l => by rw [h.adj]; omega⟩

theorem Straight.outer {n d : Nat} : ∀ (k s : Nat) (g : GenericGraph T A), s + k + d ≤ n → Straight n d s 1 g →
    ∃ g', Straight n d (s + k) 1 g' ∧ ∀ rest, initRingOuter n d (List.range' s k ++ rest) g = initRingOuter n d rest g' := by
  intro k
  induction k with
  | zero => intro s g _ h; exact ⟨g, h, fun _ => rfl⟩
  | succ k ih =>
    intro s g hn h
    obtain ⟨g1, a1, a2, _⟩ := h.inner d 1 g (by omega) (by omega) (by omega)
    rw [show 1 + d = d + 1 by omega] at a1
    obtain ⟨g', b1, b2⟩ := ih (s + 1) g1 (by omega) a1.next
    refine ⟨g', by rw [show s + (k + 1) = s + 1 + k by omega]; exact b1, fun rest => ?_⟩
    have := a2 []
    rw [List.append_nil] at this
    rw [List.range'_succ, List.cons_append, initRingOuter, this, initRingInner, Res.ok_bind]
    exact b2 rest

theorem Straight.start {g : GenericGraph T A} (h : g.WF) (d : Nat) : Straight g.nextId d 0 1 g.clearEdges :=
  ⟨clearEdges_wf h, clearEdges_nextId g, fun k l => by rw [clearEdges_nbrs h]; simp; omega⟩

/-- More than `d` but at most `2 * d` vertices: an edge is met a second time. -/
theorem initRing_twice {g : GenericGraph T A} (h : g.WF) {d : Nat} (h1 : d < g.nextId) (h2 : g.nextId ≤ 2 * d) :
    ∃ g', g.initRing d = .ok (.error .edgeExists, g') := by
  obtain ⟨m, hm⟩ : ∃ m, g.nextId = m + d := ⟨g.nextId - d, by omega⟩
  obtain ⟨g1, a1, a2⟩ := Straight.outer m 0 g.clearEdges (by omega) (Straight.start h d)
  obtain ⟨g2, b1, b2, _⟩ := a1.inner (d - 1) 1 g1 (by omega) (by omega) (by omega)
  have hex : 0 ∈ g2.nbrs (0 + m) := by rw [b1.adj]; omega
  refine ⟨g2, ?_⟩
  unfold initRing
  show initRingOuter g.clearEdges.nextId d (List.range g.clearEdges.nextId) g.clearEdges = _
  rw [clearEdges_nextId, List.range_eq_range', show List.range' 0 g.nextId = List.range' 0 m ++ (m :: List.range' (m + 1) (d - 1)) by
    rw [hm, ← List.range'_append_1]; congr 1; rw [Nat.zero_add, show d = (d - 1) + 1 by omega, List.range'_succ]; rfl, a2]
  rw [initRingOuter, show List.range' 1 d = List.range' 1 (d - 1) ++ [d] by
    conv_lhs => rw [show d = (d - 1) + 1 by omega]
    rw [← List.range'_append_1]; congr 1; simp; omega]
  have hidx : m + d ≥ g.nextId := by omega
  have b2' := b2 [d]
  rw [Nat.zero_add] at b2' hex
  rw [b2', initRingInner]
  simp only [if_pos hidx]
  rw [show m + d - g.nextId = 0 by omega, addEdge_exists b1.wf hex]
  rfl

/-- At most `d` vertices: the first vertex meets itself. -/
theorem initRing_loop {g : GenericGraph T A} (h : g.WF) {d : Nat} (h0 : 0 < g.nextId) (h1 : g.nextId ≤ d) :
    g.initRing d = .panic ∧ g.initRingR d = .ub := by
  obtain ⟨m, hm⟩ : ∃ m, g.nextId = m + 1 := ⟨g.nextId - 1, by omega⟩
  obtain ⟨g1, b1, b2, b3⟩ := (Straight.start h d).inner m 1 g.clearEdges (by omega) (by omega) (by omega)
  have hl : List.range' 1 d = List.range' 1 m ++ ((m + 1) :: List.range' (m + 2) (d - m - 1)) := by
    rw [show (m + 1) :: List.range' (m + 2) (d - m - 1) = List.range' (1 + m) (d - m) by
      rw [show d - m = (d - m - 1) + 1 by omega, List.range'_succ, Nat.add_comm 1 m]; rfl, List.range'_append_1]
    congr 1; omega
  have hidx : 0 + (m + 1) ≥ g.nextId := by omega
  have h00 : 0 + (m + 1) - g.nextId = 0 := by omega
  constructor
  · unfold initRing
    show initRingOuter g.clearEdges.nextId d (List.range g.clearEdges.nextId) g.clearEdges = _
    rw [clearEdges_nextId, List.range_eq_range', hm, List.range'_succ, initRingOuter, ← hm, hl, b2, initRingInner]
    simp only [if_pos hidx]
    rw [h00, addEdge_panic (by omega)]
    rfl
  · unfold initRingR
    show initRingOuterR g.clearEdges.nextId d (List.range g.clearEdges.nextId) g.clearEdges = _
    rw [clearEdges_nextId, List.range_eq_range', hm, List.range'_succ, initRingOuterR, ← hm, hl, b3, initRingInnerR]
    simp only [if_pos hidx]
    rw [h00, (C73_edit_ub g1 0 0).1.mpr (.inr (.inr rfl))]
    rfl

end GenericGraph
end Verif
