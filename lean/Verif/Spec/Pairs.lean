import Verif.Spec.Basic
import Mathlib.Algebra.BigOperators.Intervals

/-!
# All pairs of vertices
-/

namespace Verif

/-- All pairs `i < j` of numbers below `n`, row by row. -/
def allPairs (n : Nat) : List (Nat × Nat) :=
  (List.range n).flatMap (fun i => (List.range' (i + 1) (n - (i + 1))).map (fun j => (i, j)))

/-- The unordered pair. -/
def toEdge (p : Nat × Nat) : Sym2 ℕ := s(p.1, p.2)

theorem mem_allPairs {n : Nat} {p : Nat × Nat} : p ∈ allPairs n ↔ p.1 < p.2 ∧ p.2 < n := by
  obtain ⟨i, j⟩ := p
  simp only [allPairs, List.mem_flatMap, List.mem_range, List.mem_map, List.mem_range'_1, Prod.mk.injEq]
  constructor
  · rintro ⟨a, h1, b, h2, rfl, rfl⟩; omega
  · rintro ⟨h1, h2⟩; exact ⟨i, by omega, j, by omega, rfl, rfl⟩

theorem nodup_allPairs (n : Nat) : (allPairs n).Nodup := by
  unfold allPairs
  rw [List.nodup_flatMap]
  constructor
  · intro i _
    apply List.Nodup.map
    · intro a b hab; simpa using hab
    · exact List.nodup_range'
  · apply List.nodup_range.imp
    intro a b hab
    simp only [Function.onFun, List.disjoint_left, List.mem_map, not_exists, not_and]
    rintro _ ⟨j, _, rfl⟩ k _ hk
    simp at hk; exact hab hk.1.symm

theorem length_allPairs (n : Nat) : (allPairs n).length = n * (n - 1) / 2 := by
  have h : (allPairs n).length = ∑ i ∈ Finset.range n, (n - 1 - i) := by
    unfold allPairs
    rw [List.length_flatMap]
    simp only [List.length_map, List.length_range']
    have : ∀ (m : Nat) (f : Nat → Nat), ((List.range m).map f).sum = ∑ i ∈ Finset.range m, f i := by
      intro m f
      induction m with
      | zero => simp
      | succ m ih => rw [List.range_succ, Finset.sum_range_succ]; simp [ih]
    rw [this]
    apply Finset.sum_congr rfl
    intro i _; omega
  rw [h, Finset.sum_range_reflect (fun i => i), Finset.sum_range_id]

theorem toEdge_injOn {n : Nat} {p q : Nat × Nat} (hp : p ∈ allPairs n) (hq : q ∈ allPairs n) (h : toEdge p = toEdge q) :
    p = q := by
  obtain ⟨i, j⟩ := p
  obtain ⟨a, b⟩ := q
  rw [mem_allPairs] at hp hq
  simp only [toEdge, Sym2.eq_iff] at h
  simp only at hp hq
  rcases h with ⟨rfl, rfl⟩ | ⟨rfl, rfl⟩
  · rfl
  · omega

end Verif
