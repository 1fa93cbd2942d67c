import Verif.Props.Agree
import Verif.Props.Edit

/-!
# Distances, connectivity and cores of the ring

For C78: graphs whose adjacency is "circular distance at most `d`".
-/

set_option linter.unusedSectionVars false
set_option linter.unusedSimpArgs false

namespace Verif
open AdjContainer Classical

/-- The circular distance without remainders. -/
theorem circDist_eq {n i j : ℕ} (hi : i < n) (hj : j < n) :
    circDist n i j = min (max i j - min i j) (n - (max i j - min i j)) := by
  unfold circDist
  rcases lt_trichotomy i j with h | h | h
  · rw [show (j + n - i) % n = j - i by
        rw [show j + n - i = j - i + n by omega, Nat.add_mod_right, Nat.mod_eq_of_lt (by omega)],
      Nat.mod_eq_of_lt (a := i + n - j) (by omega)]
    omega
  · subst h
    simp
  · rw [show (i + n - j) % n = i - j by
        rw [show i + n - j = i - j + n by omega, Nat.add_mod_right, Nat.mod_eq_of_lt (by omega)],
      Nat.mod_eq_of_lt (a := j + n - i) (by omega)]
    omega

theorem circDist_triangle {n i j k : ℕ} (hi : i < n) (hj : j < n) (hk : k < n) :
    circDist n i k ≤ circDist n i j + circDist n j k := by
  rw [circDist_eq hi hk, circDist_eq hi hj, circDist_eq hj hk]
  omega

theorem circDist_zero {n i j : ℕ} (hi : i < n) (hj : j < n) (h : circDist n i j = 0) : i = j := by
  rw [circDist_eq hi hj] at h
  omega

theorem circDist_le_half {n i j : ℕ} (hi : i < n) (hj : j < n) : circDist n i j ≤ n / 2 := by
  rw [circDist_eq hi hj]
  omega

theorem circDist_symm {n i j : ℕ} (hi : i < n) (hj : j < n) : circDist n i j = circDist n j i := by
  rw [circDist_eq hi hj, circDist_eq hj hi]
  omega

/-- A vertex `d` steps closer. -/
theorem circDist_step {n i j d : ℕ} (hi : i < n) (hj : j < n) (hd : d < circDist n i j) :
    ∃ m < n, circDist n i m = d ∧ circDist n m j + d = circDist n i j := by
  have h2 := circDist_eq hi hj
  by_cases hij : i ≤ j
  · by_cases hs : j - i ≤ n - (j - i)
    · refine ⟨i + d, by omega, ?_, ?_⟩
      · rw [circDist_eq hi (by omega)]
        omega
      · rw [circDist_eq (by omega) hj]
        omega
    · by_cases hw : d ≤ i
      · refine ⟨i - d, by omega, ?_, ?_⟩
        · rw [circDist_eq hi (by omega)]
          omega
        · rw [circDist_eq (by omega) hj]
          omega
      · refine ⟨i + n - d, by omega, ?_, ?_⟩
        · rw [circDist_eq hi (by omega)]
          omega
        · rw [circDist_eq (by omega) hj]
          omega
  · by_cases hs : i - j ≤ n - (i - j)
    · refine ⟨i - d, by omega, ?_, ?_⟩
      · rw [circDist_eq hi (by omega)]
        omega
      · rw [circDist_eq (by omega) hj]
        omega
    · by_cases hw : i + d < n
      · refine ⟨i + d, by omega, ?_, ?_⟩
        · rw [circDist_eq hi (by omega)]
          omega
        · rw [circDist_eq (by omega) hj]
          omega
      · refine ⟨i + d - n, by omega, ?_, ?_⟩
        · rw [circDist_eq hi (by omega)]
          omega
        · rw [circDist_eq (by omega) hj]
          omega

/-- `G` is the ring of `n` vertices with edges up to distance `d`. -/
def IsRing (G : SimpleGraph ℕ) (n d : ℕ) : Prop :=
  ∀ i j, G.Adj i j ↔ (i < n ∧ j < n ∧ i ≠ j ∧ circDist n i j ≤ d)

namespace IsRing
variable {G : SimpleGraph ℕ} {n d : ℕ}

theorem walk (h : IsRing G n d) (hd : 1 ≤ d) : ∀ k i j, i < n → j < n → circDist n i j ≤ k * d → ∃ p : G.Walk i j, p.length ≤ k
  | 0, i, j, hi, hj, hc => by
    have := circDist_zero hi hj (by omega)
    subst this
    exact ⟨SimpleGraph.Walk.nil, by simp⟩
  | k + 1, i, j, hi, hj, hc => by
    by_cases hs : circDist n i j ≤ d
    · by_cases hij : i = j
      · subst hij
        exact ⟨SimpleGraph.Walk.nil, by simp⟩
      · have hadj : G.Adj i j := (h i j).mpr ⟨hi, hj, hij, hs⟩
        exact ⟨hadj.toWalk, by simp⟩
    · obtain ⟨m, hm, h1, h2⟩ := circDist_step hi hj (show d < circDist n i j by omega)
      have him : i ≠ m := by
        intro e
        subst e
        have : circDist n i i = 0 := by rw [circDist_eq hi hi]; omega
        omega
      have hadj : G.Adj i m := (h i m).mpr ⟨hi, hm, him, by omega⟩
      obtain ⟨p, hp⟩ := walk h hd k m j hm hj (by
        have : (k + 1) * d = k * d + d := by ring
        omega)
      exact ⟨SimpleGraph.Walk.cons hadj p, by rw [SimpleGraph.Walk.length_cons]; omega⟩

theorem reachable (h : IsRing G n d) (hd : 1 ≤ d) {i j : ℕ} (hi : i < n) (hj : j < n) : G.Reachable i j := by
  obtain ⟨p, _⟩ := h.walk hd (circDist n i j) i j hi hj (Nat.le_mul_of_pos_right _ hd)
  exact p.reachable

theorem circ_le_length (h : IsRing G n d) {i j : ℕ} (p : G.Walk i j) : i < n → circDist n i j ≤ d * p.length := by
  induction p with
  | nil =>
    intro hi
    rw [circDist_eq hi hi]
    omega
  | @cons u v w hadj p ih =>
    intro hi
    obtain ⟨_, h2, _, h4⟩ := (h u v).mp hadj
    have h5 := ih h2
    have hw : w < n := by
      by_cases hnil : v = w
      · subst hnil; exact h2
      · obtain ⟨q, hq⟩ : ∃ q, G.Adj q w := by
          have hnn : ¬ p.Nil := by
            intro hn
            exact hnil hn.eq
          exact ⟨p.penultimate, p.adj_penultimate hnn⟩
        exact ((h q w).mp hq).2.1
    have h6 := circDist_triangle hi h2 hw
    rw [SimpleGraph.Walk.length_cons, Nat.mul_add, Nat.mul_one]
    omega

/-- The distance on the ring: the circular distance over `d`, rounded up. -/
theorem dist_eq (h : IsRing G n d) (hd : 1 ≤ d) {i j : ℕ} (hi : i < n) (hj : j < n) :
    G.dist i j = (circDist n i j + (d - 1)) / d := by
  apply Nat.le_antisymm
  · obtain ⟨p, hp⟩ := h.walk hd ((circDist n i j + (d - 1)) / d) i j hi hj (by
      have := Nat.div_add_mod (circDist n i j + (d - 1)) d
      have h2 := Nat.mod_lt (circDist n i j + (d - 1)) hd
      rw [Nat.mul_comm]
      omega)
    exact (SimpleGraph.dist_le p).trans hp
  · obtain ⟨p, hp⟩ := (h.reachable hd hi hj).exists_walk_length_eq_dist
    have h1 := h.circ_le_length p hi
    rw [hp] at h1
    rw [Nat.div_le_iff_le_mul_add_pred hd]
    omega

end IsRing

end Verif
