import Mathlib.Combinatorics.SimpleGraph.Acyclic
import Mathlib.Combinatorics.SimpleGraph.Metric
import Mathlib.Data.Finset.Max

/-!
# Distances in forests

`Forest.across`: the distance of two vertices on different sides of an edge.  `Forest.four_point`: of the three ways to split four
vertices into two pairs, the two largest sums of distances are equal (stated as an inequality).  Used for C102.
-/

namespace Verif.Forest

variable {G : SimpleGraph ℕ}

theorem tri {a b c : ℕ} (h1 : G.Reachable a b) (h2 : G.Reachable b c) : G.dist a c ≤ G.dist a b + G.dist b c := by
  obtain ⟨p, hp⟩ := h1.exists_walk_length_eq_dist
  obtain ⟨q, hq⟩ := h2.exists_walk_length_eq_dist
  rw [← hp, ← hq, ← SimpleGraph.Walk.length_append]
  exact SimpleGraph.dist_le _

theorem path_length (hG : G.IsAcyclic) {a b : ℕ} {p : G.Walk a b} (hp : p.IsPath) : p.length = G.dist a b := by
  have hr : G.Reachable a b := ⟨p⟩
  obtain ⟨q, hq⟩ := hr.exists_walk_length_eq_dist
  have := (hG.subsingleton_path a b).elim ⟨p, hp⟩ ⟨q, q.isPath_of_length_eq_dist hq⟩
  rw [← hq]
  exact congrArg (fun r : G.Path a b => r.1.length) this

/-- The distances of two neighbours to a vertex differ by exactly one. -/
theorem adj_dist (hG : G.IsAcyclic) {x p y : ℕ} (hxp : G.Adj x p) (hr : G.Reachable x y) :
    G.dist x y = G.dist p y + 1 ∨ G.dist p y = G.dist x y + 1 := by
  have h1 : G.dist x p = 1 := SimpleGraph.dist_eq_one_iff_adj.mpr hxp
  have h2 := tri hxp.reachable (hxp.symm.reachable.trans hr)
  have h3 := tri hxp.symm.reachable hr
  rw [SimpleGraph.dist_comm (u := p) (v := x), h1] at h3
  rw [h1] at h2
  by_cases he : G.dist x y = G.dist p y
  · exfalso
    obtain ⟨q, hq⟩ := (hxp.symm.reachable.trans hr).exists_walk_length_eq_dist
    by_cases hx : x ∈ q.support
    · have h4 := SimpleGraph.dist_le (q.dropUntil x hx)
      have h5 := congrArg SimpleGraph.Walk.length (q.take_spec hx)
      rw [SimpleGraph.Walk.length_append] at h5
      have h6 : (q.takeUntil x hx).length ≠ 0 := fun h0 => hxp.ne (SimpleGraph.Walk.eq_of_length_eq_zero h0).symm
      omega
    · have h4 : (SimpleGraph.Walk.cons hxp q).IsPath :=
        (SimpleGraph.Walk.cons_isPath_iff hxp q).mpr ⟨q.isPath_of_length_eq_dist hq, hx⟩
      have := path_length hG h4
      rw [SimpleGraph.Walk.length_cons] at this
      omega
  · omega

/-- If `w` is on the side of `p` and `y` on the side of `x` of the edge `x p`, the path from `w` to `y` uses that edge. -/
theorem across (hG : G.IsAcyclic) {x p w y : ℕ} (hxp : G.Adj x p) (hw : G.Reachable w p) (hy : G.Reachable x y)
    (h1 : G.dist w x = G.dist w p + 1) (h2 : G.dist p y = G.dist x y + 1) : G.dist w y = G.dist w p + 1 + G.dist x y := by
  obtain ⟨P, hP⟩ := hw.exists_walk_length_eq_dist
  obtain ⟨Q, hQ⟩ := hy.exists_walk_length_eq_dist
  have hxP : x ∉ P.support := by
    intro hx
    have h3 := SimpleGraph.dist_le (P.takeUntil x hx)
    have h4 := P.length_takeUntil_le_length hx
    omega
  have hpQ : p ∉ Q.support := by
    intro hp
    have h3 := SimpleGraph.dist_le (Q.dropUntil p hp)
    have h4 := Q.length_dropUntil_le_length hp
    omega
  have hdis : P.support.Disjoint Q.support := by
    intro c hc1 hc2
    have hb := SimpleGraph.isAcyclic_iff_forall_adj_isBridge.mp hG hxp
    have h3 := SimpleGraph.isBridge_iff_forall_walk_mem_edges.mp hb ((Q.takeUntil c hc2).append (P.dropUntil c hc1))
    rw [SimpleGraph.Walk.edges_append, List.mem_append] at h3
    rcases h3 with h3 | h3
    · exact hpQ (SimpleGraph.Walk.snd_mem_support_of_mem_edges Q (Q.edges_takeUntil_subset_edges hc2 h3))
    · exact hxP (SimpleGraph.Walk.fst_mem_support_of_mem_edges P (P.edges_dropUntil_subset_edges hc1 h3))
  have hW : (P.append (SimpleGraph.Walk.cons hxp.symm Q)).IsPath := by
    rw [SimpleGraph.Walk.isPath_def, SimpleGraph.Walk.support_append, SimpleGraph.Walk.support_cons, List.tail_cons, List.nodup_append']
    exact ⟨(P.isPath_of_length_eq_dist hP).support_nodup, (Q.isPath_of_length_eq_dist hQ).support_nodup, hdis⟩
  rw [← path_length hG hW, SimpleGraph.Walk.length_append, SimpleGraph.Walk.length_cons]
  omega

/-- The neighbour of `x` towards `w`. -/
theorem parent {w x : ℕ} (hr : G.Reachable w x) (hne : x ≠ w) : ∃ p, G.Adj x p ∧ G.Reachable w p ∧ G.dist w x = G.dist w p + 1 := by
  obtain ⟨P, hP⟩ := hr.symm.exists_walk_length_eq_dist
  cases P with
  | nil => exact absurd rfl hne
  | @cons _ p _ hxp Q =>
    rw [SimpleGraph.Walk.length_cons] at hP
    refine ⟨p, hxp, ⟨Q.reverse⟩, ?_⟩
    have h1 := SimpleGraph.dist_le Q
    have h2 := tri hxp.reachable ⟨Q⟩
    rw [SimpleGraph.dist_eq_one_iff_adj.mpr hxp] at h2
    rw [SimpleGraph.dist_comm, SimpleGraph.dist_comm (u := w) (v := p)]
    omega

/-- The path from a vertex that is not nearer to `w` than `y` begins with the step towards `w`. -/
theorem towards (hG : G.IsAcyclic) {w x p y : ℕ} (hxp : G.Adj x p) (hw : G.Reachable w p) (h1 : G.dist w x = G.dist w p + 1)
    (hy : G.Reachable w y) (hle : G.dist w y ≤ G.dist w x) (hne : y ≠ x) : G.dist x y = G.dist p y + 1 := by
  have hry : G.Reachable x y := (hxp.reachable.trans hw.symm).trans hy
  rcases adj_dist hG hxp hry with h | h
  · exact h
  · have h2 := across hG hxp hw hry h1 h
    have h3 : G.dist x y = 0 := by omega
    exact absurd ((hry.dist_eq_zero_iff).mp h3).symm hne

theorem four_point_aux (hG : G.IsAcyclic) {w : ℕ} : ∀ (k x y z : ℕ), G.dist w x + G.dist w y + G.dist w z = k →
    G.Reachable w x → G.Reachable w y → G.Reachable w z →
    G.dist x y + G.dist w z ≤ G.dist x z + G.dist w y ∨ G.dist x y + G.dist w z ≤ G.dist y z + G.dist w x := by
  intro k
  induction k using Nat.strong_induction_on with
  | _ k ih =>
    intro x y z hk rx ry rz
    by_cases hxy : x = y
    · subst hxy
      have := tri rx (rx.symm.trans rz)
      rw [SimpleGraph.dist_self]
      omega
    by_cases hxz : x = z
    · subst hxz
      rw [SimpleGraph.dist_comm (u := y)]
      exact .inr (le_refl _)
    by_cases hyz : y = z
    · subst hyz
      exact .inl (le_refl _)
    by_cases hx : G.dist w y ≤ G.dist w x ∧ G.dist w z ≤ G.dist w x
    · have hne : x ≠ w := by
        rintro rfl
        rw [SimpleGraph.dist_self] at hx
        exact hxy ((ry.dist_eq_zero_iff).mp (by omega))
      obtain ⟨p, hp, rp, h1⟩ := parent rx hne
      have h2 := towards hG hp rp h1 ry hx.1 (Ne.symm hxy)
      have h3 := towards hG hp rp h1 rz hx.2 (Ne.symm hxz)
      have := ih _ (by omega) p y z rfl rp ry rz
      omega
    by_cases hy : G.dist w x ≤ G.dist w y ∧ G.dist w z ≤ G.dist w y
    · have hne : y ≠ w := by
        rintro rfl
        rw [SimpleGraph.dist_self] at hy
        exact hxy ((rx.dist_eq_zero_iff).mp (by omega)).symm
      obtain ⟨p, hp, rp, h1⟩ := parent ry hne
      have h2 := towards hG hp rp h1 rx hy.1 hxy
      have h3 := towards hG hp rp h1 rz hy.2 (Ne.symm hyz)
      have := ih _ (by omega) x p z rfl rx rp rz
      rw [SimpleGraph.dist_comm (u := x) (v := p)] at this
      rw [SimpleGraph.dist_comm (u := x) (v := y)]
      omega
    · have hz : G.dist w x ≤ G.dist w z ∧ G.dist w y ≤ G.dist w z := by omega
      have hne : z ≠ w := by
        rintro rfl
        rw [SimpleGraph.dist_self] at hz
        exact hxz ((rx.dist_eq_zero_iff).mp (by omega)).symm
      obtain ⟨p, hp, rp, h1⟩ := parent rz hne
      have h2 := towards hG hp rp h1 rx hz.1 hxz
      have h3 := towards hG hp rp h1 ry hz.2 hyz
      have := ih _ (by omega) x y p rfl rx ry rp
      rw [SimpleGraph.dist_comm (u := x) (v := p), SimpleGraph.dist_comm (u := y) (v := p)] at this
      rw [SimpleGraph.dist_comm (u := x) (v := z), SimpleGraph.dist_comm (u := y) (v := z)]
      omega

theorem four_point (hG : G.IsAcyclic) {w x y z : ℕ} (rx : G.Reachable w x) (ry : G.Reachable w y) (rz : G.Reachable w z) :
    G.dist x y + G.dist w z ≤ G.dist x z + G.dist w y ∨ G.dist x y + G.dist w z ≤ G.dist y z + G.dist w x :=
  four_point_aux hG _ x y z rfl rx ry rz

end Verif.Forest
