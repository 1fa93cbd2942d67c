import Mathlib.Combinatorics.SimpleGraph.Metric

/-!
# Distances when one edge is taken away

Lemmas about `SimpleGraph`, used for C77: if all distances in `G` are at most `D`, and `H` is `G` without one edge, then all finite
distances in `H` are at most `2 * D`.
-/

namespace Verif

variable {V : Type} {G H : SimpleGraph V} {a b : V}

/-- Triangle inequality for vertices that are joined. -/
theorem dist_via {x y z : V} (h1 : G.Reachable x y) (h2 : G.Reachable y z) : G.dist x z ≤ G.dist x y + G.dist y z := by
  obtain ⟨p, hp⟩ := h1.exists_walk_length_eq_dist
  obtain ⟨q, hq⟩ := h2.exists_walk_length_eq_dist
  rw [← hp, ← hq, ← SimpleGraph.Walk.length_append]
  exact SimpleGraph.dist_le _

/-- A walk of `G` is a walk of `H`, or runs over the edge in one of the two directions. -/
theorem walk_cases (hsub : ∀ x y, G.Adj x y → H.Adj x y ∨ (x = a ∧ y = b) ∨ (x = b ∧ y = a)) {u x : V} (p : G.Walk u x) :
    (∃ q : H.Walk u x, q.length ≤ p.length) ∨
      (∃ (q : G.Walk u a) (q' : G.Walk b x), q.length + 1 + q'.length ≤ p.length) ∨
      (∃ (q : G.Walk u b) (q' : G.Walk a x), q.length + 1 + q'.length ≤ p.length) := by
  induction p with
  | nil => exact Or.inl ⟨.nil, le_rfl⟩
  | @cons u w x h p ih =>
    rw [SimpleGraph.Walk.length_cons]
    rcases ih with ⟨q, hq⟩ | ⟨q, q', hq⟩ | ⟨q, q', hq⟩
    · rcases hsub u w h with h' | ⟨rfl, rfl⟩ | ⟨rfl, rfl⟩
      · exact Or.inl ⟨.cons h' q, by rw [SimpleGraph.Walk.length_cons]; omega⟩
      · exact Or.inr (Or.inl ⟨.nil, p, by rw [SimpleGraph.Walk.length_nil]; omega⟩)
      · exact Or.inr (Or.inr ⟨.nil, p, by rw [SimpleGraph.Walk.length_nil]; omega⟩)
    · exact Or.inr (Or.inl ⟨.cons h q, q', by rw [SimpleGraph.Walk.length_cons]; omega⟩)
    · exact Or.inr (Or.inr ⟨.cons h q, q', by rw [SimpleGraph.Walk.length_cons]; omega⟩)

/-- If the distance got larger, all shortest paths ran over the edge. -/
theorem dist_over (hsub : ∀ x y, G.Adj x y → H.Adj x y ∨ (x = a ∧ y = b) ∨ (x = b ∧ y = a)) {u x : V} (hr : G.Reachable u x)
    (hlt : G.dist u x < H.dist u x) :
    (G.Reachable u a ∧ G.Reachable b x ∧ G.dist u a + 1 + G.dist b x ≤ G.dist u x) ∨
      (G.Reachable u b ∧ G.Reachable a x ∧ G.dist u b + 1 + G.dist a x ≤ G.dist u x) := by
  obtain ⟨p, hp⟩ := hr.exists_walk_length_eq_dist
  rcases walk_cases hsub p with ⟨q, hq⟩ | ⟨q, q', hq⟩ | ⟨q, q', hq⟩
  · have := SimpleGraph.dist_le q
    omega
  · have h1 := SimpleGraph.dist_le q
    have h2 := SimpleGraph.dist_le q'
    exact Or.inl ⟨⟨q⟩, ⟨q'⟩, by omega⟩
  · have h1 := SimpleGraph.dist_le q
    have h2 := SimpleGraph.dist_le q'
    exact Or.inr ⟨⟨q⟩, ⟨q'⟩, by omega⟩

/-- On a walk from outside of a set into it there is an edge that enters the set. -/
theorem walk_enters {P : V → Prop} {u v : V} (p : H.Walk u v) (hu : ¬ P u) (hv : P v) :
    ∃ x y, H.Reachable u x ∧ H.Adj x y ∧ ¬ P x ∧ P y := by
  induction p with
  | nil => exact absurd hv hu
  | @cons u w v h p ih =>
    by_cases hw : P w
    · exact ⟨u, w, .refl _, h, hu, hw⟩
    · obtain ⟨x, y, h1, h2, h3, h4⟩ := ih hw hv
      exact ⟨x, y, h.reachable.trans h1, h2, h3, h4⟩

/-- The case in which the shortest paths from `u` to `v` cross the edge from `a` to `b`. -/
theorem dist_twice_dir (hle : H ≤ G) (hsub : ∀ x y, G.Adj x y → H.Adj x y ∨ (x = a ∧ y = b) ∨ (x = b ∧ y = a)) (hab : G.Adj a b)
    {u v : V} {D : ℕ} (hD : ∀ x y, H.Reachable u x → H.Reachable u y → G.dist x y ≤ D) (hr : H.Reachable u v)
    (h1 : G.Reachable u a) (h2 : G.Reachable b v) (h3 : G.dist u a + 1 + G.dist b v ≤ G.dist u v) : H.dist u v ≤ 2 * D := by
  have hone : G.dist a b = 1 := SimpleGraph.dist_eq_one_iff_adj.mpr hab
  have hone' : G.dist b a = 1 := by rw [SimpleGraph.dist_comm]; exact hone
  have rab := hab.reachable
  -- everything the search from `u` reaches is joined to both ends of the edge
  have reach : ∀ x, H.Reachable u x → G.Reachable x a ∧ G.Reachable x b := fun x hx =>
    have k := (hx.symm.mono hle).trans h1
    ⟨k, k.trans rab⟩
  have hu := reach u (.refl _)
  have hv := reach v hr
  -- distances from `u` and from `v` to the ends
  have e1 := dist_via hu.1 hv.1.symm
  have e2 := dist_via rab h2
  have e3 : G.dist b v = G.dist v b := SimpleGraph.dist_comm
  have e4 : G.dist a v = G.dist v a := SimpleGraph.dist_comm
  have e5 := dist_via hu.2 rab.symm
  have e6 := dist_via h1 rab
  have e7 := dist_via hu.2 hv.2.symm
  -- who cannot be reached from `u`, from `v`, by a shortest path without the edge
  have fromU : ∀ x, H.Reachable u x → G.dist u x < H.dist u x → G.dist u a + 1 + G.dist b x ≤ G.dist u x := by
    intro x hx hlt
    rcases dist_over hsub (hx.mono hle) hlt with ⟨_, _, k⟩ | ⟨_, k2, k⟩
    · exact k
    · have := dist_via h1 k2
      omega
  have fromV : ∀ x, H.Reachable u x → G.dist v x < H.dist v x → G.dist v b + 1 + G.dist a x ≤ G.dist v x := by
    intro x hx hlt
    rcases dist_over hsub ((hr.symm.trans hx).mono hle) hlt with ⟨_, k2, k⟩ | ⟨_, _, k⟩
    · have := dist_via hv.2 k2
      omega
    · exact k
  have same : ∀ w x, H.Reachable w x → G.dist w x ≤ H.dist w x := by
    intro w x h
    obtain ⟨p, hp⟩ := h.exists_walk_length_eq_dist
    rw [← hp, ← SimpleGraph.Walk.length_map (SimpleGraph.Hom.ofLE hle) p]
    exact SimpleGraph.dist_le _
  by_cases hmid : ∃ x, H.Reachable u x ∧ ¬ G.dist u x < H.dist u x ∧ ¬ G.dist v x < H.dist v x
  · obtain ⟨x, hx, k1, k2⟩ := hmid
    have t := dist_via hx (hx.symm.trans hr)
    have d1 := hD u x (.refl _) hx
    have d2 := hD v x hr hx
    have s : H.dist x v = H.dist v x := SimpleGraph.dist_comm
    omega
  · push Not at hmid
    by_cases hlt : G.dist u v < H.dist u v
    · obtain ⟨p⟩ := id hr
      obtain ⟨x, y, hx, hxy, k1, k2⟩ := walk_enters (P := fun x => G.dist u x < H.dist u x) p (by simp) hlt
      have hy := hx.trans hxy.reachable
      have vx := hmid x hx (by omega)
      have gx := fromV x hx vx
      have gy := fromU y hy k2
      -- `y` is on the side of `v`
      have hy' : ¬ G.dist v y < H.dist v y := by
        intro hlt'
        have gy' := fromV y hy hlt'
        have ry := reach y hy
        have c1 := dist_via h1 ry.1.symm
        have c2 := dist_via hv.2 ry.2.symm
        have c3 := dist_via rab ry.2.symm
        have c4 := dist_via rab.symm ry.1.symm
        have c5 := dist_via hu.2 ry.2.symm
        have c6 := dist_via hv.1 ry.1.symm
        omega
      have rx := reach x hx
      have ry := reach y hy
      have c1 := dist_via h1 rx.1.symm
      have c2 := dist_via hv.2 ry.2.symm
      have t1 := dist_via hx (hxy.reachable.trans (hy.symm.trans hr))
      have t2 := dist_via hxy.reachable (hy.symm.trans hr)
      have o : H.dist x y = 1 := SimpleGraph.dist_eq_one_iff_adj.mpr hxy
      have s : H.dist y v = H.dist v y := SimpleGraph.dist_comm
      have d1 := hD u y (.refl _) hy
      have d2 := hD v x hr hx
      omega
    · have := hD u v (.refl _) hr
      omega

/-- Taking one edge away at most doubles the diameter. -/
theorem dist_twice (hle : H ≤ G) (hsub : ∀ x y, G.Adj x y → H.Adj x y ∨ (x = a ∧ y = b) ∨ (x = b ∧ y = a)) (hab : G.Adj a b)
    {u v : V} {D : ℕ} (hD : ∀ x y, H.Reachable u x → H.Reachable u y → G.dist x y ≤ D) (hr : H.Reachable u v) :
    H.dist u v ≤ 2 * D := by
  by_cases hlt : G.dist u v < H.dist u v
  · rcases dist_over hsub (hr.mono hle) hlt with ⟨h1, h2, h3⟩ | ⟨h1, h2, h3⟩
    · exact dist_twice_dir hle hsub hab hD hr h1 h2 h3
    · exact dist_twice_dir (a := b) (b := a) hle (fun x y h => by rcases hsub x y h with k | k | k <;> simp [k]) hab.symm hD hr h1 h2 h3
  · have := hD u v (.refl _) hr
    omega

open Classical in
/-- If the ends of the edge are not joined in `H`, a walk of `G` can be folded to one of `H` that does not enter the side of `b`. -/
theorem walk_fold (hsub : ∀ x y, G.Adj x y → H.Adj x y ∨ (x = a ∧ y = b) ∨ (x = b ∧ y = a)) (hno : ¬ H.Reachable a b) {u x : V}
    (p : G.Walk u x) :
    ∃ q : H.Walk (if H.Reachable u b then a else u) (if H.Reachable x b then a else x), q.length ≤ p.length := by
  induction p with
  | nil => exact ⟨.nil, Nat.zero_le _⟩
  | @cons u w x h p ih =>
    obtain ⟨q, hq⟩ := ih
    have stay : (if H.Reachable u b then a else u) = (if H.Reachable w b then a else w) →
        ∃ q : H.Walk (if H.Reachable u b then a else u) (if H.Reachable x b then a else x), q.length ≤ (SimpleGraph.Walk.cons h p).length := by
      intro e
      rw [e]
      exact ⟨q, by rw [SimpleGraph.Walk.length_cons]; omega⟩
    rcases hsub u w h with k | ⟨rfl, rfl⟩ | ⟨rfl, rfl⟩
    · by_cases hw : H.Reachable w b
      · exact stay (by rw [if_pos hw, if_pos (k.reachable.trans hw)])
      · have hu : ¬ H.Reachable u b := fun hu => hw (k.symm.reachable.trans hu)
        have e : H.Adj (if H.Reachable u b then a else u) (if H.Reachable w b then a else w) := by rw [if_neg hu, if_neg hw]; exact k
        exact ⟨.cons e q, by rw [SimpleGraph.Walk.length_cons, SimpleGraph.Walk.length_cons]; omega⟩
    · exact stay (by rw [if_neg hno, if_pos (SimpleGraph.Reachable.refl _)])
    · exact stay (by rw [if_neg hno, if_pos (SimpleGraph.Reachable.refl _)])

/-- An edge between two components changes no distance within them. -/
theorem dist_bridge (hle : H ≤ G) (hsub : ∀ x y, G.Adj x y → H.Adj x y ∨ (x = a ∧ y = b) ∨ (x = b ∧ y = a)) (hno : ¬ H.Reachable a b)
    {u x : V} (hr : H.Reachable u x) : G.dist u x = H.dist u x := by
  apply Nat.le_antisymm
  · obtain ⟨p, hp⟩ := hr.exists_walk_length_eq_dist
    rw [← hp, ← SimpleGraph.Walk.length_map (SimpleGraph.Hom.ofLE hle) p]
    exact SimpleGraph.dist_le _
  · obtain ⟨p, hp⟩ := (hr.mono hle).exists_walk_length_eq_dist
    rw [← hp]
    by_cases hb : H.Reachable u b
    · have hsub' : ∀ x y, G.Adj x y → H.Adj x y ∨ (x = b ∧ y = a) ∨ (x = a ∧ y = b) := fun x y h => by
        rcases hsub x y h with k | k | k <;> simp [k]
      obtain ⟨q, hq⟩ := walk_fold hsub' (fun h => hno h.symm) p
      have hu : ¬ H.Reachable u a := fun h => hno (h.symm.trans hb)
      have k := (SimpleGraph.dist_le q).trans hq
      rw [if_neg hu, if_neg (fun h => hu (hr.trans h))] at k
      exact k
    · obtain ⟨q, hq⟩ := walk_fold hsub hno p
      have k := (SimpleGraph.dist_le q).trans hq
      rw [if_neg hb, if_neg (fun h => hb (hr.trans h))] at k
      exact k

end Verif
