import Verif.Lemmas.RingDist
import Verif.Props.Bicon

/-!
# Regular graphs and windows of the ring, for C78
-/

set_option linter.unusedSectionVars false
set_option linter.unusedSimpArgs false

namespace Verif
open AdjContainer Classical

variable {T A : Type} [AdjContainer T A] [LawfulAdj T A]

/-- In a graph with a single biconnected component that contains all vertices there is one entry, the number of vertices. -/
theorem single_of_biSet {g : GenericGraph T A} (h : g.WF) (hb : BiSet g.toSimple (Finset.range g.vertexCount)) :
    g.vertexBiconnectedComponents false = .ok [g.vertexCount] := by
  have hsub : ∀ S, BiSet g.toSimple S → S ⊆ Finset.range g.vertexCount := by
    intro S hS v hv
    obtain ⟨w, hw, hne⟩ := Finset.exists_mem_ne (show 1 < S.card from hS.two) v
    have hj := hS.conn.joined hv hw
    obtain ⟨x, y, hxy, _, _, hx, _⟩ := hj.exit (P := fun x => x = v) rfl hne
    subst hx
    exact Finset.mem_range.mpr (h.lt_left (h.adj_iff.mp hxy))
  have := C21_single_block h (S := Finset.range g.vertexCount) (by
    intro S'
    constructor
    · intro hS
      exact (hS.2 _ hb (hsub _ hS.1)).symm
    · rintro rfl
      exact ⟨hb, fun S' hS' hle => Finset.Subset.antisymm (hsub _ hS') hle⟩)
  rwa [Finset.card_range] at this

/-- `q_core` of a connected graph in which all degrees are `k`. -/
theorem qCore_regular {g : GenericGraph T A} (h : g.WF) {k q : ℕ} (hq : 2 ≤ q) (hn : 0 < g.vertexCount)
    (hc : ∀ v w, v < g.vertexCount → w < g.vertexCount → g.toSimple.Reachable v w)
    (hk : ∀ v < g.vertexCount, ((Finset.range g.vertexCount).filter (fun w => g.toSimple.Adj v w)).card = k) :
    g.qCore q = .ok (some (if q ≤ k then g.vertexCount else 0)) := by
  obtain ⟨r, K, q1, q2, q3, q4, q5, q6⟩ := C20_q_core h hq hn
  rw [q1]
  congr 2
  have hKr : K ⊆ Finset.range g.vertexCount := fun v hv => Finset.mem_range.mpr (q2 v hv).1
  split
  · rename_i hle
    have hK : K = Finset.range g.vertexCount := by
      refine Finset.Subset.antisymm hKr (q3 _ ?_)
      intro v hv
      rw [Finset.mem_range] at hv
      exact ⟨hv, by rw [hk v hv]; exact hle⟩
    have hind : inducedOn g K = g.toSimple := by
      ext a b
      constructor
      · exact fun hab => hab.1
      · intro hab
        refine ⟨hab, ?_, ?_⟩
        · rw [hK]; exact Finset.mem_range.mpr (h.lt_left (h.adj_iff.mp hab))
        · rw [hK]; exact Finset.mem_range.mpr (h.lt_left (h.adj_iff.mp hab.symm))
    obtain ⟨v, hv, hr⟩ := q6 (by rw [hK]; exact Finset.nonempty_iff_ne_empty.mp ⟨0, Finset.mem_range.mpr hn⟩)
    rw [← hr, sizeWithin, hind, Finset.filter_true_of_mem, hK, Finset.card_range]
    intro w hw
    exact hc v w (Finset.mem_range.mp (hKr hv)) (Finset.mem_range.mp (hKr hw))
  · rename_i hle
    apply q5
    by_contra hne
    obtain ⟨v, hv⟩ := Finset.nonempty_iff_ne_empty.mpr hne
    have h1 := (q2 v hv).2
    have h2 : (K.filter (fun w => g.toSimple.Adj v w)).card ≤
        ((Finset.range g.vertexCount).filter (fun w => g.toSimple.Adj v w)).card :=
      Finset.card_le_card (Finset.filter_subset_filter _ hKr)
    rw [hk v (q2 v hv).1] at h2
    omega

/-- The ordered paths of length two of a graph in which all degrees are `k`. -/
theorem paths_regular {G : SimpleGraph ℕ} {n k : ℕ} (hk : ∀ v < n, ((Finset.range n).filter (fun w => G.Adj v w)).card = k) :
    ((Finset.range n ×ˢ Finset.range n ×ˢ Finset.range n).filter
        (fun t => G.Adj t.1 t.2.1 ∧ G.Adj t.2.1 t.2.2 ∧ t.1 ≠ t.2.2)).card = n * (k * (k - 1)) := by
  rw [Finset.card_eq_sum_card_fiberwise (f := fun t => t.2.1) (t := Finset.range n) (by
    intro t ht
    have := (Finset.mem_filter.mp (Finset.mem_coe.mp ht)).1
    rw [Finset.mem_product, Finset.mem_product] at this
    exact Finset.mem_coe.mpr this.2.1)]
  rw [Finset.sum_congr rfl (g := fun _ => k * (k - 1)), Finset.sum_const, Finset.card_range, smul_eq_mul]
  intro b hb
  rw [Finset.mem_range] at hb
  have ho : ((Finset.range n).filter (fun w => G.Adj b w)).offDiag.card = k * (k - 1) := by
    rw [Finset.offDiag_card, hk b hb, Nat.mul_sub, Nat.mul_one]
  rw [← ho]
  symm
  apply Finset.card_bij (fun p _ => (p.1, b, p.2))
  · intro p hp
    rw [Finset.mem_offDiag, Finset.mem_filter, Finset.mem_filter, Finset.mem_range, Finset.mem_range] at hp
    simp only [Finset.mem_filter, Finset.mem_product, Finset.mem_range]
    exact ⟨⟨⟨hp.1.1, hb, hp.2.1.1⟩, hp.1.2.symm, hp.2.1.2, hp.2.2⟩, trivial⟩
  · intro p _ q _ e
    simp only [Prod.mk.injEq, true_and] at e
    exact Prod.ext e.1 e.2
  · rintro ⟨x, y, z⟩ ht
    simp only [Finset.mem_filter, Finset.mem_product, Finset.mem_range] at ht
    obtain ⟨⟨⟨h1, h2, h3⟩, h4, h5, h6⟩, rfl⟩ := ht
    refine ⟨(x, z), ?_, rfl⟩
    rw [Finset.mem_offDiag, Finset.mem_filter, Finset.mem_filter, Finset.mem_range, Finset.mem_range]
    exact ⟨⟨h1, h4.symm⟩, ⟨h3, h5⟩, h6⟩

namespace IsRing
variable {G : SimpleGraph ℕ} {n d : ℕ}

/-- The next vertex of the ring. -/
theorem adj_succ (h : IsRing G n d) (hd : 1 ≤ d) (hn : 2 ≤ n) {v : ℕ} (hv : v < n) : G.Adj v ((v + 1) % n) := by
  have hlt := Nat.mod_lt (v + 1) (show n > 0 by omega)
  rw [h]
  refine ⟨hv, hlt, ?_, ?_⟩
  · rcases GenericGraph.add_mod_cases hv (show 1 < n by omega) with e | e <;> omega
  · rw [circDist_eq hv hlt]
    rcases GenericGraph.add_mod_cases hv (show 1 < n by omega) with e | e <;> omega

theorem biSet (h : IsRing G n d) (hd : 1 ≤ d) (hn : 2 ≤ n) : BiSet G (Finset.range n) := by
  have hdel : ∀ v < n, ∀ k, 1 ≤ k → k < n → Joined G ((Finset.range n).erase v) ((v + 1) % n) ((v + k) % n) := by
    intro v hv k hk1
    induction k, hk1 using Nat.le_induction with
    | base => intro _; exact Joined.refl _
    | succ k hk ih =>
      intro hkn
      refine (ih (by omega)).trans ?_
      have hlt := Nat.mod_lt (v + k) (show n > 0 by omega)
      have hlt' := Nat.mod_lt (v + (k + 1)) (show n > 0 by omega)
      have hadj := h.adj_succ hd hn hlt
      rw [Nat.mod_add_mod, Nat.add_assoc] at hadj
      refine Joined.edge hadj ?_ ?_
      · rw [Finset.mem_erase, Finset.mem_range]
        refine ⟨?_, hlt⟩
        rcases GenericGraph.add_mod_cases hv (show k < n by omega) with e | e <;> omega
      · rw [Finset.mem_erase, Finset.mem_range]
        refine ⟨?_, hlt'⟩
        rcases GenericGraph.add_mod_cases hv hkn with e | e <;> omega
  have hall : ∀ v < n, ∀ a ∈ (Finset.range n).erase v, Joined G ((Finset.range n).erase v) ((v + 1) % n) a := by
    intro v hv a ha
    rw [Finset.mem_erase, Finset.mem_range] at ha
    by_cases hva : v < a
    · have := hdel v hv (a - v) (by omega) (by omega)
      rwa [show v + (a - v) = a by omega, Nat.mod_eq_of_lt ha.2] at this
    · have := hdel v hv (a + n - v) (by omega) (by omega)
      rwa [show v + (a + n - v) = a + n by omega, Nat.add_mod_right, Nat.mod_eq_of_lt ha.2] at this
  refine ⟨by rw [Finset.card_range]; exact hn, ?_, ?_⟩
  · rw [connOn_iff]
    have h0 : ∀ a ∈ Finset.range n, Joined G (Finset.range n) (1 % n) a := by
      intro a ha
      by_cases ha0 : a = 0
      · subst ha0
        have hadj := h.adj_succ hd hn (show 0 < n by omega)
        rw [Nat.zero_add] at hadj
        exact Joined.edge hadj.symm (Finset.mem_range.mpr (Nat.mod_lt _ (by omega))) ha
      · have := hall 0 (by omega) a (Finset.mem_erase.mpr ⟨ha0, ha⟩)
        rw [Nat.zero_add] at this
        exact this.mono (Finset.erase_subset _ _)
    intro a ha b hb
    exact (h0 a ha).symm.trans (h0 b hb)
  · intro v hv
    rw [Finset.mem_range] at hv
    rw [connOn_iff]
    intro a ha b hb
    exact (hall v hv a ha).symm.trans (hall v hv b hb)

end IsRing

/-- Position `x` of the window of `2d + 1` places around `b`. -/
def window (n d b x : ℕ) : ℕ := if b + x < d then b + x + n - d else if b + x - d < n then b + x - d else b + x - d - n

theorem window_lt {n d b x : ℕ} (hd : 2 * d < n) (hb : b < n) (hx : x ≤ 2 * d) : window n d b x < n := by
  unfold window
  split
  · omega
  · split <;> omega

theorem window_dist {n d b x y : ℕ} (hd : 2 * d < n) (hb : b < n) (hx : x ≤ 2 * d) (hy : y ≤ 2 * d) :
    circDist n (window n d b x) (window n d b y) = min (max x y - min x y) (n - (max x y - min x y)) := by
  rw [circDist_eq (window_lt hd hb hx) (window_lt hd hb hy)]
  unfold window
  split <;> split <;> (try split) <;> (try split) <;> omega

theorem window_mid {n d b : ℕ} (hb : b < n) : window n d b d = b := by
  unfold window
  rw [if_neg (by omega), if_pos (by omega)]
  omega

theorem window_surj {n d b w : ℕ} (hd : 2 * d < n) (hb : b < n) (hw : w < n) (h : circDist n b w ≤ d) :
    ∃ x ≤ 2 * d, window n d b x = w := by
  rw [circDist_eq hb hw] at h
  by_cases h1 : b ≤ w + d ∧ w ≤ b + d
  · refine ⟨w + d - b, by omega, ?_⟩
    unfold window
    rw [if_neg (by omega), if_pos (by omega)]
    omega
  · by_cases h2 : b < w
    · refine ⟨w + d - b - n, by omega, ?_⟩
      unfold window
      rw [if_pos (by omega)]
      omega
    · refine ⟨w + n + d - b, by omega, ?_⟩
      unfold window
      rw [if_neg (by omega), if_neg (by omega)]
      omega

theorem window_inj {n d b x y : ℕ} (hd : 2 * d < n) (hb : b < n) (hx : x ≤ 2 * d) (hy : y ≤ 2 * d)
    (h : window n d b x = window n d b y) : x = y := by
  have h1 := window_dist hd hb hx hy
  rw [h, circDist_eq (window_lt hd hb hy) (window_lt hd hb hy)] at h1
  omega

/-- Pairs of places of the window, without its middle, at distance at most `d`. -/
theorem window_pairs (d : ℕ) :
    ((((Finset.range (2 * d + 1)).erase d) ×ˢ ((Finset.range (2 * d + 1)).erase d)).filter
      (fun p => p.1 ≠ p.2 ∧ p.1 ≤ p.2 + d ∧ p.2 ≤ p.1 + d)).card = 3 * d * (d - 1) := by
  rw [Finset.card_eq_sum_card_fiberwise (f := fun p => p.1) (t := (Finset.range (2 * d + 1)).erase d) (by
    intro t ht
    have := (Finset.mem_filter.mp (Finset.mem_coe.mp ht)).1
    rw [Finset.mem_product] at this
    exact Finset.mem_coe.mpr this.1)]
  have hfib : ∀ x ∈ (Finset.range (2 * d + 1)).erase d,
      ((((((Finset.range (2 * d + 1)).erase d) ×ˢ ((Finset.range (2 * d + 1)).erase d)).filter
        (fun p => p.1 ≠ p.2 ∧ p.1 ≤ p.2 + d ∧ p.2 ≤ p.1 + d)).filter (fun p => p.1 = x)).card) =
        if x < d then x + d - 1 else 3 * d - 1 - x := by
    intro x hx
    rw [Finset.mem_erase, Finset.mem_range] at hx
    have h1 : ((((((Finset.range (2 * d + 1)).erase d) ×ˢ ((Finset.range (2 * d + 1)).erase d)).filter
        (fun p => p.1 ≠ p.2 ∧ p.1 ≤ p.2 + d ∧ p.2 ≤ p.1 + d)).filter (fun p => p.1 = x))) =
        (((Finset.Icc (x - d) (min (x + d) (2 * d))).erase d).erase x).image (fun y => (x, y)) := by
      ext ⟨a, b⟩
      simp only [Finset.mem_filter, Finset.mem_product, Finset.mem_erase, Finset.mem_range, Finset.mem_image, Finset.mem_Icc,
        Prod.mk.injEq]
      constructor
      · rintro ⟨⟨⟨⟨h1, h2⟩, h3, h4⟩, h5, h6, h7⟩, rfl⟩
        exact ⟨b, ⟨fun e => h5 e.symm, h3, by omega, by omega⟩, rfl, rfl⟩
      · rintro ⟨y, ⟨h1, h2, h3, h4⟩, rfl, rfl⟩
        exact ⟨⟨⟨⟨hx.1, hx.2⟩, h2, by omega⟩, fun e => h1 e.symm, by omega, by omega⟩, rfl⟩
    rw [h1, Finset.card_image_of_injective _ (fun a b e => (Prod.mk.inj e).2), Finset.card_erase_of_mem, Finset.card_erase_of_mem,
      Nat.card_Icc]
    · split <;> omega
    · rw [Finset.mem_Icc]; omega
    · rw [Finset.mem_erase, Finset.mem_Icc]
      exact ⟨hx.1, by omega⟩
  rw [Finset.sum_congr rfl hfib]
  have hsplit : (Finset.range (2 * d + 1)).erase d = Finset.range d ∪ (Finset.range d).image (fun z => 2 * d - z) := by
    ext x
    simp only [Finset.mem_erase, Finset.mem_range, Finset.mem_union, Finset.mem_image]
    constructor
    · rintro ⟨h1, h2⟩
      by_cases hx : x < d
      · exact Or.inl hx
      · exact Or.inr ⟨2 * d - x, by omega, by omega⟩
    · rintro (h1 | ⟨z, h1, rfl⟩) <;> omega
  rw [hsplit, Finset.sum_union (by
    rw [Finset.disjoint_left]
    intro x hx hx'
    rw [Finset.mem_range] at hx
    obtain ⟨z, hz, rfl⟩ := Finset.mem_image.mp hx'
    rw [Finset.mem_range] at hz
    omega), Finset.sum_image (by
    intro a ha b hb e
    have ha' := Finset.mem_range.mp (Finset.mem_coe.mp ha)
    have hb' := Finset.mem_range.mp (Finset.mem_coe.mp hb)
    dsimp only at e
    omega)]
  have e1 : ∑ x ∈ Finset.range d, (if x < d then x + d - 1 else 3 * d - 1 - x) = ∑ x ∈ Finset.range d, (x + (d - 1)) := by
    apply Finset.sum_congr rfl
    intro x hx
    rw [Finset.mem_range] at hx
    rw [if_pos hx]
    omega
  have e2 : ∑ z ∈ Finset.range d, (if 2 * d - z < d then 2 * d - z + d - 1 else 3 * d - 1 - (2 * d - z)) =
      ∑ x ∈ Finset.range d, (x + (d - 1)) := by
    apply Finset.sum_congr rfl
    intro x hx
    rw [Finset.mem_range] at hx
    rw [if_neg (by omega)]
    omega
  rw [e1, e2, Finset.sum_add_distrib, Finset.sum_const, Finset.card_range, smul_eq_mul]
  have := Finset.sum_range_id_mul_two d
  have h3 : 3 * d * (d - 1) = 3 * (d * (d - 1)) := by ring
  omega

/-- The ordered triangles of the ring. -/
theorem IsRing.triangles {G : SimpleGraph ℕ} {n d : ℕ} (h : IsRing G n d) (hn : 3 * d + 1 ≤ n) :
    ((Finset.range n ×ˢ Finset.range n ×ˢ Finset.range n).filter
        (fun t => G.Adj t.1 t.2.1 ∧ G.Adj t.2.1 t.2.2 ∧ t.1 ≠ t.2.2 ∧ G.Adj t.1 t.2.2)).card = n * (3 * d * (d - 1)) := by
  have h2d : 2 * d < n := by omega
  rw [Finset.card_eq_sum_card_fiberwise (f := fun t => t.2.1) (t := Finset.range n) (by
    intro t ht
    have := (Finset.mem_filter.mp (Finset.mem_coe.mp ht)).1
    rw [Finset.mem_product, Finset.mem_product] at this
    exact Finset.mem_coe.mpr this.2.1)]
  rw [Finset.sum_congr rfl (g := fun _ => 3 * d * (d - 1)), Finset.sum_const, Finset.card_range, smul_eq_mul]
  intro b hb
  rw [Finset.mem_range] at hb
  rw [← window_pairs d]
  symm
  have hadj : ∀ x y, x ≤ 2 * d → y ≤ 2 * d → (G.Adj (window n d b x) (window n d b y) ↔ (x ≠ y ∧ x ≤ y + d ∧ y ≤ x + d)) := by
    intro x y hx hy
    rw [h, window_dist h2d hb hx hy]
    constructor
    · rintro ⟨_, _, h3, h4⟩
      have : x ≠ y := fun e => h3 (by rw [e])
      exact ⟨this, by omega, by omega⟩
    · rintro ⟨h3, h4, h5⟩
      exact ⟨window_lt h2d hb hx, window_lt h2d hb hy, fun e => h3 (window_inj h2d hb hx hy e), by omega⟩
  have hmid := window_mid (n := n) (d := d) hb
  apply Finset.card_bij (fun p _ => (window n d b p.1, b, window n d b p.2))
  · rintro ⟨x, y⟩ hp
    simp only [Finset.mem_filter, Finset.mem_product, Finset.mem_erase, Finset.mem_range] at hp
    obtain ⟨⟨⟨h1, h2⟩, h3, h4⟩, h5⟩ := hp
    simp only [Finset.mem_filter, Finset.mem_product, Finset.mem_range]
    have hxy := (hadj x y (by omega) (by omega)).mpr h5
    have hxb := (hadj x d (by omega) (by omega)).mpr ⟨h1, by omega, by omega⟩
    have hby := (hadj d y (by omega) (by omega)).mpr ⟨fun e => h3 e.symm, by omega, by omega⟩
    rw [hmid] at hxb hby
    exact ⟨⟨⟨window_lt h2d hb (by omega), hb, window_lt h2d hb (by omega)⟩, hxb, hby, hxy.ne, hxy⟩, trivial⟩
  · rintro ⟨x, y⟩ hp ⟨x', y'⟩ hp' e
    simp only [Finset.mem_filter, Finset.mem_product, Finset.mem_erase, Finset.mem_range] at hp hp'
    simp only [Prod.mk.injEq, true_and] at e
    exact Prod.ext (window_inj h2d hb (by omega) (by omega) e.1) (window_inj h2d hb (by omega) (by omega) e.2)
  · rintro ⟨x, y, z⟩ ht
    simp only [Finset.mem_filter, Finset.mem_product, Finset.mem_range] at ht
    obtain ⟨⟨⟨h1, h2, h3⟩, h4, h5, h6, h7⟩, rfl⟩ := ht
    obtain ⟨_, _, _, h8⟩ := (h _ _).mp h4.symm
    obtain ⟨_, _, _, h9⟩ := (h _ _).mp h5
    obtain ⟨p, hp, rfl⟩ := window_surj h2d hb h1 h8
    obtain ⟨q, hq, rfl⟩ := window_surj h2d hb h3 h9
    refine ⟨(p, q), ?_, rfl⟩
    simp only [Finset.mem_filter, Finset.mem_product, Finset.mem_erase, Finset.mem_range]
    refine ⟨⟨⟨?_, by omega⟩, ?_, by omega⟩, (hadj p q hp hq).mp h7⟩
    · rintro rfl
      rw [hmid] at h4
      exact h4.ne rfl
    · rintro rfl
      rw [hmid] at h5
      exact h5.ne rfl

end Verif
