import Verif.Lemmas.Ws4
import Mathlib.Tactic.Linarith

/-!
# Lemmas about the Watts-Strogatz ensemble: when the construction ends
-/

set_option linter.unusedSectionVars false
set_option linter.unusedSimpArgs false

namespace Verif
open AdjContainer GenericGraph

namespace Ws
variable {T R : Type} [Rng R]

/-! ### Nothing chosen -/

theorem rewireBody_tails {p : ℚ} {n d : Nat} {dat : List T} {g : WSGraph T}
    {E : Finset (Sym2 ℕ)} {org : Sym2 ℕ → Sym2 ℕ} (h : J n d dat g E org 0) {i : Nat} (hi : i < n) (rng : R) (fuel : Nat)
    (ht : ∀ k < nfl (WSGraph.entries g i), throwAt p rng k = false) :
    rewireBody p fuel (g, rng) i = .ok (g, unitState (nfl (WSGraph.entries g i)) rng) := by
  obtain ⟨g1, rewire, rng1, D, a1, a2, a3, a4, a5, a6, a7, a8⟩ := removeStage_spec (p := p) h hi rng
  have hr := a8 ht
  obtain ⟨b1, b2, _⟩ := a7 hr
  unfold rewireBody
  simp only
  rw [a1, hr, b1, b2]
  rfl

theorem loop_tails {p : ℚ} {n d : Nat} {dat : List T} {g0 : WSGraph T} (h : J n d dat g0 (ringSet n d) id 0)
    (hfl : ∀ i < n, nfl (WSGraph.entries g0 i) = 2 * d) (fuel : Nat) (rng0 : R) : ∀ (m : Nat), m ≤ n →
    (∀ k < 2 * d * m, throwAt p rng0 k = false) →
    (List.range m).foldlM (rewireBody p fuel) (g0, rng0) = .ok (g0, unitState (2 * d * m) rng0) := by
  intro m
  induction m with
  | zero => intro _ _; rfl
  | succ m ih =>
    intro hm ht
    have hmul : 2 * d * (m + 1) = 2 * d + 2 * d * m := by ring
    rw [List.range_succ, List.foldlM_append, ih (by omega) (fun k hk => ht k (by omega))]
    simp only [Res.ok_bind, List.foldlM_cons, List.foldlM_nil]
    rw [rewireBody_tails h (by omega) _ fuel]
    · rw [hfl m (by omega), hmul, unitState_add]; rfl
    · rw [hfl m (by omega)]
      intro k hk
      rw [← throwAt_add]
      exact ht _ (by omega)

/-! ### No place left -/

theorem pickPair_stuck {n : Nat} {dat : List T} {ec : Nat} {g : WSGraph T} {E : Finset (Sym2 ℕ)} {org : Sym2 ℕ → Sym2 ℕ}
    (h : Raw n dat ec g (fun u v => s(u, v) ∈ E) org) (hn : n < 2 ^ 32) (hn0 : 0 < n) (o : OriginalEdge)
    (hf : ∀ a b, ¬ Free n E o a b) : ∀ (fuel : Nat) (rng : R), pickPair g o fuel rng = .diverge := by
  intro fuel
  induction fuel with
  | zero => intro rng; rfl
  | succ fuel ih =>
    intro rng
    obtain ⟨a, r1, e1, _⟩ := genRange_ok rng hn0
    obtain ⟨b, r2, e2, _⟩ := genRange_ok r1 hn0
    rcases pickPair_succ h hn o fuel e1 e2 with ⟨hf', _⟩ | ⟨_, he⟩
    · exact absurd hf' (hf a b)
    · rw [he]; exact ih r2

/-- All pairs of vertices as edges. -/
def full (n : Nat) : Finset (Sym2 ℕ) := ((allPairs n).map toEdge).toFinset

theorem mem_full {n u v : Nat} : s(u, v) ∈ full n ↔ u < n ∧ v < n ∧ u ≠ v := by
  unfold full
  rw [List.mem_toFinset, List.mem_map]
  constructor
  · rintro ⟨⟨a, b⟩, h1, h2⟩
    rw [mem_allPairs] at h1
    simp only at h1
    rcases Sym2.eq_iff.mp h2 with ⟨rfl, rfl⟩ | ⟨rfl, rfl⟩ <;> simp only <;> omega
  · rintro ⟨h1, h2, h3⟩
    rcases Nat.lt_or_gt_of_ne h3 with h | h
    · exact ⟨(u, v), mem_allPairs.mpr ⟨h, h2⟩, rfl⟩
    · exact ⟨(v, u), mem_allPairs.mpr ⟨h, h1⟩, Sym2.eq_swap⟩

theorem card_full (n : Nat) : (full n).card = n * (n - 1) / 2 := by
  unfold full
  rw [List.toFinset_card_of_nodup, List.length_map, length_allPairs]
  rw [List.nodup_map_iff_inj_on (nodup_allPairs n)]
  intro x hx y hy hxy
  exact toEdge_injOn hx hy hxy

theorem J.sub_full {n d : Nat} {dat : List T} {g : WSGraph T} {E : Finset (Sym2 ℕ)} {org : Sym2 ℕ → Sym2 ℕ}
    {Pm : Multiset (Sym2 ℕ)} (h : J n d dat g E org Pm) : E ⊆ full n := by
  intro e he
  induction e using Sym2.ind with
  | h u v => rw [mem_full]; exact h.lt u v he

theorem loop_stuck {p : ℚ} (hp : AllHeads p) {n d : Nat} (hd : 1 ≤ d) (hnd : n = 2 * d + 1) {dat : List T} {g0 : WSGraph T}
    (h : J n d dat g0 (ringSet n d) id 0) (hn : n < 2 ^ 32)
    (hfl : ∀ i < n, nfl (WSGraph.entries g0 i) = 2 * d) (fuel : Nat) (rng0 : R) :
    (List.range n).foldlM (rewireBody p fuel) (g0, rng0) = .diverge := by
  have hrange : List.range n = List.range (n - 2) ++ [n - 2, n - 1] := by
    conv_lhs => rw [show n = (n - 2) + 1 + 1 by omega, List.range_succ, List.range_succ]
    rw [List.append_assoc, show n - 2 + 1 = n - 1 by omega]; rfl
  rw [hrange, List.foldlM_append]
  have hw := loop_spec (p := p) h hn hfl fuel rng0 (m := n - 2) (by omega)
  rcases hx : (List.range (n - 2)).foldlM (rewireBody p fuel) (g0, rng0) with ⟨g, rng⟩ | _ | _
  · rw [hx] at hw
    obtain ⟨E, org, hP⟩ : ∃ E org, Prog p n d dat g0 rng0 (n - 2) (g, rng) E org := hw
    have hJ : J n d dat g E org 0 := hP.j
    simp only [Res.ok_bind, List.foldlM_cons, List.foldlM_nil]
    have hstuck : rewireBody p fuel (g, rng) (n - 2) = .diverge := by
      obtain ⟨g1, rewire, rng1, D, a1, a2, a3, a4, a5, a6, a7, a8⟩ := removeStage_spec (p := p) hJ (show n - 2 < n by omega) rng
      have he0 : s(n - 2, n - 1) ∈ E ∧ org s(n - 2, n - 1) = s(n - 2, n - 1) := by
        apply hP.future
        · rw [mem_ringSet]
          exact ⟨n - 2, 1, by omega, by omega, by omega, .inl ⟨rfl, by rw [Nat.mod_eq_of_lt (by omega)]; omega⟩⟩
        · intro x hx
          rw [Sym2.mem_iff] at hx; omega
      have hD : D = {s(n - 2, n - 1)} := by
        ext e
        rw [Finset.mem_singleton]
        constructor
        · intro he
          have hpast := hP.past hp e (a2 he) (a3 e he).1
          induction e using Sym2.ind with
          | h u v =>
            have hl := hJ.lt u v (a2 he)
            have hu := hpast u (Sym2.mem_mk_left _ _)
            have hv := hpast v (Sym2.mem_mk_right _ _)
            rw [Sym2.eq_iff]; omega
        · rintro rfl
          by_contra hc
          exact a6 hp _ (Finset.mem_sdiff.mpr ⟨he0.1, hc⟩) (Sym2.mem_mk_left _ _) he0.2
      have hfull : E = full n := by
        apply Finset.eq_of_subset_of_card_le hJ.sub_full
        have := hJ.card (by omega)
        simp at this
        rw [card_full, this, hnd]
        have : (2 * d + 1) * (2 * d + 1 - 1) = 2 * ((2 * d + 1) * d) := by
          rw [Nat.add_sub_cancel]; ring
        rw [this]; omega
      have hlen : rewire.length = 1 := by
        have := congrArg Multiset.card a5
        rw [Multiset.coe_card, List.length_map] at this
        rw [this, hD]; rfl
      obtain ⟨o, rfl⟩ := List.length_eq_one_iff.mp hlen
      have ho : o.pair = s(n - 2, n - 1) := by
        rw [hD] at a5
        simp at a5
        exact a5
      unfold rewireBody
      simp only
      rw [a1]
      simp only [Res.ok_bind, List.foldlM_cons, List.foldlM_nil]
      have hpick := pickPair_stuck (R := R) a4.raw hn (by omega) o (by
        rintro a b ⟨f1, f2, f3, f4, f5⟩
        apply f5
        rw [Finset.mem_sdiff, hD, Finset.mem_singleton, hfull, mem_full]
        exact ⟨⟨f1, f2, f3⟩, by rw [← ho]; exact f4⟩) fuel rng1
      unfold addRandomEdge
      simp only
      rw [hpick]
      rfl
    rw [hstuck]
    rfl
  · rw [hx] at hw; exact hw.elim
  · rfl

/-! ### Lucky numbers -/

theorem free_exists {n d : Nat} (hd : 2 * d + 2 ≤ n) {dat : List T} {g : WSGraph T} {E : Finset (Sym2 ℕ)} {org : Sym2 ℕ → Sym2 ℕ}
    {Pm : Multiset (Sym2 ℕ)} {o : OriginalEdge} (h : J n d dat g E org (o.pair ::ₘ Pm)) : ∃ a b, Free n E o a b := by
  have hc := h.card (by omega)
  rw [Multiset.card_cons] at hc
  have hlt : (insert o.pair E).card < (full n).card := by
    refine (Finset.card_insert_le _ _).trans_lt ?_
    rw [card_full]
    have h1 : 2 * (n * d + 1) ≤ n * (n - 1) := by
      obtain ⟨m, rfl⟩ : ∃ m, n = 2 * d + 2 + m := ⟨n - (2 * d + 2), by omega⟩
      have : 2 * d + 2 + m - 1 = 2 * d + 1 + m := by omega
      rw [this]
      nlinarith [Nat.zero_le (m * d), Nat.zero_le m, Nat.zero_le (m * m), Nat.zero_le d]
    have h2 : n * d + 1 ≤ n * (n - 1) / 2 := by omega
    omega
  obtain ⟨e, he1, he2⟩ := Finset.exists_mem_notMem_of_card_lt_card hlt
  induction e using Sym2.ind with
  | h a b =>
    rw [mem_full] at he1
    rw [Finset.mem_insert, not_or] at he2
    exact ⟨a, b, he1.1, he1.2.1, he1.2.2, he2.1, he2.2⟩

theorem addAll_run {n d : Nat} (hn : n < 2 ^ 32) (hd : 2 * d + 2 ≤ n) {dat : List T} {fuel : Nat} : ∀ (l : List OriginalEdge)
    {g : WSGraph T} {E : Finset (Sym2 ℕ)} {org : Sym2 ℕ → Sym2 ℕ},
    J n d dat g E org ((l.map OriginalEdge.pair : List (Sym2 ℕ)) : Multiset (Sym2 ℕ)) →
    ∃ ds g', ∀ rest, l.foldlM (addRandomEdge (fuel + 1)) (g, (⟨ds ++ rest⟩ : Script)) = .ok (g', ⟨rest⟩) := by
  intro l
  induction l with
  | nil => intro g E org h; exact ⟨[], g, fun rest => rfl⟩
  | cons o l ih =>
    intro g E org h
    have h' : J n d dat g E org (o.pair ::ₘ ((l.map OriginalEdge.pair : List (Sym2 ℕ)) : Multiset (Sym2 ℕ))) := h
    obtain ⟨a, b, hf⟩ := free_exists hd h'
    have hpick : ∀ rest, pickPair g o (fuel + 1) (⟨a :: b :: rest⟩ : Script) = .ok (a, b, ⟨rest⟩) := by
      intro rest
      rcases pickPair_succ h.raw hn o fuel (script_genRange (l := b :: rest) hf.1) (script_genRange (l := rest) hf.2.1) with
        ⟨_, he⟩ | ⟨hc, _⟩
      · exact he
      · exact absurd hf hc
    obtain ⟨g1, e1, e2⟩ := addRandomEdge_of_pick h' (hpick []) hf
    have hadd : ∀ rest, addRandomEdge (fuel + 1) (g, (⟨a :: b :: rest⟩ : Script)) o = .ok (g1, ⟨rest⟩) := by
      intro rest
      unfold addRandomEdge at e1 ⊢
      simp only at e1 ⊢
      rw [hpick] at e1 ⊢
      simp only [Res.ok_bind] at e1 ⊢
      by_cases hc : (a == o.dst || b == o.from_) = true
      · rw [if_pos hc] at e1 ⊢
        rcases hx : createEdge g b a o.swapDirection with g2 | _ | _
        · rw [hx] at e1
          simp only [Res.ok_bind, Res.pure_eq, Res.ok.injEq, Prod.mk.injEq] at e1 ⊢
          exact ⟨e1.1, trivial⟩
        · rw [hx] at e1; cases e1
        · rw [hx] at e1; cases e1
      · rw [if_neg hc] at e1 ⊢
        rcases hx : createEdge g a b o with g2 | _ | _
        · rw [hx] at e1
          simp only [Res.ok_bind, Res.pure_eq, Res.ok.injEq, Prod.mk.injEq] at e1 ⊢
          exact ⟨e1.1, trivial⟩
        · rw [hx] at e1; cases e1
        · rw [hx] at e1; cases e1
    obtain ⟨ds, g', k⟩ := ih e2
    refine ⟨a :: b :: ds, g', fun rest => ?_⟩
    rw [List.foldlM_cons, List.cons_append, List.cons_append, hadd]
    exact k rest

theorem rewireBody_run {p : ℚ} {n d : Nat} (hn : n < 2 ^ 32) (hd : 2 * d + 2 ≤ n) {dat : List T} {fuel : Nat} {g : WSGraph T}
    {E : Finset (Sym2 ℕ)} {org : Sym2 ℕ → Sym2 ℕ} (h : J n d dat g E org 0) {i : Nat} (hi : i < n) :
    ∃ ds g' E' org', J n d dat g' E' org' 0 ∧
      ∀ rest, rewireBody p (fuel + 1) (g, (⟨ds ++ rest⟩ : Script)) i = .ok (g', ⟨rest⟩) := by
  obtain ⟨c, hc⟩ := h.raw.get hi
  have hv := h.raw.vert i c hc
  obtain ⟨ds1, a, b, rw', t⟩ := testLoop_run p c.original.length c.dst c.original [] (le_refl _) hv.inv
  obtain ⟨g1, rewire, rng1, D, a1, a2, a3, a4, a5, a6, a7, a8⟩ := removeStage_spec (p := p) h hi (⟨ds1 ++ []⟩ : Script)
  have hrem : ∀ rest, removeStage p g (⟨ds1 ++ rest⟩ : Script) i = .ok (g1, rewire, ⟨rest⟩) := by
    intro rest
    unfold removeStage at a1 ⊢
    rw [Vec.idx_of_some hc] at a1 ⊢
    simp only [Res.ok_bind] at a1 ⊢
    rw [show (c.original.length == c.dst.length) = true by simp [hv.inv]] at a1 ⊢
    simp only [Res.assert_true, Res.ok_bind] at a1 ⊢
    rw [t] at a1 ⊢
    simp only [Res.ok_bind] at a1 ⊢
    rcases hx : rw'.foldlM removeOther ({ g with vertices := g.vertices.set i { c with dst := a, original := b } } : WSGraph T)
      with g2 | _ | _
    · rw [hx] at a1
      simp only [Res.ok_bind, Res.pure_eq, Res.ok.injEq, Prod.mk.injEq] at a1 ⊢
      exact ⟨a1.1, a1.2.1, trivial⟩
    · rw [hx] at a1; cases a1
    · rw [hx] at a1; cases a1
  have hJ : J n d dat g1 (E \ D) org ((rewire.map OriginalEdge.pair : List (Sym2 ℕ)) : Multiset (Sym2 ℕ)) := by rw [a5]; exact a4
  obtain ⟨ds2, g2, k⟩ := addAll_run hn hd (fuel := fuel) rewire hJ
  have hw := addAll_spec hn (by omega) (fuel := fuel + 1) rewire (⟨ds2 ++ []⟩ : Script) hJ
  rw [k []] at hw
  obtain ⟨E', org', k1, _⟩ := hw
  refine ⟨ds1 ++ ds2, g2, E', org', k1, fun rest => ?_⟩
  unfold rewireBody
  simp only
  rw [List.append_assoc, hrem]
  simp only [Res.ok_bind]
  exact k rest

theorem loop_run {p : ℚ} {n d : Nat} (hn : n < 2 ^ 32) (hd : 2 * d + 2 ≤ n) {dat : List T} {fuel : Nat} {g0 : WSGraph T}
    (h : J n d dat g0 (ringSet n d) id 0) : ∀ m ≤ n,
    ∃ ds g' E' org', J n d dat g' E' org' 0 ∧
      ∀ rest, (List.range m).foldlM (rewireBody p (fuel + 1)) (g0, (⟨ds ++ rest⟩ : Script)) = .ok (g', ⟨rest⟩) := by
  intro m
  induction m with
  | zero => intro _; exact ⟨[], g0, _, _, h, fun rest => rfl⟩
  | succ m ih =>
    intro hm
    obtain ⟨ds, g1, E1, org1, k1, k2⟩ := ih (by omega)
    obtain ⟨ds', g2, E2, org2, l1, l2⟩ := rewireBody_run (p := p) hn hd (fuel := fuel) k1 (show m < n by omega)
    refine ⟨ds ++ ds', g2, E2, org2, l1, fun rest => ?_⟩
    rw [List.range_succ, List.foldlM_append, List.append_assoc, k2]
    simp only [Res.ok_bind, List.foldlM_cons, List.foldlM_nil]
    rw [l2]
    rfl

end Ws
end Verif
