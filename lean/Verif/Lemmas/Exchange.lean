import Verif.Lemmas.Metropolis

/-!
# Connected networks with a fixed number of edges

Two connected networks with the same vertices and the same number of edges are joined by a sequence of exchanges of one edge, all of
them leading to connected networks.
-/

set_option linter.unusedSectionVars false
set_option linter.unusedSimpArgs false

namespace Verif
open Finset Relation

/-- There is a path along edges of `S` between any two of the vertices `0, …, n - 1`. -/
def ConnectedOn (n : ℕ) (S : Finset (Sym2 ℕ)) : Prop := ∀ a < n, ∀ b < n, ReflTransGen (fun x y => s(x, y) ∈ S) a b

theorem ConnectedOn.mono {n : ℕ} {S S' : Finset (Sym2 ℕ)} (h : S ⊆ S') (hc : ConnectedOn n S) : ConnectedOn n S' :=
  fun a ha b hb => ReflTransGen.mono (fun _ _ hxy => h hxy) _ _ (hc a ha b hb)

/-- Paths can be reversed. -/
theorem path_symm {S : Finset (Sym2 ℕ)} {a b : ℕ} (h : ReflTransGen (fun x y => s(x, y) ∈ S) a b) :
    ReflTransGen (fun x y => s(x, y) ∈ S) b a := by
  induction h with
  | refl => exact .refl
  | tail _ h2 ih => exact ReflTransGen.head (by rw [Sym2.eq_swap]; exact h2) ih

theorem path_mono {S S' : Finset (Sym2 ℕ)} (h : S ⊆ S') {a b : ℕ} (hp : ReflTransGen (fun x y => s(x, y) ∈ S) a b) :
    ReflTransGen (fun x y => s(x, y) ∈ S') a b := ReflTransGen.mono (fun _ _ hxy => h hxy) _ _ hp

/-- Without the edge `ab` every vertex reached from `a` is still reached from `a` or from `b`. -/
theorem path_erase {S : Finset (Sym2 ℕ)} {a b v : ℕ} (h : ReflTransGen (fun x y => s(x, y) ∈ S) a v) :
    ReflTransGen (fun x y => s(x, y) ∈ S.erase s(a, b)) a v ∨ ReflTransGen (fun x y => s(x, y) ∈ S.erase s(a, b)) b v := by
  induction h with
  | refl => exact .inl .refl
  | @tail u v _ h2 ih =>
    by_cases he : s(u, v) = s(a, b)
    · rw [Sym2.eq_iff] at he
      rcases he with ⟨rfl, rfl⟩ | ⟨rfl, rfl⟩
      · exact .inr .refl
      · exact .inl .refl
    · have : s(u, v) ∈ S.erase s(a, b) := mem_erase.mpr ⟨he, h2⟩
      rcases ih with ih | ih
      · exact .inl (ih.tail this)
      · exact .inr (ih.tail this)

/-- A path that leaves a set has a step that leaves it. -/
theorem path_leaves {r : ℕ → ℕ → Prop} {A : ℕ → Prop} {a b : ℕ} (h : ReflTransGen r a b) (ha : A a) (hb : ¬ A b) :
    ∃ u v, r u v ∧ A u ∧ ¬ A v := by
  induction h with
  | refl => exact absurd ha hb
  | @tail u v _ h2 ih =>
    by_cases hu : A u
    · exact ⟨u, v, h2, hu, hb⟩
    · exact ih hu

/-- One edge is exchanged for another pair. -/
def Exch (n : ℕ) (S S' : Finset (Sym2 ℕ)) : Prop := ∃ x ∈ S, ∃ y ∈ pairSet n, y ∉ S ∧ S' = insert y (S.erase x)

theorem Exch.mem {n m : ℕ} {S S' : Finset (Sym2 ℕ)} (h : Exch n S S') (hS : S ∈ (pairSet n).powersetCard m) :
    S' ∈ (pairSet n).powersetCard m := by
  obtain ⟨x, hx, y, hy, hyS, rfl⟩ := h
  rw [mem_powersetCard] at hS ⊢
  refine ⟨insert_subset hy ((erase_subset _ _).trans hS.1), ?_⟩
  rw [card_insert_of_notMem (fun hc => hyS (mem_of_mem_erase hc)), card_erase_of_mem hx, hS.2]
  have := card_pos.mpr ⟨x, hx⟩
  omega

theorem Exch.symm {n : ℕ} {S S' : Finset (Sym2 ℕ)} (hS : S ⊆ pairSet n) (h : Exch n S S') : Exch n S' S := by
  obtain ⟨x, hx, y, hy, hyS, rfl⟩ := h
  have hxy : x ≠ y := fun hc => hyS (hc ▸ hx)
  refine ⟨y, mem_insert_self _ _, x, hS hx, ?_, ?_⟩
  · simp [hxy]
  · rw [erase_insert (fun hc => hyS (mem_of_mem_erase hc)), insert_erase hx]

/-- Two networks that differ by an exchange have a common neighbour. -/
theorem Exch.common {n m : ℕ} (hN : 3 ≤ (pairSet n).card) {S S' : Finset (Sym2 ℕ)} (hS : S ∈ (pairSet n).powersetCard m)
    (h : Exch n S S') : ∃ Z, Exch n S Z ∧ Exch n Z S' := by
  obtain ⟨x, hx, y, hy, hyS, rfl⟩ := h
  rw [mem_powersetCard] at hS
  have hxy : x ≠ y := fun hc => hyS (hc ▸ hx)
  have hcard := card_sdiff_add_card_eq_card hS.1
  by_cases h2 : 1 < (pairSet n \ S).card
  · obtain ⟨z, hz, hzy⟩ := exists_mem_ne h2 y
    rw [mem_sdiff] at hz
    have hxz : x ≠ z := fun hc => hz.2 (hc ▸ hx)
    refine ⟨insert z (S.erase x), ⟨x, hx, z, hz.1, hz.2, rfl⟩, z, mem_insert_self _ _, y, hy, ?_, ?_⟩
    · simp only [mem_insert, mem_erase, not_or, not_and]
      exact ⟨hzy.symm, fun _ => hyS⟩
    · rw [erase_insert (fun hc => hz.2 (mem_of_mem_erase hc))]
  · obtain ⟨z, hz, hzx⟩ := exists_mem_ne (show 1 < S.card by omega) x
    have hzy : z ≠ y := fun hc => hyS (hc ▸ hz)
    refine ⟨insert y (S.erase z), ⟨z, hz, y, hy, hyS, rfl⟩, x, ?_, z, hS.1 hz, ?_, ?_⟩
    · exact mem_insert_of_mem (mem_erase.mpr ⟨hzx.symm, hx⟩)
    · simp [hzy]
    · ext u
      simp only [mem_insert, mem_erase]
      by_cases hu : u = z
      · subst hu; simp [hzx, hz]
      · by_cases hu' : u = y
        · subst hu'; simp [hxy.symm]
        · simp [hu, hu']

/-- From a connected network one exchange leads to a connected network which shares more edges with another connected one. -/
theorem exch_closer {n m : ℕ} {S o : Finset (Sym2 ℕ)} (hS : S ∈ (pairSet n).powersetCard m) (ho : o ∈ (pairSet n).powersetCard m)
    (cS : ConnectedOn n S) (co : ConnectedOn n o) (hne : S ≠ o) :
    ∃ S', Exch n S S' ∧ ConnectedOn n S' ∧ (S' \ o).card < (S \ o).card := by
  rw [mem_powersetCard] at hS ho
  have hsub : ∀ {A B : Finset (Sym2 ℕ)}, A.card = m → B.card = m → A ≠ B → ∃ x ∈ A, x ∉ B := by
    intro A B hA hB hAB
    by_contra hcon
    push Not at hcon
    exact hAB (eq_of_subset_of_card_le hcon (by rw [hA, hB]))
  obtain ⟨x, hx, hxo⟩ := hsub hS.2 ho.2 hne
  have hless : ∀ y ∈ o, ((insert y (S.erase x)) \ o).card < (S \ o).card := by
    intro y hy
    refine card_lt_card ⟨?_, fun hc => ?_⟩
    · intro u hu
      rw [mem_sdiff, mem_insert, mem_erase] at hu
      rcases hu with ⟨rfl | ⟨_, hu⟩, hu'⟩
      · exact absurd hy hu'
      · exact mem_sdiff.mpr ⟨hu, hu'⟩
    · have := hc (mem_sdiff.mpr ⟨hx, hxo⟩)
      rw [mem_sdiff, mem_insert, mem_erase] at this
      rcases this with ⟨rfl | ⟨h, _⟩, _⟩
      · exact hxo hy
      · exact h rfl
  obtain ⟨⟨a, b⟩, hab, rfl⟩ := mem_pairSet.mp (hS.1 hx)
  have hablt : a < n ∧ b < n := by
    rw [mem_allPairs] at hab; omega
  change s(a, b) ∈ S at hx
  change s(a, b) ∉ o at hxo
  change ∀ y ∈ o, ((insert y (S.erase s(a, b))) \ o).card < (S \ o).card at hless
  by_cases hR : ReflTransGen (fun x y => s(x, y) ∈ S.erase s(a, b)) a b
  · obtain ⟨y, hy, hyS⟩ := hsub ho.2 hS.2 (Ne.symm hne)
    refine ⟨_, ⟨s(a, b), hx, y, ho.1 hy, hyS, rfl⟩, ?_, hless y hy⟩
    have hreach : ∀ v < n, ReflTransGen (fun x y => s(x, y) ∈ S.erase s(a, b)) a v := by
      intro v hv
      rcases path_erase (b := b) (cS a hablt.1 v hv) with h | h
      · exact h
      · exact hR.trans h
    refine ConnectedOn.mono (subset_insert _ _) (fun u hu v hv => (path_symm (hreach u hu)).trans (hreach v hv))
  · obtain ⟨u, v, huv, hu, hv⟩ := path_leaves (A := fun z => ReflTransGen (fun x y => s(x, y) ∈ S.erase s(a, b)) a z)
      (co a hablt.1 b hablt.2) .refl hR
    have hvS : s(u, v) ∉ S := by
      intro hc
      by_cases he : s(u, v) = s(a, b)
      · exact hxo (he ▸ huv)
      · exact hv (hu.tail (mem_erase.mpr ⟨he, hc⟩))
    refine ⟨_, ⟨s(a, b), hx, s(u, v), ho.1 huv, hvS, rfl⟩, ?_, hless _ huv⟩
    have hvn : v < n := by
      obtain ⟨⟨c, d⟩, hcd, h⟩ := mem_pairSet.mp (ho.1 huv)
      rw [mem_allPairs] at hcd
      change s(c, d) = s(u, v) at h
      rw [Sym2.eq_iff] at h
      omega
    have hbv : ReflTransGen (fun x y => s(x, y) ∈ S.erase s(a, b)) b v := by
      rcases path_erase (b := b) (cS a hablt.1 v hvn) with h | h
      · exact absurd h hv
      · exact h
    have hsub' := subset_insert s(u, v) (S.erase s(a, b))
    have hab' : ReflTransGen (fun x y => s(x, y) ∈ insert s(u, v) (S.erase s(a, b))) a b :=
      ((path_mono hsub' hu).tail (mem_insert_self _ _)).trans (path_symm (path_mono hsub' hbv))
    have hreach : ∀ z < n, ReflTransGen (fun x y => s(x, y) ∈ insert s(u, v) (S.erase s(a, b))) a z := by
      intro z hz
      rcases path_erase (b := b) (cS a hablt.1 z hz) with h | h
      · exact path_mono hsub' h
      · exact hab'.trans (path_mono hsub' h)
    exact fun y hy z hz => (path_symm (hreach y hy)).trans (hreach z hz)

/-- Connected networks are joined by exchanges. -/
theorem exch_path {n m : ℕ} {o : Finset (Sym2 ℕ)} (ho : o ∈ (pairSet n).powersetCard m) (co : ConnectedOn n o) :
    ∀ (c : ℕ) (S : Finset (Sym2 ℕ)), S ∈ (pairSet n).powersetCard m → ConnectedOn n S → (S \ o).card = c →
      ReflTransGen (fun x y => x ∈ (pairSet n).powersetCard m ∧ ConnectedOn n x ∧ ConnectedOn n y ∧ Exch n x y) S o := by
  intro c
  induction c using Nat.strong_induction_on with
  | _ c ih =>
    intro S hS cS hc
    by_cases hne : S = o
    · subst hne; exact .refl
    · obtain ⟨S', h1, h2, h3⟩ := exch_closer hS ho cS co hne
      exact ReflTransGen.head ⟨hS, cS, h2, h1⟩ (ih _ (by omega) S' (h1.mem hS) h2 rfl)

/-! ## Trials -/

/-- A state with a loop, or with a triangle, can be met again after every sufficiently large number of steps. -/
theorem Markov.cycle_pos {O : Type} [DecidableEq O] {Ω : Finset O} {P : O → O → ℚ} (hk : Markov.Kernel Ω P) {o : O} (ho : o ∈ Ω)
    (hc : 0 < P o o ∨ ∃ a ∈ Ω, ∃ b ∈ Ω, 0 < P o a ∧ 0 < P a o ∧ 0 < P a b ∧ 0 < P b o) :
    ∃ N, ∀ k, N ≤ k → 0 < Markov.pow Ω P k o o := by
  rcases hc with hc | ⟨a, a1, b, b1, p1, p2, p3, p4⟩
  · exact ⟨0, fun k _ => Markov.pow_self hk ho hc k⟩
  · rw [← Markov.pow_one (Ω := Ω) (P := P) a1] at p1
    rw [← Markov.pow_one (Ω := Ω) (P := P) ho] at p2 p4
    rw [← Markov.pow_one (Ω := Ω) (P := P) b1] at p3
    have q2 := Markov.pow_pos_trans hk ho a1 ho p1 p2
    have q3 := Markov.pow_pos_trans hk ho b1 ho (Markov.pow_pos_trans hk ho a1 b1 p1 p3) p4
    refine ⟨2, fun k hk2 => ?_⟩
    induction k using Nat.strong_induction_on with
    | _ k ih =>
      rcases Nat.lt_or_ge k 4 with h4 | h4
      · rcases (by omega : k = 2 ∨ k = 3) with rfl | rfl
        · exact q2
        · exact q3
      · have := Markov.pow_pos_trans hk ho ho ho (ih (k - 2) (by omega) (by omega)) q2
        rwa [show k - 2 + (1 + 1) = k by omega] at this

/-- The reachability needed for `Ergodic.trials_nonneg`: all exchanges are possible and the weights are positive exactly for the
connected networks. -/
theorem exch_reach {n m : ℕ} (hN : 3 ≤ (pairSet n).card) (hm0 : 0 < m) (hm : m < (pairSet n).card) {P : Finset (Sym2 ℕ) → Finset (Sym2 ℕ) → ℚ}
    (hP : Markov.Kernel ((pairSet n).powersetCard m) P)
    (hex : ∀ S ∈ (pairSet n).powersetCard m, ∀ S', Exch n S S' → 0 < P S S') {w : Finset (Sym2 ℕ) → ℚ}
    (hw : ∀ S ∈ (pairSet n).powersetCard m, 0 ≤ w S) (hc : ∀ S ∈ (pairSet n).powersetCard m, 0 < w S ↔ ConnectedOn n S) {k : ℕ} (hk : 0 < k)
    {o : Finset (Sym2 ℕ)} (ho : o ∈ (pairSet n).powersetCard m) (co : ConnectedOn n o) :
    ∃ t, ∀ S ∈ (pairSet n).powersetCard m, 0 < w S →
      0 < Markov.pow ((pairSet n).powersetCard m) (Markov.reject ((pairSet n).powersetCard m) (Markov.pow ((pairSet n).powersetCard m) P k) w) t
        S o := by
  classical
  set Ω := (pairSet n).powersetCard m with hΩ
  have hK := Markov.pow_kernel hP k
  have hsub : ∀ {S}, S ∈ Ω → S ⊆ pairSet n := fun hS => (mem_powersetCard.mp hS).1
  -- an exchange is possible in any positive number of steps
  have hpow : ∀ j, 0 < j → ∀ S ∈ Ω, ∀ S', Exch n S S' → 0 < Markov.pow Ω P j S S' := by
    intro j
    induction j using Nat.strong_induction_on with
    | _ j ih =>
      intro hj S hS S' h
      have hS' := h.mem hS
      rcases (by omega : j = 1 ∨ j = 2 ∨ 3 ≤ j) with rfl | rfl | h3
      · rw [Markov.pow_one hS']; exact hex S hS S' h
      · obtain ⟨Z, z1, z2⟩ := h.common hN hS
        have hZ := z1.mem hS
        exact Markov.pow_pos_trans (k := 1) (l := 1) hP hS hZ hS' (by rw [Markov.pow_one hZ]; exact hex S hS Z z1)
          (by rw [Markov.pow_one hS']; exact hex Z hZ S' z2)
      · have h1 := ih (j - 2) (by omega) (by omega) S hS S' h
        have h2 : 0 < Markov.pow Ω P 2 S' S' := Markov.pow_pos_trans (k := 1) (l := 1) hP hS' hS hS'
          (by rw [Markov.pow_one hS]; exact hex S' hS' S (h.symm (hsub hS))) (by rw [Markov.pow_one hS']; exact hex S hS S' h)
        have := Markov.pow_pos_trans hP hS hS' hS' h1 h2
        rwa [show j - 2 + 2 = j by omega] at this
  set Q := Markov.pow Ω P k with hQ
  have hM := Markov.reject_kernel hK hw
  let Ω' := Ω.filter (fun x => 0 < w x)
  have hsubΩ : Ω' ⊆ Ω := filter_subset _ _
  have hzero : ∀ x ∈ Ω, x ∉ Ω' → w x = 0 := fun x hx hx' =>
    le_antisymm (not_lt.mp (fun hlt => hx' (mem_filter.mpr ⟨hx, hlt⟩))) (hw x hx)
  have hz : ∀ x ∈ Ω', ∀ z ∈ Ω, z ∉ Ω' → Markov.reject Ω Q w x z = 0 := fun x hx z hz hz' =>
    Markov.reject_zero (by rintro rfl; exact hz' hx) (hzero z hz hz')
  have hM' := Markov.kernel_closed hM hsubΩ hz
  have hmove : ∀ S ∈ Ω, ∀ S', Exch n S S' → 0 < w S → 0 < w S' → 0 < Markov.reject Ω Q w S S' := fun S hS S' h h1 h2 =>
    Markov.reject_pos hK hS (hpow k hk S hS S' h) h1 h2
  have hwo : 0 < w o := (hc o ho).mpr co
  have ho' : o ∈ Ω' := mem_filter.mpr ⟨ho, hwo⟩
  have hcyc : 0 < Markov.reject Ω Q w o o ∨ ∃ a ∈ Ω', ∃ b ∈ Ω', 0 < Markov.reject Ω Q w o a ∧ 0 < Markov.reject Ω Q w a o ∧
      0 < Markov.reject Ω Q w a b ∧ 0 < Markov.reject Ω Q w b o := by
    by_cases hall : ∀ a, Exch n o a → 0 < w a
    · right
      have hcard := card_sdiff_add_card_eq_card (hsub ho)
      have hom := (mem_powersetCard.mp ho).2
      obtain ⟨x, hx⟩ := card_pos.mp (show 0 < o.card by omega)
      obtain ⟨y, hy⟩ := card_pos.mp (show 0 < (pairSet n \ o).card by omega)
      rw [mem_sdiff] at hy
      have ha : Exch n o (insert y (o.erase x)) := ⟨x, hx, y, hy.1, hy.2, rfl⟩
      obtain ⟨b, hb, hba⟩ := ha.common hN ho
      have wa := hall _ ha
      have wb := hall _ hb
      have ma := ha.mem ho
      have mb := hb.mem ho
      exact ⟨_, mem_filter.mpr ⟨ma, wa⟩, b, mem_filter.mpr ⟨mb, wb⟩, hmove o ho _ ha hwo wa, hmove _ ma o (ha.symm (hsub ho)) wa hwo,
        hmove _ ma b (hba.symm (hsub mb)) wa wb, hmove b mb o (hb.symm (hsub ho)) wb hwo⟩
    · left
      push Not at hall
      obtain ⟨a, ha, wa⟩ := hall
      have ma := ha.mem ho
      have wa0 : w a = 0 := le_antisymm wa (hw a ma)
      unfold Markov.reject
      rw [if_pos rfl]
      have h1 : 0 ≤ Q o o * acceptance w o o := mul_nonneg (hK.nonneg o ho o ho) (Markov.acceptance_nonneg hwo.le hwo.le)
      have h2 : 0 < ∑ z ∈ Ω, Q o z * (1 - acceptance w o z) := by
        refine sum_pos' (fun z hz => mul_nonneg (hK.nonneg o ho z hz) (sub_nonneg.mpr Markov.acceptance_le)) ⟨a, ma, ?_⟩
        have : acceptance w o a = 0 := by unfold acceptance; rw [wa0, zero_div]; norm_num
        rw [this, sub_zero, mul_one]
        exact hpow k hk o ho a ha
      linarith
  obtain ⟨N, hN'⟩ := Markov.cycle_pos hM' ho' hcyc
  obtain ⟨t, ht⟩ := Markov.common_steps hM' ho' hN' (fun S hS => Markov.pow_of_path hM' ho' (by
    obtain ⟨hS1, hS2⟩ := mem_filter.mp hS
    refine Relation.ReflTransGen.mono (fun x y hxy => ?_) _ _ (exch_path ho co _ S hS1 ((hc S hS1).mp hS2) rfl)
    obtain ⟨h1, h2, h3, h4⟩ := hxy
    have wx := (hc x h1).mpr h2
    have my := h4.mem h1
    have wy := (hc y my).mpr h3
    exact ⟨mem_filter.mpr ⟨h1, wx⟩, mem_filter.mpr ⟨my, wy⟩, hmove x h1 y h4 wx wy⟩))
  refine ⟨t, fun S hS hwS => ?_⟩
  have hS' : S ∈ Ω' := mem_filter.mpr ⟨hS, hwS⟩
  rw [Markov.pow_closed hsubΩ hz t S hS']
  exact ht S hS'

end Verif
