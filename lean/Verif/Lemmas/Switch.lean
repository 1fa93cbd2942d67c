import Mathlib.Data.Sym.Sym2
import Mathlib.Data.Finset.Sym
import Mathlib.Data.Finset.Card
import Mathlib.Logic.Relation
import Mathlib.Tactic.Tauto

/-!
# Edge switches connect all graphs with the same degrees

Pure combinatorics, used for the Markov chain of the configuration model.
-/

set_option linter.unusedSectionVars false
set_option linter.unusedSimpArgs false

namespace Verif.Switch

/-- The neighbours of `v` in a set of edges. -/
def nb (E : Finset (Sym2 ℕ)) (v : ℕ) : Finset ℕ := (E.biUnion Sym2.toFinset).filter (fun w => s(v, w) ∈ E)

theorem mem_nb {E : Finset (Sym2 ℕ)} {v w : ℕ} : w ∈ nb E v ↔ s(v, w) ∈ E := by
  simp only [nb, Finset.mem_filter, Finset.mem_biUnion, and_iff_right_iff_imp]
  intro h
  exact ⟨_, h, by simp⟩

/-- `F` arises from `E` by replacing `n j`, `k l` by `n k`, `j l`. -/
structure SwAt (E F : Finset (Sym2 ℕ)) (n j k l : ℕ) : Prop where
  nj : s(n, j) ∈ E
  kl : s(k, l) ∈ E
  nk : s(n, k) ∉ E
  jl : s(j, l) ∉ E
  d1 : n ≠ j
  d2 : n ≠ k
  d3 : n ≠ l
  d4 : j ≠ k
  d5 : j ≠ l
  d6 : k ≠ l
  mem : ∀ x, x ∈ F ↔ (x ∈ E ∧ x ≠ s(n, j) ∧ x ≠ s(k, l)) ∨ x = s(n, k) ∨ x = s(j, l)

/-- One switch. -/
def Sw (E F : Finset (Sym2 ℕ)) : Prop := ∃ n j k l, SwAt E F n j k l

/-- No loops. -/
def Loopless (E : Finset (Sym2 ℕ)) : Prop := ∀ v, s(v, v) ∉ E

theorem SwAt.symm {E F : Finset (Sym2 ℕ)} {n j k l : ℕ} (h : SwAt E F n j k l) : SwAt F E n k j l := by
  obtain ⟨nj, kl, nk, jl, d1, d2, d3, d4, d5, d6, mem⟩ := h
  refine ⟨?_, ?_, ?_, ?_, d2, d1, d3, d4.symm, d6, d5, ?_⟩
  · rw [mem]; simp
  · rw [mem]; simp
  · rw [mem]; simp only [not_or, Sym2.eq_iff]; refine ⟨by tauto, by omega, by omega⟩
  · rw [mem]; simp only [not_or, Sym2.eq_iff]; refine ⟨by tauto, by omega, by omega⟩
  · intro x
    rw [mem]
    by_cases h1 : x = s(n, j)
    · subst h1; simp [nj]
    · by_cases h2 : x = s(k, l)
      · subst h2; simp [kl]
      · by_cases h3 : x = s(n, k)
        · subst h3; simp [nk, h1, h2]
        · by_cases h4 : x = s(j, l)
          · subst h4; simp [jl, h1, h2]
          · simp [h1, h2, h3, h4]

theorem Sw.symm {E F : Finset (Sym2 ℕ)} : Sw E F → Sw F E := fun ⟨_, _, _, _, h⟩ => ⟨_, _, _, _, h.symm⟩

/-- The same switch with the ends of both edges exchanged. -/
theorem SwAt.flip {E F : Finset (Sym2 ℕ)} {n j k l : ℕ} (h : SwAt E F n j k l) : SwAt E F j n l k := by
  obtain ⟨nj, kl, nk, jl, d1, d2, d3, d4, d5, d6, mem⟩ := h
  refine ⟨Sym2.eq_swap ▸ nj, Sym2.eq_swap ▸ kl, jl, nk, d1.symm, d5, d4, d3, d2, d6.symm, ?_⟩
  intro x
  rw [mem, Sym2.eq_swap (a := j) (b := n), Sym2.eq_swap (a := l) (b := k)]
  tauto

/-- The same switch with the two edges exchanged. -/
theorem SwAt.exchange {E F : Finset (Sym2 ℕ)} {n j k l : ℕ} (h : SwAt E F n j k l) : SwAt E F k l n j := by
  obtain ⟨nj, kl, nk, jl, d1, d2, d3, d4, d5, d6, mem⟩ := h
  refine ⟨kl, nj, Sym2.eq_swap ▸ nk, Sym2.eq_swap ▸ jl, d6, d2.symm, d4.symm, d3.symm, d5.symm, d1, ?_⟩
  intro x
  rw [mem, Sym2.eq_swap (a := k) (b := n), Sym2.eq_swap (a := l) (b := j)]
  tauto

theorem SwAt.nb_first {E F : Finset (Sym2 ℕ)} {n j k l : ℕ} (h : SwAt E F n j k l) : nb F n = insert k ((nb E n).erase j) := by
  ext w
  rw [mem_nb, h.mem, Finset.mem_insert, Finset.mem_erase, mem_nb]
  have := h.d1; have := h.d2; have := h.d3
  simp only [ne_eq, Sym2.eq_iff]
  constructor
  · rintro (⟨h1, h2, _⟩ | h1 | h1)
    · exact .inr ⟨by tauto, h1⟩
    · left; omega
    · omega
  · rintro (rfl | ⟨h1, h2⟩)
    · right; left; simp
    · left; exact ⟨h2, by omega, by omega⟩

theorem SwAt.nb_other {E F : Finset (Sym2 ℕ)} {n j k l v : ℕ} (h : SwAt E F n j k l) (h1 : v ≠ n) (h2 : v ≠ j) (h3 : v ≠ k)
    (h4 : v ≠ l) : nb F v = nb E v := by
  ext w
  rw [mem_nb, mem_nb, h.mem]
  simp only [ne_eq, Sym2.eq_iff]
  constructor
  · rintro (h5 | h5 | h5)
    · exact h5.1
    · omega
    · omega
  · intro h5; left; exact ⟨h5, by omega, by omega⟩

theorem SwAt.card_first {E F : Finset (Sym2 ℕ)} {n j k l : ℕ} (h : SwAt E F n j k l) : (nb F n).card = (nb E n).card := by
  rw [h.nb_first, Finset.card_insert_of_notMem, Finset.card_erase_of_mem (mem_nb.mpr h.nj)]
  · have : 0 < (nb E n).card := Finset.card_pos.mpr ⟨j, mem_nb.mpr h.nj⟩
    omega
  · rw [Finset.mem_erase, mem_nb]
    exact fun hc => h.nk hc.2

/-- A switch keeps all degrees. -/
theorem SwAt.card_nb {E F : Finset (Sym2 ℕ)} {n j k l : ℕ} (h : SwAt E F n j k l) (v : ℕ) : (nb F v).card = (nb E v).card := by
  by_cases h1 : v = n
  · subst h1; exact h.card_first
  by_cases h2 : v = j
  · subst h2; exact h.flip.card_first
  by_cases h3 : v = k
  · subst h3; exact h.exchange.card_first
  by_cases h4 : v = l
  · subst h4; exact h.exchange.flip.card_first
  rw [h.nb_other h1 h2 h3 h4]

theorem SwAt.loopless {E F : Finset (Sym2 ℕ)} {n j k l : ℕ} (h : SwAt E F n j k l) (hE : Loopless E) : Loopless F := by
  intro v hv
  rw [h.mem] at hv
  simp only [Sym2.eq_iff] at hv
  have := h.d2; have := h.d5
  rcases hv with h1 | h1 | h1
  · exact hE v h1.1
  · omega
  · omega

/-- One step towards a common star: if `v` has the neighbour `y` but not `x` and `x` has at least the degree of `y`, a switch
replaces the neighbour `y` of `v` by `x`. -/
theorem exists_switch {E : Finset (Sym2 ℕ)} (hE : Loopless E) {v x y : ℕ} (hy : s(v, y) ∈ E) (hx : s(v, x) ∉ E) (hxv : x ≠ v)
    (hd : (nb E y).card ≤ (nb E x).card) : ∃ z F, SwAt E F v y x z := by
  have hxy : x ≠ y := by rintro rfl; exact hx hy
  have hvy : v ≠ y := by rintro rfl; exact hE _ hy
  have hnot : ¬ (nb E x).erase y ⊆ (nb E y).erase x := by
    intro hsub
    have hcard : ((nb E y).erase x).card ≤ ((nb E x).erase y).card := by
      by_cases hc : s(x, y) ∈ E
      · rw [Finset.card_erase_of_mem (mem_nb.mpr (Sym2.eq_swap ▸ hc)), Finset.card_erase_of_mem (mem_nb.mpr hc)]
        omega
      · rw [Finset.erase_eq_of_notMem (by rw [mem_nb, Sym2.eq_swap]; exact hc), Finset.erase_eq_of_notMem (by rw [mem_nb]; exact hc)]
        exact hd
    have heq := Finset.eq_of_subset_of_card_le hsub hcard
    have hv : v ∈ (nb E y).erase x := by
      rw [Finset.mem_erase, mem_nb, Sym2.eq_swap]
      exact ⟨hxv.symm, hy⟩
    rw [← heq, Finset.mem_erase, mem_nb, Sym2.eq_swap] at hv
    exact hx hv.2
  rw [Finset.not_subset] at hnot
  obtain ⟨z, hz1, hz2⟩ := hnot
  rw [Finset.mem_erase, mem_nb] at hz1
  rw [Finset.mem_erase, mem_nb] at hz2
  have hzx : x ≠ z := by rintro rfl; exact hE _ hz1.2
  have hyz : s(y, z) ∉ E := fun hc => hz2 ⟨hzx.symm, hc⟩
  refine ⟨z, (E \ {s(v, y), s(x, z)}) ∪ {s(v, x), s(y, z)}, hy, hz1.2, hx, hyz, hvy, hxv.symm, ?_, hxy.symm, hz1.1.symm, hzx, ?_⟩
  · rintro rfl; exact hx (Sym2.eq_swap ▸ hz1.2)
  · intro w
    simp only [Finset.mem_union, Finset.mem_sdiff, Finset.mem_insert, Finset.mem_singleton, not_or]

/-- Reachability by switches. -/
abbrev Reach (E F : Finset (Sym2 ℕ)) : Prop := Relation.ReflTransGen Sw E F

theorem Reach.symm {E F : Finset (Sym2 ℕ)} (h : Reach E F) : Reach F E := by
  induction h with
  | refl => exact .refl
  | tail _ h2 ih => exact Relation.ReflTransGen.head h2.symm ih

theorem Reach.keeps {E F : Finset (Sym2 ℕ)} (h : Reach E F) (hE : Loopless E) :
    Loopless F ∧ ∀ v, (nb F v).card = (nb E v).card := by
  induction h with
  | refl => exact ⟨hE, fun _ => rfl⟩
  | tail _ h2 ih =>
    obtain ⟨n, j, k, l, h2⟩ := h2
    exact ⟨h2.loopless ih.1, fun v => by rw [h2.card_nb, ih.2]⟩

theorem SwAt.card {E F : Finset (Sym2 ℕ)} {n j k l : ℕ} (h : SwAt E F n j k l) : F.card = E.card := by
  have hF : F = insert s(n, k) (insert s(j, l) ((E.erase s(n, j)).erase s(k, l))) := by
    ext x
    rw [h.mem]
    simp only [Finset.mem_insert, Finset.mem_erase]
    tauto
  have := h.d1; have := h.d2; have := h.d3; have := h.d4; have := h.d5; have := h.d6
  have h1 : s(k, l) ∈ E.erase s(n, j) := by
    rw [Finset.mem_erase, Ne, Sym2.eq_iff]; exact ⟨by omega, h.kl⟩
  rw [hF, Finset.card_insert_of_notMem, Finset.card_insert_of_notMem, Finset.card_erase_of_mem h1, Finset.card_erase_of_mem h.nj]
  · have : 0 < (E.erase s(n, j)).card := Finset.card_pos.mpr ⟨_, h1⟩
    rw [Finset.card_erase_of_mem h.nj] at this
    omega
  · simp only [Finset.mem_erase, not_and]; intro _ _; exact h.jl
  · simp only [Finset.mem_insert, Finset.mem_erase, not_or, not_and, Sym2.eq_iff]
    exact ⟨by omega, fun _ _ => h.nk⟩

theorem card_reach {E F : Finset (Sym2 ℕ)} (h : Reach E F) : F.card = E.card := by
  induction h with
  | refl => rfl
  | tail _ h2 ih => obtain ⟨n, j, k, l, h2⟩ := h2; rw [h2.card, ih]

/-- The neighbours of one vertex can be made equal. -/
theorem align (v : ℕ) : ∀ (m : ℕ) {E F : Finset (Sym2 ℕ)}, (nb E v \ nb F v).card = m → Loopless E → Loopless F →
    (∀ w, (nb E w).card = (nb F w).card) → ∃ E' F', Reach E E' ∧ Reach F F' ∧ nb E' v = nb F' v := by
  intro m
  induction m with
  | zero =>
    intro E F hm _ _ hd
    refine ⟨E, F, .refl, .refl, ?_⟩
    rw [Finset.card_eq_zero, Finset.sdiff_eq_empty_iff_subset] at hm
    exact Finset.eq_of_subset_of_card_le hm (hd v).ge
  | succ m ih =>
    intro E F hm hE hF hd
    obtain ⟨y, hy⟩ : (nb E v \ nb F v).Nonempty := by rw [← Finset.card_pos]; omega
    obtain ⟨x, hx⟩ : (nb F v \ nb E v).Nonempty := by
      rw [← Finset.card_pos]
      have := Finset.card_sdiff_comm (hd v)
      omega
    rw [Finset.mem_sdiff, mem_nb, mem_nb] at hx hy
    have hxv : x ≠ v := by rintro rfl; exact hF _ hx.1
    have hyv : y ≠ v := by rintro rfl; exact hE _ hy.1
    rcases Nat.le_total (nb E y).card (nb E x).card with hc | hc
    · obtain ⟨z, E1, h1⟩ := exists_switch hE hy.1 hx.2 hxv hc
      have hset : nb E1 v \ nb F v = (nb E v \ nb F v).erase y := by
        ext w
        rw [h1.nb_first]
        simp only [Finset.mem_sdiff, Finset.mem_insert, Finset.mem_erase, mem_nb]
        constructor
        · rintro ⟨rfl | h2, h3⟩
          · exact absurd hx.1 h3
          · exact ⟨h2.1, h2.2, h3⟩
        · rintro ⟨h2, h3, h4⟩; exact ⟨.inr ⟨h2, h3⟩, h4⟩
      obtain ⟨E', F', r1, r2, r3⟩ := ih (E := E1) (F := F) (by
        rw [hset, Finset.card_erase_of_mem (by rw [Finset.mem_sdiff, mem_nb, mem_nb]; exact hy), hm]; rfl)
        (h1.loopless hE) hF (fun w => by rw [h1.card_nb, hd])
      exact ⟨E', F', Relation.ReflTransGen.head ⟨_, _, _, _, h1⟩ r1, r2, r3⟩
    · obtain ⟨z, F1, h1⟩ := exists_switch hF hx.1 hy.2 hyv (by rw [← hd, ← hd]; exact hc)
      have hset : nb E v \ nb F1 v = (nb E v \ nb F v).erase y := by
        ext w
        rw [h1.nb_first]
        simp only [Finset.mem_sdiff, Finset.mem_insert, Finset.mem_erase, mem_nb, not_or, not_and]
        constructor
        · rintro ⟨h2, h3, h4⟩
          exact ⟨h3, h2, h4 (by rintro rfl; exact hx.2 h2)⟩
        · rintro ⟨h2, h3, h4⟩; exact ⟨h3, h2, fun _ => h4⟩
      obtain ⟨E', F', r1, r2, r3⟩ := ih (E := E) (F := F1) (by
        rw [hset, Finset.card_erase_of_mem (by rw [Finset.mem_sdiff, mem_nb, mem_nb]; exact hy), hm]; rfl)
        hE (h1.loopless hF) (fun w => by rw [h1.card_nb, hd])
      exact ⟨E', F', r1, Relation.ReflTransGen.head ⟨_, _, _, _, h1⟩ r2, r3⟩

/-- The edges not at `v`. -/
def off (E : Finset (Sym2 ℕ)) (v : ℕ) : Finset (Sym2 ℕ) := E.filter (fun x => v ∉ x)

theorem nb_off {E : Finset (Sym2 ℕ)} {v w : ℕ} (h : w ≠ v) : nb (off E v) w = (nb E w).erase v := by
  ext u
  simp only [mem_nb, off, Finset.mem_filter, Sym2.mem_iff, Finset.mem_erase]
  constructor
  · rintro ⟨h1, h2⟩; exact ⟨by omega, h1⟩
  · rintro ⟨h1, h2⟩; exact ⟨h2, by omega⟩

theorem nb_off_self {E : Finset (Sym2 ℕ)} {v : ℕ} : nb (off E v) v = ∅ := by
  ext u
  simp [mem_nb, off]

/-- A switch away from `v` can be done in the presence of the edges at `v`. -/
theorem SwAt.lift {v : ℕ} {A : Finset (Sym2 ℕ)} (hA : ∀ x ∈ A, v ∈ x) {B C : Finset (Sym2 ℕ)} (hBv : nb B v = ∅) {n j k l : ℕ}
    (h2 : SwAt B C n j k l) : SwAt (B ∪ A) (C ∪ A) n j k l := by
  have hBn : ∀ a b, s(a, b) ∈ B → a ≠ v ∧ b ≠ v := by
    intro a b hab
    refine ⟨?_, ?_⟩
    · rintro rfl
      have : b ∈ nb B a := mem_nb.mpr hab
      rw [hBv] at this; simp at this
    · rintro rfl
      have : a ∈ nb B b := mem_nb.mpr (Sym2.eq_swap ▸ hab)
      rw [hBv] at this; simp at this
  obtain ⟨n1, n2⟩ := hBn _ _ h2.nj
  obtain ⟨n3, n4⟩ := hBn _ _ h2.kl
  have hnA : ∀ a b, a ≠ v → b ≠ v → s(a, b) ∉ A := by
    intro a b ha hb hc
    have := hA _ hc
    rw [Sym2.mem_iff] at this
    omega
  refine ⟨Finset.mem_union_left _ h2.nj, Finset.mem_union_left _ h2.kl, ?_, ?_, h2.d1, h2.d2, h2.d3, h2.d4, h2.d5, h2.d6, ?_⟩
  · rw [Finset.mem_union, not_or]; exact ⟨h2.nk, hnA _ _ n1 n3⟩
  · rw [Finset.mem_union, not_or]; exact ⟨h2.jl, hnA _ _ n2 n4⟩
  · intro x
    rw [Finset.mem_union, Finset.mem_union, h2.mem]
    constructor
    · rintro (h3 | h3)
      · tauto
      · left
        refine ⟨.inr h3, ?_, ?_⟩
        · rintro rfl; exact hnA _ _ n1 n2 h3
        · rintro rfl; exact hnA _ _ n3 n4 h3
    · tauto

/-- Switches away from `v` can be done in the presence of the edges at `v`. -/
theorem lift {v : ℕ} {A : Finset (Sym2 ℕ)} (hA : ∀ x ∈ A, v ∈ x) {E F : Finset (Sym2 ℕ)} (hE : Loopless E) (hv : nb E v = ∅)
    (h : Reach E F) : Reach (E ∪ A) (F ∪ A) := by
  induction h with
  | refl => exact .refl
  | tail h1 h2 ih =>
    rename_i B C
    refine ih.tail ?_
    obtain ⟨n, j, k, l, h2⟩ := h2
    have hBv : nb B v = ∅ := by
      rw [← Finset.card_eq_zero, (Reach.keeps h1 hE).2, hv, Finset.card_empty]
    exact ⟨n, j, k, l, h2.lift hA hBv⟩

/-- **Switches connect all loopless graphs with the same degrees.** -/
theorem connected : ∀ (m : ℕ) {E F : Finset (Sym2 ℕ)}, E.card = m → Loopless E → Loopless F →
    (∀ w, (nb E w).card = (nb F w).card) → Reach E F := by
  intro m
  induction m using Nat.strong_induction_on with
  | _ m ih =>
    intro E F hm hE hF hd
    by_cases hemp : E = ∅
    · have : F = ∅ := by
        rw [Finset.eq_empty_iff_forall_notMem]
        intro x hx
        induction x with
        | _ a b =>
          have h1 : 0 < (nb F a).card := Finset.card_pos.mpr ⟨b, mem_nb.mpr hx⟩
          rw [← hd, hemp] at h1
          simp [nb] at h1
      rw [hemp, this]
    · obtain ⟨x, hx⟩ := Finset.nonempty_iff_ne_empty.mpr hemp
      induction x with
      | _ v u =>
        obtain ⟨E', F', r1, r2, r3⟩ := align v _ rfl hE hF hd
        obtain ⟨k1, k2⟩ := Reach.keeps r1 hE
        obtain ⟨k3, k4⟩ := Reach.keeps r2 hF
        have hxE : s(v, u) ∈ E := hx
        have hv0 : 0 < (nb E' v).card := by rw [k2]; exact Finset.card_pos.mpr ⟨u, mem_nb.mpr hxE⟩
        -- the number of edges is the same all along
        have hcardE : E'.card = E.card := card_reach r1
        have hA : E' = off E' v ∪ E'.filter (fun x => v ∈ x) := by
          ext x; simp only [off, Finset.mem_union, Finset.mem_filter]; tauto
        have hB : F' = off F' v ∪ E'.filter (fun x => v ∈ x) := by
          ext x
          simp only [off, Finset.mem_union, Finset.mem_filter]
          by_cases hvx : v ∈ x
          · obtain ⟨w, rfl⟩ := Sym2.mem_iff_exists.mp hvx
            have : w ∈ nb E' v ↔ w ∈ nb F' v := by rw [r3]
            rw [mem_nb, mem_nb] at this
            tauto
          · tauto
        have hlt : (off E' v).card < m := by
          rw [← hm, ← hcardE]
          apply Finset.card_lt_card
          rw [Finset.ssubset_iff_of_subset (show off E' v ⊆ E' from Finset.filter_subset _ _)]
          obtain ⟨w, hw⟩ := Finset.card_pos.mp hv0
          exact ⟨s(v, w), mem_nb.mp hw, by simp [off]⟩
        have hmid : Reach (off E' v) (off F' v) := by
          refine ih _ hlt rfl (fun w hw => k1 w (Finset.mem_of_mem_filter _ hw)) (fun w hw => k3 w (Finset.mem_of_mem_filter _ hw)) ?_
          intro w
          by_cases hw : w = v
          · subst hw; rw [nb_off_self, nb_off_self]
          · rw [nb_off hw, nb_off hw]
            have hiff : v ∈ nb E' w ↔ v ∈ nb F' w := by
              rw [mem_nb, mem_nb, Sym2.eq_swap, ← mem_nb, ← mem_nb, r3]
            have hcc : (nb E' w).card = (nb F' w).card := by rw [k2, k4, hd]
            by_cases hvw : v ∈ nb E' w
            · rw [Finset.card_erase_of_mem hvw, Finset.card_erase_of_mem (hiff.mp hvw), hcc]
            · rw [Finset.erase_eq_of_notMem hvw, Finset.erase_eq_of_notMem (fun hc => hvw (hiff.mpr hc)), hcc]
        have hl := lift (v := v) (E := off E' v) (A := E'.filter (fun x => v ∈ x)) (fun x hx => (Finset.mem_filter.mp hx).2)
          (fun w hw => k1 w (Finset.mem_of_mem_filter _ hw)) nb_off_self hmid
        rw [← hA, ← hB] at hl
        exact r1.trans (hl.trans r2.symm)

end Verif.Switch
