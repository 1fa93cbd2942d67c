import Verif.Lemmas.SwConnected
import Verif.Lemmas.Switch
import Mathlib.Combinatorics.Enumerative.DoubleCounting

/-!
# Switches between connected graphs

Two connected graphs with the same degrees are joined by switches all of which lead to connected graphs.  A vertex of smallest degree is
removed: first the rest is made connected, then the neighbours of the vertex are made equal, and the rest is treated by induction.
-/

set_option linter.unusedSectionVars false
set_option linter.unusedSimpArgs false

namespace Verif.Switch
open Finset Relation

/-- There is a path along edges of `S`. -/
abbrev Joined (S : Finset (Sym2 ℕ)) (a b : ℕ) : Prop := ReflTransGen (fun x y => s(x, y) ∈ S) a b

theorem joined_of_edges {S T : Finset (Sym2 ℕ)} (h : ∀ a b, s(a, b) ∈ S → Joined T a b) {p q : ℕ} (hp : Joined S p q) : Joined T p q := by
  induction hp with
  | refl => exact .refl
  | tail _ h2 ih => exact ih.trans (h _ _ h2)

/-- All edges are between vertices of `W`. -/
def Supp (W : Finset ℕ) (E : Finset (Sym2 ℕ)) : Prop := ∀ a b, s(a, b) ∈ E → a ∈ W ∧ b ∈ W

theorem SwAt.supp {W : Finset ℕ} {E F : Finset (Sym2 ℕ)} {n j k l : ℕ} (h : SwAt E F n j k l) (hE : Supp W E) : Supp W F := by
  intro a b hab
  rw [h.mem, Sym2.eq_iff, Sym2.eq_iff] at hab
  obtain ⟨h1, h2⟩ := hE _ _ h.nj
  obtain ⟨h3, h4⟩ := hE _ _ h.kl
  rcases hab with h5 | (⟨rfl, rfl⟩ | ⟨rfl, rfl⟩) | (⟨rfl, rfl⟩ | ⟨rfl, rfl⟩)
  · exact hE _ _ h5.1
  · exact ⟨h1, h3⟩
  · exact ⟨h3, h1⟩
  · exact ⟨h2, h4⟩
  · exact ⟨h4, h2⟩

theorem Reach.supp {W : Finset ℕ} {E F : Finset (Sym2 ℕ)} (h : Reach E F) (hE : Supp W E) : Supp W F := by
  induction h with
  | refl => exact hE
  | tail _ h2 ih => obtain ⟨n, j, k, l, h2⟩ := h2; exact h2.supp ih

/-! ## Forests -/

/-- No edge has a detour. -/
def Forest (W : Finset ℕ) (Q : Finset (Sym2 ℕ)) : Prop := ∀ a b, s(a, b) ∈ Q → a ∈ W ∧ b ∈ W ∧ ¬ Joined (Q.erase s(a, b)) a b

theorem Forest.insert {W : Finset ℕ} {Q : Finset (Sym2 ℕ)} (h : Forest W Q) {p q : ℕ} (hp : p ∈ W) (hq : q ∈ W) (hpq : ¬ Joined Q p q) :
    Forest W (insert s(p, q) Q) := by
  have hnot : s(p, q) ∉ Q := fun hc => hpq (.single hc)
  intro a b hab
  rw [mem_insert] at hab
  rcases hab with hab | hab
  · have hJ : ¬ Joined ((Insert.insert s(p, q) Q).erase s(a, b)) a b := by
      rw [hab, erase_insert hnot]
      rw [Sym2.eq_iff] at hab
      rcases hab with ⟨rfl, rfl⟩ | ⟨rfl, rfl⟩
      · exact hpq
      · exact fun hc => hpq (path_symm hc)
    rw [Sym2.eq_iff] at hab
    rcases hab with ⟨rfl, rfl⟩ | ⟨rfl, rfl⟩
    · exact ⟨hp, hq, hJ⟩
    · exact ⟨hq, hp, hJ⟩
  · obtain ⟨h1, h2, h3⟩ := h a b hab
    refine ⟨h1, h2, fun hc => ?_⟩
    have hsub : ((Insert.insert s(p, q) Q).erase s(a, b)).erase s(p, q) ⊆ Q.erase s(a, b) := by
      intro z hz
      simp only [mem_erase, mem_insert] at hz ⊢
      tauto
    have hsub2 : Q.erase s(a, b) ⊆ Q := erase_subset _ _
    rcases path_split p q hc with h4 | ⟨h4, h5⟩ | ⟨h4, h5⟩
    · exact h3 (path_mono hsub h4)
    · exact hpq ((path_symm (path_mono hsub2 (path_mono hsub h4))).trans
        (ReflTransGen.head hab (path_symm (path_mono hsub2 (path_mono hsub h5)))))
    · exact hpq ((path_mono hsub2 (path_mono hsub h5)).trans
        (ReflTransGen.head (by rw [Sym2.eq_swap]; exact hab) (path_mono hsub2 (path_mono hsub h4))))

open Classical in
/-- The pairs of vertices without a path. -/
noncomputable def apart (W : Finset ℕ) (Q : Finset (Sym2 ℕ)) : Finset (ℕ × ℕ) := (W ×ˢ W).filter (fun p => ¬ Joined Q p.1 p.2)

theorem mem_apart {W : Finset ℕ} {Q : Finset (Sym2 ℕ)} {p : ℕ × ℕ} : p ∈ apart W Q ↔ p.1 ∈ W ∧ p.2 ∈ W ∧ ¬ Joined Q p.1 p.2 := by
  classical
  unfold apart
  rw [mem_filter, mem_product, and_assoc]

theorem apart_lt {W : Finset ℕ} {Q Q' : Finset (Sym2 ℕ)} (h : ∀ a b, Joined Q a b → Joined Q' a b) {p q : ℕ} (hp : p ∈ W) (hq : q ∈ W)
    (h1 : ¬ Joined Q p q) (h2 : Joined Q' p q) : (apart W Q').card < (apart W Q).card := by
  refine card_lt_card ⟨fun z hz => ?_, fun hc => ?_⟩
  · rw [mem_apart] at hz ⊢
    exact ⟨hz.1, hz.2.1, fun hJ => hz.2.2 (h _ _ hJ)⟩
  · have := hc ((mem_apart (p := (p, q))).mpr ⟨hp, hq, h1⟩)
    exact (mem_apart.mp this).2.2 h2

theorem forest_le {W : Finset ℕ} (hne : W.Nonempty) : ∀ (m : ℕ) (Q : Finset (Sym2 ℕ)), (apart W Q).card = m → Forest W Q →
    Q.card + 1 ≤ W.card := by
  intro m
  induction m using Nat.strong_induction_on with
  | _ m ih =>
    intro Q hm hQ
    by_cases hc : ConnIn (· ∈ W) Q
    · obtain ⟨c, hcW⟩ := hne
      have hF : ConnIn (· ∈ W) ((W.erase c).image (fun x => s(c, x))) := by
        have : ∀ v, v ∈ W → Joined ((W.erase c).image (fun x => s(c, x))) c v := by
          intro v hv
          by_cases hvc : v = c
          · rw [hvc]
          · exact .single (mem_image.mpr ⟨v, mem_erase.mpr ⟨hvc, hv⟩, rfl⟩)
        exact fun a ha b hb => (path_symm (this a ha)).trans (this b hb)
      have h1 := bridges_le (W := (· ∈ W)) Q.card ∅ Q ((W.erase c).image (fun x => s(c, x))) rfl (disjoint_empty_left _)
        (by rwa [empty_union]) (fun q hq => by
          induction q using Sym2.ind with
          | _ a b => exact ⟨a, b, (hQ a b hq).1, (hQ a b hq).2.1, rfl⟩)
        (fun q hq hcon => by
          induction q using Sym2.ind with
          | _ a b =>
            rw [empty_union] at hcon
            obtain ⟨x1, x2, x3⟩ := hQ a b hq
            exact x3 (hcon a x1 b x2)) (by rwa [empty_union])
      have h2 : ((W.erase c).image (fun x => s(c, x))).card ≤ (W.erase c).card := card_image_le
      have h3 := card_erase_lt_of_mem hcW
      omega
    · unfold ConnIn at hc
      push Not at hc
      obtain ⟨p, hp, q, hq, hpq⟩ := hc
      have hnot : s(p, q) ∉ Q := fun hc => hpq (.single hc)
      have := ih _ (by
        rw [← hm]
        exact apart_lt (fun a b h => path_mono (subset_insert _ _) h) hp hq hpq (.single (mem_insert_self s(p, q) Q))) _ rfl
        (hQ.insert hp hq hpq)
      rw [card_insert_of_notMem hnot] at this
      omega

/-- With enough edges a graph which is not connected has a cycle. -/
theorem exists_cycle {W : Finset ℕ} {H : Finset (Sym2 ℕ)} (hs : Supp W H) (hc : ¬ ConnIn (· ∈ W) H) (hcard : W.card ≤ H.card + 1) :
    ∃ a b, s(a, b) ∈ H ∧ Joined (H.erase s(a, b)) a b := by
  by_contra hcon
  push Not at hcon
  unfold ConnIn at hc
  push Not at hc
  obtain ⟨p, hp, q, hq, hpq⟩ := hc
  have hf : Forest W H := fun a b hab => ⟨(hs a b hab).1, (hs a b hab).2, hcon a b hab⟩
  have := forest_le ⟨p, hp⟩ _ _ rfl (hf.insert hp hq hpq)
  rw [card_insert_of_notMem (fun hc => hpq (.single hc))] at this
  omega

/-! ## Degrees -/

theorem card_nb_eq {H : Finset (Sym2 ℕ)} (w : ℕ) : (nb H w).card = (H.filter (fun x => w ∈ x)).card := by
  refine card_bij (fun u _ => s(w, u)) (fun u hu => mem_filter.mpr ⟨mem_nb.mp hu, by simp⟩) ?_ ?_
  · intro a _ b _ h
    rw [Sym2.eq_iff] at h
    omega
  · intro x hx
    rw [mem_filter] at hx
    obtain ⟨u, rfl⟩ := Sym2.mem_iff_exists.mp hx.2
    exact ⟨u, mem_nb.mpr hx.1, rfl⟩

theorem sum_degrees {W : Finset ℕ} {H : Finset (Sym2 ℕ)} (hs : Supp W H) (hl : Loopless H) : ∑ w ∈ W, (nb H w).card = 2 * H.card := by
  have h1 := sum_card_bipartiteAbove_eq_sum_card_bipartiteBelow (s := W) (t := H) (fun w x => w ∈ x)
  simp only [bipartiteAbove, bipartiteBelow] at h1
  rw [sum_congr rfl (fun w _ => card_nb_eq w), h1, mul_comm, ← smul_eq_mul, ← sum_const]
  refine sum_congr rfl (fun x hx => ?_)
  induction x using Sym2.ind with
  | _ a b =>
    have hab : a ≠ b := by rintro rfl; exact hl _ hx
    have : W.filter (fun w => w ∈ s(a, b)) = {a, b} := by
      ext w
      simp only [mem_filter, Sym2.mem_iff, mem_insert, mem_singleton]
      constructor
      · exact fun h => h.2
      · rintro (rfl | rfl)
        · exact ⟨(hs _ _ hx).1, .inl rfl⟩
        · exact ⟨(hs _ _ hx).2, .inr rfl⟩
    rw [this, card_pair hab]

theorem Supp.off {W : Finset ℕ} {E : Finset (Sym2 ℕ)} (hs : Supp W E) (v : ℕ) : Supp (W.erase v) (off E v) := by
  intro a b hab
  simp only [Switch.off, mem_filter, Sym2.mem_iff, not_or] at hab
  obtain ⟨h1, h2⟩ := hs a b hab.1
  exact ⟨mem_erase.mpr ⟨fun h => hab.2.1 h.symm, h1⟩, mem_erase.mpr ⟨fun h => hab.2.2 h.symm, h2⟩⟩

theorem mem_off {E : Finset (Sym2 ℕ)} {v a b : ℕ} : s(a, b) ∈ off E v ↔ s(a, b) ∈ E ∧ a ≠ v ∧ b ≠ v := by
  simp only [off, mem_filter, Sym2.mem_iff, not_or]
  constructor
  · rintro ⟨h1, h2, h3⟩; exact ⟨h1, Ne.symm h2, Ne.symm h3⟩
  · rintro ⟨h1, h2, h3⟩; exact ⟨h1, Ne.symm h2, Ne.symm h3⟩

theorem off_loopless {E : Finset (Sym2 ℕ)} (hl : Loopless E) (v : ℕ) : Loopless (off E v) := fun w hw => hl w (mem_of_mem_filter _ hw)

/-- Without a vertex of smallest degree, which is at least two, enough edges are left for a connected graph. -/
theorem edges_left {W : Finset ℕ} {E : Finset (Sym2 ℕ)} (hs : Supp W E) (hl : Loopless E) {v : ℕ} (h2 : 2 ≤ (nb E v).card)
    (hmin : ∀ w ∈ W, (nb E v).card ≤ (nb E w).card) : (W.erase v).card ≤ (off E v).card + 1 := by
  have h3 := sum_degrees (hs.off v) (off_loopless hl v)
  have h4 : ∑ w ∈ W.erase v, (nb (off E v) w).card + ((W.erase v).filter (fun w => v ∈ nb E w)).card = ∑ w ∈ W.erase v, (nb E w).card := by
    rw [card_filter, ← sum_add_distrib]
    refine sum_congr rfl (fun w hw => ?_)
    rw [nb_off (ne_of_mem_erase hw)]
    by_cases hv : v ∈ nb E w
    · rw [if_pos hv, card_erase_add_one hv]
    · rw [if_neg hv, erase_eq_of_notMem hv]; rfl
  have h5 : (W.erase v).filter (fun w => v ∈ nb E w) = nb E v := by
    ext w
    rw [mem_filter, mem_erase, mem_nb, mem_nb, Sym2.eq_swap]
    constructor
    · exact fun h => h.2
    · intro h
      exact ⟨⟨by rintro rfl; exact hl _ h, (hs _ _ h).2⟩, h⟩
  have h6 : (W.erase v).card * (nb E v).card ≤ ∑ w ∈ W.erase v, (nb E w).card := by
    rw [← smul_eq_mul]
    exact card_nsmul_le_sum _ _ _ (fun w hw => hmin w (mem_of_mem_erase hw))
  rw [h5, h3] at h4
  rcases Nat.eq_zero_or_pos (W.erase v).card with h0 | h0
  · omega
  obtain ⟨m, hm⟩ : ∃ m, (W.erase v).card = m + 1 := ⟨(W.erase v).card - 1, by omega⟩
  rw [hm] at h6 ⊢
  have h7 : m * 2 ≤ m * (nb E v).card := Nat.mul_le_mul_left _ h2
  rw [Nat.add_mul, Nat.one_mul] at h6
  omega

/-! ## Switches between connected graphs -/

/-- A switch between connected graphs. -/
def CSw (W : Finset ℕ) (E F : Finset (Sym2 ℕ)) : Prop := Sw E F ∧ ConnIn (· ∈ W) E ∧ ConnIn (· ∈ W) F

/-- Reachability by such switches. -/
abbrev CReach (W : Finset ℕ) (E F : Finset (Sym2 ℕ)) : Prop := ReflTransGen (CSw W) E F

theorem CReach.symm {W : Finset ℕ} {E F : Finset (Sym2 ℕ)} (h : CReach W E F) : CReach W F E := by
  induction h with
  | refl => exact .refl
  | tail _ h2 ih => exact ReflTransGen.head ⟨h2.1.symm, h2.2.2, h2.2.1⟩ ih

theorem CReach.reach {W : Finset ℕ} {E F : Finset (Sym2 ℕ)} (h : CReach W E F) : Reach E F :=
  ReflTransGen.mono (fun _ _ h => h.1) _ _ h

/-- A connected rest with an edge to the removed vertex is connected. -/
theorem conn_of_off {W : Finset ℕ} {H E : Finset (Sym2 ℕ)} {v u : ℕ} (hc : ConnIn (· ∈ W.erase v) H) (hHE : H ⊆ E)
    (hu : u ∈ W.erase v) (hvu : s(v, u) ∈ E) : ConnIn (· ∈ W) E := by
  have : ∀ w ∈ W, Joined E u w := by
    intro w hw
    by_cases hwv : w = v
    · subst hwv
      exact .single (by rw [Sym2.eq_swap]; exact hvu)
    · exact path_mono hHE (hc u hu w (mem_erase.mpr ⟨hwv, hw⟩))
  exact fun a ha b hb => (path_symm (this a ha)).trans (this b hb)

/-- Without a leaf the rest is connected. -/
theorem leaf_off {W : Finset ℕ} {E : Finset (Sym2 ℕ)} (hl : Loopless E) (hc : ConnIn (· ∈ W) E) {v : ℕ} (h1 : (nb E v).card = 1) :
    ConnIn (· ∈ W.erase v) (off E v) := by
  obtain ⟨u, hu⟩ := card_eq_one.mp h1
  have huniq : ∀ w, s(v, w) ∈ E → w = u := fun w hw => by
    have := mem_nb.mpr hw
    rw [hu, mem_singleton] at this
    exact this
  intro a ha b hb
  rw [mem_erase] at ha hb
  have key : ∀ x, Joined E a x → (x ≠ v → Joined (off E v) a x) ∧ (x = v → Joined (off E v) a u) := by
    intro x hx
    induction hx with
    | refl => exact ⟨fun _ => .refl, fun h => absurd h ha.1⟩
    | @tail y x _ h2 ih =>
      by_cases hy : y = v
      · subst hy
        have hxu := huniq x h2
        exact ⟨fun _ => by rw [hxu]; exact ih.2 rfl, fun h => by rw [h] at h2; exact absurd h2 (hl _)⟩
      · refine ⟨fun hx => (ih.1 hy).tail (mem_off.mpr ⟨h2, hy, hx⟩), fun hx => ?_⟩
        have hyu : y = u := huniq y (by rw [Sym2.eq_swap, ← hx]; exact h2)
        rw [← hyu]
        exact ih.1 hy
  exact (key b (hc a ha.2 b hb.2)).1 hb.1

/-- If the rest without a vertex of smallest degree is not connected, two of its parts can be joined by a switch. -/
theorem merge {W : Finset ℕ} {E : Finset (Sym2 ℕ)} (hs : Supp W E) (hl : Loopless E) (hc : ConnIn (· ∈ W) E) {v : ℕ}
    (h2 : 2 ≤ (nb E v).card) (hmin : ∀ w ∈ W, (nb E v).card ≤ (nb E w).card) (hn : ¬ ConnIn (· ∈ W.erase v) (off E v)) :
    ∃ F, CSw W E F ∧ (apart (W.erase v) (off F v)).card < (apart (W.erase v) (off E v)).card := by
  obtain ⟨a, b, hab, hJ⟩ := exists_cycle (hs.off v) hn (edges_left hs hl h2 hmin)
  -- a vertex in another part, with an edge
  obtain ⟨c, hcW, hac⟩ : ∃ c ∈ W.erase v, ¬ Joined (off E v) a c := by
    by_contra hcon
    push Not at hcon
    exact hn (fun p hp q hq => (path_symm (hcon p hp)).trans (hcon q hq))
  obtain ⟨d, hcd⟩ : ∃ d, s(c, d) ∈ off E v := by
    have h3 := hmin c (mem_of_mem_erase hcW)
    obtain ⟨d, hd1, hd2⟩ := exists_mem_ne (show 1 < (nb E c).card by omega) v
    exact ⟨d, mem_off.mpr ⟨mem_nb.mp hd1, ne_of_mem_erase hcW, hd2⟩⟩
  have hJab : Joined (off E v) a b := .single hab
  have hJcd : Joined (off E v) c d := .single hcd
  have nad : ¬ Joined (off E v) a d := fun h => hac (h.trans (path_symm hJcd))
  have nbc : ¬ Joined (off E v) b c := fun h => hac (hJab.trans h)
  have nbd : ¬ Joined (off E v) b d := fun h => nad (hJab.trans h)
  obtain ⟨abE, av, bv⟩ := mem_off.mp hab
  obtain ⟨cdE, cv, dv⟩ := mem_off.mp hcd
  have e1 : a ≠ b := by rintro rfl; exact hl _ abE
  have e2 : a ≠ c := by rintro rfl; exact hac .refl
  have e3 : a ≠ d := by rintro rfl; exact nad .refl
  have e4 : b ≠ c := by rintro rfl; exact nbc .refl
  have e5 : b ≠ d := by rintro rfl; exact nbd .refl
  have e6 : c ≠ d := by rintro rfl; exact hl _ cdE
  have hsw : SwAt E ((E \ {s(a, b), s(c, d)}) ∪ {s(a, c), s(b, d)}) a b c d := by
    refine ⟨abE, cdE, fun h => hac (.single (mem_off.mpr ⟨h, av, cv⟩)), fun h => nbd (.single (mem_off.mpr ⟨h, bv, dv⟩)), e1, e2, e3, e4,
      e5, e6, fun x => ?_⟩
    simp only [mem_union, mem_sdiff, mem_insert, mem_singleton, not_or]
  set F := (E \ {s(a, b), s(c, d)}) ∪ {s(a, c), s(b, d)} with hF
  have hkeep : ((off E v).erase s(a, b)).erase s(c, d) ⊆ off F v := by
    intro z hz
    induction z using Sym2.ind with
    | _ p q =>
      simp only [mem_erase] at hz
      obtain ⟨h3, h4, h5⟩ := hz
      obtain ⟨h6, h7⟩ := mem_off.mp h5
      exact mem_off.mpr ⟨(hsw.mem _).mpr (.inl ⟨h6, h4, h3⟩), h7⟩
  have hacF : s(a, c) ∈ off F v := mem_off.mpr ⟨(hsw.mem _).mpr (.inr (.inl rfl)), av, cv⟩
  have hbdF : s(b, d) ∈ off F v := mem_off.mpr ⟨(hsw.mem _).mpr (.inr (.inr rfl)), bv, dv⟩
  have hsub : ((off E v).erase s(a, b)).erase s(c, d) ⊆ off E v := (erase_subset _ _).trans (erase_subset _ _)
  have hJF : Joined (off F v) a b := by
    rcases path_split c d hJ with h | ⟨h, _⟩ | ⟨h, _⟩
    · exact path_mono hkeep h
    · exact absurd (path_mono hsub h) hac
    · exact absurd (path_mono hsub h) nad
  have hJF' : Joined (off F v) c d :=
    (path_symm (.single hacF)).trans (hJF.trans (.single hbdF))
  have hedge : ∀ p q, s(p, q) ∈ off E v → Joined (off F v) p q := by
    intro p q hpq
    by_cases h3 : s(p, q) = s(a, b)
    · rw [Sym2.eq_iff] at h3
      rcases h3 with ⟨rfl, rfl⟩ | ⟨rfl, rfl⟩
      · exact hJF
      · exact path_symm hJF
    · by_cases h4 : s(p, q) = s(c, d)
      · rw [Sym2.eq_iff] at h4
        rcases h4 with ⟨rfl, rfl⟩ | ⟨rfl, rfl⟩
        · exact hJF'
        · exact path_symm hJF'
      · exact .single (hkeep (mem_erase.mpr ⟨h4, mem_erase.mpr ⟨h3, hpq⟩⟩))
  have hoffF : off F v ⊆ F := filter_subset _ _
  refine ⟨F, ⟨⟨_, _, _, _, hsw⟩, hc, fun p hp q hq => joined_of_edges (fun x y hxy => ?_) (hc p hp q hq)⟩,
    apart_lt (fun _ _ => joined_of_edges hedge) (mem_erase.mpr ⟨av, (hs _ _ abE).1⟩) hcW hac (.single hacF)⟩
  by_cases hx : x ≠ v ∧ y ≠ v
  · exact path_mono hoffF (hedge x y (mem_off.mpr ⟨hxy, hx⟩))
  · refine .single ((hsw.mem _).mpr (.inl ⟨hxy, ?_, ?_⟩)) <;>
    · rw [Ne, Sym2.eq_iff]
      omega

/-- The rest without a vertex of smallest degree can be made connected. -/
theorem repair {W : Finset ℕ} {v : ℕ} : ∀ (m : ℕ) (E : Finset (Sym2 ℕ)), (apart (W.erase v) (off E v)).card = m → Supp W E → Loopless E →
    ConnIn (· ∈ W) E → 0 < (nb E v).card → (∀ w ∈ W, (nb E v).card ≤ (nb E w).card) →
    ∃ F, CReach W E F ∧ ConnIn (· ∈ W.erase v) (off F v) := by
  intro m
  induction m using Nat.strong_induction_on with
  | _ m ih =>
    intro E hm hs hl hc h0 hmin
    by_cases hn : ConnIn (· ∈ W.erase v) (off E v)
    · exact ⟨E, .refl, hn⟩
    · by_cases h1 : (nb E v).card = 1
      · exact absurd (leaf_off hl hc h1) hn
      · obtain ⟨F, hF, hlt⟩ := merge hs hl hc (by omega) hmin hn
        obtain ⟨_, _, _, _, hsw⟩ := hF.1
        obtain ⟨G, hG, hG'⟩ := ih _ (by omega) F rfl (hsw.supp hs) (hsw.loopless hl) hF.2.2 (by rwa [hsw.card_nb])
          (fun w hw => by rw [hsw.card_nb, hsw.card_nb]; exact hmin w hw)
        exact ⟨G, .head hF hG, hG'⟩

/-- The switch of `exists_switch` can be chosen such that the rest without `v` stays connected. -/
theorem exists_switch_conn {W : Finset ℕ} {E : Finset (Sym2 ℕ)} (hs : Supp W E) (hl : Loopless E) {v x y : ℕ}
    (hc : ConnIn (· ∈ W.erase v) (off E v)) (hy : s(v, y) ∈ E) (hx : s(v, x) ∉ E) (hxv : x ≠ v) (hxW : x ∈ W)
    (hd : (nb E y).card ≤ (nb E x).card) : ∃ z F, SwAt E F v y x z ∧ ConnIn (· ∈ W.erase v) (off F v) := by
  have hyv : y ≠ v := by rintro rfl; exact hl _ hy
  have hyW : y ∈ W.erase v := mem_erase.mpr ⟨hyv, (hs _ _ hy).2⟩
  have hxW' : x ∈ W.erase v := mem_erase.mpr ⟨hxv, hxW⟩
  have hxy : x ≠ y := by rintro rfl; exact hx hy
  -- what is left after the switch
  have hleft : ∀ {z F}, SwAt E F v y x z → (off E v).erase s(x, z) ⊆ off F v ∧ s(y, z) ∈ off F v := by
    intro z F h
    have hzv : z ≠ v := h.d3.symm
    refine ⟨fun w hw => ?_, mem_off.mpr ⟨(h.mem _).mpr (.inr (.inr rfl)), hyv, hzv⟩⟩
    induction w using Sym2.ind with
    | _ p q =>
      rw [mem_erase] at hw
      obtain ⟨h1, h2, h3⟩ := mem_off.mp hw.2
      refine mem_off.mpr ⟨(h.mem _).mpr (.inl ⟨h1, ?_, hw.1⟩), h2, h3⟩
      rw [Ne, Sym2.eq_iff]
      omega
  obtain ⟨z, F, h⟩ := exists_switch hl hy hx hxv hd
  obtain ⟨l1, l2⟩ := hleft h
  by_cases hbad : Joined ((off E v).erase s(x, z)) x y
  · exact ⟨z, F, h, hc.detour l1 ((path_mono l1 hbad).tail l2)⟩
  -- `y` is cut off from `x` by the edge to `z`: another neighbour of `x` is taken
  have hzv : z ≠ v := h.d3.symm
  have hxzH : s(x, z) ∈ off E v := mem_off.mpr ⟨h.kl, hxv, hzv⟩
  have hzy : Joined ((off E v).erase s(x, z)) z y := by
    rcases path_erase (b := z) (hc x hxW' y hyW) with h1 | h1
    · exact absurd h1 hbad
    · exact h1
  have hy2 : 1 < (nb E y).card := by
    obtain ⟨u, hu⟩ : ∃ u, s(y, u) ∈ off E v := by
      rcases ReflTransGen.cases_head (hc y hyW x hxW') with h1 | ⟨u, h1, _⟩
      · exact absurd h1.symm hxy
      · exact ⟨u, h1⟩
    obtain ⟨u1, _, u3⟩ := mem_off.mp hu
    exact one_lt_card.mpr ⟨u, mem_nb.mpr u1, v, mem_nb.mpr (by rw [Sym2.eq_swap]; exact hy), u3⟩
  obtain ⟨z', hz1, hz2⟩ := exists_mem_ne (show 1 < (nb E x).card by omega) z
  rw [mem_nb] at hz1
  have hz'v : z' ≠ v := by rintro rfl; exact hx (by rw [Sym2.eq_swap]; exact hz1)
  have hz'x : x ≠ z' := by rintro rfl; exact hl _ hz1
  have hzx : x ≠ z := h.d6
  have hxz' : s(x, z') ∈ (off E v).erase s(x, z) := by
    refine mem_erase.mpr ⟨?_, mem_off.mpr ⟨hz1, hxv, hz'v⟩⟩
    rw [Ne, Sym2.eq_iff]
    omega
  have hyz' : y ≠ z' := by rintro rfl; exact hbad (.single hxz')
  have hnot : s(y, z') ∉ E := by
    intro hcon
    refine hbad ((ReflTransGen.single hxz').tail (mem_erase.mpr ⟨?_, ?_⟩))
    · rw [Ne, Sym2.eq_iff]
      omega
    · rw [Sym2.eq_swap]
      exact mem_off.mpr ⟨hcon, hyv, hz'v⟩
  have h' : SwAt E ((E \ {s(v, y), s(x, z')}) ∪ {s(v, x), s(y, z')}) v y x z' := by
    refine ⟨hy, hz1, hx, hnot, hyv.symm, hxv.symm, hz'v.symm, hxy.symm, hyz', hz'x, fun w => ?_⟩
    simp only [mem_union, mem_sdiff, mem_insert, mem_singleton, not_or]
  obtain ⟨m1, m2⟩ := hleft h'
  refine ⟨z', _, h', hc.detour m1 ?_⟩
  have hxzF : s(x, z) ∈ (off E v).erase s(x, z') := by
    refine mem_erase.mpr ⟨?_, hxzH⟩
    rw [Ne, Sym2.eq_iff]
    omega
  have hsub : ((off E v).erase s(x, z)).erase s(x, z') ⊆ (off E v).erase s(x, z') := erase_subset_erase _ (erase_subset _ _)
  have hsub2 : ((off E v).erase s(x, z)).erase s(x, z') ⊆ (off E v).erase s(x, z) := erase_subset _ _
  have hzy' : Joined ((off E v).erase s(x, z')) z y := by
    rcases path_split x z' hzy with h1 | ⟨h1, _⟩ | ⟨h1, _⟩
    · exact path_mono hsub h1
    · exact absurd ((path_symm (path_mono hsub2 h1)).trans hzy) hbad
    · exact absurd ((ReflTransGen.single hxz').trans ((path_symm (path_mono hsub2 h1)).trans hzy)) hbad
  exact (ReflTransGen.head (m1 hxzF) (path_mono m1 hzy')).tail m2

/-- The neighbours of one vertex can be made equal. -/
theorem align_conn {W : Finset ℕ} (v : ℕ) : ∀ (m : ℕ) {E F : Finset (Sym2 ℕ)}, (nb E v \ nb F v).card = m →
    Supp W E → Supp W F → Loopless E → Loopless F → (∀ w, (nb E w).card = (nb F w).card) →
    ConnIn (· ∈ W.erase v) (off E v) → ConnIn (· ∈ W.erase v) (off F v) →
    ∃ E' F', CReach W E E' ∧ CReach W F F' ∧ nb E' v = nb F' v ∧ ConnIn (· ∈ W.erase v) (off E' v) ∧
      ConnIn (· ∈ W.erase v) (off F' v) := by
  intro m
  induction m with
  | zero =>
    intro E F hm _ _ _ _ hd c1 c2
    refine ⟨E, F, .refl, .refl, ?_, c1, c2⟩
    rw [Finset.card_eq_zero, Finset.sdiff_eq_empty_iff_subset] at hm
    exact Finset.eq_of_subset_of_card_le hm (hd v).ge
  | succ m ih =>
    intro E F hm sE sF hE hF hd c1 c2
    obtain ⟨y, hy⟩ : (nb E v \ nb F v).Nonempty := by rw [← Finset.card_pos]; omega
    obtain ⟨x, hx⟩ : (nb F v \ nb E v).Nonempty := by
      rw [← Finset.card_pos]
      have := Finset.card_sdiff_comm (hd v)
      omega
    rw [Finset.mem_sdiff, mem_nb, mem_nb] at hx hy
    have hxv : x ≠ v := by rintro rfl; exact hF _ hx.1
    have hyv : y ≠ v := by rintro rfl; exact hE _ hy.1
    have hstep : ∀ {A B : Finset (Sym2 ℕ)} {p q z : ℕ}, Supp W A → Loopless A → ConnIn (· ∈ W.erase v) (off A v) → SwAt A B v p q z →
        ConnIn (· ∈ W.erase v) (off B v) → CSw W A B := by
      intro A B p q z sA lA cA h cB
      refine ⟨⟨_, _, _, _, h⟩, ?_, ?_⟩
      · exact conn_of_off cA (filter_subset _ _) (mem_erase.mpr ⟨h.d1.symm, (sA _ _ h.nj).2⟩) h.nj
      · have := h.symm.nj
        exact conn_of_off cB (filter_subset _ _) (mem_erase.mpr ⟨h.d2.symm, (h.supp sA _ _ this).2⟩) this
    rcases Nat.le_total (nb E y).card (nb E x).card with hc | hc
    · obtain ⟨z, E1, h1, k1⟩ := exists_switch_conn sE hE c1 hy.1 hx.2 hxv (sF _ _ hx.1).2 hc
      have hset : nb E1 v \ nb F v = (nb E v \ nb F v).erase y := by
        ext w
        rw [h1.nb_first]
        simp only [Finset.mem_sdiff, Finset.mem_insert, Finset.mem_erase, mem_nb]
        constructor
        · rintro ⟨rfl | h2, h3⟩
          · exact absurd hx.1 h3
          · exact ⟨h2.1, h2.2, h3⟩
        · rintro ⟨h2, h3, h4⟩; exact ⟨.inr ⟨h2, h3⟩, h4⟩
      obtain ⟨E', F', r1, r2, r3⟩ := ih (E := E1) (F := F) (by
        rw [hset, Finset.card_erase_of_mem (by rw [Finset.mem_sdiff, mem_nb, mem_nb]; exact hy), hm]; rfl)
        (h1.supp sE) sF (h1.loopless hE) hF (fun w => by rw [h1.card_nb, hd]) k1 c2
      exact ⟨E', F', .head (hstep sE hE c1 h1 k1) r1, r2, r3⟩
    · obtain ⟨z, F1, h1, k1⟩ := exists_switch_conn sF hF c2 hx.1 hy.2 hyv (sE _ _ hy.1).2 (by rw [← hd, ← hd]; exact hc)
      have hset : nb E v \ nb F1 v = (nb E v \ nb F v).erase y := by
        ext w
        rw [h1.nb_first]
        simp only [Finset.mem_sdiff, Finset.mem_insert, Finset.mem_erase, mem_nb, not_or, not_and]
        constructor
        · rintro ⟨h2, h3, h4⟩
          exact ⟨h3, h2, h4 (by rintro rfl; exact hx.2 h2)⟩
        · rintro ⟨h2, h3, h4⟩; exact ⟨h3, h2, fun _ => h4⟩
      obtain ⟨E', F', r1, r2, r3⟩ := ih (E := E) (F := F1) (by
        rw [hset, Finset.card_erase_of_mem (by rw [Finset.mem_sdiff, mem_nb, mem_nb]; exact hy), hm]; rfl)
        sE (h1.supp sF) hE (h1.loopless hF) (fun w => by rw [h1.card_nb, hd]) c1 k1
      exact ⟨E', F', r1, .head (hstep sF hF c2 h1 k1) r2, r3⟩

/-- Switches of the rest can be done in the presence of the edges at the removed vertex. -/
theorem lift_conn {W : Finset ℕ} {v u : ℕ} {A : Finset (Sym2 ℕ)} (hA : ∀ x ∈ A, v ∈ x) (hu : u ∈ W.erase v) (hvu : s(v, u) ∈ A)
    {E F : Finset (Sym2 ℕ)} (hE : Loopless E) (hv : nb E v = ∅) (h : CReach (W.erase v) E F) : CReach W (E ∪ A) (F ∪ A) := by
  induction h with
  | refl => exact .refl
  | tail h1 h2 ih =>
    rename_i B C
    refine ih.tail ?_
    obtain ⟨⟨n, j, k, l, h2⟩, c1, c2⟩ := h2
    have hBv : nb B v = ∅ := by
      rw [← Finset.card_eq_zero, (Reach.keeps (CReach.reach h1) hE).2, hv, Finset.card_empty]
    exact ⟨⟨n, j, k, l, h2.lift hA hBv⟩, conn_of_off c1 subset_union_left hu (mem_union_right _ hvu),
      conn_of_off c2 subset_union_left hu (mem_union_right _ hvu)⟩

/-- **Switches connect all connected loopless graphs with the same degrees without leaving the connected graphs.** -/
theorem connected_conn : ∀ (m : ℕ) {W : Finset ℕ} {E F : Finset (Sym2 ℕ)}, W.card = m → Supp W E → Supp W F → Loopless E → Loopless F →
    (∀ w, (nb E w).card = (nb F w).card) → ConnIn (· ∈ W) E → ConnIn (· ∈ W) F → CReach W E F := by
  intro m
  induction m with
  | zero =>
    intro W E F hm sE sF hE hF _ _ _
    have hW : W = ∅ := card_eq_zero.mp hm
    have key : ∀ G : Finset (Sym2 ℕ), Supp W G → G = ∅ := by
      intro G hG
      rw [eq_empty_iff_forall_notMem]
      intro x hx
      induction x using Sym2.ind with
      | _ a b =>
        have := (hG a b hx).1
        rw [hW] at this
        simp at this
    rw [key E sE, key F sF]
  | succ m ih =>
    intro W E F hm sE sF hE hF hd cE cF
    by_cases h1 : W.card = 1
    · obtain ⟨a, ha⟩ := card_eq_one.mp h1
      have key : ∀ G : Finset (Sym2 ℕ), Supp W G → Loopless G → G = ∅ := by
        intro G hG lG
        rw [eq_empty_iff_forall_notMem]
        intro x hx
        induction x using Sym2.ind with
        | _ p q =>
          have h2 := hG p q hx
          rw [ha, mem_singleton, mem_singleton] at h2
          rw [h2.1, h2.2] at hx
          exact lG _ hx
      rw [key E sE hE, key F sF hF]
    obtain ⟨v, hvW, hmin⟩ := exists_min_image W (fun w => (nb E w).card) (card_pos.mp (by omega))
    have h0 : 0 < (nb E v).card := by
      obtain ⟨w, hw, hwv⟩ := exists_mem_ne (show 1 < W.card by omega) v
      rcases ReflTransGen.cases_head (cE v hvW w hw) with h | ⟨u, h, _⟩
      · exact absurd h.symm hwv
      · exact card_pos.mpr ⟨u, mem_nb.mpr h⟩
    obtain ⟨E1, rE1, oE1⟩ := repair (W := W) (v := v) _ E rfl sE hE cE h0 hmin
    obtain ⟨F1, rF1, oF1⟩ := repair (W := W) (v := v) _ F rfl sF hF cF (by rwa [← hd])
      (fun w hw => by rw [← hd, ← hd]; exact hmin w hw)
    obtain ⟨a1, a2⟩ := Reach.keeps (CReach.reach rE1) hE
    obtain ⟨b1, b2⟩ := Reach.keeps (CReach.reach rF1) hF
    have sE1 := (CReach.reach rE1).supp sE
    have sF1 := (CReach.reach rF1).supp sF
    obtain ⟨E', F', r1, r2, r3, o1, o2⟩ := align_conn (W := W) v _ rfl sE1 sF1 a1 b1 (fun w => by rw [a2, b2, hd]) oE1 oF1
    obtain ⟨k1, k2⟩ := Reach.keeps (CReach.reach r1) a1
    obtain ⟨k3, k4⟩ := Reach.keeps (CReach.reach r2) b1
    have sE' := (CReach.reach r1).supp sE1
    have sF' := (CReach.reach r2).supp sF1
    obtain ⟨u, hu⟩ : ∃ u, s(v, u) ∈ E' := by
      obtain ⟨u, hu⟩ := card_pos.mp (show 0 < (nb E' v).card by rw [k2, a2]; exact h0)
      exact ⟨u, mem_nb.mp hu⟩
    have hA : E' = off E' v ∪ E'.filter (fun x => v ∈ x) := by
      ext x; simp only [off, Finset.mem_union, Finset.mem_filter]; tauto
    have hB : F' = off F' v ∪ E'.filter (fun x => v ∈ x) := by
      ext x
      simp only [off, Finset.mem_union, Finset.mem_filter]
      by_cases hvx : v ∈ x
      · obtain ⟨w, rfl⟩ := Sym2.mem_iff_exists.mp hvx
        have : w ∈ nb E' v ↔ w ∈ nb F' v := by rw [r3]
        rw [mem_nb, mem_nb] at this
        tauto
      · tauto
    have hmid : CReach (W.erase v) (off E' v) (off F' v) := by
      refine ih (by rw [card_erase_of_mem hvW, hm]; rfl) (sE'.off v) (sF'.off v) (off_loopless k1 v) (off_loopless k3 v) ?_ o1 o2
      intro w
      by_cases hw : w = v
      · subst hw; rw [nb_off_self, nb_off_self]
      · rw [nb_off hw, nb_off hw]
        have hiff : v ∈ nb E' w ↔ v ∈ nb F' w := by
          rw [mem_nb, mem_nb, Sym2.eq_swap, ← mem_nb, ← mem_nb, r3]
        have hcc : (nb E' w).card = (nb F' w).card := by rw [k2, k4, a2, b2, hd]
        by_cases hvw : v ∈ nb E' w
        · rw [Finset.card_erase_of_mem hvw, Finset.card_erase_of_mem (hiff.mp hvw), hcc]
        · rw [Finset.erase_eq_of_notMem hvw, Finset.erase_eq_of_notMem (fun hc => hvw (hiff.mpr hc)), hcc]
    have hl := lift_conn (W := W) (v := v) (u := u) (A := E'.filter (fun x => v ∈ x)) (fun x hx => (Finset.mem_filter.mp hx).2)
      (mem_erase.mpr ⟨by rintro rfl; exact k1 _ hu, (sE' _ _ hu).2⟩) (mem_filter.mpr ⟨hu, by simp⟩) (off_loopless k1 v) nb_off_self hmid
    rw [← hA, ← hB] at hl
    exact (rE1.trans r1).trans (hl.trans (CReach.symm (rF1.trans r2)))

end Verif.Switch
