import Mathlib.Data.Sym.Sym2
import Mathlib.Data.Sym.Card
import Mathlib.Data.Fintype.Card
import Mathlib.Logic.Relation
import Mathlib.Logic.Function.Basic
import Mathlib.Data.Finset.Sym

/-!
# Moving the targets of rooted edges one at a time connects all simple placements

Independent of the model: `σ` are the rooted edges, `r` the vertex an edge is rooted at, a placement `τ` gives each edge its target.
-/

set_option linter.unusedSectionVars false

namespace Verif.SwReach

variable {σ : Type} [Fintype σ] [DecidableEq σ]

/-- The pair of vertices joined by an edge. -/
def pr (r τ : σ → ℕ) (s : σ) : Sym2 ℕ := s(r s, τ s)

/-- No loops and no double edges. -/
structure Good (n : ℕ) (r τ : σ → ℕ) : Prop where
  inj : Function.Injective (pr r τ)
  lt : ∀ s, τ s < n
  ne : ∀ s, τ s ≠ r s

/-- One edge gets a new target that is not yet joined to its root. -/
def Mv (n : ℕ) (r τ τ' : σ → ℕ) : Prop :=
  ∃ s k, k < n ∧ k ≠ r s ∧ (∀ t, pr r τ t ≠ s(r s, k)) ∧ τ' = Function.update τ s k

abbrev Reach (n : ℕ) (r : σ → ℕ) : (σ → ℕ) → (σ → ℕ) → Prop := Relation.ReflTransGen (Mv n r)

theorem pr_update_self (r τ : σ → ℕ) (s : σ) (k : ℕ) : pr r (Function.update τ s k) s = s(r s, k) := by
  simp [pr]

theorem pr_update_ne (r τ : σ → ℕ) {s t : σ} (k : ℕ) (h : t ≠ s) : pr r (Function.update τ s k) t = pr r τ t := by
  simp [pr, h]

theorem Good.update {n : ℕ} {r τ : σ → ℕ} (g : Good n r τ) {s : σ} {k : ℕ} (h1 : k < n) (h2 : k ≠ r s)
    (h3 : ∀ t, pr r τ t ≠ s(r s, k)) : Good n r (Function.update τ s k) := by
  refine ⟨?_, ?_, ?_⟩
  · intro a b hab
    by_cases ha : a = s
    · by_cases hb : b = s
      · rw [ha, hb]
      · subst ha
        rw [pr_update_self, pr_update_ne _ _ _ hb] at hab
        exact absurd hab.symm (h3 b)
    · by_cases hb : b = s
      · subst hb
        rw [pr_update_self, pr_update_ne _ _ _ ha] at hab
        exact absurd hab (h3 a)
      · rw [pr_update_ne _ _ _ ha, pr_update_ne _ _ _ hb] at hab
        exact g.inj hab
  · intro t
    by_cases ht : t = s
    · subst ht; simpa using h1
    · simpa [ht] using g.lt t
  · intro t
    by_cases ht : t = s
    · subst ht; simpa using h2
    · simpa [ht] using g.ne t

theorem Good.mv {n : ℕ} {r τ τ' : σ → ℕ} (g : Good n r τ) (h : Mv n r τ τ') : Good n r τ' := by
  obtain ⟨s, k, h1, h2, h3, rfl⟩ := h
  exact g.update h1 h2 h3

theorem Good.reach {n : ℕ} {r τ τ' : σ → ℕ} (g : Good n r τ) (h : Reach n r τ τ') : Good n r τ' := by
  induction h with
  | refl => exact g
  | tail _ h ih => exact ih.mv h

/-- Every move can be taken back. -/
theorem Mv.symm {n : ℕ} {r τ τ' : σ → ℕ} (g : Good n r τ) (h : Mv n r τ τ') : Mv n r τ' τ := by
  obtain ⟨s, k, h1, h2, h3, rfl⟩ := h
  refine ⟨s, τ s, g.lt s, g.ne s, ?_, by simp⟩
  intro t ht
  by_cases hts : t = s
  · subst hts
    rw [pr_update_self] at ht
    exact h3 t ht.symm
  · rw [pr_update_ne _ _ _ hts] at ht
    exact hts (g.inj ht)

theorem Reach.symm {n : ℕ} {r τ τ' : σ → ℕ} (g : Good n r τ) (h : Reach n r τ τ') : Reach n r τ' τ := by
  induction h with
  | refl => exact .refl
  | tail h1 h2 ih => exact .head (h2.symm (g.reach h1)) ih

/-- The edges that are not at home. -/
def off (τ η : σ → ℕ) : Finset σ := Finset.univ.filter (fun s => τ s ≠ η s)

theorem off_update_home (τ η : σ → ℕ) (s : σ) : off (Function.update τ s (η s)) η = (off τ η).erase s := by
  ext t
  by_cases h : t = s
  · subst h; simp [off]
  · simp [off, h]

theorem off_update_off (τ η : σ → ℕ) (s : σ) (k : ℕ) : off (Function.update τ s k) η ⊆ insert s (off τ η) := by
  intro t
  by_cases h : t = s
  · subst h; simp
  · simp [off, h]

/-- If no edge can be brought home at once, the edges that occupy the homes are the edges away from home. -/
theorem occupant {n : ℕ} {r τ η : σ → ℕ} (gη : Good n r η) (hb : ∀ s, τ s ≠ η s → ∃ t, pr r τ t = pr r η s) {s : σ}
    (hs : τ s ≠ η s) : ∃ q, τ q ≠ η q ∧ q ≠ s ∧ pr r η q = pr r τ s := by
  classical
  choose! f hf using hb
  have hmaps : ∀ q ∈ off τ η, f q ∈ off τ η := by
    intro q hq
    simp only [off, Finset.mem_filter, Finset.mem_univ, true_and] at hq ⊢
    intro hc
    have h1 := hf q hq
    have h2 : pr r τ (f q) = pr r η (f q) := by simp [pr, hc]
    have h3 : f q = q := gη.inj (h2.symm.trans h1)
    rw [h3] at hc
    exact hq hc
  have hinj : Set.InjOn f (off τ η) := by
    intro a ha b hb hab
    simp only [off, Finset.coe_filter, Finset.mem_univ, true_and, Set.mem_ofPred_eq] at ha hb
    have h1 := hf a ha
    rw [hab, hf b hb] at h1
    exact gη.inj h1.symm
  have hsurj := Finset.surj_on_of_inj_on_of_card_le (s := off τ η) (t := off τ η) (fun a _ => f a) hmaps
    (fun a b ha hb hab => hinj ha hb hab) le_rfl s (by simp [off, hs])
  obtain ⟨q, hq, hqs⟩ := hsurj
  have hq' : τ q ≠ η q := by simpa [off] using hq
  refine ⟨q, hq', ?_, ?_⟩
  · rintro rfl
    have h1 := hf q hq'
    rw [← hqs] at h1
    simp only [pr, Sym2.eq_iff] at h1
    rcases h1 with ⟨_, h1⟩ | ⟨h1, _⟩
    · exact hq' h1
    · exact gη.ne q h1.symm
  · rw [hqs]; exact (hf q hq').symm

theorem exists_free {n : ℕ} {r τ : σ → ℕ} (hcard : Fintype.card σ + 1 < n.choose 2) (a b : ℕ) :
    ∃ x y, x < n ∧ y < n ∧ x ≠ y ∧ (∀ t, pr r τ t ≠ s(x, y)) ∧ x ≠ a ∧ x ≠ b := by
  classical
  by_contra hc
  push Not at hc
  have hsub : (Finset.range n).offDiag.image (fun p => s(p.1, p.2)) ⊆ insert s(a, b) (Finset.univ.image (pr r τ)) := by
    intro p hp
    obtain ⟨⟨x, y⟩, hp1, rfl⟩ := Finset.mem_image.mp hp
    simp only [Finset.mem_offDiag, Finset.mem_range] at hp1
    obtain ⟨hx, hy, hxy⟩ := hp1
    simp only [Finset.mem_insert, Finset.mem_image, Finset.mem_univ, true_and]
    by_contra hcon
    push Not at hcon
    obtain ⟨h1, h2⟩ := hcon
    have h2' : ∀ t, pr r τ t ≠ s(y, x) := fun t ht => h2 t (ht.trans Sym2.eq_swap)
    have hx1 := hc x y hx hy hxy h2
    have hy1 := hc y x hy hx (Ne.symm hxy) h2'
    by_cases hxa : x = a
    · by_cases hya : y = a
      · exact hxy (hxa.trans hya.symm)
      · exact h1 (by rw [hxa, hy1 hya])
    · by_cases hya : y = a
      · exact h1 (by rw [hya, hx1 hxa]; exact Sym2.eq_swap)
      · exact hxy ((hx1 hxa).trans (hy1 hya).symm)
  have h1 := Finset.card_le_card hsub
  have h2 : ((Finset.range n).offDiag.image (fun p => s(p.1, p.2))).card = n.choose 2 := by
    have := Sym2.card_image_offDiag (Finset.range n)
    rwa [Finset.card_range] at this
  have h3 := Finset.card_insert_le s(a, b) (Finset.univ.image (pr r τ))
  have h4 : (Finset.univ.image (pr r τ)).card ≤ Fintype.card σ := Finset.card_image_le
  omega

/-- The pairs joined by the edges of a placement. -/
def pairs (r τ : σ → ℕ) : Finset (Sym2 ℕ) := Finset.univ.image (pr r τ)

theorem mem_pairs {r τ : σ → ℕ} {x : Sym2 ℕ} : x ∈ pairs r τ ↔ ∃ s, pr r τ s = x := by simp [pairs]

theorem cover {r υ : σ → ℕ} {R : Finset (Sym2 ℕ)} {x : Sym2 ℕ} (h : R.erase x ⊆ pairs r υ) {s : σ} {k : ℕ} (hk : s(r s, k) = x) :
    R.erase (pr r υ s) ⊆ pairs r (Function.update υ s k) := by
  intro z hz
  rw [Finset.mem_erase] at hz
  by_cases hzx : z = x
  · exact mem_pairs.mpr ⟨s, by rw [pr_update_self, hk, hzx]⟩
  · obtain ⟨t, rfl⟩ := mem_pairs.mp (h (Finset.mem_erase.mpr ⟨hzx, hz.2⟩))
    have hts : t ≠ s := by rintro rfl; exact hz.1 rfl
    exact mem_pairs.mpr ⟨t, pr_update_ne _ _ _ hts⟩

theorem cover_first {r υ : σ → ℕ} {R : Finset (Sym2 ℕ)} (h : R ⊆ pairs r υ) (s : σ) (k : ℕ) :
    R.erase (pr r υ s) ⊆ pairs r (Function.update υ s k) := by
  intro z hz
  rw [Finset.mem_erase] at hz
  obtain ⟨t, rfl⟩ := mem_pairs.mp (h hz.2)
  have hts : t ≠ s := by rintro rfl; exact hz.1 rfl
  exact mem_pairs.mpr ⟨t, pr_update_ne _ _ _ hts⟩

/-- A move after which all pairs of `R` except at most one are joined. -/
def MvOn (n : ℕ) (r : σ → ℕ) (R : Finset (Sym2 ℕ)) (τ τ' : σ → ℕ) : Prop := Mv n r τ τ' ∧ ∃ x, R.erase x ⊆ pairs r τ'

/-- If all homes are occupied, the number of edges away from home can be reduced by moves that leave at most one of the homes empty at
a time. -/
theorem reduce_stuck {n : ℕ} {r τ η : σ → ℕ} (g : Good n r τ) (gη : Good n r η)
    (two : ∀ i : ℕ, ∃ a b : ℕ, ∀ s, r s = i → τ s = a ∨ τ s = b)
    (hcard : Fintype.card σ + 1 < n.choose 2) (hne : (off τ η).Nonempty) (hfree : ∀ s, τ s ≠ η s → ∃ t, pr r τ t = pr r η s)
    {R : Finset (Sym2 ℕ)} (hR : R ⊆ pairs r τ) :
    ∃ τ', Relation.ReflTransGen (MvOn n r R) τ τ' ∧ (off τ' η).card < (off τ η).card := by
  -- one more edge brought home after `s` left its place
  have home : ∀ {υ : σ → ℕ} {q : σ}, Good n r υ → υ q ≠ η q → (∀ t, pr r υ t ≠ pr r η q) →
      Mv n r υ (Function.update υ q (η q)) ∧ Good n r (Function.update υ q (η q)) ∧
      (off (Function.update υ q (η q)) η).card + 1 = (off υ η).card := by
    intro υ q gu h1 h2
    refine ⟨⟨q, η q, gη.lt q, gη.ne q, h2, rfl⟩, gu.update (gη.lt q) (gη.ne q) h2, ?_⟩
    rw [off_update_home]
    exact Finset.card_erase_add_one (by simp [off, h1])
  by_cases hmv : ∃ s k, τ s ≠ η s ∧ k < n ∧ k ≠ r s ∧ ∀ t, pr r τ t ≠ s(r s, k)
  · obtain ⟨s, k, h1, h2, h3, h4⟩ := hmv
    obtain ⟨q, q1, q2, q3⟩ := occupant gη hfree h1
    have gu := g.update h2 h3 h4
    obtain ⟨a1, _, a3⟩ := home (υ := Function.update τ s k) (q := q) gu (by simpa [q2] using q1) (by
      intro t ht
      by_cases hts : t = s
      · subst hts
        rw [pr_update_self] at ht
        exact h4 t (q3.symm.trans ht.symm)
      · rw [pr_update_ne _ _ _ hts, q3] at ht
        exact hts (g.inj ht))
    have v1 := cover_first hR s k
    have v2 := cover (υ := Function.update τ s k) (s := q) (k := η q) v1 q3
    refine ⟨_, .head ⟨⟨s, k, h2, h3, h4, rfl⟩, _, v1⟩ (.single ⟨a1, _, v2⟩), ?_⟩
    have h5 := Finset.card_le_card (off_update_off τ η s k)
    rw [Finset.insert_eq_of_mem (by simp [off, h1])] at h5
    omega
  push Not at hmv
  -- all roots of the edges away from home are joined to all vertices
  obtain ⟨s, hs⟩ := hne
  have hs : τ s ≠ η s := by simpa [off] using hs
  obtain ⟨a, b, hab⟩ := two (r s)
  obtain ⟨x, y, hx, hy, hxy, hfr, hxa, hxb⟩ := exists_free (τ := τ) (r := r) hcard a b
  have hxs : x ≠ r s := by
    rintro rfl
    obtain ⟨t, ht⟩ := hmv s y hs hy (Ne.symm hxy)
    exact hfr t ht
  obtain ⟨t, ht⟩ := hmv s x hs hx hxs
  have htx : r t = x ∧ τ t = r s := by
    simp only [pr, Sym2.eq_iff] at ht
    rcases ht with ⟨h1, h2⟩ | h1
    · rcases hab t h1 with h3 | h3
      · exact absurd (h2.symm.trans h3) hxa
      · exact absurd (h2.symm.trans h3) hxb
    · exact h1
  have hth : τ t = η t := by
    by_contra hc
    obtain ⟨t', ht'⟩ := hmv t y hc hy (by rw [htx.1]; exact Ne.symm hxy)
    rw [htx.1] at ht'
    exact hfr t' ht'
  have hts : t ≠ s := by rintro rfl; exact hs hth
  -- `t` makes room, `s` takes its place
  have c1 : ∀ t', pr r τ t' ≠ s(r t, y) := by rw [htx.1]; exact hfr
  have g1 : Good n r (Function.update τ t y) := g.update hy (by rw [htx.1]; exact Ne.symm hxy) c1
  have c2 : ∀ t', pr r (Function.update τ t y) t' ≠ s(r s, x) := by
    intro t' h'
    by_cases htt : t' = t
    · subst htt
      rw [pr_update_self] at h'
      exact c1 t' (ht.trans h'.symm)
    · rw [pr_update_ne _ _ _ htt, ← ht] at h'
      exact htt (g.inj h')
  have g2 := g1.update (s := s) hx hxs c2
  -- pairs occupied afterwards
  have occ : ∀ t', t' ≠ t → t' ≠ s → pr r (Function.update (Function.update τ t y) s x) t' = pr r τ t' := by
    intro t' h1 h2
    rw [pr_update_ne _ _ _ h2, pr_update_ne _ _ _ h1]
  have occs : pr r (Function.update (Function.update τ t y) s x) s = pr r τ t := by rw [pr_update_self, ht]
  have occt : pr r (Function.update (Function.update τ t y) s x) t = s(x, y) := by
    rw [pr_update_ne _ _ _ hts, pr_update_self, htx.1]
  obtain ⟨q, q1, q2, q3⟩ := occupant gη hfree hs
  have hqt : q ≠ t := by rintro rfl; exact q1 hth
  obtain ⟨a1, a2, a3⟩ := home (υ := Function.update (Function.update τ t y) s x) (q := q) g2
    (by simpa [q2, hqt] using q1) (by
      intro t' h'
      rw [q3] at h'
      by_cases h1 : t' = t
      · subst h1; rw [occt] at h'; exact hfr s h'.symm
      · by_cases h2 : t' = s
        · subst h2; rw [occs] at h'; exact hts (g.inj h')
        · rw [occ t' h1 h2] at h'; exact h2 (g.inj h'))
  obtain ⟨p, p1, p2, p3⟩ := occupant gη hfree q1
  have hpt : p ≠ t := by rintro rfl; exact p1 hth
  set υ := Function.update (Function.update τ t y) s x with hυ
  have hpv : υ p ≠ η p := by
    by_cases hps : p = s
    · subst hps
      intro hc
      have e1 : υ p = x := by simp [hυ]
      have : pr r τ t = pr r η p := by rw [ht]; simp [pr, ← hc, e1]
      rw [p3] at this
      exact hqt (g.inj this).symm
    · simpa [hυ, hps, hpt] using p1
  obtain ⟨b1, b2, b3⟩ := home (υ := Function.update υ q (η q)) (q := p) a2 (by simpa [p2] using hpv) (by
      intro t' h'
      rw [p3] at h'
      by_cases h0 : t' = q
      · subst h0
        rw [pr_update_self] at h'
        have : pr r τ s = pr r τ t' := q3.symm.trans h'
        exact q2 (g.inj this).symm
      · rw [pr_update_ne _ _ _ h0] at h'
        by_cases h1 : t' = t
        · subst h1; rw [occt] at h'; exact hfr q h'.symm
        · by_cases h2 : t' = s
          · subst h2; rw [occs] at h'; exact hqt (g.inj h').symm
          · rw [occ t' h1 h2] at h'; exact h0 (g.inj h'))
  have v1 := cover_first hR t y
  have v2 := cover (υ := Function.update τ t y) (s := s) (k := x) v1 ht.symm
  rw [pr_update_ne _ _ _ (Ne.symm hts), ← hυ] at v2
  have v3 := cover (υ := υ) (s := q) (k := η q) v2 q3
  rw [hυ, occ q hqt q2, ← hυ] at v3
  have v4 := cover (υ := Function.update υ q (η q)) (s := p) (k := η p) v3 p3
  refine ⟨_, .head ⟨⟨t, y, hy, by rw [htx.1]; exact Ne.symm hxy, c1, rfl⟩, _, v1⟩ (.head ⟨⟨s, x, hx, hxs, c2, rfl⟩, _, v2⟩
    (.head ⟨a1, _, v3⟩ (.single ⟨b1, _, v4⟩))), ?_⟩
  have h5 := Finset.card_le_card (off_update_off (Function.update τ t y) η s x)
  rw [Finset.insert_eq_of_mem (by simp [off, Ne.symm hts, hs]), ← hυ] at h5
  have h6 := (Finset.card_le_card (off_update_off τ η t y)).trans (Finset.card_insert_le _ _)
  omega

/-- As long as edges are away from home, their number can be reduced. -/
theorem reduce {n : ℕ} {r τ η : σ → ℕ} (g : Good n r τ) (gη : Good n r η)
    (two : ∀ i : ℕ, ∃ a b : ℕ, ∀ s, r s = i → τ s = a ∨ τ s = b)
    (hcard : Fintype.card σ + 1 < n.choose 2) (hne : (off τ η).Nonempty) :
    ∃ τ', Reach n r τ τ' ∧ (off τ' η).card < (off τ η).card := by
  by_cases hfree : ∃ s, τ s ≠ η s ∧ ∀ t, pr r τ t ≠ pr r η s
  · obtain ⟨s, h1, h2⟩ := hfree
    refine ⟨_, .single ⟨s, η s, gη.lt s, gη.ne s, h2, rfl⟩, ?_⟩
    rw [off_update_home]
    exact Finset.card_erase_lt_of_mem (by simp [off, h1])
  push Not at hfree
  obtain ⟨τ', h1, h2⟩ := reduce_stuck g gη two hcard hne hfree (Finset.Subset.refl _)
  exact ⟨τ', Relation.ReflTransGen.mono (fun _ _ h => h.1) _ _ h1, h2⟩

/-- Every simple placement is reached from every other one. -/
theorem connected {n : ℕ} {r τ η : σ → ℕ} (g : Good n r τ) (gη : Good n r η)
    (two : ∀ i : ℕ, ∃ u v : σ, ∀ s, r s = i → s = u ∨ s = v)
    (hcard : Fintype.card σ + 1 < n.choose 2) : Reach n r τ η := by
  generalize hL : (off τ η).card = L
  induction L using Nat.strong_induction_on generalizing τ with
  | _ L ih =>
  by_cases hne : (off τ η).Nonempty
  · obtain ⟨τ', h1, h2⟩ := reduce g gη (by
      intro i
      obtain ⟨u, v, h⟩ := two i
      exact ⟨τ u, τ v, fun s hs => (h s hs).imp (fun h => by rw [h]) (fun h => by rw [h])⟩) hcard hne
    exact h1.trans (ih _ (hL ▸ h2) (g.reach h1) rfl)
  · rw [Finset.not_nonempty_iff_eq_empty] at hne
    have : τ = η := by
      funext s
      by_contra hc
      have : s ∈ off τ η := by simp [off, hc]
      rw [hne] at this
      simp at this
    rw [this]

end Verif.SwReach
