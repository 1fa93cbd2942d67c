import Verif.Lemmas.Exchange
import Verif.Lemmas.SwReach

/-!
# Connected placements

The moves of `Lemmas/SwReach.lean` restricted to the placements which are connected networks: if the home placement stays connected
whichever of its pairs is taken away and two edges are attached to every vertex, then every connected placement reaches the home
placement through connected ones.
-/

set_option linter.unusedSectionVars false
set_option linter.unusedSimpArgs false

namespace Verif
open Finset Relation

/-- A path either avoids the edge `xy` or is cut by it into two parts. -/
theorem path_split {S : Finset (Sym2 ℕ)} {u v : ℕ} (x y : ℕ) (h : ReflTransGen (fun a b => s(a, b) ∈ S) u v) :
    ReflTransGen (fun a b => s(a, b) ∈ S.erase s(x, y)) u v ∨
    (ReflTransGen (fun a b => s(a, b) ∈ S.erase s(x, y)) u x ∧ ReflTransGen (fun a b => s(a, b) ∈ S.erase s(x, y)) y v) ∨
    (ReflTransGen (fun a b => s(a, b) ∈ S.erase s(x, y)) u y ∧ ReflTransGen (fun a b => s(a, b) ∈ S.erase s(x, y)) x v) := by
  induction h with
  | refl => exact .inl .refl
  | @tail w v _ h2 ih =>
    by_cases he : s(w, v) = s(x, y)
    · rw [Sym2.eq_iff] at he
      rcases he with ⟨rfl, rfl⟩ | ⟨rfl, rfl⟩
      · rcases ih with ih | ih | ih
        · exact .inr (.inl ⟨ih, .refl⟩)
        · exact .inr (.inl ⟨ih.1, .refl⟩)
        · exact .inl ih.1
      · rcases ih with ih | ih | ih
        · exact .inr (.inr ⟨ih, .refl⟩)
        · exact .inl ih.1
        · exact .inr (.inr ⟨ih.1, .refl⟩)
    · have : s(w, v) ∈ S.erase s(x, y) := mem_erase.mpr ⟨he, h2⟩
      rcases ih with ih | ih | ih
      · exact .inl (ih.tail this)
      · exact .inr (.inl ⟨ih.1, ih.2.tail this⟩)
      · exact .inr (.inr ⟨ih.1, ih.2.tail this⟩)

/-- There is a path along edges of `S` between any two of the vertices in `W`. -/
def ConnIn (W : ℕ → Prop) (S : Finset (Sym2 ℕ)) : Prop := ∀ a, W a → ∀ b, W b → ReflTransGen (fun x y => s(x, y) ∈ S) a b

theorem connIn_lt {n : ℕ} {S : Finset (Sym2 ℕ)} : ConnIn (· < n) S ↔ ConnectedOn n S := Iff.rfl

theorem ConnIn.mono {W : ℕ → Prop} {S S' : Finset (Sym2 ℕ)} (h : S ⊆ S') (hc : ConnIn W S) : ConnIn W S' :=
  fun a ha b hb => path_mono h (hc a ha b hb)

/-- An edge may be taken away if there is a detour. -/
theorem ConnIn.detour {W : ℕ → Prop} {S T : Finset (Sym2 ℕ)} (hS : ConnIn W S) {x y : ℕ} (hT : S.erase s(x, y) ⊆ T)
    (hp : ReflTransGen (fun a b => s(a, b) ∈ T) x y) : ConnIn W T := by
  intro a ha b hb
  rcases path_split x y (hS a ha b hb) with h | h | h
  · exact path_mono hT h
  · exact (path_mono hT h.1).trans (hp.trans (path_mono hT h.2))
  · exact (path_mono hT h.1).trans ((path_symm hp).trans (path_mono hT h.2))

theorem ConnectedOn.detour {n : ℕ} {S T : Finset (Sym2 ℕ)} (hS : ConnectedOn n S) {x y : ℕ} (hT : S.erase s(x, y) ⊆ T)
    (hp : ReflTransGen (fun a b => s(a, b) ∈ T) x y) : ConnectedOn n T := ConnIn.detour (W := (· < n)) hS hT hp

/-- Every edge of the minimal set of edges that join two vertices can be exchanged for the edge between the two. -/
theorem exists_exchange {W : ℕ → Prop} {H F : Finset (Sym2 ℕ)} {u v : ℕ} (hu : W u) (hv : W v) (A : ℕ → Prop) (hAu : A u) (hAv : ¬ A v)
    (hH : ∀ a b, s(a, b) ∈ H → A a → A b) (hc : ConnIn W (H ∪ F)) :
    ∃ f ∈ F, ConnIn W (insert s(u, v) H ∪ F.erase f) := by
  classical
  have hex : ∃ k, ∃ F' ⊆ F, F'.card = k ∧ ReflTransGen (fun a b => s(a, b) ∈ H ∪ F') u v :=
    ⟨_, F, Subset.refl _, rfl, hc u hu v hv⟩
  obtain ⟨F', hF', hk, hp⟩ := Nat.find_spec hex
  obtain ⟨x, y, hxy, hx, hy⟩ := path_leaves hp hAu hAv
  have hxyF : s(x, y) ∈ F' := by
    rcases mem_union.mp hxy with h | h
    · exact absurd (hH x y h hx) hy
    · exact h
  have hsub : (H ∪ F').erase s(x, y) ⊆ insert s(u, v) H ∪ F.erase s(x, y) := by
    intro z hz
    rw [mem_erase, mem_union] at hz
    rw [mem_union, mem_insert, mem_erase]
    rcases hz.2 with h | h
    · exact .inl (.inr h)
    · exact .inr ⟨hz.1, hF' h⟩
  have hsub2 : (H ∪ F).erase s(x, y) ⊆ insert s(u, v) H ∪ F.erase s(x, y) := by
    intro z hz
    rw [mem_erase, mem_union] at hz
    rw [mem_union, mem_insert, mem_erase]
    rcases hz.2 with h | h
    · exact .inl (.inr h)
    · exact .inr ⟨hz.1, h⟩
  have hq : s(u, v) ∈ insert s(u, v) H ∪ F.erase s(x, y) := mem_union_left _ (mem_insert_self _ _)
  refine ⟨s(x, y), hF' hxyF, hc.detour hsub2 ?_⟩
  rcases path_split x y hp with h | h | h
  · exfalso
    have hmin := Nat.find_min' hex (m := (F'.erase s(x, y)).card) ⟨_, (erase_subset _ _).trans hF', rfl,
      path_mono (fun z hz => by
        rw [mem_erase, mem_union] at hz
        rw [mem_union, mem_erase]
        rcases hz.2 with h | h
        · exact .inl h
        · exact .inr ⟨hz.1, h⟩) h⟩
    have := card_erase_lt_of_mem hxyF
    omega
  · exact (path_symm (path_mono hsub h.1)).trans (ReflTransGen.head hq (path_symm (path_mono hsub h.2)))
  · exact (path_mono hsub h.2).trans (ReflTransGen.head (mem_union_left _ (mem_insert.mpr (.inl Sym2.eq_swap))) (path_mono hsub h.1))

/-- If all edges of `Q` are bridges, at least as many edges are needed to replace them. -/
theorem bridges_le {W : ℕ → Prop} : ∀ (k : ℕ) (H Q F : Finset (Sym2 ℕ)), Q.card = k → Disjoint H Q → ConnIn W (H ∪ Q) →
    (∀ q ∈ Q, ∃ u v, W u ∧ W v ∧ q = s(u, v)) → (∀ q ∈ Q, ¬ ConnIn W ((H ∪ Q).erase q)) → ConnIn W (H ∪ F) →
    k ≤ F.card := by
  intro k
  induction k with
  | zero => intros; omega
  | succ k ih =>
    intro H Q F hk hd hc hlt hb hF
    obtain ⟨q, hq⟩ := card_pos.mp (by omega : 0 < Q.card)
    obtain ⟨u, v, hu, hv, rfl⟩ := hlt q hq
    have hnot : ¬ ReflTransGen (fun a b => s(a, b) ∈ (H ∪ Q).erase s(u, v)) u v := fun hcon =>
      hb _ hq (hc.detour (Subset.refl _) hcon)
    obtain ⟨f, hf, hcf⟩ := exists_exchange (F := F) hu hv
      (fun z => ReflTransGen (fun a b => s(a, b) ∈ (H ∪ Q).erase s(u, v)) u z) .refl hnot
      (fun a b hab ha => ha.tail (mem_erase.mpr ⟨fun h => disjoint_left.mp hd (h ▸ hab) hq, mem_union_left _ hab⟩)) hF
    have e1 : insert s(u, v) H ∪ Q.erase s(u, v) = H ∪ Q := by
      ext z
      simp only [mem_union, mem_insert, mem_erase]
      by_cases hz : z = s(u, v)
      · subst hz; simp [hq]
      · simp [hz]
    have := ih (insert s(u, v) H) (Q.erase s(u, v)) (F.erase f) (by rw [card_erase_of_mem hq]; omega)
      (by
        rw [disjoint_insert_left]
        exact ⟨by simp, disjoint_of_subset_right (erase_subset _ _) hd⟩) (by rw [e1]; exact hc)
      (fun q' hq' => hlt q' (mem_of_mem_erase hq')) (fun q' hq' => by rw [e1]; exact hb q' (mem_of_mem_erase hq')) hcf
    rw [card_erase_of_mem hf] at this
    have := card_pos.mpr ⟨f, hf⟩
    omega

namespace SwReach
variable {σ : Type} [Fintype σ] [DecidableEq σ]

/-- A move between connected placements. -/
def CMv (n : ℕ) (r τ τ' : σ → ℕ) : Prop := Mv n r τ τ' ∧ ConnectedOn n (pairs r τ) ∧ ConnectedOn n (pairs r τ')

theorem pairs_update {n : ℕ} {r τ : σ → ℕ} (g : Good n r τ) (s : σ) (k : ℕ) :
    pairs r (Function.update τ s k) = insert s(r s, k) ((pairs r τ).erase (pr r τ s)) := by
  ext z
  simp only [mem_insert, mem_erase, mem_pairs]
  constructor
  · rintro ⟨t, rfl⟩
    by_cases hts : t = s
    · subst hts; exact .inl (pr_update_self _ _ _ _)
    · rw [pr_update_ne _ _ _ hts]
      exact .inr ⟨fun h => hts (g.inj h), t, rfl⟩
  · rintro (rfl | ⟨h, t, rfl⟩)
    · exact ⟨s, pr_update_self _ _ _ _⟩
    · exact ⟨t, pr_update_ne _ _ _ (fun hts => h (by rw [hts]))⟩

/-- If edges are away from home, one of them can be taken away without cutting the network into parts. -/
theorem exists_cycle_edge {n : ℕ} {r τ η : σ → ℕ} (g : Good n r τ) (hr : ∀ s, r s < n)
    (hc : ConnectedOn n (pairs r τ)) (hη : ∀ x, ConnectedOn n ((pairs r η).erase x)) (hne : (off τ η).Nonempty) :
    ∃ s, τ s ≠ η s ∧ ConnectedOn n ((pairs r τ).erase (pr r τ s)) := by
  by_contra hcon
  push Not at hcon
  obtain ⟨s0, hs0⟩ := hne
  set H := (univ.filter (fun s => τ s = η s)).image (pr r τ)
  set Q := (off τ η).image (pr r τ)
  set F := ((off τ η).erase s0).image (pr r η)
  have hHQ : H ∪ Q = pairs r τ := by
    rw [← image_union, pairs]
    congr 1
    ext s
    simp [off, em]
  have hd : Disjoint H Q := by
    rw [disjoint_left]
    intro z hz hz'
    obtain ⟨s, hs, rfl⟩ := mem_image.mp hz
    obtain ⟨t, ht, hts⟩ := mem_image.mp hz'
    have := g.inj hts
    subst this
    simp only [mem_filter, mem_univ, true_and, off] at hs ht
    exact ht hs
  have hHF : (pairs r η).erase (pr r η s0) ⊆ H ∪ F := by
    intro z hz
    rw [mem_erase] at hz
    obtain ⟨t, rfl⟩ := mem_pairs.mp hz.2
    by_cases ht : τ t = η t
    · refine mem_union_left _ (mem_image.mpr ⟨t, by simp [ht], ?_⟩)
      simp [pr, ht]
    · refine mem_union_right _ (mem_image.mpr ⟨t, mem_erase.mpr ⟨?_, by simp [off, ht]⟩, rfl⟩)
      rintro rfl
      exact hz.1 rfl
  have := bridges_le (W := (· < n)) Q.card H Q F rfl hd (by rw [hHQ]; exact hc)
    (fun q hq => by
      obtain ⟨s, _, rfl⟩ := mem_image.mp hq
      exact ⟨r s, τ s, hr s, g.lt s, rfl⟩)
    (fun q hq => by
      obtain ⟨s, hs, rfl⟩ := mem_image.mp hq
      rw [hHQ]
      exact hcon s (by simpa [off] using hs)) ((hη _).mono hHF)
  have h1 : Q.card = (off τ η).card := card_image_of_injective _ g.inj
  have h2 : F.card ≤ ((off τ η).erase s0).card := card_image_le
  have := card_erase_lt_of_mem hs0
  omega

/-- If the home of an edge is free, the number of edges away from home can be reduced through connected placements. -/
theorem reduce_free {n : ℕ} {r τ η : σ → ℕ} (g : Good n r τ) (gη : Good n r η) (hr : ∀ s, r s < n)
    (hdeg : ∀ v < n, ∃ s t : σ, s ≠ t ∧ r s = v ∧ r t = v)
    (hc : ConnectedOn n (pairs r τ)) (hη : ∀ x, ConnectedOn n ((pairs r η).erase x)) {q : σ} (hq : τ q ≠ η q)
    (hfree : ∀ t, pr r τ t ≠ pr r η q) :
    ∃ τ', ReflTransGen (CMv n r) τ τ' ∧ (off τ' η).card < (off τ η).card := by
  have mq : Mv n r τ (Function.update τ q (η q)) := ⟨q, η q, gη.lt q, gη.ne q, hfree, rfl⟩
  have hqoff : q ∈ off τ η := by simp [off, hq]
  by_cases h1 : ConnectedOn n (pairs r (Function.update τ q (η q)))
  · refine ⟨_, .single ⟨mq, hc, h1⟩, ?_⟩
    rw [off_update_home]
    exact card_erase_lt_of_mem hqoff
  rw [pairs_update g] at h1
  obtain ⟨s, hs, hsc⟩ := exists_cycle_edge g hr hc hη ⟨q, hqoff⟩
  have hqb : ¬ ConnectedOn n ((pairs r τ).erase (pr r τ q)) := fun h => h1 (h.mono (subset_insert _ _))
  have hsq : s ≠ q := by rintro rfl; exact hqb hsc
  -- the end `x` of the bridge on the side of `s` and the other end `y`
  obtain ⟨x, y, hxy, hylt, hax⟩ : ∃ x y, pr r τ q = s(x, y) ∧ y < n ∧
      ReflTransGen (fun a b => s(a, b) ∈ (pairs r τ).erase s(x, y)) x (r s) := by
    rcases path_erase (b := τ q) (hc (r q) (hr q) (r s) (hr s)) with h | h
    · exact ⟨r q, τ q, rfl, g.lt q, h⟩
    · exact ⟨τ q, r q, Sym2.eq_swap, hr q, by rw [Sym2.eq_swap]; exact h⟩
  rw [hxy] at h1 hqb
  have hnot : ¬ ReflTransGen (fun a b => s(a, b) ∈ (pairs r τ).erase s(x, y)) x y := fun h => hqb (hc.detour (Subset.refl _) h)
  -- another vertex on the side of `y`
  obtain ⟨z, hzlt, hzy, hyz⟩ : ∃ z, z < n ∧ z ≠ y ∧ s(y, z) ∈ (pairs r τ).erase s(x, y) := by
    obtain ⟨a, b, hab, ha, hb⟩ := hdeg y hylt
    have key : ∀ c, r c = y → c ≠ q → ∃ z, z < n ∧ z ≠ y ∧ s(y, z) ∈ (pairs r τ).erase s(x, y) := by
      intro c hcy hcq
      refine ⟨τ c, g.lt c, by rw [← hcy]; exact g.ne c, mem_erase.mpr ⟨?_, mem_pairs.mpr ⟨c, by rw [pr, hcy]⟩⟩⟩
      rw [← hxy, ← hcy]
      exact fun h => hcq (g.inj h)
    by_cases haq : a = q
    · exact key b hb (fun h => hab (haq.trans h.symm))
    · exact key a ha haq
  have hyz' : ReflTransGen (fun a b => s(a, b) ∈ (pairs r τ).erase s(x, y)) y z := .single hyz
  have hnz : ¬ ReflTransGen (fun a b => s(a, b) ∈ (pairs r τ).erase s(x, y)) x z := fun h => hnot (h.trans (path_symm hyz'))
  have hazne : z ≠ r s := by rintro rfl; exact hnz hax
  have hazfree : ∀ t, pr r τ t ≠ s(r s, z) := by
    intro t ht
    by_cases he : s(r s, z) = s(x, y)
    · rw [Sym2.eq_iff] at he
      rcases he with ⟨_, h⟩ | ⟨h, _⟩
      · exact hzy h
      · rw [h] at hax; exact hnot hax
    · exact hnz (hax.tail (mem_erase.mpr ⟨he, mem_pairs.mpr ⟨t, ht⟩⟩))
  have hhome : s(r s, z) ≠ pr r η q := by
    intro h
    refine h1 (hc.detour (subset_insert _ _) ?_)
    exact (path_mono (subset_insert _ _) hax).trans
      (ReflTransGen.head (mem_insert.mpr (.inl h)) (path_symm (path_mono (subset_insert _ _) hyz')))
  have ms : Mv n r τ (Function.update τ s z) := ⟨s, z, hzlt, hazne, hazfree, rfl⟩
  have g2 := g.mv ms
  have hprq : pr r (Function.update τ s z) q = s(x, y) := by rw [pr_update_ne _ _ _ (Ne.symm hsq), hxy]
  have c2 : ConnectedOn n (pairs r (Function.update τ s z)) := by
    rw [pairs_update g]
    exact hsc.mono (subset_insert _ _)
  have m3 : Mv n r (Function.update τ s z) (Function.update (Function.update τ s z) q (η q)) := by
    refine ⟨q, η q, gη.lt q, gη.ne q, fun t ht => ?_, rfl⟩
    by_cases hts : t = s
    · subst hts
      rw [pr_update_self] at ht
      exact hhome ht
    · rw [pr_update_ne _ _ _ hts] at ht
      exact hfree t ht
  have hsub : ((pairs r τ).erase (pr r τ s)).erase s(x, y) ⊆ (pairs r τ).erase s(x, y) := erase_subset_erase _ (erase_subset _ _)
  have c3 : ConnectedOn n (pairs r (Function.update (Function.update τ s z) q (η q))) := by
    rw [pairs_update g2, hprq, pairs_update g]
    have hT : ((pairs r τ).erase (pr r τ s)).erase s(x, y) ⊆
        insert s(r q, η q) ((insert s(r s, z) ((pairs r τ).erase (pr r τ s))).erase s(x, y)) :=
      (erase_subset_erase _ (subset_insert _ _)).trans (subset_insert _ _)
    have haz : s(r s, z) ∈ insert s(r q, η q) ((insert s(r s, z) ((pairs r τ).erase (pr r τ s))).erase s(x, y)) := by
      refine mem_insert_of_mem (mem_erase.mpr ⟨fun h => ?_, mem_insert_self _ _⟩)
      exact hazfree q (hxy.trans h.symm)
    have hxlt : x < n := by
      have := congrArg (fun e => x ∈ e) hxy
      simp only [pr, Sym2.mem_iff, true_or, eq_iff_iff, iff_true] at this
      rcases this with rfl | rfl
      · exact hr q
      · exact g.lt q
    refine hsc.detour hT ?_
    have hxs : ReflTransGen (fun a b => s(a, b) ∈ ((pairs r τ).erase (pr r τ s)).erase s(x, y)) x (r s) := by
      rcases path_erase (b := y) (hsc x hxlt (r s) (hr s)) with h | h
      · exact h
      · exact absurd (hax.trans (path_symm (path_mono hsub h))) hnot
    have hys : ReflTransGen (fun a b => s(a, b) ∈ ((pairs r τ).erase (pr r τ s)).erase s(x, y)) y z := by
      rcases path_erase (b := y) (hsc x hxlt z hzlt) with h | h
      · exact absurd (path_mono hsub h) hnz
      · exact h
    exact (path_mono hT hxs).trans (ReflTransGen.head haz (path_symm (path_mono hT hys)))
  refine ⟨_, .head ⟨ms, hc, c2⟩ (.single ⟨m3, c2, c3⟩), ?_⟩
  rw [off_update_home]
  have h5 := card_le_card (off_update_off τ η s z)
  rw [insert_eq_of_mem (by simp [off, hs])] at h5
  have : q ∈ off (Function.update τ s z) η := by simp [off, Function.update_of_ne (Ne.symm hsq), hq]
  have := card_erase_lt_of_mem this
  omega

/-- As long as edges are away from home, their number can be reduced through connected placements. -/
theorem reduce_connected {n : ℕ} {r τ η : σ → ℕ} (g : Good n r τ) (gη : Good n r η) (hr : ∀ s, r s < n)
    (hdeg : ∀ v < n, ∃ s t : σ, s ≠ t ∧ r s = v ∧ r t = v)
    (two : ∀ i : ℕ, ∃ a b : ℕ, ∀ s, r s = i → τ s = a ∨ τ s = b)
    (hcard : Fintype.card σ + 1 < n.choose 2)
    (hc : ConnectedOn n (pairs r τ)) (hη : ∀ x, ConnectedOn n ((pairs r η).erase x)) (hne : (off τ η).Nonempty) :
    ∃ τ', ReflTransGen (CMv n r) τ τ' ∧ (off τ' η).card < (off τ η).card := by
  by_cases hfree : ∃ s, τ s ≠ η s ∧ ∀ t, pr r τ t ≠ pr r η s
  · obtain ⟨q, h1, h2⟩ := hfree
    exact reduce_free g gη hr hdeg hc hη h1 h2
  push Not at hfree
  have hR : pairs r η ⊆ pairs r τ := by
    intro z hz
    obtain ⟨s, rfl⟩ := mem_pairs.mp hz
    by_cases hs : τ s = η s
    · exact mem_pairs.mpr ⟨s, by rw [pr, pr, hs]⟩
    · exact mem_pairs.mpr (hfree s hs)
  obtain ⟨τ', h1, h2⟩ := reduce_stuck g gη two hcard hne hfree hR
  refine ⟨τ', ?_, h2⟩
  have key : ∀ {a b}, ReflTransGen (MvOn n r (pairs r η)) a b → ConnectedOn n (pairs r a) → ReflTransGen (CMv n r) a b := by
    intro a b hab
    induction hab using ReflTransGen.head_induction_on with
    | refl => exact fun _ => .refl
    | head h _ ih =>
      intro ha
      obtain ⟨x, hx⟩ := h.2
      have := (hη x).mono hx
      exact .head ⟨h.1, ha, this⟩ (ih this)
  exact key h1 hc

/-- Every connected placement reaches the home placement through connected ones. -/
theorem connected_home {n : ℕ} {r τ η : σ → ℕ} (g : Good n r τ) (gη : Good n r η) (hr : ∀ s, r s < n)
    (hdeg : ∀ v < n, ∃ s t : σ, s ≠ t ∧ r s = v ∧ r t = v)
    (two : ∀ i : ℕ, ∃ u v : σ, ∀ s, r s = i → s = u ∨ s = v)
    (hcard : Fintype.card σ + 1 < n.choose 2)
    (hc : ConnectedOn n (pairs r τ)) (hη : ∀ x, ConnectedOn n ((pairs r η).erase x)) : ReflTransGen (CMv n r) τ η := by
  induction hk : (off τ η).card using Nat.strong_induction_on generalizing τ with
  | _ k ih =>
    by_cases hne : (off τ η).Nonempty
    · obtain ⟨τ', h1, h2⟩ := reduce_connected g gη hr hdeg (fun i => by
        obtain ⟨u, v, huv⟩ := two i
        exact ⟨τ u, τ v, fun s hs => by rcases huv s hs with rfl | rfl <;> simp⟩) hcard hc hη hne
      have g' : Good n r τ' := g.reach (ReflTransGen.mono (fun _ _ h => h.1) _ _ h1)
      have hc' : ConnectedOn n (pairs r τ') := by
        rcases ReflTransGen.cases_tail h1 with h | ⟨_, _, h⟩
        · rw [h]; exact hc
        · exact h.2.2
      exact h1.trans (ih _ (by omega) g' hc' rfl)
    · have : τ = η := by
        funext s
        by_contra hs
        exact hne ⟨s, by simp [off, hs]⟩
      rw [this]

theorem CMv.symm {n : ℕ} {r τ τ' : σ → ℕ} (g : Good n r τ) (h : CMv n r τ τ') : CMv n r τ' τ := ⟨h.1.symm g, h.2.2, h.2.1⟩

end SwReach
end Verif
