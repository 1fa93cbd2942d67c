import Verif.Lemmas.WsChance
import Verif.Lemmas.UntilState

/-!
# Where the Watts-Strogatz ensemble puts the edges it moves
-/

set_option linter.unusedSectionVars false
set_option linter.unusedSimpArgs false

namespace Verif
open AdjContainer GenericGraph MeasureTheory ProbabilityTheory

/-! ## Two draws -/

/-- Two numbers below `n`. -/
theorem chance_draw_two {n : ℕ} (hn : 0 < n) (P : ℕ × ℕ → Prop) [DecidablePred P] :
    Chance (fun ω k => P (partOf (ω k) n, partOf (ω (k + 1)) n))
      ((((Finset.range n ×ˢ Finset.range n).filter P).card : ENNReal) * ((n * n : ℕ) : ENNReal)⁻¹) := by
  have hterm : ∀ a ∈ Finset.range n, Chance (fun ω k => ∃ b j, (b = partOf (ω k) n ∧ j = k + 1) ∧ b = a ∧ P (a, partOf (ω j) n))
      ((n : ENNReal)⁻¹ * ((((Finset.range n).filter (fun b => P (a, b))).card : ENNReal) * (n : ENNReal)⁻¹)) := by
    intro a ha
    have h1 : Chance (fun ω k => ∃ b j, (b = partOf (ω k) n ∧ j = k + 1) ∧ b = a) ((n : ENNReal)⁻¹) := by
      have := chance_draw hn (fun t => t = a)
      rw [Finset.filter_eq' _ a, if_pos ha, Finset.card_singleton, Nat.cast_one, one_mul] at this
      refine this.congr fun ω k => ⟨fun h => ⟨_, _, ⟨rfl, rfl⟩, h⟩, ?_⟩
      rintro ⟨b, j, ⟨rfl, rfl⟩, h⟩
      exact h
    refine chance_bind (Sampler.draw n) (P := fun b => b = a) h1 (Q := fun _ ω k => P (a, partOf (ω k) n)) ?_
    intro _ _
    exact chance_draw hn (fun b => P (a, b))
  have hsum := Chance.sum _ hterm (by
    rintro a _ a' _ ω k ⟨b, j, ⟨rfl, _⟩, h, _⟩ ⟨b', j', ⟨rfl, _⟩, h', _⟩
    exact h.symm.trans h')
  have hw : ∑ a ∈ Finset.range n, ((n : ENNReal)⁻¹ * ((((Finset.range n).filter (fun b => P (a, b))).card : ENNReal) * (n : ENNReal)⁻¹)) =
      ((((Finset.range n ×ˢ Finset.range n).filter P).card : ENNReal) * ((n * n : ℕ) : ENNReal)⁻¹) := by
    have hc : ((Finset.range n ×ˢ Finset.range n).filter P).card = ∑ a ∈ Finset.range n, ((Finset.range n).filter (fun b => P (a, b))).card := by
      rw [Finset.card_filter, Finset.sum_product]
      exact Finset.sum_congr rfl fun a _ => by rw [Finset.card_filter]
    rw [hc, Nat.cast_sum, Finset.sum_mul]
    refine Finset.sum_congr rfl fun a _ => ?_
    rw [Nat.cast_mul, ENNReal.mul_inv (Or.inr (ENNReal.natCast_ne_top n)) (Or.inl (ENNReal.natCast_ne_top n))]
    ring
  rw [hw] at hsum
  refine hsum.congr fun ω k => ?_
  constructor
  · rintro ⟨a, _, b, j, ⟨rfl, rfl⟩, rfl, h⟩
    exact h
  · intro h
    exact ⟨partOf (ω k) n, Finset.mem_range.mpr (partOf_lt _ hn), _, _, ⟨rfl, rfl⟩, rfl, h⟩

namespace Ws
variable {T : Type} [Node T]

/-- The pairs that make up a set of edges. -/
theorem card_pairs_of {n : ℕ} {F : Finset (Sym2 ℕ)} (hF : F ⊆ full n) :
    ((Finset.range n ×ˢ Finset.range n).filter (fun x => s(x.1, x.2) ∈ F)).card = 2 * F.card := by
  rw [Finset.card_eq_sum_card_fiberwise (f := fun x : ℕ × ℕ => s(x.1, x.2)) (t := F)]
  · rw [Finset.sum_congr rfl (g := fun _ => 2), Finset.sum_const, smul_eq_mul, mul_comm]
    intro e he
    induction e using Sym2.ind with
    | h u v =>
      obtain ⟨hu, hv, huv⟩ := mem_full.mp (hF he)
      have : (((Finset.range n ×ˢ Finset.range n).filter (fun x => s(x.1, x.2) ∈ F)).filter (fun x : ℕ × ℕ => s(x.1, x.2) = s(u, v))) =
          {(u, v), (v, u)} := by
        ext ⟨a, b⟩
        simp only [Finset.mem_filter, Finset.mem_product, Finset.mem_range, Finset.mem_insert, Finset.mem_singleton, Prod.mk.injEq]
        constructor
        · rintro ⟨_, h⟩
          exact Sym2.eq_iff.mp h
        · rintro (⟨rfl, rfl⟩ | ⟨rfl, rfl⟩)
          · exact ⟨⟨⟨hu, hv⟩, he⟩, rfl⟩
          · exact ⟨⟨⟨hv, hu⟩, by rw [Sym2.eq_swap]; exact he⟩, Sym2.eq_swap⟩
      rw [this, Finset.card_pair]
      simp [huv]
  · intro x hx
    have hx := Finset.mem_coe.mp hx
    exact (Finset.mem_filter.mp hx).2

/-! ## One search for a free pair -/

/-- The places for an edge that was at `o`: not occupied and not `o`. -/
def places (n : ℕ) (E : Finset (Sym2 ℕ)) (o : Sym2 ℕ) : Finset (Sym2 ℕ) := (full n \ E).erase o

theorem free_iff {n : ℕ} {E : Finset (Sym2 ℕ)} {o : OriginalEdge} {a b : ℕ} : Free n E o a b ↔ s(a, b) ∈ places n E o.pair := by
  unfold Free places
  rw [Finset.mem_erase, Finset.mem_sdiff, mem_full]
  tauto

/-- One attempt: two draws. -/
def PairAttempt (n : ℕ) (F : Finset (Sym2 ℕ)) (_ : Unit) (ω : ℕ → ℝ) (k : ℕ) (x : Unit ⊕ (ℕ × ℕ)) (j : ℕ) : Prop :=
  j = k + 2 ∧ match x with
    | .inl _ => s(partOf (ω k) n, partOf (ω (k + 1)) n) ∉ F
    | .inr v => v = (partOf (ω k) n, partOf (ω (k + 1)) n) ∧ s(v.1, v.2) ∈ F

theorem pairAttempt_sampler (n : ℕ) (F : Finset (Sym2 ℕ)) (s : Unit) : Sampler (PairAttempt n F s) := by
  refine ⟨?_, ?_⟩
  · rintro ω k x j ⟨rfl, h⟩
    refine ⟨[(n, partOf (ω k) n)] ++ [(n, partOf (ω (k + 1)) n)], rfl,
      matches_append.mpr ⟨matches_single.mpr rfl, matches_single.mpr rfl⟩, fun ω' k' hm => ⟨rfl, ?_⟩⟩
    obtain ⟨h1, h2⟩ := matches_append.mp hm
    have h1 := matches_single.mp h1
    have h2 := matches_single.mp h2
    simp only [List.length_singleton] at h2
    rw [h1, h2]
    exact h
  · rintro ω k x x' j j' ⟨rfl, h⟩ ⟨rfl, h'⟩
    refine ⟨?_, rfl⟩
    cases x with
    | inl _ => cases x' with
      | inl _ => rfl
      | inr v => exact absurd (by rw [h'.1] at h'; exact h'.2) h
    | inr u => cases x' with
      | inl _ => exact absurd (by rw [h.1] at h; exact h.2) h'
      | inr v => rw [h.1, h'.1]

theorem pairSearch_chance {n : ℕ} (hn : 0 < n) {F : Finset (Sym2 ℕ)} (hF : F ⊆ full n) {x : Sym2 ℕ} (hx : x ∈ F) :
    Chance (fun ω k => ∃ a j, UntilS (PairAttempt n F) ω () k a j ∧ s(a.1, a.2) = x) ((F.card : ENNReal)⁻¹) := by
  have hN : 0 < n * n := Nat.mul_pos hn hn
  have hfail : Chance (fun ω k => ∃ s' j, PairAttempt n F () ω k (.inl s') j)
      (1 - ((2 * F.card : ℕ) : ENNReal) * ((n * n : ℕ) : ENNReal)⁻¹) := by
    have := (chance_draw_two hn (fun x => s(x.1, x.2) ∈ F)).not
    rw [card_pairs_of hF] at this
    exact this.congr fun ω k => ⟨fun h => ⟨(), k + 2, rfl, h⟩, fun ⟨_, _, _, h⟩ => h⟩
  have hgood : Chance (fun ω k => ∃ a j, PairAttempt n F () ω k (.inr a) j ∧ s(a.1, a.2) = x)
      (((2 : ℕ) : ENNReal) * ((n * n : ℕ) : ENNReal)⁻¹) := by
    have := chance_draw_two hn (fun y => s(y.1, y.2) ∈ ({x} : Finset (Sym2 ℕ)))
    rw [card_pairs_of (Finset.singleton_subset_iff.mpr (hF hx)), Finset.card_singleton, mul_one] at this
    refine this.congr fun ω k => ?_
    rw [Finset.mem_singleton]
    constructor
    · intro h
      exact ⟨_, k + 2, ⟨rfl, rfl, by rw [h]; exact hx⟩, h⟩
    · rintro ⟨_, _, ⟨_, rfl, _⟩, h⟩
      exact h
  have h1 := chance_untilS (fun s => pairAttempt_sampler n F s) (I := fun _ => True) (P := fun a => s(a.1, a.2) = x) (fun _ _ => trivial)
    (fun s _ => hfail) (fun s _ => hgood) () trivial
  have hle : ((2 * F.card : ℕ) : ENNReal) * ((n * n : ℕ) : ENNReal)⁻¹ ≤ 1 := by
    have := (chance_draw_two hn (fun x => s(x.1, x.2) ∈ F)).prob 0
    rw [card_pairs_of hF] at this
    rw [← this]
    exact prob_le_one
  rw [ENNReal.sub_sub_cancel ENNReal.one_ne_top hle, ratio_of_counts hN] at h1
  have h2 : ((2 : ℕ) : ENNReal) / ((2 * F.card : ℕ) : ENNReal) = (F.card : ENNReal)⁻¹ := by
    have hc : (F.card : ENNReal) ≠ 0 := by
      have : 0 < F.card := Finset.card_pos.mpr ⟨x, hx⟩
      exact_mod_cast this.ne'
    rw [Nat.cast_mul, div_eq_mul_inv, ENNReal.mul_inv (Or.inr (ENNReal.natCast_ne_top _)) (Or.inr hc), ← mul_assoc,
      ENNReal.mul_inv_cancel (by norm_num) (ENNReal.natCast_ne_top _), one_mul]
  rw [h2] at h1
  exact h1

theorem pickPair_ret {n : Nat} {dat : List T} {ec : Nat} {g : WSGraph T} {E : Finset (Sym2 ℕ)} {org : Sym2 ℕ → Sym2 ℕ}
    (h : Raw n dat ec g (fun u v => s(u, v) ∈ E) org) (hn : n < 2 ^ 32) (hn0 : 0 < n) (o : OriginalEdge) {ω : ℕ → ℝ} {k j : ℕ} {a : ℕ × ℕ} :
    RetOf mk3 (fun fuel r => pickPair g o fuel r) ω k a j ↔ UntilS (PairAttempt n (places n E o.pair)) ω () k a j := by
  have hstep : ∀ fuel (k : ℕ), (Free n E o (partOf (ω k) n) (partOf (ω (k + 1)) n) ∧
        pickPair g o (fuel + 1) (⟨ω, k⟩ : Stream) = .ok (partOf (ω k) n, partOf (ω (k + 1)) n, ⟨ω, k + 2⟩)) ∨
      (¬ Free n E o (partOf (ω k) n) (partOf (ω (k + 1)) n) ∧ pickPair g o (fuel + 1) (⟨ω, k⟩ : Stream) = pickPair g o fuel ⟨ω, k + 2⟩) :=
    fun fuel k => pickPair_succ h hn o fuel (Stream.genRange_eq (⟨ω, k⟩ : Stream) hn0) (Stream.genRange_eq (⟨ω, k + 1⟩ : Stream) hn0)
  constructor
  · rintro ⟨F, hF'⟩
    have hF : pickPair g o F (⟨ω, k⟩ : Stream) = .ok (mk3 a ⟨ω, j⟩) := hF' F (le_refl F)
    clear hF'
    induction F generalizing k with
    | zero => cases hF
    | succ F ih =>
      rcases hstep F k with ⟨h1, h2⟩ | ⟨h1, h2⟩
      · rw [h2] at hF
        simp only [mk3, Res.ok.injEq, Prod.mk.injEq, Stream.mk.injEq, true_and] at hF
        obtain ⟨ha, hb, rfl⟩ := hF
        refine .done ⟨rfl, Prod.ext ha.symm hb.symm, ?_⟩
        rw [← ha, ← hb]
        exact free_iff.mp h1
      · rw [h2] at hF
        exact .again (s' := ()) ⟨rfl, fun hc => h1 (free_iff.mpr hc)⟩ (ih hF)
  · intro h1
    suffices hs : ∃ F, pickPair g o F (⟨ω, k⟩ : Stream) = .ok (mk3 a ⟨ω, j⟩) by
      obtain ⟨F, hF⟩ := hs
      exact (pickPair_adaptive g o).retOf joins_mk3 hF
    generalize () = s0 at h1
    induction h1 with
    | @done s k j a h1 =>
      obtain ⟨rfl, rfl, h1⟩ := h1
      refine ⟨1, ?_⟩
      rcases hstep 0 k with ⟨_, h2⟩ | ⟨h2, _⟩
      · rw [h2]; rfl
      · exact absurd (free_iff.mpr h1) h2
    | @again s s' k i j a h1 _ ih =>
      obtain ⟨rfl, h1⟩ := h1
      obtain ⟨F, hF⟩ := ih
      refine ⟨F + 1, ?_⟩
      rcases hstep F k with ⟨h2, _⟩ | ⟨_, h2⟩
      · exact absurd (free_iff.mp h2) h1
      · rw [h2]; exact hF

theorem pickPair_chance {n : Nat} {dat : List T} {ec : Nat} {g : WSGraph T} {E : Finset (Sym2 ℕ)} {org : Sym2 ℕ → Sym2 ℕ}
    (h : Raw n dat ec g (fun u v => s(u, v) ∈ E) org) (hn : n < 2 ^ 32) (hn0 : 0 < n) (o : OriginalEdge) {x : Sym2 ℕ}
    (hx : x ∈ places n E o.pair) :
    Chance (fun ω k => ∃ a j, RetOf mk3 (fun fuel r => pickPair g o fuel r) ω k a j ∧ s(a.1, a.2) = x)
      (((places n E o.pair).card : ENNReal)⁻¹) := by
  refine (pairSearch_chance hn0 (F := places n E o.pair) ?_ hx).congr fun ω k => ?_
  · exact (Finset.erase_subset _ _).trans Finset.sdiff_subset
  · simp only [pickPair_ret h hn hn0]

/-! ## Where an edge sits -/

/-- The edge that belongs to the place `o` on the ring is at `x`. -/
def Sits (g : WSGraph T) (o x : Sym2 ℕ) : Prop := ∃ u, ∃ z ∈ WSGraph.entries g u, z.2.pair = o ∧ s(u, z.1) = x

section
variable {n d : Nat} {dat : List T} {g : WSGraph T} {E : Finset (Sym2 ℕ)} {org : Sym2 ℕ → Sym2 ℕ} {Pm : Multiset (Sym2 ℕ)}

theorem J.sits_iff (h : J n d dat g E org Pm) {o x : Sym2 ℕ} : Sits g o x ↔ x ∈ E ∧ org x = o := by
  constructor
  · rintro ⟨u, z, hz, h1, rfl⟩
    obtain ⟨he, hE⟩ := h.entry hz
    exact ⟨hE, he.pair.symm.trans h1⟩
  · rintro ⟨hx, hxo⟩
    induction x using Sym2.ind with
    | h u v =>
      obtain ⟨og, hz⟩ := h.exists_entry hx
      exact ⟨u, (v, og), hz, (h.entry hz).1.pair.trans hxo, rfl⟩

theorem J.sits_inj (h : J n d dat g E org Pm) {o x y : Sym2 ℕ} (hx : Sits g o x) (hy : Sits g o y) : x = y := by
  obtain ⟨hx, hxo⟩ := h.sits_iff.mp hx
  obtain ⟨hy, hyo⟩ := h.sits_iff.mp hy
  have hnd : (E.val.map org + Pm).Nodup := by rw [h.ms]; exact (ringSet n d).nodup
  exact Multiset.inj_on_of_nodup_map (Multiset.nodup_add.mp hnd).1 x hx y hy (hxo.trans hyo.symm)

theorem J.sits_origin (h : J n d dat g E org Pm) {o o' x : Sym2 ℕ} (hx : Sits g o x) (hy : Sits g o' x) : o = o' :=
  (h.sits_iff.mp hx).2.symm.trans (h.sits_iff.mp hy).2

theorem J.sits_mem (h : J n d dat g E org Pm) {o x : Sym2 ℕ} (hx : Sits g o x) : o ∈ ringSet n d := by
  obtain ⟨hxE, rfl⟩ := h.sits_iff.mp hx
  have : org x ∈ (ringSet n d).val := by
    rw [← h.ms]
    exact Multiset.mem_add.mpr (.inl (Multiset.mem_map_of_mem org hxE))
  exact this

theorem J.sits_exists (h : J n d dat g E org 0) {o : Sym2 ℕ} (ho : o ∈ ringSet n d) : ∃ x, Sits g o x := by
  have : o ∈ (ringSet n d).val := ho
  rw [← h.ms, add_zero, Multiset.mem_map] at this
  obtain ⟨x, hx, hxo⟩ := this
  exact ⟨x, h.sits_iff.mpr ⟨hx, hxo⟩⟩

theorem J.edges_unique {E' : Finset (Sym2 ℕ)} {org' : Sym2 ℕ → Sym2 ℕ} {Pm' : Multiset (Sym2 ℕ)} (h : J n d dat g E org Pm)
    (h' : J n d dat g E' org' Pm') : E = E' := by
  ext x
  constructor
  · intro hx; exact (h'.sits_iff.mp (h.sits_iff.mpr ⟨hx, rfl⟩)).1
  · intro hx; exact (h.sits_iff.mp (h'.sits_iff.mpr ⟨hx, rfl⟩)).1

theorem mem_homeSet_iff (h : J n d dat g E org 0) {o : Sym2 ℕ} : o ∈ homeSet n g ↔ Sits g o o := by
  rw [mem_homeSet h, h.sits_iff]

end

theorem PutBack.keeps {R : Type} [Rng R] {n : ℕ} {E E' : Finset (Sym2 ℕ)} {org org' : Sym2 ℕ → Sym2 ℕ} {r r' : R} {l : List (Sym2 ℕ)}
    (h : PutBack n E org r l E' org' r') {x : Sym2 ℕ} (hx : x ∈ E) : x ∈ E' ∧ org' x = org x := by
  induction h with
  | nil => exact ⟨hx, rfl⟩
  | @cons E E' org org' r r' r'' o y l hd _ ih =>
    have hy := PairDrawn.free hd
    obtain ⟨h1, h2⟩ := ih (Finset.mem_insert_of_mem hx)
    refine ⟨h1, h2.trans (Function.update_of_ne ?_ _ _)⟩
    rintro rfl
    exact hy.2 hx

theorem Rewires.keeps {R : Type} [Rng R] {p : ℚ} {n : ℕ} {E E' : Finset (Sym2 ℕ)} {org org' : Sym2 ℕ → Sym2 ℕ} {r r' : R} {vs : List ℕ}
    (h : Rewires p n E org r vs E' org' r') {x : Sym2 ℕ} (hx : x ∈ E) (ho : org x ≠ x) : x ∈ E' ∧ org' x = org x := by
  induction h with
  | nil => exact ⟨hx, rfl⟩
  | @cons E E1 E2 org org1 org2 r r1 r2 r3 i vs L D _ hL hT hB _ ih =>
    have hxD : x ∉ D.toFinset := by
      intro hc
      have := Thrown.sub hT x (List.mem_toFinset.mp hc)
      exact ho ((hL x).mp this).2.1
    obtain ⟨h1, h2⟩ := PutBack.keeps hB (Finset.mem_sdiff.mpr ⟨hx, hxD⟩)
    obtain ⟨h3, h4⟩ := ih h1 (by rw [h2]; exact ho)
    exact ⟨h3, h4.trans h2⟩

/-! ## Putting back one edge -/

theorem addRandomEdge_chance {n d : Nat} (hn : n < 2 ^ 32) (hn0 : 0 < n) {dat : List T} {g : WSGraph T} {E : Finset (Sym2 ℕ)}
    {org : Sym2 ℕ → Sym2 ℕ} {Pm : Multiset (Sym2 ℕ)} {o : OriginalEdge} (h : J n d dat g E org (o.pair ::ₘ Pm)) {x : Sym2 ℕ}
    (hx : x ∈ places n E o.pair) :
    Chance (fun ω k => ∃ g' j, RetOf Prod.mk (fun fuel r => addRandomEdge fuel (g, r) o) ω k g' j ∧
        J n d dat g' (insert x E) (Function.update org x o.pair) Pm) (((places n E o.pair).card : ENNReal)⁻¹) := by
  refine (pickPair_chance h.raw hn hn0 o hx).congr fun ω k => ?_
  constructor
  · rintro ⟨⟨a, b⟩, j, ⟨F, hF⟩, rfl⟩
    have hF' : pickPair g o F (⟨ω, k⟩ : Stream) = .ok (a, b, ⟨ω, j⟩) := hF F (le_refl F)
    obtain ⟨g', h1, h2⟩ := addRandomEdge_of_pick h hF' (free_iff.mpr hx)
    exact ⟨g', j, (addRandomEdge_adaptive g o).retOf joins_pair h1, h2⟩
  · rintro ⟨g', j, ⟨F, hF⟩, h1⟩
    have hF' : addRandomEdge F (g, (⟨ω, k⟩ : Stream)) o = .ok (g', ⟨ω, j⟩) := hF F (le_refl F)
    rcases hp : pickPair g o F (⟨ω, k⟩ : Stream) with ⟨a, b, r'⟩ | _ | _
    · obtain ⟨_, hf⟩ := pickPair_drawn h.raw hn hn0 o F _ a b r' hp
      obtain ⟨g2, h2, h3⟩ := addRandomEdge_of_pick h hp hf
      rw [h2] at hF'
      cases hF'
      have he := h3.edges_unique h1
      have hne : s(a, b) ∉ E := hf.2.2.2.2
      have hab : s(a, b) = x := by
        have : s(a, b) ∈ insert x E := by rw [← he]; exact Finset.mem_insert_self _ _
        rcases Finset.mem_insert.mp this with h' | h'
        · exact h'
        · exact absurd h' hne
      exact ⟨(a, b), j, (pickPair_adaptive g o).retOf joins_mk3 (a := (a, b)) hp, hab⟩
    · unfold addRandomEdge at hF'
      simp only [hp] at hF'
      cases hF'
    · unfold addRandomEdge at hF'
      simp only [hp] at hF'
      cases hF'

/-- The run of one put-back. -/
theorem addRandomEdge_some {n d : Nat} (hn : n < 2 ^ 32) (hn0 : 0 < n) {dat : List T} {g : WSGraph T} {E : Finset (Sym2 ℕ)}
    {org : Sym2 ℕ → Sym2 ℕ} {Pm : Multiset (Sym2 ℕ)} {o : OriginalEdge} (h : J n d dat g E org (o.pair ::ₘ Pm)) {ω : ℕ → ℝ} {k j : ℕ}
    {g' : WSGraph T} (hr : RetOf Prod.mk (fun fuel r => addRandomEdge fuel (g, r) o) ω k g' j) :
    ∃ y ∈ places n E o.pair, J n d dat g' (insert y E) (Function.update org y o.pair) Pm := by
  obtain ⟨F, hF⟩ := hr
  have hF' : addRandomEdge F (g, (⟨ω, k⟩ : Stream)) o = .ok (g', ⟨ω, j⟩) := hF F (le_refl F)
  rcases hp : pickPair g o F (⟨ω, k⟩ : Stream) with ⟨a, b, r'⟩ | _ | _
  · obtain ⟨_, hf⟩ := pickPair_drawn h.raw hn hn0 o F _ a b r' hp
    obtain ⟨g2, h2, h3⟩ := addRandomEdge_of_pick h hp hf
    rw [h2] at hF'
    cases hF'
    exact ⟨s(a, b), free_iff.mp hf, h3⟩
  · unfold addRandomEdge at hF'
    simp only [hp] at hF'
    cases hF'
  · unfold addRandomEdge at hF'
    simp only [hp] at hF'
    cases hF'

/-! ## Putting back all edges of a vertex -/

theorem addAll_keeps {n d : Nat} (hn : n < 2 ^ 32) (hn0 : 0 < n) {dat : List T} {l : List OriginalEdge} {g g' : WSGraph T}
    {E : Finset (Sym2 ℕ)} {org : Sym2 ℕ → Sym2 ℕ} (h : J n d dat g E org ((l.map OriginalEdge.pair : List (Sym2 ℕ)) : Multiset (Sym2 ℕ)))
    {ω : ℕ → ℝ} {k j : ℕ} (hr : RetOf Prod.mk (fun fuel r => l.foldlM (addRandomEdge fuel) (g, r)) ω k g' j) :
    Good n d dat g' ∧ ∀ {o x}, Sits g o x → Sits g' o x := by
  obtain ⟨F, hF⟩ := hr
  obtain ⟨E', org', h1, h2⟩ := addAll_putBack hn hn0 l (⟨ω, k⟩ : Stream) (g', (⟨ω, j⟩ : Stream)) h (hF F (le_refl F))
  refine ⟨⟨E', org', h1⟩, fun {o x} hs => ?_⟩
  obtain ⟨hx, rfl⟩ := h.sits_iff.mp hs
  obtain ⟨k1, k2⟩ := PutBack.keeps h2 hx
  exact h1.sits_iff.mpr ⟨k1, k2⟩

/-- The number of free places when all edges are there is `N`; the last of `m` removed edges has `N` places to go, the one before
`N + 1` and so on. -/
noncomputable def back (N : ℕ) : ℕ → ENNReal
  | 0 => 1
  | m + 1 => ((N + m : ℕ) : ENNReal)⁻¹ * back N m

/-- The probability that the remaining vertices `vs` move exactly the edges of `M` that are not in `M0` yet, each to a given place off the
ring: a vertex throws a coin for each of its edges that is still on the ring (`q` heads, `q'` tails), and each edge with heads is put
at a place chosen uniformly among the free places other than its own. -/
noncomputable def placedLaw (n d : ℕ) (q q' : ENNReal) (M : Finset (Sym2 ℕ)) : List ℕ → Finset (Sym2 ℕ) → ENNReal
  | [], M0 => if M0 = M then 1 else 0
  | i :: vs, M0 => ∑ D ∈ ((M \ M0).filter (i ∈ ·)).powerset,
      (∏ e ∈ (ringSet n d \ M0).filter (i ∈ ·), if e ∈ D then q else q') * back (n * (n - 1) / 2 - n * d) D.card *
        placedLaw n d q q' M vs (M0 ∪ D)

theorem card_places {n : ℕ} {E : Finset (Sym2 ℕ)} {o : Sym2 ℕ} (hE : E ⊆ full n) (ho : o ∈ full n) (hoE : o ∉ E) :
    (places n E o).card + E.card + 1 = n * (n - 1) / 2 := by
  unfold places
  have h1 : o ∈ full n \ E := Finset.mem_sdiff.mpr ⟨ho, hoE⟩
  have h2 : 0 < (full n \ E).card := Finset.card_pos.mpr ⟨o, h1⟩
  have h3 := Finset.card_sdiff_add_card_eq_card hE
  rw [Finset.card_erase_of_mem h1, ← card_full]
  omega

theorem ringSet_sub_full {n d : ℕ} (hd : 2 * d + 1 ≤ n) : ringSet n d ⊆ full n := by
  intro e he
  induction e using Sym2.ind with
  | h u v =>
    rw [mem_full]
    obtain ⟨a, k, h1, h2, h3, h4⟩ := mem_ringSet.mp he
    have h5 : (a + k) % n < n := Nat.mod_lt _ (by omega)
    have h6 : a ≠ (a + k) % n := by
      intro hc
      rcases Nat.lt_or_ge (a + k) n with h7 | h7
      · rw [Nat.mod_eq_of_lt h7] at hc; omega
      · rw [Nat.mod_eq_sub_mod h7, Nat.mod_eq_of_lt (by omega)] at hc; omega
    rcases h4 with ⟨rfl, rfl⟩ | ⟨rfl, rfl⟩
    · exact ⟨h1, h5, h6⟩
    · exact ⟨h5, h1, h6.symm⟩

theorem addAll_chance {n d : Nat} (hn : n < 2 ^ 32) (hd : 2 * d + 2 ≤ n) {dat : List T} {place : Sym2 ℕ → Sym2 ℕ} :
    ∀ (l : List OriginalEdge) {g : WSGraph T} {E : Finset (Sym2 ℕ)} {org : Sym2 ℕ → Sym2 ℕ},
    J n d dat g E org ((l.map OriginalEdge.pair : List (Sym2 ℕ)) : Multiset (Sym2 ℕ)) →
    (∀ o ∈ l.map OriginalEdge.pair, o ∉ E ∧ place o ∈ full n ∧ place o ∉ E ∧ place o ∉ ringSet n d) →
    ((l.map OriginalEdge.pair).map place).Nodup →
    Chance (fun ω k => ∃ g' j, RetOf Prod.mk (fun fuel r => l.foldlM (addRandomEdge fuel) (g, r)) ω k g' j ∧
        ∀ o ∈ l.map OriginalEdge.pair, Sits g' o (place o)) (back (n * (n - 1) / 2 - n * d) l.length) := by
  intro l
  induction l with
  | nil =>
    intro g E org h _ _
    refine Chance.true.congr fun ω k => ⟨fun _ => ⟨g, k, ⟨0, fun _ _ => rfl⟩, by simp⟩, fun _ => trivial⟩
  | cons o l ih =>
    intro g E org h hpl hnd
    have hn0 : 0 < n := by omega
    have h' : J n d dat g E org (o.pair ::ₘ ((l.map OriginalEdge.pair : List (Sym2 ℕ)) : Multiset (Sym2 ℕ))) := h
    have hring : ∀ e ∈ (o :: l).map OriginalEdge.pair, e ∈ ringSet n d := by
      intro e he
      have : e ∈ (ringSet n d).val := by rw [← h.ms]; exact Multiset.mem_add.mpr (.inr he)
      exact this
    have hringfull : ringSet n d ⊆ full n := ringSet_sub_full (by omega)
    have hle : n * d ≤ n * (n - 1) / 2 := by
      rw [← ringSet_card (show 2 * d + 1 ≤ n by omega), ← card_full]
      exact Finset.card_le_card hringfull
    have hret : ∀ ω k g'' j, RetOf Prod.mk (fun fuel r => (o :: l).foldlM (addRandomEdge fuel) (g, r)) ω k g'' j ↔
        ∃ g' j', RetOf Prod.mk (fun fuel r => addRandomEdge fuel (g, r) o) ω k g' j' ∧
          RetOf Prod.mk (fun fuel r => l.foldlM (addRandomEdge fuel) (g', r)) ω j' g'' j := by
      intro ω k g'' j
      exact RetOf.bind_iff (mk' := Prod.mk) (g := fun fuel (x : WSGraph T × Stream) => l.foldlM (addRandomEdge fuel) x)
        (addRandomEdge_adaptive g o) (ω := ω) (k := k) (j := j) (c := g'')
    obtain ⟨po, pf, pE, pr⟩ := hpl o.pair (by simp)
    have hx : place o.pair ∈ places n E o.pair := by
      unfold places
      rw [Finset.mem_erase, Finset.mem_sdiff]
      refine ⟨fun hc => pr (by rw [hc]; exact hring _ (by simp)), pf, pE⟩
    have hcard : (places n E o.pair).card = n * (n - 1) / 2 - n * d + l.length := by
      have h1 := card_places h.sub_full (hringfull (hring o.pair (by simp))) po
      have h2 := h.card (by omega)
      simp only [List.map_cons, Multiset.coe_card, List.length_cons, List.length_map] at h2
      omega
    have h1 := addRandomEdge_chance hn hn0 h' hx
    rw [hcard] at h1
    rw [List.map_cons, List.map_cons, List.nodup_cons] at hnd
    have hb := chance_bind ((addRandomEdge_adaptive g o).sampler joins_pair) h1 (Q := fun g' ω k => ∃ g'' j,
      RetOf Prod.mk (fun fuel r => l.foldlM (addRandomEdge fuel) (g', r)) ω k g'' j ∧ ∀ o ∈ l.map OriginalEdge.pair, Sits g'' o (place o))
      (w := back (n * (n - 1) / 2 - n * d) l.length) (by
        intro g' hg'
        refine ih hg' ?_ hnd.2
        intro e he
        obtain ⟨q1, q2, q3, q4⟩ := hpl e (by simp only [List.map_cons, List.mem_cons]; exact .inr he)
        refine ⟨?_, q2, ?_, q4⟩
        · rw [Finset.mem_insert, not_or]
          refine ⟨fun hc => pr (by rw [← hc]; exact hring e (by simp only [List.map_cons, List.mem_cons]; exact .inr he)), q1⟩
        · rw [Finset.mem_insert, not_or]
          exact ⟨fun hc => hnd.1 (by rw [← hc]; exact List.mem_map_of_mem he), q3⟩)
    refine hb.congr fun ω k => ?_
    constructor
    · rintro ⟨g', j', h2, h3, g'', j, h4, h5⟩
      refine ⟨g'', j, (hret _ _ _ _).mpr ⟨g', j', h2, h4⟩, ?_⟩
      intro e he
      rcases List.mem_cons.mp he with rfl | he
      · refine (addAll_keeps hn hn0 h3 h4).2 ?_
        exact h3.sits_iff.mpr ⟨Finset.mem_insert_self _ _, Function.update_self _ _ _⟩
      · exact h5 e he
    · rintro ⟨g'', j, h2, h3⟩
      obtain ⟨g', j', h4, h5⟩ := (hret _ _ _ _).mp h2
      obtain ⟨y, hy, h6⟩ := addRandomEdge_some hn hn0 h' h4
      obtain ⟨⟨E'', org'', h7⟩, h8⟩ := addAll_keeps hn hn0 h6 h5
      have h9 : Sits g'' o.pair y := h8 (h6.sits_iff.mpr ⟨Finset.mem_insert_self _ _, Function.update_self _ _ _⟩)
      have h10 : y = place o.pair := h7.sits_inj h9 (h3 o.pair (by simp))
      rw [h10] at h6
      exact ⟨g', j', h4, h6, g'', j, h5, fun e he => h3 e (by simp only [List.map_cons, List.mem_cons]; exact .inr he)⟩

/-! ## One vertex -/

theorem thrown_unique {R : Type} [Rng R] {p : ℚ} {r r' r'' : R} {L D D' : List (Sym2 ℕ)} (h : Thrown p r L D r')
    (h' : Thrown p r L D' r'') : D = D' := by
  induction h generalizing D' r'' with
  | nil => cases h'; rfl
  | heads hc _ ih =>
    cases h' with
    | heads hc' h' => rw [hc] at hc'; cases hc'; rw [ih h']
    | tails hc' h' => rw [hc] at hc'; cases hc'
  | tails hc _ ih =>
    cases h' with
    | heads hc' h' => rw [hc] at hc'; cases hc'
    | tails hc' h' => rw [hc] at hc'; cases hc'; rw [ih h']

/-- Which edges of a vertex are removed. -/
theorem removeStage_chance (p : ℚ) {n d : Nat} {dat : List T} {g : WSGraph T} {E : Finset (Sym2 ℕ)} {org : Sym2 ℕ → Sym2 ℕ}
    (hJ : J n d dat g E org 0) {i : ℕ} (hi : i < n) {D : Finset (Sym2 ℕ)} (hD : D ⊆ (homeSet n g).filter (i ∈ ·)) :
    Chance (fun ω k => ∃ a j, RetOf mk3 (fun _ r => removeStage p g r i) ω k a j ∧
      ((a.2.map OriginalEdge.pair).toFinset = D ∧ J n d dat a.1 (E \ D) org
        ((a.2.map OriginalEdge.pair : List (Sym2 ℕ)) : Multiset (Sym2 ℕ))))
      (∏ e ∈ (homeSet n g).filter (i ∈ ·), if e ∈ D then q1 p else q0 p) := by
  have hL : (homeList g i).toFinset = (homeSet n g).filter (i ∈ ·) := by
    ext e
    rw [List.mem_toFinset, (mem_homeList hJ hi).2, Finset.mem_filter, mem_homeSet hJ]
    tauto
  rw [← hL] at hD ⊢
  refine (thrown_chance p _ (mem_homeList hJ hi).1 D hD).congr fun ω k => ?_
  obtain ⟨g1, rewire, r1, a1, a2, a3, a4, a5⟩ := removeStage_thrown_list (p := p) hJ hi (⟨ω, k⟩ : Stream)
  obtain ⟨⟨a, b⟩, j, e1, e2⟩ := (removeStage_adaptive p g i).ret (fuel := 0) a1
  simp only [mk3, Prod.mk.injEq] at e1
  obtain ⟨rfl, rfl, rfl⟩ := e1
  constructor
  · rintro ⟨D', r', h1, rfl⟩
    have := thrown_unique h1 a5
    subst this
    exact ⟨(g1, rewire), j, e2, rfl, a2⟩
  · rintro ⟨⟨a', b'⟩, j', h1, h2, h3⟩
    obtain ⟨h4, h5⟩ := ((removeStage_adaptive p g i).sampler joins_mk3).det e2 h1
    cases h4
    exact ⟨_, _, a5, h2⟩

/-- The removal, whatever the draws. -/
theorem removeStage_some {p : ℚ} {n d : Nat} {dat : List T} {g : WSGraph T} {E : Finset (Sym2 ℕ)} {org : Sym2 ℕ → Sym2 ℕ}
    (hJ : J n d dat g E org 0) {i : ℕ} (hi : i < n) {ω : ℕ → ℝ} {k j : ℕ} {a : WSGraph T × List OriginalEdge}
    (h : RetOf mk3 (fun _ r => removeStage p g r i) ω k a j) :
    J n d dat a.1 (E \ (a.2.map OriginalEdge.pair).toFinset) org ((a.2.map OriginalEdge.pair : List (Sym2 ℕ)) : Multiset (Sym2 ℕ)) ∧
      (a.2.map OriginalEdge.pair).toFinset ⊆ (homeSet n g).filter (i ∈ ·) := by
  obtain ⟨g1, rewire, r1, a1, a2, a3, a4, a5⟩ := removeStage_thrown_list (p := p) hJ hi (⟨ω, k⟩ : Stream)
  obtain ⟨F, hF⟩ := h
  have hF' : removeStage p g ⟨ω, k⟩ i = .ok (mk3 a ⟨ω, j⟩) := hF F (le_refl _)
  rw [a1] at hF'
  simp only [mk3, Res.ok.injEq, Prod.mk.injEq] at hF'
  obtain ⟨rfl, rfl, rfl⟩ := hF'
  refine ⟨a2, fun e he => ?_⟩
  have := Thrown.sub a5 e (List.mem_toFinset.mp he)
  rw [a4] at this
  exact Finset.mem_filter.mpr ⟨(mem_homeSet hJ e).mpr ⟨this.1, this.2.1⟩, this.2.2⟩

/-- The place of an edge when the edges `M` are moved. -/
def cur (place : Sym2 ℕ → Sym2 ℕ) (M : Finset (Sym2 ℕ)) (o : Sym2 ℕ) : Sym2 ℕ := if o ∈ M then place o else o

/-- The edges `M` are where `place` says, the others at home. -/
def At (n d : ℕ) (dat : List T) (place : Sym2 ℕ → Sym2 ℕ) (M : Finset (Sym2 ℕ)) (g : WSGraph T) : Prop :=
  Good n d dat g ∧ ∀ o ∈ ringSet n d, Sits g o (cur place M o)

section
variable {n d : ℕ} {dat : List T} {place : Sym2 ℕ → Sym2 ℕ} {M M0 : Finset (Sym2 ℕ)} {g : WSGraph T}

theorem At.home (hM : ∀ o ∈ M0, place o ∉ ringSet n d) (h : At n d dat place M0 g) : homeSet n g = ringSet n d \ M0 := by
  obtain ⟨⟨E, org, hJ⟩, hs⟩ := h
  ext o
  rw [mem_homeSet_iff hJ, Finset.mem_sdiff]
  constructor
  · intro ho
    have hor := hJ.sits_mem ho
    refine ⟨hor, fun hc => hM o hc ?_⟩
    have := hs o hor
    rw [cur, if_pos hc] at this
    rw [hJ.sits_inj this ho]
    exact hor
  · rintro ⟨h1, h2⟩
    have := hs o h1
    rwa [cur, if_neg h2] at this

/-- The edges are exactly the occupied places. -/
theorem At.edge {E : Finset (Sym2 ℕ)} {org : Sym2 ℕ → Sym2 ℕ} (hJ : J n d dat g E org 0) (h : At n d dat place M0 g) {x : Sym2 ℕ} :
    x ∈ E ↔ ∃ o ∈ ringSet n d, x = cur place M0 o := by
  constructor
  · intro hx
    have hs : Sits g (org x) x := hJ.sits_iff.mpr ⟨hx, rfl⟩
    exact ⟨org x, hJ.sits_mem hs, hJ.sits_inj hs (h.2 _ (hJ.sits_mem hs))⟩
  · rintro ⟨o, ho, rfl⟩
    exact (hJ.sits_iff.mp (h.2 o ho)).1

variable (hn : n < 2 ^ 32) (hd : 2 * d + 2 ≤ n) (hMr : M ⊆ ringSet n d)
  (hpl : ∀ o ∈ M, place o ∈ full n ∧ place o ∉ ringSet n d) (hinj : Set.InjOn place M)
include hn hd hMr hpl hinj

theorem body_place_chance (p : ℚ) (hM0 : M0 ⊆ M) (hg : At n d dat place M0 g) {i : ℕ} (hi : i < n) {D : Finset (Sym2 ℕ)}
    (hD : D ⊆ (M \ M0).filter (i ∈ ·)) :
    Chance (fun ω k => ∃ g' j, RetOf Prod.mk (fun fuel r => rewireBody p fuel (g, r) i) ω k g' j ∧ At n d dat place (M0 ∪ D) g')
      ((∏ e ∈ (ringSet n d \ M0).filter (i ∈ ·), if e ∈ D then q1 p else q0 p) * back (n * (n - 1) / 2 - n * d) D.card) := by
  have hn0 : 0 < n := by omega
  have hhome := hg.home (fun o ho => (hpl o (hM0 ho)).2)
  obtain ⟨⟨E, org, hJ⟩, hs⟩ := id hg
  have hDM : ∀ o ∈ D, o ∈ M ∧ o ∉ M0 := fun o ho => Finset.mem_sdiff.mp (Finset.mem_filter.mp (hD ho)).1
  have hD' : D ⊆ (homeSet n g).filter (i ∈ ·) := by
    intro o ho
    rw [hhome]
    exact Finset.mem_filter.mpr ⟨Finset.mem_sdiff.mpr ⟨hMr (hDM o ho).1, (hDM o ho).2⟩, (Finset.mem_filter.mp (hD ho)).2⟩
  have h1 := removeStage_chance p hJ hi hD'
  rw [hhome] at h1
  have hb := chance_bind ((removeStage_adaptive p g i).sampler joins_mk3) h1 (Q := fun a ω k => ∃ g' j,
      RetOf Prod.mk (fun fuel r => a.2.foldlM (addRandomEdge fuel) (a.1, r)) ω k g' j ∧ ∀ o ∈ a.2.map OriginalEdge.pair, Sits g' o (place o))
      (w := back (n * (n - 1) / 2 - n * d) D.card) (by
    rintro a ⟨h2, h3⟩
    have hnd : (a.2.map OriginalEdge.pair).Nodup := by
      have : (((E \ D).val.map org) + ((a.2.map OriginalEdge.pair : List (Sym2 ℕ)) : Multiset (Sym2 ℕ))).Nodup := by
        rw [h3.ms]; exact (ringSet n d).nodup
      exact Multiset.coe_nodup.mp (Multiset.nodup_add.mp this).2.1
    have hmem : ∀ o, o ∈ a.2.map OriginalEdge.pair ↔ o ∈ D := fun o => by rw [← h2, List.mem_toFinset]
    have hlen : a.2.length = D.card := by
      rw [← h2, List.toFinset_card_of_nodup hnd, List.length_map]
    rw [← hlen]
    refine addAll_chance hn hd a.2 h3 ?_ ?_
    · intro o ho
      rw [hmem] at ho
      refine ⟨fun hc => (Finset.mem_sdiff.mp hc).2 ho, (hpl o (hDM o ho).1).1, fun hc => ?_, (hpl o (hDM o ho).1).2⟩
      obtain ⟨o', ho', he⟩ := (hg.edge hJ).mp (Finset.mem_sdiff.mp hc).1
      unfold cur at he
      split at he
      · rename_i hc'
        exact (hDM o ho).2 (hinj (hDM o ho).1 (hM0 hc') he ▸ hc')
      · exact (hpl o (hDM o ho).1).2 (he ▸ ho')
    · refine List.Nodup.map_on ?_ hnd
      intro x hx y hy hxy
      rw [hmem] at hx hy
      exact hinj (hDM x hx).1 (hDM y hy).1 hxy)
  refine hb.congr fun ω k => ?_
  constructor
  · rintro ⟨a, i', h2, ⟨h3, h4⟩, g', j, h5, h6⟩
    obtain ⟨k1, k2⟩ := addAll_keeps hn hn0 h4 h5
    refine ⟨g', j, body_ret.mpr ⟨a, i', h2, h5⟩, k1, ?_⟩
    intro o ho
    have := hs o ho
    by_cases hoD : o ∈ D
    · rw [cur, if_pos (Finset.mem_union_right _ hoD)]
      exact h6 o (by rw [← List.mem_toFinset, h3]; exact hoD)
    · have hc : cur place (M0 ∪ D) o = cur place M0 o := by
        unfold cur
        simp [Finset.mem_union, hoD]
      rw [hc]
      refine k2 ?_
      obtain ⟨e1, e2⟩ := hJ.sits_iff.mp this
      refine h4.sits_iff.mpr ⟨Finset.mem_sdiff.mpr ⟨e1, fun hc' => ?_⟩, e2⟩
      have h7 := (mem_homeSet_iff hJ).mp (Finset.mem_filter.mp (hD' hc')).1
      have h8 := hJ.sits_origin h7 this
      exact hoD (h8 ▸ hc')
  · rintro ⟨g', j, h2, h3⟩
    obtain ⟨a, i', h4, h5⟩ := body_ret.mp h2
    obtain ⟨k1, k2⟩ := body_home hn ⟨E, org, hJ⟩ hi h4 h5
    obtain ⟨k3, k4⟩ := removeStage_some hJ hi h4
    have hM1 : M0 ∪ D ⊆ M := Finset.union_subset hM0 (fun o ho => (hDM o ho).1)
    have hh := h3.home (fun o ho => (hpl o (hM1 ho)).2)
    have hDD : (a.2.map OriginalEdge.pair).toFinset = D := by
      have hs1 := k4.trans (Finset.filter_subset _ _)
      have hs2 := hD'.trans (Finset.filter_subset _ _)
      rw [← Finset.sdiff_sdiff_eq_self hs1, ← k2, hh, Finset.sdiff_union_distrib, ← Finset.sdiff_sdiff_eq_self hs2, hhome]
      ext x
      simp only [Finset.mem_sdiff, Finset.mem_inter]
      tauto
    rw [hDD] at k3
    refine ⟨a, i', h4, ⟨hDD, k3⟩, g', j, h5, fun o ho => ?_⟩
    have hoD : o ∈ D := by rw [← hDD, List.mem_toFinset]; exact ho
    have := h3.2 o (hMr (hDM o hoD).1)
    rwa [cur, if_pos (Finset.mem_union_right _ hoD)] at this

/-! ## All vertices -/

theorem loop_place_chance (p : ℚ) : ∀ (vs : List ℕ), (∀ i ∈ vs, i < n) → ∀ {M0 : Finset (Sym2 ℕ)} {g : WSGraph T}, M0 ⊆ M →
    At n d dat place M0 g →
    Chance (fun ω k => ∃ g' j, RetOf Prod.mk (fun fuel r => vs.foldlM (rewireBody p fuel) (g, r)) ω k g' j ∧ At n d dat place M g')
      (placedLaw n d (q1 p) (q0 p) M vs M0) := by
  intro vs
  induction vs with
  | nil =>
    intro _ M0 g hM0 hg
    have hret : ∀ ω k, (∃ g' j, RetOf Prod.mk (fun fuel r => ([] : List ℕ).foldlM (rewireBody p fuel) (g, r)) ω k g' j ∧
        At n d dat place M g') ↔ M0 = M := by
      intro ω k
      constructor
      · rintro ⟨g', j, ⟨F, hF⟩, h1⟩
        have := hF F (le_refl _)
        simp only [List.foldlM_nil, Res.pure_eq, Res.ok.injEq, Prod.mk.injEq] at this
        rw [← this.1] at h1
        have e1 := hg.home (fun o ho => (hpl o (hM0 ho)).2)
        have e2 := h1.home (fun o ho => (hpl o ho).2)
        rw [← Finset.sdiff_sdiff_eq_self (hM0.trans hMr), ← e1, e2, Finset.sdiff_sdiff_eq_self hMr]
      · rintro rfl
        exact ⟨g, k, ⟨0, fun _ _ => rfl⟩, hg⟩
    unfold placedLaw
    split
    · rename_i he
      exact Chance.true.congr fun ω k => by rw [hret]; simp [he]
    · rename_i he
      exact Chance.false.congr fun ω k => by rw [hret]; simp [he]
  | cons i vs ih =>
    intro hvs M0 g hM0 hg
    have hi := hvs i (by simp)
    have hn0 : 0 < n := by omega
    have hhome := hg.home (fun o ho => (hpl o (hM0 ho)).2)
    have hret : ∀ ω k g'' j, RetOf Prod.mk (fun fuel r => (i :: vs).foldlM (rewireBody p fuel) (g, r)) ω k g'' j ↔
        ∃ g' j', RetOf Prod.mk (fun fuel r => rewireBody p fuel (g, r) i) ω k g' j' ∧
          RetOf Prod.mk (fun fuel r => vs.foldlM (rewireBody p fuel) (g', r)) ω j' g'' j := by
      intro ω k g'' j
      exact RetOf.bind_iff (mk' := Prod.mk) (g := fun fuel (x : WSGraph T × Stream) => vs.foldlM (rewireBody p fuel) x)
        (rewireBody_adaptive p g i) (ω := ω) (k := k) (j := j) (c := g'')
    have hsubM : ∀ D ∈ ((M \ M0).filter (i ∈ ·)).powerset, ∀ o ∈ D, o ∈ M ∧ o ∉ M0 := fun D hD o ho =>
      Finset.mem_sdiff.mp (Finset.mem_filter.mp (Finset.mem_powerset.mp hD ho)).1
    have hterm : ∀ D ∈ ((M \ M0).filter (i ∈ ·)).powerset, Chance (fun ω k => ∃ g' j,
        RetOf Prod.mk (fun fuel r => rewireBody p fuel (g, r) i) ω k g' j ∧ At n d dat place (M0 ∪ D) g' ∧
        ∃ g'' j', RetOf Prod.mk (fun fuel r => vs.foldlM (rewireBody p fuel) (g', r)) ω j g'' j' ∧ At n d dat place M g'')
        ((∏ e ∈ (ringSet n d \ M0).filter (i ∈ ·), if e ∈ D then q1 p else q0 p) * back (n * (n - 1) / 2 - n * d) D.card *
          placedLaw n d (q1 p) (q0 p) M vs (M0 ∪ D)) := by
      intro D hD
      refine chance_bind ((rewireBody_adaptive p g i).sampler joins_pair)
        (body_place_chance hn hd hMr hpl hinj p hM0 hg hi (Finset.mem_powerset.mp hD))
        (Q := fun g' ω k => ∃ g'' j', RetOf Prod.mk (fun fuel r => vs.foldlM (rewireBody p fuel) (g', r)) ω k g'' j' ∧
          At n d dat place M g'') ?_
      intro g' h1
      exact ih (fun j hj => hvs j (by simp [hj])) (Finset.union_subset hM0 (fun o ho => (hsubM D hD o ho).1)) h1
    have hsum := Chance.sum _ hterm (by
      intro D hD D' hD' ω k h1 h2
      obtain ⟨g1, j1, a1, a2, _⟩ := h1
      obtain ⟨g2, j2, b1, b2, _⟩ := h2
      obtain ⟨rfl, _⟩ := ((rewireBody_adaptive p g i).sampler joins_pair).det a1 b1
      have s1 : M0 ∪ D ⊆ M := Finset.union_subset hM0 (fun o ho => (hsubM D hD o ho).1)
      have s2 : M0 ∪ D' ⊆ M := Finset.union_subset hM0 (fun o ho => (hsubM D' hD' o ho).1)
      have e1 := a2.home (fun o ho => (hpl o (s1 ho)).2)
      have e2 := b2.home (fun o ho => (hpl o (s2 ho)).2)
      have e3 : M0 ∪ D = M0 ∪ D' := by
        rw [← Finset.sdiff_sdiff_eq_self (s1.trans hMr), ← e1, e2, Finset.sdiff_sdiff_eq_self (s2.trans hMr)]
      have e4 : ∀ {A B : Finset (Sym2 ℕ)}, (∀ o ∈ A, o ∉ M0) → M0 ∪ A = M0 ∪ B → A ⊆ B := by
        intro A B hA he o ho
        have : o ∈ M0 ∪ B := by rw [← he]; exact Finset.mem_union_right _ ho
        exact (Finset.mem_union.mp this).resolve_left (hA o ho)
      exact (e4 (fun o ho => (hsubM D hD o ho).2) e3).antisymm (e4 (fun o ho => (hsubM D' hD' o ho).2) e3.symm))
    unfold placedLaw
    refine hsum.congr fun ω k => ?_
    constructor
    · rintro ⟨D, _, g', j, h1, _, g'', j', h2, h3⟩
      exact ⟨g'', j', (hret _ _ _ _).mpr ⟨g', j, h1, h2⟩, h3⟩
    · rintro ⟨g'', j', h1, h2⟩
      obtain ⟨g', j, h3, h4⟩ := (hret _ _ _ _).mp h1
      obtain ⟨a, i', h5, h6⟩ := body_ret.mp h3
      obtain ⟨⟨E, org, hJ⟩, hs⟩ := id hg
      obtain ⟨k1, k2⟩ := body_home hn ⟨E, org, hJ⟩ hi h5 h6
      obtain ⟨k3, k4⟩ := removeStage_some hJ hi h5
      obtain ⟨k5, k6⟩ := addAll_keeps hn hn0 k3 h6
      obtain ⟨E1, org1, hJ1⟩ := k1
      -- the rest of the run
      obtain ⟨F, hF⟩ := h4
      obtain ⟨E2, org2, hJ2, hR⟩ := loop_rewires hn vs (⟨ω, j⟩ : Stream) (g'', (⟨ω, j'⟩ : Stream)) (fun t ht => hvs t (by simp [ht])) hJ1
        (hF F (le_refl F))
      have hkeep : ∀ {o x}, Sits g' o x → o ≠ x → Sits g'' o x := by
        intro o x h7 h8
        obtain ⟨e1, rfl⟩ := hJ1.sits_iff.mp h7
        obtain ⟨e2, e3⟩ := Rewires.keeps hR e1 h8
        exact hJ2.sits_iff.mpr ⟨e2, e3⟩
      set D := (a.2.map OriginalEdge.pair).toFinset with hDdef
      have hDmem : ∀ o ∈ D, o ∈ ringSet n d ∧ o ∉ M0 ∧ i ∈ o := by
        intro o ho
        obtain ⟨e1, e2⟩ := Finset.mem_filter.mp (k4 ho)
        rw [hhome, Finset.mem_sdiff] at e1
        exact ⟨e1.1, e1.2, e2⟩
      have hfinal : ∀ {o x}, o ∈ ringSet n d → Sits g' o x → o ≠ x → o ∈ M ∧ x = place o := by
        intro o x ho h7 h8
        have h9 := hJ2.sits_inj (hkeep h7 h8) (h2.2 o ho)
        unfold cur at h9
        split at h9
        · rename_i hc; exact ⟨hc, h9⟩
        · exact absurd h9.symm h8
      have hDsit : ∀ o ∈ D, o ∈ M ∧ Sits g' o (place o) := by
        intro o ho
        obtain ⟨x, hx⟩ := hJ1.sits_exists (hDmem o ho).1
        have hne : o ≠ x := by
          rintro rfl
          have := (mem_homeSet_iff hJ1).mpr hx
          rw [k2] at this
          exact (Finset.mem_sdiff.mp this).2 ho
        obtain ⟨e1, rfl⟩ := hfinal (hDmem o ho).1 hx hne
        exact ⟨e1, hx⟩
      refine ⟨D, ?_, g', j, h3, ⟨k5, ?_⟩, g'', j', ⟨F, hF⟩, h2⟩
      · rw [Finset.mem_powerset]
        intro o ho
        exact Finset.mem_filter.mpr ⟨Finset.mem_sdiff.mpr ⟨(hDsit o ho).1, (hDmem o ho).2.1⟩, (hDmem o ho).2.2⟩
      · intro o ho
        by_cases hoD : o ∈ D
        · rw [cur, if_pos (Finset.mem_union_right _ hoD)]
          exact (hDsit o hoD).2
        · have hc : cur place (M0 ∪ D) o = cur place M0 o := by
            unfold cur
            simp [Finset.mem_union, hoD]
          rw [hc]
          refine k6 ?_
          have := hs o ho
          obtain ⟨e1, e2⟩ := hJ.sits_iff.mp this
          refine k3.sits_iff.mpr ⟨Finset.mem_sdiff.mpr ⟨e1, fun hc' => ?_⟩, e2⟩
          have h7 := (mem_homeSet_iff hJ).mp (Finset.mem_filter.mp (k4 hc')).1
          have h8 := hJ.sits_origin h7 this
          exact hoD (h8 ▸ hc')

end

end Ws
end Verif
