import Verif.Lemmas.BaFair
import Verif.Lemmas.UntilState
import Verif.Lemmas.WsChance

/-!
# The probabilities of preferential attachment
-/

set_option linter.unusedSectionVars false
set_option linter.unusedSimpArgs false

namespace Verif
open AdjContainer GenericGraph MeasureTheory ProbabilityTheory

open Ws (mk3 joins_mk3)

variable {T : Type}

/-! ## Specification -/

/-- The probability that, beginning with the chosen vertices `S`, `r` further choices lead to the chosen vertices `S'`.  Each choice is
among the vertices below `n` that are not chosen yet, with probabilities proportional to the weights `w`. -/
noncomputable def picks (n : ℕ) (w : ℕ → ℕ) : ℕ → Finset ℕ → Finset ℕ → ENNReal
  | 0, S, S' => if S = S' then 1 else 0
  | r + 1, S, S' => ∑ v ∈ Finset.range n \ S,
      ((w v : ℕ) : ENNReal) / ((∑ u ∈ Finset.range n \ S, w u : ℕ) : ENNReal) * picks n w r (insert v S) S'

/-- The number of edges at a vertex. -/
def degIn (E : Finset (Sym2 ℕ)) (v : ℕ) : ℕ := (E.filter (fun e => v ∈ e)).card

/-- The probability that growing the edges `E` by the vertices of the list, in this order, leads to the edges `E'`: each vertex is joined
to `m` vertices chosen one after the other with probabilities proportional to the degrees before. -/
noncomputable def grownLaw (n m : ℕ) : List ℕ → Finset (Sym2 ℕ) → Finset (Sym2 ℕ) → ENNReal
  | [], E, E' => if E = E' then 1 else 0
  | i :: rest, E, E' => ∑ S ∈ (Finset.range n).powerset,
      picks n (degIn E) m ∅ S * grownLaw n m rest (E ∪ S.image (fun v => s(i, v))) E'

/-! ## One weighted choice -/

theorem card_weightedPick (ws : List ℕ) (S : Finset ℕ) :
    ((Finset.range ws.sum).filter (fun t => weightedPick ws t ∈ S)).card = ∑ v ∈ S, ws.getD v 0 := by
  have h1 : (Finset.range ws.sum).filter (fun t => weightedPick ws t ∈ S) =
      S.biUnion (fun v => (Finset.range ws.sum).filter (fun t => weightedPick ws t = v)) := by
    ext t
    simp only [Finset.mem_filter, Finset.mem_biUnion]
    constructor
    · rintro ⟨a, b⟩; exact ⟨_, b, a, rfl⟩
    · rintro ⟨v, hv, a, rfl⟩; exact ⟨a, hv⟩
  rw [h1, Finset.card_biUnion]
  · refine Finset.sum_congr rfl fun v _ => ?_
    rw [← weightedPick_count ws v, ← List.toFinset_card_of_nodup (List.nodup_range.filter _)]
    congr 1
    ext t; simp
  · intro u _ v _ huv
    rw [Function.onFun, Finset.disjoint_left]
    intro t h2 h3
    rw [Finset.mem_filter] at h2 h3
    exact huv (h2.2.symm.trans h3.2)

/-- One draw: fails if the vertex is chosen already. -/
def Search (ws : List ℕ) (S : Finset ℕ) (_ : Unit) (ω : ℕ → ℝ) (k : ℕ) (x : Unit ⊕ ℕ) (j : ℕ) : Prop :=
  j = k + 1 ∧ match x with
    | .inl _ => weightedPick ws (partOf (ω k) ws.sum) ∈ S
    | .inr v => weightedPick ws (partOf (ω k) ws.sum) = v ∧ v ∉ S

theorem search_sampler (ws : List ℕ) (S : Finset ℕ) (s : Unit) : Sampler (Search ws S s) := by
  refine ⟨?_, ?_⟩
  · rintro ω k x j ⟨rfl, h⟩
    refine ⟨[(ws.sum, partOf (ω k) ws.sum)], rfl, matches_single.mpr rfl, fun ω' k' hm => ⟨rfl, ?_⟩⟩
    have hm := matches_single.mp hm
    rw [hm]
    exact h
  · rintro ω k x x' j j' ⟨rfl, h⟩ ⟨rfl, h'⟩
    refine ⟨?_, rfl⟩
    cases x with
    | inl _ => cases x' with
      | inl _ => rfl
      | inr v => exact absurd (h'.1 ▸ h) h'.2
    | inr u => cases x' with
      | inl _ => exact absurd (h.1 ▸ h') h.2
      | inr v => rw [← h.1, h'.1]

/-- The first vertex that is not chosen yet: its probability is its share of the weight of these vertices. -/
theorem search_chance {ws : List ℕ} (hpos : 0 < ws.sum) {S : Finset ℕ} (hS : S ⊆ Finset.range ws.length) {v : ℕ} (hv : v ∉ S) :
    Chance (fun ω k => ∃ a j, UntilS (Search ws S) ω () k a j ∧ a = v)
      (((ws.getD v 0 : ℕ) : ENNReal) / ((∑ u ∈ Finset.range ws.length \ S, ws.getD u 0 : ℕ) : ENNReal)) := by
  have hsum : ∑ u ∈ Finset.range ws.length, ws.getD u 0 = ws.sum := by
    rw [← list_sum_range]
    congr 1
    apply List.ext_getElem
    · simp
    · intro i h1 h2
      simp at h1
      simp [h1]
  have hsplit := Finset.sum_sdiff hS (f := fun u => ws.getD u 0)
  rw [hsum] at hsplit
  have hfail : Chance (fun ω k => ∃ s' j, Search ws S () ω k (.inl s') j)
      (((∑ u ∈ S, ws.getD u 0 : ℕ) : ENNReal) * ((ws.sum : ℕ) : ENNReal)⁻¹) := by
    have := chance_draw hpos (fun t => weightedPick ws t ∈ S)
    rw [card_weightedPick] at this
    exact this.congr fun ω k => ⟨fun h => ⟨(), k + 1, rfl, h⟩, fun ⟨_, _, _, h⟩ => h⟩
  have hgood : Chance (fun ω k => ∃ a j, Search ws S () ω k (.inr a) j ∧ a = v)
      (((ws.getD v 0 : ℕ) : ENNReal) * ((ws.sum : ℕ) : ENNReal)⁻¹) := by
    have := chance_draw hpos (fun t => weightedPick ws t ∈ ({v} : Finset ℕ))
    rw [card_weightedPick, Finset.sum_singleton] at this
    refine this.congr fun ω k => ?_
    rw [Finset.mem_singleton]
    exact ⟨fun h => ⟨v, k + 1, ⟨rfl, h, hv⟩, rfl⟩, fun ⟨_, _, ⟨_, h, _⟩, ha⟩ => h.trans ha⟩
  have h1 := chance_untilS (fun s => search_sampler ws S s) (I := fun _ => True) (P := fun a => a = v) (fun _ _ => trivial)
    (fun s _ => hfail) (fun s _ => hgood) () trivial
  have h2 : 1 - ((∑ u ∈ S, ws.getD u 0 : ℕ) : ENNReal) * ((ws.sum : ℕ) : ENNReal)⁻¹ =
      ((∑ u ∈ Finset.range ws.length \ S, ws.getD u 0 : ℕ) : ENNReal) * ((ws.sum : ℕ) : ENNReal)⁻¹ := by
    have h3 : (1 : ENNReal) = ((ws.sum : ℕ) : ENNReal) * ((ws.sum : ℕ) : ENNReal)⁻¹ :=
      (ENNReal.mul_inv_cancel (by exact_mod_cast hpos.ne') (ENNReal.natCast_ne_top _)).symm
    refine ENNReal.sub_eq_of_eq_add ?_ ?_
    · exact ENNReal.mul_ne_top (ENNReal.natCast_ne_top _) (ENNReal.inv_ne_top.mpr (by exact_mod_cast hpos.ne'))
    · rw [← add_mul, ← Nat.cast_add, hsplit]
      exact h3
  rw [h2, ratio_of_counts hpos] at h1
  exact h1

namespace Ba

/-! ## Attaching one vertex -/

theorem Att.notMem {g0 g : Graph T} {i : Nat} {P : Nat → Prop} {S : Finset ℕ} (hA : Att g0 i P g S) : i ∉ S := by
  intro hc
  have : s(i, i) ∈ g.edges := by
    rw [hA.edges]; exact Finset.mem_union_right _ (Finset.mem_image.mpr ⟨i, hc, rfl⟩)
  exact (hA.wf.mem_lt this).2.2 rfl

theorem Att.degree {g0 g : Graph T} {i : Nat} {P : Nat → Prop} {S : Finset ℕ} (hA : Att g0 i P g S) (hi : i < g0.nextId)
    (hnil : g0.nbrs i = []) : ∃ c, g.container i = .ok c ∧ AdjContainer.degree c = S.card := by
  obtain ⟨c, c1, c2, _⟩ := container_degree hA.wf (i := i) (by rw [hA.n]; exact hi)
  refine ⟨c, c1, ?_⟩
  rw [c2, hA.deg, hnil]
  simp [hA.notMem]

theorem Att.edge_iff {g0 g : Graph T} {i : Nat} {P : Nat → Prop} {S : Finset ℕ} (h : Att g0 i P g S) (h0 : g0.WF)
    (hnil : g0.nbrs i = []) {v : ℕ} : s(i, v) ∈ g.edges ↔ v ∈ S := by
  rw [h.edges, Finset.mem_union, Finset.mem_image]
  constructor
  · rintro (hc | ⟨w, hw, hc⟩)
    · rw [h0.mem_edges, hnil] at hc; simp at hc
    · rw [Sym2.eq_iff] at hc
      rcases hc with ⟨_, rfl⟩ | ⟨rfl, rfl⟩
      · exact hw
      · exact hw
  · exact fun hc => .inr ⟨v, hc, rfl⟩

/-- The graph after the attempt to join `i` and `v`. -/
def joinTo (g : Graph T) (i v : ℕ) : Graph T := match g.addEdge i v with
  | .ok (_, g') => g'
  | _ => g

theorem Att.joinTo {g0 g : Graph T} {i : Nat} {P : Nat → Prop} {S : Finset ℕ} (h : Att g0 i P g S) (hi : i < g0.nextId)
    (hnil : g0.nbrs i = []) (h0 : g0.WF) {v : Nat} (hv : v < g0.nextId) (hvi : v ≠ i) (hP : P v) :
    (∃ r, g.addEdge i v = .ok (r, joinTo g i v)) ∧ Att g0 i P (joinTo g i v) (insert v S) ∧ (v ∈ S → joinTo g i v = g) := by
  obtain ⟨r, g', h1, h2⟩ := h.next hi hnil h0 hv hvi hP
  have hj : Ba.joinTo g i v = g' := by unfold Ba.joinTo; rw [h1]
  refine ⟨⟨r, by rw [hj]; exact h1⟩, by rw [hj]; exact h2, fun hS => ?_⟩
  rcases addEdge_any h.wf (by rw [h.n]; exact hi) (by rw [h.n]; exact hv) (Ne.symm hvi) with ⟨_, h3⟩ | ⟨h3, _⟩
  · unfold Ba.joinTo; rw [h3]
  · exact absurd ((h.edge_iff h0 hnil).mpr hS) h3

theorem attach_adaptive (weights : List ℕ) (i m : ℕ) (g : Graph T) :
    Adaptive Prod.mk (fun fuel r => attach weights i m fuel g r) := by
  intro fuel
  induction fuel generalizing g with
  | zero => intro ω k b hb; cases hb
  | succ fuel ih =>
    intro ω k b hb
    have hb' : attach weights i m (fuel + 1) g ⟨ω, k⟩ = .ok b := hb
    rw [attach] at hb'
    obtain ⟨c, hc, hb'⟩ := Res.bind_eq_ok.mp hb'
    by_cases hd : AdjContainer.degree c < m
    · rw [if_pos hd] at hb'
      obtain ⟨⟨v, r1⟩, hx, hb'⟩ := Res.bind_eq_ok.mp hb'
      unfold weightedSample at hx
      obtain ⟨y, hy, hx⟩ := Res.bind_eq_ok.mp hx
      obtain ⟨t, l1, rfl, m1, n1⟩ := Adaptive.genRange weights.sum 0 ω k y hy
      cases hx
      dsimp only at hb'
      obtain ⟨⟨q, g1⟩, hz, hb'⟩ := Res.bind_eq_ok.mp hb'
      dsimp only at hb'
      obtain ⟨a, l, h1, h2, h3⟩ := ih g1 ω _ b hb'
      refine ⟨a, l1 ++ l, ?_, matches_append.mpr ⟨m1, h2⟩, ?_⟩
      · rw [List.length_append, ← Nat.add_assoc]; exact h1
      · intro fuel' hf ω' k' hm
        obtain ⟨f, rfl⟩ : ∃ f, fuel' = f + 1 := ⟨fuel' - 1, by omega⟩
        obtain ⟨q1, q2⟩ := matches_append.mp hm
        have e1 : genRange (⟨ω', k'⟩ : Stream) weights.sum = .ok (t, ⟨ω', k' + l1.length⟩) := n1 0 (le_refl _) ω' k' q1
        show attach weights i m (f + 1) g (⟨ω', k'⟩ : Stream) = _
        rw [attach, hc, Res.ok_bind, if_pos hd]
        simp only [weightedSample, e1, Res.ok_bind, Res.pure_eq, hz]
        rw [List.length_append, ← Nat.add_assoc]
        exact h3 f (by omega) ω' _ q2
    · rw [if_neg hd] at hb'
      cases hb'
      refine ⟨g, [], rfl, matches_nil _ _, fun fuel' hf ω' k' _ => ?_⟩
      obtain ⟨f, rfl⟩ : ∃ f, fuel' = f + 1 := ⟨fuel' - 1, by omega⟩
      show attach weights i m (f + 1) g (⟨ω', k'⟩ : Stream) = _
      rw [attach, hc, Res.ok_bind, if_neg hd]
      rfl

section
variable {g0 : Graph T} (h0 : g0.WF) {weights : List Nat} {i m : Nat} (hi : i < g0.nextId) (hnil : g0.nbrs i = [])
  (hpos : 0 < weights.sum) (hw : ∀ v, 0 < weights.getD v 0 → v < g0.nextId ∧ v ≠ i) {P : Nat → Prop}
  (hP : ∀ v, 0 < weights.getD v 0 → P v)
include h0 hi hnil hpos hw hP

theorem pick_att {g : Graph T} {S : Finset ℕ} (hA : Att g0 i P g S) (x : ℝ) :
    let v := weightedPick weights (partOf x weights.sum)
    (∃ r, g.addEdge i v = .ok (r, joinTo g i v)) ∧ Att g0 i P (joinTo g i v) (insert v S) ∧ (v ∈ S → joinTo g i v = g) := by
  obtain ⟨_, p2⟩ := weightedPick_spec weights (partOf x weights.sum) (partOf_lt _ hpos)
  exact hA.joinTo hi hnil h0 (hw _ p2).1 (hw _ p2).2 (hP _ p2)

theorem attach_succ {g : Graph T} {S : Finset ℕ} (hA : Att g0 i P g S) (hS : S.card < m) (fuel : ℕ) (ω : ℕ → ℝ) (k : ℕ) :
    attach weights i m (fuel + 1) g (⟨ω, k⟩ : Stream) =
      attach weights i m fuel (joinTo g i (weightedPick weights (partOf (ω k) weights.sum))) (⟨ω, k + 1⟩ : Stream) := by
  obtain ⟨⟨r, h1⟩, _, _⟩ := pick_att h0 hi hnil hpos hw hP hA (ω k)
  obtain ⟨c, c1, c2⟩ := hA.degree hi hnil
  rw [attach, c1, Res.ok_bind, c2, if_pos hS]
  simp only [weightedSample, Stream.genRange_eq _ hpos, Res.ok_bind, Res.pure_eq]
  show ((g.addEdge i (weightedPick weights (partOf (ω k) weights.sum))) >>= _) = _
  rw [h1]
  rfl

theorem attach_done {g : Graph T} {S : Finset ℕ} (hA : Att g0 i P g S) (hS : ¬ S.card < m) (fuel : ℕ) (r : Stream) :
    attach weights i m (fuel + 1) g r = .ok (g, r) := by
  obtain ⟨c, c1, c2⟩ := hA.degree hi hnil
  rw [attach, c1, Res.ok_bind, c2, if_neg hS]
  rfl

/-- The next neighbour is the first vertex drawn that is not a neighbour yet. -/
theorem attach_ret {g : Graph T} {S : Finset ℕ} (hA : Att g0 i P g S) (hS : S.card < m) {ω : ℕ → ℝ} {k j : ℕ} {g' : Graph T} :
    RetOf Prod.mk (fun fuel r => attach weights i m fuel g r) ω k g' j ↔
      ∃ v l, UntilS (Search weights S) ω () k v l ∧ RetOf Prod.mk (fun fuel r => attach weights i m fuel (joinTo g i v) r) ω l g' j := by
  constructor
  · rintro ⟨F, hF'⟩
    have hF : attach weights i m F g (⟨ω, k⟩ : Stream) = .ok (g', ⟨ω, j⟩) := hF' F (le_refl F)
    clear hF'
    induction F generalizing k with
    | zero => cases hF
    | succ F ih =>
      rw [attach_succ h0 hi hnil hpos hw hP hA hS] at hF
      by_cases hc : weightedPick weights (partOf (ω k) weights.sum) ∈ S
      · rw [(pick_att h0 hi hnil hpos hw hP hA (ω k)).2.2 hc] at hF
        obtain ⟨v, l, h1, h2⟩ := ih hF
        exact ⟨v, l, .again (s' := ()) ⟨rfl, hc⟩ h1, h2⟩
      · exact ⟨_, _, .done ⟨rfl, rfl, hc⟩, (attach_adaptive weights i m _).retOf joins_pair hF⟩
  · rintro ⟨v, l, h1, F, hF'⟩
    have hF : attach weights i m F (joinTo g i v) (⟨ω, l⟩ : Stream) = .ok (g', ⟨ω, j⟩) := hF' F (le_refl F)
    clear hF'
    generalize () = s0 at h1
    suffices h : ∃ F', attach weights i m F' g (⟨ω, k⟩ : Stream) = .ok (g', ⟨ω, j⟩) by
      obtain ⟨F', h⟩ := h
      exact (attach_adaptive weights i m g).retOf joins_pair h
    induction h1 with
    | @done s k l v h =>
      obtain ⟨rfl, rfl, h⟩ := h
      exact ⟨F + 1, by rw [attach_succ h0 hi hnil hpos hw hP hA hS]; exact hF⟩
    | @again s s' k i' l v h _ ih =>
      obtain ⟨rfl, hc⟩ := h
      obtain ⟨F', hF'⟩ := ih hF
      refine ⟨F' + 1, ?_⟩
      rw [attach_succ h0 hi hnil hpos hw hP hA hS, (pick_att h0 hi hnil hpos hw hP hA (ω k)).2.2 hc]
      exact hF'

theorem untilS_search {S : Finset ℕ} {ω : ℕ → ℝ} {k v l : ℕ} (h : UntilS (Search weights S) ω () k v l) :
    v ∉ S ∧ 0 < weights.getD v 0 ∧ v < weights.length := by
  generalize () = s0 at h
  induction h with
  | done h =>
    obtain ⟨_, rfl, h⟩ := h
    obtain ⟨p1, p2⟩ := weightedPick_spec weights _ (partOf_lt _ hpos)
    exact ⟨h, p2, p1⟩
  | again _ _ ih => exact ih

/-- The law of the neighbours of a new vertex. -/
theorem attach_chance (hlen : weights.length = g0.nextId) (S' : Finset ℕ) : ∀ (r : ℕ) (g : Graph T) (S : Finset ℕ), Att g0 i P g S →
    S ⊆ Finset.range g0.nextId → S.card + r = m →
    Chance (fun ω k => ∃ g' j, RetOf Prod.mk (fun fuel r => attach weights i m fuel g r) ω k g' j ∧ Att g0 i P g' S')
      (picks g0.nextId (fun v => weights.getD v 0) r S S') := by
  intro r
  induction r with
  | zero =>
    intro g S hA _ hm
    have hret : ∀ ω k, (∃ g' j, RetOf Prod.mk (fun fuel r => attach weights i m fuel g r) ω k g' j ∧ Att g0 i P g' S') ↔ S = S' := by
      intro ω k
      constructor
      · rintro ⟨g', j, ⟨F, hF⟩, hA'⟩
        have : attach weights i m (F + 1) g (⟨ω, k⟩ : Stream) = .ok (g', ⟨ω, j⟩) := hF (F + 1) (by omega)
        rw [attach_done h0 hi hnil hpos hw hP hA (by omega)] at this
        cases this
        ext v
        rw [← hA.edge_iff h0 hnil, hA'.edge_iff h0 hnil]
      · rintro rfl
        refine ⟨g, k, ⟨1, fun fuel hf => ?_⟩, hA⟩
        obtain ⟨f, rfl⟩ : ∃ f, fuel = f + 1 := ⟨fuel - 1, by omega⟩
        exact attach_done h0 hi hnil hpos hw hP hA (by omega) f _
    unfold picks
    split
    · rename_i h
      exact Chance.true.congr fun ω k => by rw [hret]; exact ⟨fun _ => h, fun _ => trivial⟩
    · rename_i h
      exact Chance.false.congr fun ω k => by rw [hret]; exact ⟨False.elim, fun h' => h h'⟩
  | succ r ih =>
    intro g S hA hSn hm
    unfold picks
    have hterm : ∀ v ∈ Finset.range g0.nextId \ S, Chance (fun ω k => ∃ a l, UntilS (Search weights S) ω () k a l ∧ a = v ∧
        ∃ g' j, RetOf Prod.mk (fun fuel r => attach weights i m fuel (joinTo g i a) r) ω l g' j ∧ Att g0 i P g' S')
        (((weights.getD v 0 : ℕ) : ENNReal) / ((∑ u ∈ Finset.range g0.nextId \ S, weights.getD u 0 : ℕ) : ENNReal) *
          picks g0.nextId (fun v => weights.getD v 0) r (insert v S) S') := by
      intro v hv
      rw [Finset.mem_sdiff, Finset.mem_range] at hv
      have h1 := search_chance hpos (S := S) (by rw [hlen]; exact hSn) hv.2
      rw [hlen] at h1
      by_cases hwv : 0 < weights.getD v 0
      · obtain ⟨_, hA1, _⟩ := hA.joinTo hi hnil h0 (hw v hwv).1 (hw v hwv).2 (hP v hwv)
        refine chance_bind (Sampler.untilS (fun s => search_sampler weights S s) ()) (P := fun a => a = v) h1
          (Q := fun a ω l => ∃ g' j, RetOf Prod.mk (fun fuel r => attach weights i m fuel (joinTo g i a) r) ω l g' j ∧ Att g0 i P g' S') ?_
        rintro _ rfl
        exact ih _ _ hA1 (Finset.insert_subset (Finset.mem_range.mpr hv.1) hSn) (by
          rw [Finset.card_insert_of_notMem hv.2]; omega)
      · have h0' : weights.getD v 0 = 0 := by omega
        rw [h0', Nat.cast_zero, ENNReal.zero_div, zero_mul]
        refine Chance.false.congr fun ω k => ⟨False.elim, ?_⟩
        rintro ⟨a, l, h2, rfl, _⟩
        exact hwv (untilS_search h0 hi hnil hpos hw hP h2).2.1
    refine (Chance.sum _ hterm ?_).congr fun ω k => ?_
    · rintro u _ v _ ω k ⟨a, l, h1, rfl, _⟩ ⟨a', l', h1', rfl, _⟩
      exact ((Sampler.untilS (fun s => search_sampler weights S s) ()).det h1 h1').1
    · constructor
      · rintro ⟨v, _, a, l, h1, _, g', j, h2, h3⟩
        exact ⟨g', j, (attach_ret h0 hi hnil hpos hw hP hA (by omega)).mpr ⟨a, l, h1, h2⟩, h3⟩
      · rintro ⟨g', j, h1, h2⟩
        obtain ⟨v, l, h3, h4⟩ := (attach_ret h0 hi hnil hpos hw hP hA (by omega)).mp h1
        obtain ⟨q1, q2, q3⟩ := untilS_search h0 hi hnil hpos hw hP h3
        exact ⟨v, by rw [Finset.mem_sdiff, Finset.mem_range, ← hlen]; exact ⟨q3, q1⟩, v, l, h3, rfl, g', j, h4, h2⟩
end

/-! ## The loop over the new vertices -/

theorem growBody_adaptive (m : ℕ) (a : Graph T × List ℕ) (i : ℕ) :
    Adaptive mk3 (fun fuel (r : Stream) => growBody m fuel (mk3 a r) i) := by
  unfold growBody
  refine Adaptive.constBind fun _ _ => ?_
  refine Adaptive.bind (attach_adaptive a.2 i m a.1) (g := fun _ x => do
    let c ← x.1.container i
    let weights ← Vec.put a.2 i (AdjContainer.degree c)
    let c ← x.1.container i
    let weights ← bumpAll weights (neighbors c)
    return (x.1, weights, x.2)) ?_
  intro g
  dsimp only
  refine Adaptive.constBind fun c _ => ?_
  refine Adaptive.constBind fun w _ => ?_
  refine Adaptive.constBind fun c _ => ?_
  refine Adaptive.constBind fun w _ => ?_
  exact Adaptive.ok (mk := mk3) (g, w)

theorem growBody_ret {m : ℕ} {g : Graph T} (h : g.WF) (hE : 1 ≤ g.edgeCount) {i : Nat} (hi : i < g.nextId)
    (hnil : g.nbrs i = []) {ω : ℕ → ℝ} {k j : ℕ} {a : Graph T × List ℕ} :
    RetOf mk3 (fun fuel (r : Stream) => growBody m fuel (mk3 (g, g.degreeVec) r) i) ω k a j ↔
      RetOf Prod.mk (fun fuel r => attach g.degreeVec i m fuel g r) ω k a.1 j ∧ a.2 = a.1.degreeVec := by
  obtain ⟨hp, hw⟩ := weight_pos h hnil
  have hsum := degreeVec_sum_pos h hE
  have hatt : ∀ {fuel : ℕ} {r r' : Stream} {g' : Graph T}, attach g.degreeVec i m fuel g r = .ok (g', r') →
      growBody m fuel (g, g.degreeVec, r) i = .ok (g', g'.degreeVec, r') := by
    intro fuel r r' g' ha
    obtain ⟨S, hA, _⟩ := (attach_spec h hi hnil hsum hw hp fuel g r ∅ (m := m) (Att.start h _ _) (by simp)).post ha
    exact growBody_of_attach h hE hi hnil ha hA
  constructor
  · rintro ⟨F, hF'⟩
    have hF : growBody m F (g, g.degreeVec, (⟨ω, k⟩ : Stream)) i = .ok (a.1, a.2, ⟨ω, j⟩) := hF' F (le_refl F)
    have hx := hF
    unfold growBody at hx
    simp only at hx
    obtain ⟨_, _, hx⟩ := Res.bind_eq_ok.mp hx
    obtain ⟨⟨g', r'⟩, ha, _⟩ := Res.bind_eq_ok.mp hx
    rw [hatt ha] at hF
    simp only [Res.ok.injEq, Prod.mk.injEq] at hF
    obtain ⟨h1, h2, h3⟩ := hF
    subst h1 h3
    exact ⟨(attach_adaptive g.degreeVec i m g).retOf joins_pair ha, h2.symm⟩
  · rintro ⟨⟨F, hF⟩, h2⟩
    refine ⟨F, fun fuel hf => ?_⟩
    have := hatt (hF fuel hf)
    show growBody m fuel (g, g.degreeVec, (⟨ω, k⟩ : Stream)) i = .ok (a.1, a.2, ⟨ω, j⟩)
    rw [h2]
    exact this

theorem degIn_eq {g : Graph T} (h : g.WF) (v : ℕ) : degIn g.edges v = g.degreeVec.getD v 0 := by
  rw [degreeVec_getD h]
  unfold degIn
  rw [← List.toFinset_card_of_nodup (h.nodup v)]
  symm
  apply Finset.card_bij (fun u _ => s(v, u))
  · intro u hu
    rw [List.mem_toFinset] at hu
    rw [Finset.mem_filter, h.mem_edges]
    exact ⟨hu, by simp⟩
  · intro a _ b _ hab
    rw [Sym2.eq_iff] at hab
    rcases hab with h1 | ⟨h1, h2⟩
    · exact h1.2
    · rw [← h1, h2]
  · intro e he
    rw [Finset.mem_filter] at he
    obtain ⟨u, rfl⟩ := Sym2.mem_iff_exists.mp he.2
    exact ⟨u, by rw [List.mem_toFinset]; exact h.mem_edges.mp he.1, rfl⟩

/-- The law of the edges after growing. -/
theorem loop_chance (m : ℕ) (E' : Finset (Sym2 ℕ)) : ∀ (order : List ℕ) (g : Graph T), g.WF → 1 ≤ g.edgeCount → order.Nodup →
    (∀ i ∈ order, i < g.nextId ∧ g.nbrs i = []) →
    Chance (fun ω k => ∃ a j, RetOf mk3 (fun fuel (r : Stream) => order.foldlM (growBody m fuel) (mk3 (g, g.degreeVec) r)) ω k a j ∧
      a.1.edges = E') (grownLaw g.nextId m order g.edges E') := by
  intro order
  induction order with
  | nil =>
    intro g _ _ _ _
    have hret : ∀ ω k, (∃ a j, RetOf mk3 (fun fuel (r : Stream) => ([] : List ℕ).foldlM (growBody m fuel) (mk3 (g, g.degreeVec) r)) ω k a j ∧
        a.1.edges = E') ↔ g.edges = E' := by
      intro ω k
      constructor
      · rintro ⟨a, j, ⟨F, hF⟩, h⟩
        have h1 := hF F (le_refl F)
        obtain ⟨rfl, _⟩ := joins_mk3 (Res.ok.inj h1)
        exact h
      · exact fun h => ⟨(g, g.degreeVec), k, ⟨0, fun _ _ => rfl⟩, h⟩
    unfold grownLaw
    split
    · rename_i h
      exact Chance.true.congr fun ω k => by rw [hret]; exact ⟨fun _ => h, fun _ => trivial⟩
    · rename_i h
      exact Chance.false.congr fun ω k => by rw [hret]; exact ⟨False.elim, fun h' => h h'⟩
  | cons i order ih =>
    intro g h hE hnd hord
    obtain ⟨hi, hnil⟩ := hord i (by simp)
    obtain ⟨hp, hw⟩ := weight_pos h hnil
    have hsum := degreeVec_sum_pos h hE
    have hlen : g.degreeVec.length = g.nextId := by simp [degreeVec, h.len]
    have hG : Sampler (RetOf mk3 (fun fuel (r : Stream) => growBody m fuel (mk3 (g, g.degreeVec) r) i)) :=
      (growBody_adaptive m (g, g.degreeVec) i).sampler joins_mk3
    have hfold : ∀ {ω k a j}, RetOf mk3 (fun fuel (r : Stream) => (i :: order).foldlM (growBody m fuel) (mk3 (g, g.degreeVec) r)) ω k a j ↔
        ∃ b l, RetOf mk3 (fun fuel (r : Stream) => growBody m fuel (mk3 (g, g.degreeVec) r) i) ω k b l ∧
          RetOf mk3 (fun fuel (r : Stream) => order.foldlM (growBody m fuel) (mk3 b r)) ω l a j := by
      intro ω k a j
      have := RetOf.bind_iff (mk' := mk3) (growBody_adaptive m (g, g.degreeVec) i) (g := fun fuel b => order.foldlM (growBody m fuel) b)
        (ω := ω) (k := k) (j := j) (c := a)
      simpa only [List.foldlM_cons] using this
    unfold grownLaw
    have hdeg : degIn g.edges = fun v => g.degreeVec.getD v 0 := funext fun v => degIn_eq h v
    have hterm : ∀ S ∈ (Finset.range g.nextId).powerset, Chance (fun ω k => ∃ b l,
        RetOf mk3 (fun fuel (r : Stream) => growBody m fuel (mk3 (g, g.degreeVec) r) i) ω k b l ∧
        (Att g i (fun v => g.nbrs v ≠ []) b.1 S ∧ b.2 = b.1.degreeVec) ∧
        ∃ a j, RetOf mk3 (fun fuel (r : Stream) => order.foldlM (growBody m fuel) (mk3 b r)) ω l a j ∧ a.1.edges = E')
        (picks g.nextId (degIn g.edges) m ∅ S * grownLaw g.nextId m order (g.edges ∪ S.image (fun v => s(i, v))) E') := by
      intro S _
      have h1 := attach_chance h hi hnil hsum hw hp hlen S m g ∅ (m := m) (Att.start h _ _) (by simp) (by simp)
      rw [← hdeg] at h1
      refine chance_bind hG (P := fun b => Att g i (fun v => g.nbrs v ≠ []) b.1 S ∧ b.2 = b.1.degreeVec) ?_
        (Q := fun b ω l => ∃ a j, RetOf mk3 (fun fuel (r : Stream) => order.foldlM (growBody m fuel) (mk3 b r)) ω l a j ∧ a.1.edges = E') ?_
      · refine h1.congr fun ω k => ?_
        constructor
        · rintro ⟨g', j, h2, h3⟩
          exact ⟨(g', g'.degreeVec), j, (growBody_ret h hE hi hnil).mpr ⟨h2, rfl⟩, h3, rfl⟩
        · rintro ⟨b, j, h2, h3, _⟩
          exact ⟨b.1, j, ((growBody_ret h hE hi hnil).mp h2).1, h3⟩
      · rintro ⟨g', w'⟩ ⟨hA, hw'⟩
        dsimp only at hA hw' ⊢
        subst hw'
        have h2 := ih g' hA.wf ?_ (List.nodup_cons.mp hnd).2 ?_
        · rwa [hA.n, hA.edges] at h2
        · rw [hA.wf.edgeCount_eq_card, hA.edges]
          rw [h.edgeCount_eq_card] at hE
          exact hE.trans (Finset.card_le_card Finset.subset_union_left)
        · intro u hu
          obtain ⟨hu1, hu2⟩ := hord u (by simp [hu])
          refine ⟨by rw [hA.n]; exact hu1, ?_⟩
          rw [isolated_iff hA.wf, hA.edges]
          intro e he hue
          rcases Finset.mem_union.mp he with he | he
          · exact (isolated_iff h).mp hu2 e he hue
          · obtain ⟨v, hv, rfl⟩ := Finset.mem_image.mp he
            rcases Sym2.mem_iff.mp hue with rfl | rfl
            · exact (List.nodup_cons.mp hnd).1 hu
            · exact hA.mem _ hv hu2
    refine (Chance.sum _ hterm ?_).congr fun ω k => ?_
    · rintro S _ S' _ ω k ⟨b, l, h1, ⟨h2, _⟩, _⟩ ⟨b', l', h1', ⟨h2', _⟩, _⟩
      obtain ⟨rfl, _⟩ := hG.det h1 h1'
      ext v
      rw [← h2.edge_iff h hnil, h2'.edge_iff h hnil]
    · constructor
      · rintro ⟨S, _, b, l, h1, _, a, j, h2, h3⟩
        exact ⟨a, j, hfold.mpr ⟨b, l, h1, h2⟩, h3⟩
      · rintro ⟨a, j, h1, h2⟩
        obtain ⟨b, l, h3, h4⟩ := hfold.mp h1
        obtain ⟨⟨F, hF⟩, h6⟩ := (growBody_ret h hE hi hnil).mp h3
        obtain ⟨S, hA, _⟩ := (attach_spec h hi hnil hsum hw hp F g (⟨ω, k⟩ : Stream) ∅ (m := m) (Att.start h _ _) (by simp)).post
          (hF F (le_refl F))
        refine ⟨S, ?_, b, l, h3, ⟨hA, h6⟩, a, j, h4, h2⟩
        rw [Finset.mem_powerset]
        intro v hv
        have := hA.mem v hv
        rw [Finset.mem_range]
        by_contra hc
        exact this (nbrs_of_ge (by rw [h.len]; omega))

end Ba

theorem sum_map_eq {α M : Type} [AddCommMonoid M] (f : α → M) (d : α) : ∀ l : List α, (l.map f).sum = ∑ p ∈ Finset.range l.length, f (l.getD p d)
  | [] => by simp
  | a :: l => by
    rw [List.map_cons, List.sum_cons, List.length_cons, Finset.sum_range_succ', add_comm, sum_map_eq f d l]
    simp

end Verif
