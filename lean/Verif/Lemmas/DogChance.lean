import Verif.Lemmas.DogFair
import Verif.Lemmas.BaChance
import Verif.Props.Formula

/-!
# The law of the partners in `DogEnsemble`

The search for a partner draws a vertex and accepts it with a probability close to its share of the degrees.  What is drawn before
the first success does not matter, so the partner is distributed like one accepted attempt.
-/

set_option linter.unusedSectionVars false
set_option linter.unusedSimpArgs false

namespace Verif
open MeasureTheory ProbabilityTheory AdjContainer GenericGraph

/-! ## Drawing vertices until one is accepted -/

section Try
variable (n node : ℕ) (acc : ℕ → ℕ → Prop) [∀ v, DecidablePred (acc v)]

/-- One attempt: draws a vertex, fails if it is `node`, and otherwise draws a coin that decides whether the vertex is accepted. -/
def Try (ω : ℕ → ℝ) (k : ℕ) (x : Option ℕ) (j : ℕ) : Prop :=
  if partOf (ω k) n = node then x = none ∧ j = k + 1
  else j = k + 2 ∧ x = if acc (partOf (ω k) n) (partOf (ω (k + 1)) (2 ^ 53)) then some (partOf (ω k) n) else none

theorem try_total (ω : ℕ → ℝ) (k : ℕ) : ∃ x j, Try n node acc ω k x j := by
  unfold Try
  split
  · exact ⟨_, _, rfl, rfl⟩
  · exact ⟨_, _, rfl, rfl⟩

theorem try_sampler : Sampler (Try n node acc) := by
  refine ⟨?_, ?_⟩
  · intro ω k x j h
    unfold Try at h
    split at h
    · rename_i hv
      obtain ⟨rfl, rfl⟩ := h
      refine ⟨[(n, partOf (ω k) n)], rfl, matches_single.mpr rfl, fun ω' k' hm => ?_⟩
      unfold Try
      rw [if_pos ((matches_single.mp hm).trans hv)]
      exact ⟨rfl, rfl⟩
    · rename_i hv
      obtain ⟨rfl, rfl⟩ := h
      refine ⟨[(n, partOf (ω k) n)] ++ [(2 ^ 53, partOf (ω (k + 1)) (2 ^ 53))], rfl,
        matches_append.mpr ⟨matches_single.mpr rfl, matches_single.mpr rfl⟩, fun ω' k' hm => ?_⟩
      obtain ⟨m1, m2⟩ := matches_append.mp hm
      have m1 := matches_single.mp m1
      have m2 : partOf (ω' (k' + 1)) (2 ^ 53) = partOf (ω (k + 1)) (2 ^ 53) := matches_single.mp m2
      unfold Try
      rw [m1, m2, if_neg hv]
      exact ⟨rfl, rfl⟩
  · intro ω k x x' j j' h h'
    unfold Try at h h'
    split at h
    · rename_i hv
      rw [if_pos hv] at h'
      exact ⟨h.1.trans h'.1.symm, h.2.trans h'.2.symm⟩
    · rename_i hv
      rw [if_neg hv] at h'
      exact ⟨h.2.trans h'.2.symm, h.1.trans h'.1.symm⟩

theorem try_some {ω : ℕ → ℝ} {k v j : ℕ} : Try n node acc ω k (some v) j ↔
    partOf (ω k) n = v ∧ v ≠ node ∧ acc v (partOf (ω (k + 1)) (2 ^ 53)) ∧ j = k + 2 := by
  unfold Try
  split
  · rename_i hv
    constructor
    · rintro ⟨h, _⟩; cases h
    · rintro ⟨rfl, h, _⟩; exact absurd hv h
  · rename_i hv
    constructor
    · rintro ⟨rfl, h⟩
      split at h
      · rename_i ha
        cases h
        exact ⟨rfl, hv, ha, rfl⟩
      · cases h
    · rintro ⟨rfl, _, h, rfl⟩
      exact ⟨rfl, by rw [if_pos h]⟩

/-- The number of coins that accept a vertex. -/
def accepts (v : ℕ) : ℕ := ((Finset.range (2 ^ 53)).filter (acc v)).card

theorem try_chance (hn : 0 < n) {v : ℕ} (hv : v < n) (hne : v ≠ node) :
    Chance (fun ω k => ∃ a j, Try n node acc ω k (some a) j ∧ a = v) ((n : ENNReal)⁻¹ * ((accepts acc v : ENNReal) * ((2 ^ 53 : ℕ) : ENNReal)⁻¹)) := by
  have h1 : Chance (fun ω k => ∃ a j, (a = partOf (ω k) n ∧ j = k + 1) ∧ a = v) ((n : ENNReal)⁻¹) := by
    have := chance_draw hn (fun t => t = v)
    rw [Finset.filter_eq', if_pos (Finset.mem_range.mpr hv), Finset.card_singleton, Nat.cast_one, one_mul] at this
    exact this.congr fun ω k => ⟨fun h => ⟨_, _, ⟨rfl, rfl⟩, h⟩, fun ⟨a, j, ⟨h, _⟩, h'⟩ => h.symm.trans h'⟩
  have h2 := chance_bind (Sampler.draw n) (P := fun a => a = v) h1 (Q := fun _ ω j => acc v (partOf (ω j) (2 ^ 53)))
    (fun _ _ => chance_draw (h := 2 ^ 53) (by positivity) (acc v))
  refine h2.congr fun ω k => ?_
  constructor
  · rintro ⟨a, j, ⟨rfl, rfl⟩, h, h'⟩
    exact ⟨v, k + 2, (try_some n node acc).mpr ⟨h, hne, h', rfl⟩, rfl⟩
  · rintro ⟨a, j, h, rfl⟩
    obtain ⟨k1, _, k3, _⟩ := (try_some n node acc).mp h
    exact ⟨a, k + 1, ⟨k1.symm, rfl⟩, rfl, k3⟩

/-- The vertex that is accepted first. -/
theorem until_try_chance (hn : 0 < n) {v : ℕ} (hv : v < n) (hne : v ≠ node) :
    Chance (fun ω k => ∃ a j, Until (Try n node acc) ω k a j ∧ a = v)
      ((accepts acc v : ENNReal) / ((∑ u ∈ (Finset.range n).erase node, accepts acc u : ℕ) : ENNReal)) := by
  set S := ∑ u ∈ (Finset.range n).erase node, accepts acc u with hS
  have hnn : (n : ENNReal) ≠ 0 := by exact_mod_cast hn.ne'
  have hsum : Chance (fun ω k => ∃ u ∈ (Finset.range n).erase node, ∃ a j, Try n node acc ω k (some a) j ∧ a = u)
      ((n : ENNReal)⁻¹ * ((S : ENNReal) * ((2 ^ 53 : ℕ) : ENNReal)⁻¹)) := by
    have := Chance.sum ((Finset.range n).erase node) (Q := fun u ω k => ∃ a j, Try n node acc ω k (some a) j ∧ a = u)
      (w := fun u => (n : ENNReal)⁻¹ * ((accepts acc u : ENNReal) * ((2 ^ 53 : ℕ) : ENNReal)⁻¹)) (fun u hu => by
        rw [Finset.mem_erase, Finset.mem_range] at hu
        exact try_chance n node acc hn hu.2 hu.1) (by
        rintro u _ u' _ ω k ⟨a, j, h, rfl⟩ ⟨a', j', h', rfl⟩
        exact Option.some.inj ((try_sampler n node acc).det h h').1)
    rw [← Finset.mul_sum, ← Finset.sum_mul, ← Nat.cast_sum] at this
    exact this
  have hfail : Chance (fun ω k => ∃ j, Try n node acc ω k none j) (1 - (n : ENNReal)⁻¹ * ((S : ENNReal) * ((2 ^ 53 : ℕ) : ENNReal)⁻¹)) := by
    refine hsum.not.congr fun ω k => ?_
    constructor
    · intro h
      obtain ⟨x, j, hx⟩ := try_total n node acc ω k
      cases x with
      | none => exact ⟨j, hx⟩
      | some a =>
        refine absurd ⟨a, ?_, a, j, hx, rfl⟩ h
        obtain ⟨k1, k2, _⟩ := (try_some n node acc).mp hx
        rw [Finset.mem_erase, Finset.mem_range, ← k1]
        exact ⟨k1 ▸ k2, partOf_lt _ hn⟩
    · rintro ⟨j, h⟩ ⟨u, _, a, j', h', _⟩
      have := ((try_sampler n node acc).det h h').1
      cases this
  rcases Nat.eq_zero_or_pos S with h0 | hpos
  · have hall : ∀ u ∈ (Finset.range n).erase node, accepts acc u = 0 := by
      rw [hS] at h0
      exact Finset.sum_eq_zero_iff.mp h0
    have hv0 : accepts acc v = 0 := hall v (Finset.mem_erase.mpr ⟨hne, Finset.mem_range.mpr hv⟩)
    rw [hv0, Nat.cast_zero, ENNReal.zero_div]
    refine Chance.false.congr fun ω k => ⟨False.elim, ?_⟩
    rintro ⟨a, j, h, rfl⟩
    induction h with
    | again _ _ ih => exact ih hv hne hv0
    | @done k j a h =>
      obtain ⟨_, _, k3, _⟩ := (try_some n node acc).mp h
      unfold accepts at hv0
      rw [Finset.card_eq_zero, Finset.filter_eq_empty_iff] at hv0
      exact hv0 (Finset.mem_range.mpr (partOf_lt _ (by positivity))) k3
  · have hle : (n : ENNReal)⁻¹ * ((S : ENNReal) * ((2 ^ 53 : ℕ) : ENNReal)⁻¹) ≤ 1 := by
      rw [← hsum.prob 0]
      exact prob_le_one
    have hpos' : (n : ENNReal)⁻¹ * ((S : ENNReal) * ((2 ^ 53 : ℕ) : ENNReal)⁻¹) ≠ 0 := by
      refine mul_ne_zero (ENNReal.inv_ne_zero.mpr (ENNReal.natCast_ne_top _)) (mul_ne_zero (by exact_mod_cast hpos.ne') ?_)
      exact ENNReal.inv_ne_zero.mpr (ENNReal.natCast_ne_top _)
    have h1 := chance_until (try_sampler n node acc) hfail
      (ENNReal.sub_lt_self ENNReal.one_ne_top one_ne_zero hpos') (try_chance n node acc hn hv hne)
    rw [ENNReal.sub_sub_cancel ENNReal.one_ne_top hle,
      ENNReal.mul_div_mul_left _ _ (ENNReal.inv_ne_zero.mpr (ENNReal.natCast_ne_top _)) (ENNReal.inv_ne_top.mpr hnn),
      ENNReal.mul_div_mul_right _ _ (ENNReal.inv_ne_zero.mpr (ENNReal.natCast_ne_top _))
        (ENNReal.inv_ne_top.mpr (by positivity))] at h1
    exact h1

theorem until_try_lt (hn : 0 < n) {ω : ℕ → ℝ} {k v j : ℕ} (h : Until (Try n node acc) ω k v j) :
    v < n ∧ v ≠ node ∧ ∃ u < 2 ^ 53, acc v u := by
  induction h with
  | again _ _ ih => exact ih
  | @done k j a h =>
    obtain ⟨k1, k2, k3, _⟩ := (try_some n node acc).mp h
    exact ⟨k1 ▸ partOf_lt _ hn, k2, _, partOf_lt _ (by positivity), k3⟩

end Try

/-! ## The search for a partner -/

variable {T : Type}

theorem Adaptive.coinLt (p : ℚ) : Adaptive Prod.mk (fun _ r => .ok (coinLt r p)) := by
  intro fuel ω k b hb
  cases hb
  refine ⟨_, [(2 ^ 53, partOf (ω k) (2 ^ 53))], rfl, matches_single.mpr rfl, fun fuel' _ ω' k' hm => ?_⟩
  have h1 := matches_single.mp hm
  show Res.ok (decide (((partOf (ω' k') (2 ^ 53) / 2 : ℕ) : ℚ) / 2 ^ 52 < p), _) = _
  rw [h1]
  rfl

namespace Dog

/-- The condition under which the number `u` makes `v` the partner of `node`. -/
def Takes (E : Finset (Sym2 ℕ)) (D node v u : ℕ) : Prop :=
  s(node, v) ∉ E ∧ ((u / 2 : ℕ) : ℚ) / 2 ^ 52 < (degOf E v : ℚ) * (1 / (D : ℚ))

instance (E : Finset (Sym2 ℕ)) (D node v : ℕ) : DecidablePred (Takes E D node v) :=
  fun _ => inferInstanceAs (Decidable (_ ∧ _))

theorem findPartner_try {g : SpacialGraph T} (h : g.WF) {node : Nat} (hnode : node < g.nextId) (D : Nat) (ω : ℕ → ℝ) (k : ℕ) :
    (∃ g' v, Try g.nextId node (Takes g.edges D node) ω k (some v) (k + 2) ∧ Linked g node g' v ∧
      ∀ fuel, findPartner node D (fuel + 1) g (⟨ω, k⟩ : Stream) = .ok (g', ⟨ω, k + 2⟩)) ∨
    (∃ j, Try g.nextId node (Takes g.edges D node) ω k none j ∧
      ∀ fuel, findPartner node D (fuel + 1) g (⟨ω, k⟩ : Stream) = findPartner node D fuel g ⟨ω, j⟩) := by
  set i := partOf (ω k) g.nextId with hidef
  have hi : i < g.nextId := partOf_lt _ (by omega)
  have e1 : genRange (⟨ω, k⟩ : Stream) g.vertexCount = .ok (i, ⟨ω, k + 1⟩) := Stream.genRange_eq _ (by show 0 < g.nextId; omega)
  have hone : ∀ fuel, findPartner node D (fuel + 1) g (⟨ω, k⟩ : Stream) =
      if i ≠ node then
        if ((partOf (ω (k + 1)) (2 ^ 53) / 2 : ℕ) : ℚ) / 2 ^ 52 < (degOf g.edges i : ℚ) * (1 / (D : ℚ)) then
          (g.addEdge node i >>= fun p => match p.1 with
            | .ok () => pure (p.2, (⟨ω, k + 2⟩ : Stream))
            | .error _ => findPartner node D fuel p.2 ⟨ω, k + 2⟩)
        else findPartner node D fuel g ⟨ω, k + 2⟩
      else findPartner node D fuel g ⟨ω, k + 1⟩ := by
    intro fuel
    rw [findPartner, e1]
    simp only [Res.ok_bind, degree_some h hi, h.deg_eq i]
    have hc : coinLt (⟨ω, k + 1⟩ : Stream) ((degOf g.edges i : ℚ) * (1 / (D : ℚ))) =
        (decide (((partOf (ω (k + 1)) (2 ^ 53) / 2 : ℕ) : ℚ) / 2 ^ 52 < (degOf g.edges i : ℚ) * (1 / (D : ℚ))), ⟨ω, k + 2⟩) := rfl
    rw [hc]
    simp only [decide_eq_true_eq]
    rfl
  by_cases hne : i = node
  · refine .inr ⟨k + 1, ?_, fun fuel => ?_⟩
    · unfold Try
      rw [if_pos hne]
      exact ⟨rfl, rfl⟩
    · rw [hone, if_neg (not_not.mpr hne)]
  · by_cases hb : ((partOf (ω (k + 1)) (2 ^ 53) / 2 : ℕ) : ℚ) / 2 ^ 52 < (degOf g.edges i : ℚ) * (1 / (D : ℚ))
    · rcases addEdge_any h hnode hi (Ne.symm hne) with ⟨h1, h2⟩ | ⟨h1, g', h2, h3, h4, h5, h6⟩
      · refine .inr ⟨k + 2, ?_, fun fuel => ?_⟩
        · unfold Try
          rw [if_neg hne, if_neg (fun hc => hc.1 h1)]
          exact ⟨rfl, rfl⟩
        · rw [hone, if_pos hne, if_pos hb, h2]
          rfl
      · refine .inl ⟨g', i, ?_, ⟨⟨hi, hne, h1, ?_⟩, h3, h4, h6, coords_addEdge h2, h5⟩, fun fuel => ?_⟩
        · exact (try_some _ _ _).mpr ⟨rfl, hne, ⟨h1, hb⟩, rfl⟩
        · intro hnil
          rw [← h.deg_eq, hnil, List.length_nil, Nat.cast_zero, zero_mul] at hb
          exact absurd hb (not_lt.mpr (by positivity))
        · rw [hone, if_pos hne, if_pos hb, h2]
          rfl
    · refine .inr ⟨k + 2, ?_, fun fuel => ?_⟩
      · unfold Try
        rw [if_neg hne, if_neg (fun hc => hb hc.2)]
        exact ⟨rfl, rfl⟩
      · rw [hone, if_pos hne, if_neg hb]

theorem findPartner_adaptive (node D : ℕ) (g : SpacialGraph T) :
    Adaptive Prod.mk (fun fuel (r : Stream) => findPartner node D fuel g r) := by
  intro fuel
  induction fuel generalizing g with
  | zero => intro ω k b hb; cases hb
  | succ fuel ih =>
    intro ω k b hb
    have hb' : findPartner node D (fuel + 1) g (⟨ω, k⟩ : Stream) = .ok b := hb
    rw [findPartner] at hb'
    obtain ⟨y, hy, hb'⟩ := Res.bind_eq_ok.mp hb'
    obtain ⟨i, l1, rfl, m1, n1⟩ := Adaptive.genRange g.vertexCount 0 ω k y hy
    dsimp only at hb'
    obtain ⟨d, hd, hb'⟩ := Res.bind_eq_ok.mp hb'
    have e1 : ∀ (ω' : ℕ → ℝ) k', Matches ω' k' l1 → genRange (⟨ω', k'⟩ : Stream) g.vertexCount = .ok (i, ⟨ω', k' + l1.length⟩) :=
      fun ω' k' hm => n1 0 (le_refl _) ω' k' hm
    have rest : ∀ (g1 : SpacialGraph T) (l2 : List (ℕ × ℕ)), Matches ω (k + l1.length) l2 →
        findPartner node D fuel g1 (⟨ω, k + l1.length + l2.length⟩ : Stream) = .ok b →
        (∀ f ω' k', Matches ω' k' (l1 ++ l2) → findPartner node D (f + 1) g (⟨ω', k'⟩ : Stream) =
          findPartner node D f g1 ⟨ω', k' + l1.length + l2.length⟩) →
        ∃ a, ∃ l : List (ℕ × ℕ), b = (a, ⟨ω, k + l.length⟩) ∧ Matches ω k l ∧
          ∀ fuel', fuel + 1 ≤ fuel' → ∀ ω' k', Matches ω' k' l →
            findPartner node D fuel' g (⟨ω', k'⟩ : Stream) = .ok (a, ⟨ω', k' + l.length⟩) := by
      intro g1 l2 hm2 hr hstep
      obtain ⟨a, l, h1, h2, h3⟩ := ih g1 ω _ b hr
      have hlen : ∀ k, k + l1.length + l2.length + l.length = k + (l1 ++ l2 ++ l).length := by
        intro k; simp only [List.length_append]; omega
      refine ⟨a, l1 ++ l2 ++ l, by rw [← hlen]; exact h1, ?_, fun fuel' hf ω' k' hm => ?_⟩
      · refine matches_append.mpr ⟨matches_append.mpr ⟨m1, hm2⟩, ?_⟩
        rw [List.length_append, ← Nat.add_assoc]; exact h2
      · obtain ⟨f, rfl⟩ : ∃ f, fuel' = f + 1 := ⟨fuel' - 1, by omega⟩
        obtain ⟨q1, q2⟩ := matches_append.mp hm
        rw [List.length_append, ← Nat.add_assoc] at q2
        rw [hstep f ω' k' q1, ← hlen]
        exact h3 f (by omega) ω' _ q2
    by_cases hne : i = node
    · rw [if_neg (not_not.mpr hne)] at hb'
      refine rest g [] (matches_nil _ _) hb' fun f ω' k' hm => ?_
      rw [List.append_nil] at hm
      rw [findPartner, e1 ω' k' hm]
      simp only [Res.ok_bind, hd]
      rw [if_neg (not_not.mpr hne)]
      rfl
    · rw [if_pos hne] at hb'
      obtain ⟨c, l2, hc, m2, n2⟩ := Adaptive.coinLt ((d : ℚ) * (1 / (D : ℚ))) 0 ω (k + l1.length) _ rfl
      rw [hc] at hb'
      dsimp only at hb'
      have e2 : ∀ (ω' : ℕ → ℝ) k', Matches ω' k' l2 → Verif.coinLt (⟨ω', k'⟩ : Stream) ((d : ℚ) * (1 / (D : ℚ))) =
          (c, ⟨ω', k' + l2.length⟩) := fun ω' k' hm => Res.ok.inj (n2 0 (le_refl _) ω' k' hm)
      by_cases hcc : c = true
      · rw [if_pos hcc] at hb'
        obtain ⟨⟨q, g1⟩, hz, hb'⟩ := Res.bind_eq_ok.mp hb'
        cases q with
        | ok _ =>
          cases hb'
          refine ⟨g1, l1 ++ l2, by rw [List.length_append, ← Nat.add_assoc], matches_append.mpr ⟨m1, m2⟩, fun fuel' hf ω' k' hm => ?_⟩
          obtain ⟨f, rfl⟩ : ∃ f, fuel' = f + 1 := ⟨fuel' - 1, by omega⟩
          obtain ⟨q1, q2⟩ := matches_append.mp hm
          show findPartner node D (f + 1) g (⟨ω', k'⟩ : Stream) = _
          rw [findPartner, e1 ω' k' q1]
          simp only [Res.ok_bind, hd]
          rw [if_pos hne, e2 ω' _ q2]
          simp only [hcc, if_true, hz, Res.ok_bind, Res.pure_eq, List.length_append, Nat.add_assoc]
        | error er =>
          refine rest g1 l2 m2 hb' fun f ω' k' hm => ?_
          obtain ⟨q1, q2⟩ := matches_append.mp hm
          rw [findPartner, e1 ω' k' q1]
          simp only [Res.ok_bind, hd]
          rw [if_pos hne, e2 ω' _ q2]
          simp only [hcc, if_true, hz, Res.ok_bind]
      · rw [if_neg hcc] at hb'
        refine rest g l2 m2 hb' fun f ω' k' hm => ?_
        obtain ⟨q1, q2⟩ := matches_append.mp hm
        rw [findPartner, e1 ω' k' q1]
        simp only [Res.ok_bind, hd]
        rw [if_pos hne, e2 ω' _ q2]
        simp only [hcc]
        rfl

/-- The partner is the first vertex that is accepted. -/
theorem findPartner_ret {g : SpacialGraph T} (h : g.WF) {node : Nat} (hnode : node < g.nextId) (D : Nat) {ω : ℕ → ℝ} {k : ℕ} (v : ℕ) :
    (∃ g' j, RetOf Prod.mk (fun fuel (r : Stream) => findPartner node D fuel g r) ω k g' j ∧ Linked g node g' v) ↔
      ∃ a j, Until (Try g.nextId node (Takes g.edges D node)) ω k a j ∧ a = v := by
  constructor
  · rintro ⟨g', j, ⟨F, hF'⟩, hl⟩
    have hF : findPartner node D F g (⟨ω, k⟩ : Stream) = .ok (g', ⟨ω, j⟩) := hF' F (le_refl F)
    clear hF'
    induction F generalizing k with
    | zero => cases hF
    | succ F ih =>
      rcases findPartner_try h hnode D ω k with ⟨g1, w, h1, h2, h3⟩ | ⟨j', h1, h2⟩
      · rw [h3] at hF
        obtain ⟨rfl, _⟩ := Prod.mk.inj (Res.ok.inj hF)
        have he : s(node, w) = s(node, v) := by
          have := h2.edges.symm.trans hl.edges
          have h4 : s(node, w) ∈ insert s(node, v) g.edges := this ▸ Finset.mem_insert_self _ _
          exact (Finset.mem_insert.mp h4).resolve_right h2.partner.2.2.1
        have hwv : w = v := Sym2.congr_right.mp he
        exact ⟨w, _, .done h1, hwv⟩
      · rw [h2] at hF
        obtain ⟨a, l, h3, h4⟩ := ih hF
        exact ⟨a, l, .again h1 h3, h4⟩
  · rintro ⟨a, j, hu, rfl⟩
    suffices hs : ∃ F g' j', findPartner node D F g (⟨ω, k⟩ : Stream) = .ok (g', ⟨ω, j'⟩) ∧ Linked g node g' a by
      obtain ⟨F, g', j', h1, h2⟩ := hs
      exact ⟨g', j', (findPartner_adaptive node D g).retOf joins_pair h1, h2⟩
    induction hu with
    | @again k j l a h1 h2 ih =>
      obtain ⟨F, g', j', h3, h4⟩ := ih
      rcases findPartner_try h hnode D ω k with ⟨g1, w, k1, _⟩ | ⟨i, k1, k2⟩
      · cases ((try_sampler _ _ _).det h1 k1).1
      · obtain ⟨_, rfl⟩ := (try_sampler _ _ _).det h1 k1
        exact ⟨F + 1, g', j', by rw [k2]; exact h3, h4⟩
    | @done k j a h1 =>
      rcases findPartner_try h hnode D ω k with ⟨g1, w, k1, k2, k3⟩ | ⟨i, k1, _⟩
      · obtain ⟨e, _⟩ := (try_sampler _ _ _).det h1 k1
        cases e
        exact ⟨1, g1, _, k3 0, k2⟩
      · cases ((try_sampler _ _ _).det h1 k1).1

end Dog

end Verif
