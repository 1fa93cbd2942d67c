import Verif.Lemmas.Sampler

/-!
# Modelled functions as programs that read the tape

A function of the model takes a generator and returns a generator together with its result.  With a generator that reads the tape it
is a program in the sense of `Verif.Lemmas.Sampler`.  The fuel of a loop is raised until the function returns.
-/

set_option linter.unusedSectionVars false
set_option linter.unusedSimpArgs false

namespace Verif
open MeasureTheory ProbabilityTheory

variable {α β γ δ : Type}

/-- If the function returns, its result is determined by finitely many draws, from every position and with any larger fuel; `mk`
joins value and generator. -/
def Adaptive (mk : α → Stream → β) (f : ℕ → Stream → Res β) : Prop :=
  ∀ fuel ω k b, f fuel ⟨ω, k⟩ = .ok b → ∃ a, ∃ l : List (ℕ × ℕ), b = mk a ⟨ω, k + l.length⟩ ∧ Matches ω k l ∧
    ∀ fuel', fuel ≤ fuel' → ∀ ω' k', Matches ω' k' l → f fuel' ⟨ω', k'⟩ = .ok (mk a ⟨ω', k' + l.length⟩)

/-- With enough fuel the function, started at position `k`, returns `a` and leaves the tape at `j`. -/
def RetOf (mk : α → Stream → β) (f : ℕ → Stream → Res β) (ω : ℕ → ℝ) (k : ℕ) (a : α) (j : ℕ) : Prop :=
  ∃ F, ∀ fuel, F ≤ fuel → f fuel ⟨ω, k⟩ = .ok (mk a ⟨ω, j⟩)

/-- Value and generator can be read off the result. -/
def Joins (mk : α → Stream → β) : Prop := ∀ {a a' r r'}, mk a r = mk a' r' → a = a' ∧ r = r'

theorem joins_pair : Joins (Prod.mk : α → Stream → α × Stream) := by
  intro a a' r r' h
  exact ⟨congrArg Prod.fst h, congrArg Prod.snd h⟩

theorem Adaptive.sampler {mk : α → Stream → β} (hm : Joins mk) {f : ℕ → Stream → Res β} (hf : Adaptive mk f) :
    Sampler (RetOf mk f) := by
  refine ⟨?_, ?_⟩
  · rintro ω k a j ⟨F, hF⟩
    obtain ⟨a', l, h1, h2, h3⟩ := hf F ω k _ (hF F (le_refl F))
    obtain ⟨rfl, h4⟩ := hm h1
    have hj : j = k + l.length := congrArg Stream.pos h4
    exact ⟨l, hj, h2, fun ω' k' hm' => ⟨F, fun fuel hfuel => h3 fuel hfuel ω' k' hm'⟩⟩
  · rintro ω k a a' j j' ⟨F, hF⟩ ⟨F', hF'⟩
    have h1 := hF (max F F') (le_max_left _ _)
    rw [hF' (max F F') (le_max_right _ _)] at h1
    obtain ⟨h2, h3⟩ := hm (Res.ok.inj h1)
    exact ⟨h2.symm, (congrArg Stream.pos h3).symm⟩

/-- If the function returns with some fuel then it returns with every larger one. -/
theorem Adaptive.ret {mk : α → Stream → β} {f : ℕ → Stream → Res β} (hf : Adaptive mk f) {fuel : ℕ} {r : Stream} {b : β}
    (h : f fuel r = .ok b) : ∃ a j, b = mk a ⟨r.tape, j⟩ ∧ RetOf mk f r.tape r.pos a j := by
  obtain ⟨a, l, h1, h2, h3⟩ := hf fuel r.tape r.pos b h
  exact ⟨a, _, h1, fuel, fun fuel' hfuel => h3 fuel' hfuel _ _ h2⟩

theorem Adaptive.bind {mk : α → Stream → β} {mk' : γ → Stream → δ} {f : ℕ → Stream → Res β} {g : ℕ → β → Res δ}
    (hf : Adaptive mk f) (hg : ∀ a, Adaptive mk' (fun fuel r => g fuel (mk a r))) :
    Adaptive mk' (fun fuel r => f fuel r >>= g fuel) := by
  intro fuel ω k d hd
  obtain ⟨b, h1, h2⟩ := Res.bind_eq_ok.mp hd
  obtain ⟨a, l, rfl, h4, h5⟩ := hf fuel ω k b h1
  obtain ⟨c, l', h6, h7, h8⟩ := hg a fuel ω (k + l.length) d h2
  refine ⟨c, l ++ l', by rw [List.length_append, ← Nat.add_assoc]; exact h6, matches_append.mpr ⟨h4, h7⟩, ?_⟩
  intro fuel' hfuel ω' k' hm
  obtain ⟨m1, m2⟩ := matches_append.mp hm
  simp only
  rw [h5 fuel' hfuel ω' k' m1, Res.ok_bind]
  have := h8 fuel' hfuel ω' _ m2
  rw [List.length_append, ← Nat.add_assoc]
  exact this

theorem RetOf.bind_iff {mk : α → Stream → β} {mk' : γ → Stream → δ} {f : ℕ → Stream → Res β} {g : ℕ → β → Res δ}
    (hf : Adaptive mk f) {ω : ℕ → ℝ} {k j : ℕ} {c : γ} : RetOf mk' (fun fuel r => f fuel r >>= g fuel) ω k c j ↔
      ∃ a i, RetOf mk f ω k a i ∧ RetOf mk' (fun fuel r => g fuel (mk a r)) ω i c j := by
  constructor
  · rintro ⟨F, hF⟩
    obtain ⟨b, h1, _⟩ := Res.bind_eq_ok.mp (hF F (le_refl F))
    obtain ⟨a, l, rfl, h4, h5⟩ := hf F ω k b h1
    refine ⟨a, k + l.length, ⟨F, fun fuel hfuel => h5 fuel hfuel ω k h4⟩, F, fun fuel hfuel => ?_⟩
    have := hF fuel hfuel
    simp only at this
    rwa [h5 fuel hfuel ω k h4, Res.ok_bind] at this
  · rintro ⟨a, i, ⟨F, hF⟩, F', hF'⟩
    refine ⟨max F F', fun fuel hfuel => ?_⟩
    simp only
    rw [hF fuel ((le_max_left _ _).trans hfuel), Res.ok_bind]
    exact hF' fuel ((le_max_right _ _).trans hfuel)

/-- A function that does not use the generator. -/
theorem Adaptive.const {mk : α → Stream → β} {x : Res α} : Adaptive mk (fun _ r => x >>= fun a => .ok (mk a r)) := by
  intro fuel ω k b hb
  obtain ⟨a, h1, h2⟩ := Res.bind_eq_ok.mp hb
  cases h2
  refine ⟨a, [], rfl, matches_nil _ _, fun fuel' _ ω' k' _ => ?_⟩
  simp only
  rw [h1]
  rfl

theorem Adaptive.ok {mk : α → Stream → β} (a : α) : Adaptive mk (fun _ r => .ok (mk a r)) :=
  fun _ _ _ _ hb => ⟨a, [], by cases hb; rfl, matches_nil _ _, fun _ _ _ _ _ => rfl⟩

theorem Adaptive.panic {mk : α → Stream → β} : Adaptive mk (fun _ _ => .panic) :=
  fun _ _ _ _ hb => by cases hb

theorem Adaptive.diverge {mk : α → Stream → β} : Adaptive mk (fun _ _ => .diverge) :=
  fun _ _ _ _ hb => by cases hb

theorem Adaptive.constBind {mk : α → Stream → β} {x : Res γ} {g : γ → ℕ → Stream → Res β} (h : ∀ c, x = .ok c → Adaptive mk (g c)) :
    Adaptive mk (fun fuel r => x >>= fun c => g c fuel r) := by
  cases hx : x with
  | ok c => exact h c hx
  | panic => exact Adaptive.panic
  | diverge => exact Adaptive.diverge

theorem Adaptive.genRange (h : ℕ) : Adaptive Prod.mk (fun _ r => genRange r h) := by
  intro fuel ω k b hb
  have hh : 0 < h := by
    by_contra hc
    have : h = 0 := by omega
    subst this
    cases hb
  have hb' : Verif.genRange (⟨ω, k⟩ : Stream) h = .ok b := hb
  rw [Stream.genRange_eq _ hh] at hb'
  cases hb'
  refine ⟨_, [(h, partOf (ω k) h)], rfl, matches_single.mpr rfl, fun fuel' _ ω' k' hm => ?_⟩
  have h1 := matches_single.mp hm
  show Verif.genRange (⟨ω', k'⟩ : Stream) h = _
  rw [Stream.genRange_eq _ hh]
  show Res.ok (partOf (ω' k') h, _) = _
  rw [h1]
  rfl

theorem Adaptive.coin (p : ℚ) : Adaptive Prod.mk (fun _ r => .ok (coin r p)) := by
  intro fuel ω k b hb
  cases hb
  refine ⟨_, [(2 ^ 53, partOf (ω k) (2 ^ 53))], rfl, matches_single.mpr rfl, fun fuel' _ ω' k' hm => ?_⟩
  have h1 := matches_single.mp hm
  show Res.ok (decide ((partOf (ω' k') (2 ^ 53) : ℚ) / 2 ^ 53 ≤ p), _) = _
  rw [h1]
  rfl

theorem Adaptive.shuffle {ε : Type} (l : List ε) : Adaptive Prod.mk (fun _ r => .ok (Rng.shuffle r l)) := by
  intro fuel ω k b hb
  cases hb
  refine ⟨_, [(l.permutations.length, partOf (ω k) l.permutations.length)], rfl, matches_single.mpr rfl, fun fuel' _ ω' k' hm => ?_⟩
  have h1 := matches_single.mp hm
  show Res.ok (l.permutations.getD (partOf (ω' k') l.permutations.length) l, _) = _
  rw [h1]
  rfl

theorem Adaptive.foldlM {ε : Type} {step : ℕ → α × Stream → ε → Res (α × Stream)}
    (hs : ∀ x a, Adaptive Prod.mk (fun fuel r => step fuel (a, r) x)) :
    ∀ (l : List ε) (a : α), Adaptive Prod.mk (fun fuel r => l.foldlM (step fuel) (a, r)) := by
  intro l
  induction l with
  | nil => intro a; exact Adaptive.ok a
  | cons x l ih =>
    intro a
    have := (hs x a).bind (g := fun fuel b => l.foldlM (step fuel) b) (fun a' => ih a')
    simpa only [List.foldlM_cons] using this

/-! ## The probability does not depend on the position -/

theorem map_shift (k : ℕ) : uniformTape.map (fun (ω : ℕ → ℝ) t => ω (k + t)) = uniformTape := by
  have hmeas : Measurable (fun (ω : ℕ → ℝ) (t : ℕ) => ω (k + t)) :=
    measurable_pi_lambda _ (fun t => measurable_pi_apply (k + t))
  conv_rhs => rw [uniformTape]
  refine Measure.eq_infinitePi _ ?_
  intro s t ht
  rw [Measure.map_apply hmeas (MeasurableSet.pi s.countable_toSet (fun i _ => ht i))]
  have : (fun (ω : ℕ → ℝ) (t : ℕ) => ω (k + t)) ⁻¹' Set.pi s t =
      Set.pi (s.image (fun i => k + i) : Finset ℕ) (fun i => t (i - k)) := by
    ext ω
    simp only [Set.mem_preimage, Set.mem_pi, Finset.coe_image, Set.mem_image, Finset.mem_coe]
    constructor
    · rintro h _ ⟨i, hi, rfl⟩
      rw [Nat.add_sub_cancel_left]
      exact h i hi
    · intro h i hi
      have := h (k + i) ⟨i, hi, rfl⟩
      rwa [Nat.add_sub_cancel_left] at this
  rw [this, uniformTape, Measure.infinitePi_pi _ (fun i _ => ht _), Finset.prod_image (fun a _ b _ hab => by simpa using hab)]
  exact Finset.prod_congr rfl (fun i _ => by rw [Nat.add_sub_cancel_left])

/-- Every event about the result of a program has a probability, and it is the same from every position. -/
theorem Sampler.chance {Ret : (ℕ → ℝ) → ℕ → α → ℕ → Prop} (hS : Sampler Ret) (P : α → Prop) :
    ∃ w, Chance (fun ω k => ∃ a j, Ret ω k a j ∧ P a) w := by
  have hshift : ∀ ω k, (∃ a j, Ret ω k a j ∧ P a) ↔ ∃ a j, Ret (fun t => ω (k + t)) 0 a j ∧ P a := by
    intro ω k
    constructor
    · rintro ⟨a, j, hr, hp⟩
      obtain ⟨l, _, h1, h2⟩ := hS.loc hr
      refine ⟨a, _, h2 _ 0 ?_, hp⟩
      intro i hi
      have := h1 i hi
      simpa using this
    · rintro ⟨a, j, hr, hp⟩
      obtain ⟨l, _, h1, h2⟩ := hS.loc hr
      refine ⟨a, _, h2 _ k ?_, hp⟩
      intro i hi
      have := h1 i hi
      simpa using this
  have hmeas : ∀ k, MeasurableSet {ω | ∃ a j, Ret ω k a j ∧ P a} := by
    intro k
    have : {ω | ∃ a j, Ret ω k a j ∧ P a} = ⋃ l ∈ {l : List (ℕ × ℕ) | ∃ a, P a ∧ ∀ ω' k', Matches ω' k' l → Ret ω' k' a (k' + l.length)},
        {ω | Matches ω k l} := by
      ext ω
      simp only [Set.mem_ofPred_eq, Set.mem_iUnion, exists_prop]
      constructor
      · rintro ⟨a, j, hr, hp⟩
        obtain ⟨l, _, h1, h2⟩ := hS.loc hr
        exact ⟨l, ⟨a, hp, h2⟩, h1⟩
      · rintro ⟨l, ⟨a, hp, h2⟩, h1⟩
        exact ⟨a, _, h2 ω k h1, hp⟩
    rw [this]
    exact MeasurableSet.biUnion (Set.to_countable _) (fun l _ => measurableSet_matches k l)
  refine ⟨uniformTape {ω | ∃ a j, Ret ω 0 a j ∧ P a}, hmeas, ?_, ?_⟩
  · rintro k ω ω' hag ⟨a, j, hr, hp⟩
    exact ⟨a, j, hS.congr_tail hag hr, hp⟩
  · intro k
    have h1 : {ω | ∃ a j, Ret ω k a j ∧ P a} = (fun (ω : ℕ → ℝ) t => ω (k + t)) ⁻¹' {ω | ∃ a j, Ret ω 0 a j ∧ P a} := by
      ext ω
      exact hshift ω k
    have hm : Measurable (fun (ω : ℕ → ℝ) (t : ℕ) => ω (k + t)) :=
      measurable_pi_lambda _ (fun t => measurable_pi_apply (k + t))
    rw [h1, ← Measure.map_apply hm (hmeas 0), map_shift]

/-- A program that returns on almost every tape. -/
theorem Sampler.chance_one {Ret : (ℕ → ℝ) → ℕ → α → ℕ → Prop} (hS : Sampler Ret) {P : α → Prop}
    (h : ∀ᵐ ω ∂uniformTape, ∃ a j, Ret ω 0 a j ∧ P a) : Chance (fun ω k => ∃ a j, Ret ω k a j ∧ P a) 1 := by
  obtain ⟨w, hw⟩ := hS.chance P
  have h1 : uniformTape {ω | ∃ a j, Ret ω 0 a j ∧ P a} = 1 := by
    rw [← prob_compl_eq_zero_iff (hw.meas 0)]
    exact h
  rw [hw.prob 0] at h1
  rwa [← h1]

/-! ## Drawing until it fits -/

/-- Attempts are made until one succeeds. -/
inductive Until (Att : (ℕ → ℝ) → ℕ → Option α → ℕ → Prop) (ω : ℕ → ℝ) : ℕ → α → ℕ → Prop
  | done {k j : ℕ} {a : α} : Att ω k (some a) j → Until Att ω k a j
  | again {k i j : ℕ} {a : α} : Att ω k none i → Until Att ω i a j → Until Att ω k a j

theorem Sampler.until {Att : (ℕ → ℝ) → ℕ → Option α → ℕ → Prop} (hS : Sampler Att) : Sampler (Until Att) := by
  refine ⟨?_, ?_⟩
  · intro ω k a j h
    induction h with
    | done h =>
      obtain ⟨l, h1, h2, h3⟩ := hS.loc h
      exact ⟨l, h1, h2, fun ω' k' hm => .done (h3 ω' k' hm)⟩
    | again h _ ih =>
      obtain ⟨l, rfl, h2, h3⟩ := hS.loc h
      obtain ⟨l', rfl, h2', h3'⟩ := ih
      refine ⟨l ++ l', by simp [Nat.add_assoc], matches_append.mpr ⟨h2, h2'⟩, fun ω' k' hm => ?_⟩
      obtain ⟨m1, m2⟩ := matches_append.mp hm
      rw [List.length_append, ← Nat.add_assoc]
      exact .again (h3 ω' k' m1) (h3' ω' _ m2)
  · intro ω k a a' j j' h
    induction h with
    | done h =>
      intro h'
      cases h' with
      | done h' =>
        obtain ⟨h1, h2⟩ := hS.det h h'
        exact ⟨Option.some.inj h1, h2⟩
      | again h' _ =>
        obtain ⟨h1, _⟩ := hS.det h h'
        cases h1
    | again h _ ih =>
      intro h'
      cases h' with
      | done h' =>
        obtain ⟨h1, _⟩ := hS.det h h'
        cases h1
      | again h' h'' =>
        obtain ⟨_, h2⟩ := hS.det h h'
        subst h2
        exact ih h''

/-- **Drawing until it fits samples the conditional distribution.**  If an attempt fails with probability `r < 1` and succeeds with a
value with the property `P` with probability `s`, then the first success has the property with probability `s / (1 - r)`. -/
theorem chance_until {Att : (ℕ → ℝ) → ℕ → Option α → ℕ → Prop} (hS : Sampler Att) {P : α → Prop} {r s : ENNReal}
    (hr : Chance (fun ω k => ∃ j, Att ω k none j) r) (hr1 : r < 1)
    (hs : Chance (fun ω k => ∃ a j, Att ω k (some a) j ∧ P a) s) :
    Chance (fun ω k => ∃ a j, Until Att ω k a j ∧ P a) (s / (1 - r)) := by
  obtain ⟨x, hx⟩ := hS.until.chance P
  have hr' : Chance (fun ω k => ∃ a j, Att ω k a j ∧ a = none) r :=
    hr.congr fun ω k => ⟨fun ⟨j, h⟩ => ⟨none, j, h, rfl⟩, fun ⟨a, j, h, ha⟩ => ⟨j, by rw [← ha]; exact h⟩⟩
  have h1 := chance_bind hS (P := fun a => a = none) hr' (Q := fun _ ω k => ∃ a j, Until Att ω k a j ∧ P a) (fun _ _ => hx)
  have h2 := hs.or h1 (by
    rintro ω k ⟨a, j, h, _⟩ ⟨a', j', h', ha, _⟩
    have := (hS.det h h').1
    rw [ha] at this
    cases this)
  have h3 := h2.congr (Q' := fun ω k => ∃ a j, Until Att ω k a j ∧ P a) (by
    intro ω k
    constructor
    · rintro (⟨a, j, h, hp⟩ | ⟨a, j, h, rfl, a', j', h', hp⟩)
      · exact ⟨a, j, .done h, hp⟩
      · exact ⟨a', j', .again h h', hp⟩
    · rintro ⟨a, j, h, hp⟩
      cases h with
      | done h => exact Or.inl ⟨a, j, h, hp⟩
      | again h h' => exact Or.inr ⟨_, _, h, rfl, a, j, h', hp⟩)
  have h4 := hx.unique h3
  have hxf : x ≠ ⊤ := by
    rw [← hx.prob 0]; exact measure_ne_top _ _
  have hrf : r ≠ ⊤ := (hr1.trans_le le_top).ne
  have h5 : x * (1 - r) = s := by
    rw [ENNReal.mul_sub (fun _ _ => hxf), mul_one]
    have : r * x ≠ ⊤ := ENNReal.mul_ne_top hrf hxf
    rw [mul_comm x r]
    exact (ENNReal.eq_sub_of_add_eq this h4.symm).symm
  have h6 : 1 - r ≠ 0 := by
    rw [Ne, tsub_eq_zero_iff_le, not_le]; exact hr1
  have : x = s / (1 - r) := by
    rw [ENNReal.eq_div_iff h6 (ENNReal.sub_ne_top ENNReal.one_ne_top), mul_comm]
    exact h5
  rwa [← this]

end Verif
