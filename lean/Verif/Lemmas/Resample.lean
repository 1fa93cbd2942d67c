import Verif.Lemmas.ChainLaw
import Mathlib.Probability.StrongLaw
import Mathlib.Probability.CentralLimitTheorem

/-!
# Samples drawn one after the other

A function that builds a new network from the random numbers, whatever the present network is, can be called again and again.  What is
seen after the calls is a sequence of independent random variables, all with the same law.  Averages converge, with a known error.
-/

set_option linter.unusedSectionVars false
set_option linter.unusedSimpArgs false

namespace Verif
open MeasureTheory ProbabilityTheory Filter

variable {C F O : Type}

/-- `n` times: `randomize`, then look at the ensemble.  This is how `simple_sample_vec` (trait `SimpleSample` of the sampling crate, shown
in src/lib.rs:106-143) uses `randomize`; there the first look comes before the first call. -/
def samples (rnd : F → Res F) (look : F → O) (n : ℕ) (e : F) : Res (List O × F) :=
  mSteps (fun e => do
    let e ← rnd e
    return (look e, e)) n e

/-- What has to be known about `randomize`: `V` holds for the states in question, `o` is what is looked at and `w` its law, which does not
depend on the state before the call. -/
structure Resample (put : C → Stream → F) (rnd : ℕ → F → Res F) (V : C → Prop) (o : C → O) (Ω : Finset O) (w : O → ENNReal) : Prop where
  joins : Joins put
  adaptive : ∀ c, Adaptive put (fun fuel r => rnd fuel (put c r))
  keeps : ∀ c, V c → ∀ {ω k c' j}, RetOf put (fun fuel r => rnd fuel (put c r)) ω k c' j → V c' ∧ o c' ∈ Ω
  chance : ∀ c, V c → ∀ y ∈ Ω, Chance (fun ω k => ∃ c' j, RetOf put (fun fuel r => rnd fuel (put c r)) ω k c' j ∧ o c' = y) (w y)

namespace Resample

variable [DecidableEq O] {put : C → Stream → F} {rnd : ℕ → F → Res F} {V : C → Prop} {o : C → O} {Ω : Finset O} {w : O → ENNReal}

/-- One call and one look. -/
def one (rnd : ℕ → F → Res F) (look : F → O) (fuel : ℕ) (e : F) : Res (O × F) := do
  let e ← rnd fuel e
  return (look e, e)

theorem one_adaptive (h : Resample put rnd V o Ω w) {look : F → O} (hl : ∀ c r, look (put c r) = o c) (c : C) :
    Adaptive (mkStep put) (fun fuel r => one rnd look fuel (put c r)) := by
  refine Adaptive.bind (mk := put) (f := fun fuel r => rnd fuel (put c r)) (g := fun _ e => .ok (look e, e)) (h.adaptive c) ?_
  intro c'
  have : (fun (_ : ℕ) (r : Stream) => (Res.ok (look (put c' r), put c' r))) = fun _ r => .ok (mkStep put (o c', c') r) := by
    funext _ r; rw [hl]; rfl
  rw [this]
  exact Adaptive.ok _

theorem one_ret (h : Resample put rnd V o Ω w) {look : F → O} (hl : ∀ c r, look (put c r) = o c) {c c' : C} {y : O} {ω : ℕ → ℝ} {k j : ℕ} :
    RetOf (mkStep put) (fun fuel r => one rnd look fuel (put c r)) ω k (y, c') j ↔
      RetOf put (fun fuel r => rnd fuel (put c r)) ω k c' j ∧ y = o c' := by
  have h1 := RetOf.bind_iff (mk := put) (mk' := mkStep put) (f := fun fuel r => rnd fuel (put c r)) (g := fun _ e => .ok (look e, e))
    (h.adaptive c) (ω := ω) (k := k) (j := j) (c := (y, c'))
  refine Iff.trans h1 ?_
  constructor
  · rintro ⟨c1, i, h2, F, hF⟩
    have h3 : (Res.ok (look (put c1 (⟨ω, i⟩ : Stream)), put c1 (⟨ω, i⟩ : Stream))) = .ok (y, put c' (⟨ω, j⟩ : Stream)) := hF F (le_refl F)
    injection h3 with h3
    obtain ⟨k1, k2⟩ := Prod.mk.inj h3
    obtain ⟨k3, k4⟩ := h.joins k2
    injection k4 with _ k5
    subst k3 k5
    exact ⟨h2, by rw [← k1, hl]⟩
  · rintro ⟨h2, rfl⟩
    refine ⟨c', j, h2, 0, fun _ _ => ?_⟩
    show (Res.ok (look (put c' (⟨ω, j⟩ : Stream)), put c' (⟨ω, j⟩ : Stream))) = .ok (o c', put c' (⟨ω, j⟩ : Stream))
    rw [hl]

/-- The samples seen in `n` calls, from position `k` of the tape. -/
def Seq (put : C → Stream → F) (rnd : ℕ → F → Res F) (look : F → O) (c : C) (n : ℕ) (ω : ℕ → ℝ) (k : ℕ) (l : List O) (c' : C) (j : ℕ) : Prop :=
  RetOf (mkStep put) (fun fuel r => mSteps (one rnd look fuel) n (put c r)) ω k (l, c') j

theorem seq_zero (h : Resample put rnd V o Ω w) {look : F → O} {c c' : C} {l : List O} {ω : ℕ → ℝ} {k j : ℕ} :
    Seq put rnd look c 0 ω k l c' j ↔ l = [] ∧ c' = c ∧ j = k := mSteps_ret_zero h.joins

theorem seq_succ (h : Resample put rnd V o Ω w) {look : F → O} (hl : ∀ c r, look (put c r) = o c) {n : ℕ} {c c' : C} {l : List O}
    {ω : ℕ → ℝ} {k j : ℕ} : Seq put rnd look c (n + 1) ω k l c' j ↔
      ∃ c1 i l', RetOf put (fun fuel r => rnd fuel (put c r)) ω k c1 i ∧ l = o c1 :: l' ∧ Seq put rnd look c1 n ω i l' c' j := by
  unfold Seq
  rw [mSteps_ret_succ h.joins (fun c => h.one_adaptive hl c)]
  constructor
  · rintro ⟨s, c1, i, l', h1, rfl, h3⟩
    obtain ⟨h4, rfl⟩ := (h.one_ret hl).mp h1
    exact ⟨c1, i, l', h4, rfl, h3⟩
  · rintro ⟨c1, i, l', h1, rfl, h3⟩
    exact ⟨o c1, c1, i, l', (h.one_ret hl).mpr ⟨h1, rfl⟩, rfl, h3⟩

theorem seq_sampler (h : Resample put rnd V o Ω w) {look : F → O} (hl : ∀ c r, look (put c r) = o c) (n : ℕ) (c : C) :
    Sampler (RetOf (mkStep put) (fun fuel r => mSteps (one rnd look fuel) n (put c r))) :=
  (mSteps_adaptive (fun c => h.one_adaptive hl c) n c).sampler (joins_mkStep h.joins)

theorem seq_det (h : Resample put rnd V o Ω w) {look : F → O} (hl : ∀ c r, look (put c r) = o c) {n : ℕ} {c c' c'' : C} {l l' : List O}
    {ω : ℕ → ℝ} {k j j' : ℕ} (h1 : Seq put rnd look c n ω k l c' j) (h2 : Seq put rnd look c n ω k l' c'' j') : l = l' :=
  congrArg Prod.fst ((h.seq_sampler hl n c).det h1 h2).1

theorem seq_length (h : Resample put rnd V o Ω w) {look : F → O} (hl : ∀ c r, look (put c r) = o c) : ∀ {n : ℕ} {c c' : C} {l : List O}
    {ω : ℕ → ℝ} {k j : ℕ}, Seq put rnd look c n ω k l c' j → l.length = n := by
  intro n
  induction n with
  | zero => intro c c' l ω k j h1; rw [(h.seq_zero.mp h1).1]; rfl
  | succ n ih =>
    intro c c' l ω k j h1
    obtain ⟨c1, i, l', _, rfl, h3⟩ := (h.seq_succ hl).mp h1
    rw [List.length_cons, ih h3]

/-- More calls do not change what was seen before. -/
theorem seq_prefix (h : Resample put rnd V o Ω w) {look : F → O} (hl : ∀ c r, look (put c r) = o c) : ∀ {n m : ℕ} {c c' : C} {l : List O}
    {ω : ℕ → ℝ} {k j : ℕ}, n ≤ m → Seq put rnd look c m ω k l c' j → ∃ c'' j', Seq put rnd look c n ω k (l.take n) c'' j' := by
  intro n
  induction n with
  | zero => intro m c c' l ω k j _ _; exact ⟨c, k, h.seq_zero.mpr ⟨rfl, rfl, rfl⟩⟩
  | succ n ih =>
    intro m c c' l ω k j hnm h1
    obtain ⟨m, rfl⟩ : ∃ m', m = m' + 1 := ⟨m - 1, by omega⟩
    obtain ⟨c1, i, l', h2, rfl, h3⟩ := (h.seq_succ hl).mp h1
    obtain ⟨c'', j', h4⟩ := ih (by omega) h3
    exact ⟨c'', j', (h.seq_succ hl).mpr ⟨c1, i, l'.take n, h2, rfl, h4⟩⟩

/-- **The calls are independent**: for prescribed sets, one for each call, the probability that all calls return and every sample lies in
its set is the product of the probabilities of the sets. -/
theorem joint (h : Resample put rnd V o Ω w) {look : F → O} (hl : ∀ c r, look (put c r) = o c) : ∀ (As : List (Finset O)),
    (∀ A ∈ As, A ⊆ Ω) → ∀ c, V c →
    Chance (fun ω k => ∃ l c' j, Seq put rnd look c As.length ω k l c' j ∧ List.Forall₂ (fun y A => y ∈ A) l As)
      ((As.map fun A => ∑ y ∈ A, w y).prod) := by
  intro As
  induction As with
  | nil =>
    intro _ c _
    refine Chance.true.congr fun ω k => ?_
    simp only [true_iff]
    exact ⟨[], c, k, h.seq_zero.mpr ⟨rfl, rfl, rfl⟩, List.Forall₂.nil⟩
  | cons A As ih =>
    intro hA c hc
    have h1 : Chance (fun ω k => ∃ c' j, RetOf put (fun fuel r => rnd fuel (put c r)) ω k c' j ∧ (V c' ∧ o c' ∈ A)) (∑ y ∈ A, w y) := by
      refine (Chance.sum A (fun y hy => h.chance c hc y (hA A (List.mem_cons_self ..) hy)) ?_).congr fun ω k => ?_
      · rintro y _ y' _ ω k ⟨c1, j1, a1, rfl⟩ ⟨c2, j2, a2, rfl⟩
        rw [(((h.adaptive c).sampler h.joins).det a1 a2).1]
      · constructor
        · rintro ⟨y, hy, c', j, a1, rfl⟩
          exact ⟨c', j, a1, (h.keeps c hc a1).1, hy⟩
        · rintro ⟨c', j, a1, _, a2⟩
          exact ⟨o c', a2, c', j, a1, rfl⟩
    have h2 := chance_bind ((h.adaptive c).sampler h.joins) h1 (fun c' hc' => ih (fun A' hA' => hA A' (List.mem_cons_of_mem _ hA')) c' hc'.1)
    rw [List.map_cons, List.prod_cons]
    refine h2.congr fun ω k => ?_
    constructor
    · rintro ⟨c1, i, a1, ⟨_, a2⟩, l', c', j, a3, a4⟩
      exact ⟨o c1 :: l', c', j, (h.seq_succ hl).mpr ⟨c1, i, l', a1, rfl, a3⟩, List.Forall₂.cons a2 a4⟩
    · rintro ⟨l, c', j, a1, a2⟩
      obtain ⟨c1, i, l', b1, rfl, b3⟩ := (h.seq_succ hl).mp a1
      cases a2 with
      | cons d1 d2 => exact ⟨c1, i, b1, ⟨(h.keeps c hc b1).1, d1⟩, l', c', j, b3, d2⟩

/-- The probability of a given list of samples. -/
theorem exact_list (h : Resample put rnd V o Ω w) {look : F → O} (hl : ∀ c r, look (put c r) = o c) {ys : List O} (hy : ∀ y ∈ ys, y ∈ Ω)
    {c : C} (hc : V c) (k : ℕ) :
    uniformTape {ω | ∃ fuel e', samples (rnd fuel) look ys.length (put c ⟨ω, k⟩) = .ok (ys, e')} = (ys.map w).prod := by
  have h1 := (h.joint hl (ys.map fun y => {y}) (by simpa using hy) c hc).prob k
  rw [List.map_map] at h1
  have h2 : ((fun A : Finset O => ∑ y ∈ A, w y) ∘ fun y : O => ({y} : Finset O)) = w := by funext y; simp
  rw [h2] at h1
  rw [← h1]
  congr 1
  ext ω
  simp only [Set.mem_ofPred_eq, List.length_map]
  have hall : ∀ l, List.Forall₂ (fun y (A : Finset O) => y ∈ A) l (ys.map fun y => {y}) ↔ l = ys := by
    intro l
    rw [List.forall₂_map_right_iff]
    simp only [Finset.mem_singleton]
    exact List.forall₂_eq_eq_eq ▸ Iff.rfl
  constructor
  · rintro ⟨fuel, e', h3⟩
    have h3' : mSteps (one rnd look fuel) ys.length (put c (⟨ω, k⟩ : Stream)) = .ok (ys, e') := h3
    obtain ⟨⟨l, c'⟩, j, h4, h5⟩ := (mSteps_adaptive (fun c => h.one_adaptive hl c) ys.length c).ret (r := ⟨ω, k⟩) h3'
    have h6 : (ys, e') = (l, put c' (⟨ω, j⟩ : Stream)) := h4
    obtain ⟨rfl, rfl⟩ := Prod.mk.inj h6
    exact ⟨_, c', j, h5, (hall _).mpr rfl⟩
  · rintro ⟨l, c', j, ⟨F, hF⟩, h4⟩
    rw [hall] at h4
    subst h4
    exact ⟨F, _, hF F (le_refl F)⟩

/-- What is seen after one call, with some fuel. -/
theorem seen_iff {look : F → O} (hl : ∀ c r, look (put c r) = o c) {c : C} (ha : Adaptive put (fun fuel r => rnd fuel (put c r)))
    {ω : ℕ → ℝ} {k : ℕ} {y : O} : (∃ fuel e', rnd fuel (put c (⟨ω, k⟩ : Stream)) = .ok e' ∧ look e' = y) ↔
      ∃ c' j, RetOf put (fun fuel r => rnd fuel (put c r)) ω k c' j ∧ o c' = y := by
  constructor
  · rintro ⟨fuel, e', h1, h2⟩
    obtain ⟨c', j, rfl, h4⟩ := ha.ret (r := ⟨ω, k⟩) h1
    exact ⟨c', j, h4, by rw [← h2, hl]⟩
  · rintro ⟨c', j, ⟨F, hF⟩, rfl⟩
    exact ⟨F, _, hF F (le_refl F), hl c' _⟩

/-- The law of a single call, known from the first position of the tape, is enough. -/
theorem of_law (hj : Joins put) (ha : ∀ c, Adaptive put (fun fuel r => rnd fuel (put c r))) {look : F → O} (hl : ∀ c r, look (put c r) = o c)
    (hk : ∀ c, V c → ∀ {fuel r c' r'}, rnd fuel (put c r) = .ok (put c' r') → V c' ∧ o c' ∈ Ω)
    (hw : ∀ c, V c → ∀ y ∈ Ω, uniformTape {ω | ∃ fuel e', rnd fuel (put c (⟨ω, 0⟩ : Stream)) = .ok e' ∧ look e' = y} = w y) :
    Resample put rnd V o Ω w := by
  refine ⟨hj, ha, ?_, ?_⟩
  · rintro c hc ω k c' j ⟨F, hF⟩
    exact hk c hc (hF F (le_refl F))
  · intro c hc y hy
    obtain ⟨v, hv⟩ := ((ha c).sampler hj).chance (fun c' => o c' = y)
    have h1 : v = w y := by
      rw [← hw c hc y hy, ← hv.prob 0]
      congr 1
      ext ω
      exact (seen_iff hl (ha c)).symm
    rwa [h1] at hv

/-- If the calls return with probability one then the law is a probability distribution. -/
theorem total (h : Resample put rnd V o Ω w) {c : C} (hc : V c)
    (hret : ∀ᵐ ω ∂uniformTape, ∃ fuel e', rnd fuel (put c (⟨ω, 0⟩ : Stream)) = .ok e') : ∑ y ∈ Ω, w y = 1 := by
  have h1 := Chance.sum Ω (fun y hy => h.chance c hc y hy) (by
    rintro y _ y' _ ω k ⟨c1, j1, a1, rfl⟩ ⟨c2, j2, a2, rfl⟩
    rw [(((h.adaptive c).sampler h.joins).det a1 a2).1])
  rw [← h1.prob 0, ← mem_ae_iff_prob_eq_one (h1.meas 0)]
  filter_upwards [hret] with ω hω
  obtain ⟨fuel, e', h2⟩ := hω
  obtain ⟨c', j, rfl, h4⟩ := (h.adaptive c).ret (r := ⟨ω, 0⟩) h2
  exact ⟨o c', (h.keeps c hc h4).2, c', j, h4, rfl⟩

end Resample

/-! ## The samples as random variables -/

/-- `X i` is what is seen after call number `i` of a run of `rnd`, started at `start`: with probability one all calls return and show
these values.  The samples are independent and all have the law `w`, which lives on `Ω`. -/
structure Sampled (rnd : ℕ → F → Res F) (look : F → O) (start : Stream → F) (Ω : Finset O) (w : O → ENNReal)
    (X : ℕ → (ℕ → ℝ) → O) : Prop where
  runs : ∀ᵐ ω ∂uniformTape, ∀ n, ∃ f₀, ∀ fuel, f₀ ≤ fuel →
    ∃ e', samples (rnd fuel) look n (start ⟨ω, 0⟩) = .ok ((List.range n).map (X · ω), e')
  meas : ∀ i (A : Set O), MeasurableSet {ω | X i ω ∈ A}
  indep : ∀ (S : Finset ℕ) (A : ℕ → Set O), uniformTape {ω | ∀ i ∈ S, X i ω ∈ A i} = ∏ i ∈ S, uniformTape {ω | X i ω ∈ A i}
  law : ∀ i, ∀ y ∈ Ω, uniformTape {ω | X i ω = y} = w y
  mem : ∀ i, ∀ᵐ ω ∂uniformTape, X i ω ∈ Ω

namespace Resample

variable [DecidableEq O] {put : C → Stream → F} {rnd : ℕ → F → Res F} {V : C → Prop} {o : C → O} {Ω : Finset O} {w : O → ENNReal}

/-- The sample number `i`. -/
def Seen (put : C → Stream → F) (rnd : ℕ → F → Res F) (look : F → O) (c : C) (i : ℕ) (ω : ℕ → ℝ) (y : O) : Prop :=
  ∃ l c' j, Seq put rnd look c (i + 1) ω 0 l c' j ∧ l[i]? = some y

open Classical in
/-- The sample number `i`; the present value if the calls do not return. -/
noncomputable def val (put : C → Stream → F) (rnd : ℕ → F → Res F) (look : F → O) (o : C → O) (Ω : Finset O) (c : C) (i : ℕ) (ω : ℕ → ℝ) : O :=
  if h : ∃ y, y ∈ Ω ∧ Seen put rnd look c i ω y then h.choose else o c

theorem seen_unique (h : Resample put rnd V o Ω w) {look : F → O} (hl : ∀ c r, look (put c r) = o c) {c : C} {i : ℕ} {ω : ℕ → ℝ} {y y' : O}
    (h1 : Seen put rnd look c i ω y) (h2 : Seen put rnd look c i ω y') : y = y' := by
  obtain ⟨l, c1, j1, a1, a2⟩ := h1
  obtain ⟨l', c2, j2, b1, b2⟩ := h2
  have := h.seq_det hl a1 b1
  subst this
  exact Option.some.inj (a2.symm.trans b2)

theorem val_eq (h : Resample put rnd V o Ω w) {look : F → O} (hl : ∀ c r, look (put c r) = o c) {c : C} {i : ℕ} {ω : ℕ → ℝ} {y : O}
    (hy : y ∈ Ω) (h1 : Seen put rnd look c i ω y) : val put rnd look o Ω c i ω = y := by
  have hex : ∃ y, y ∈ Ω ∧ Seen put rnd look c i ω y := ⟨y, hy, h1⟩
  unfold val
  rw [dif_pos hex]
  exact h.seen_unique hl hex.choose_spec.2 h1

theorem seq_mem (h : Resample put rnd V o Ω w) {look : F → O} (hl : ∀ c r, look (put c r) = o c) : ∀ {n : ℕ} {c c' : C} {l : List O}
    {ω : ℕ → ℝ} {k j : ℕ}, V c → Seq put rnd look c n ω k l c' j → ∀ y ∈ l, y ∈ Ω := by
  intro n
  induction n with
  | zero => intro c c' l ω k j _ h1; rw [(h.seq_zero.mp h1).1]; simp
  | succ n ih =>
    intro c c' l ω k j hc h1
    obtain ⟨c1, i, l', h2, rfl, h3⟩ := (h.seq_succ hl).mp h1
    intro y hy
    rcases List.mem_cons.mp hy with rfl | hy
    · exact (h.keeps c hc h2).2
    · exact ih (h.keeps c hc h2).1 h3 y hy

/-- What is seen in a run are the values. -/
theorem seq_val (h : Resample put rnd V o Ω w) {look : F → O} (hl : ∀ c r, look (put c r) = o c) {c c' : C} (hc : V c) {n : ℕ} {l : List O}
    {ω : ℕ → ℝ} {j : ℕ} (h1 : Seq put rnd look c n ω 0 l c' j) : l = (List.range n).map (val put rnd look o Ω c · ω) := by
  apply List.ext_getElem
  · rw [h.seq_length hl h1]; simp
  · intro i hi _
    have hin : i < n := by rw [h.seq_length hl h1] at hi; exact hi
    obtain ⟨c'', j', h2⟩ := h.seq_prefix hl (n := i + 1) hin h1
    simp only [List.getElem_map, List.getElem_range]
    refine (h.val_eq hl (h.seq_mem hl hc h1 _ (List.getElem_mem hi)) ⟨_, c'', j', h2, ?_⟩).symm
    rw [List.getElem?_take, if_pos (by omega), List.getElem?_eq_getElem hi]

theorem sampled (h : Resample put rnd V o Ω w) (hw : ∑ y ∈ Ω, w y = 1) {look : F → O} (hl : ∀ c r, look (put c r) = o c) {c : C} (hc : V c) :
    Sampled rnd look (put c) Ω w (val put rnd look o Ω c) := by
  classical
  set X := val put rnd look o Ω c with hX
  have hret : ∀ n, ∀ᵐ ω ∂uniformTape, ∃ l c' j, Seq put rnd look c n ω 0 l c' j := by
    intro n
    have h1 := h.joint hl (List.replicate n Ω) (fun A hA => by rw [(List.mem_replicate.mp hA).2]) c hc
    rw [List.map_replicate, List.prod_replicate, hw, one_pow, List.length_replicate] at h1
    have h2 := h1.prob 0
    have h3 := (mem_ae_iff_prob_eq_one (h1.meas 0)).mpr h2
    filter_upwards [h3] with ω hω
    obtain ⟨l, c', j, a, _⟩ := hω
    exact ⟨l, c', j, a⟩
  have hseen : ∀ i, ∀ y ∈ Ω, MeasurableSet {ω | Seen put rnd look c i ω y} := by
    intro i y hy
    have h1 := h.joint hl (List.replicate i Ω ++ [{y}]) (fun A hA => by
      rcases List.mem_append.mp hA with hA | hA
      · rw [(List.mem_replicate.mp hA).2]
      · rw [List.mem_singleton.mp hA]; simpa using hy) c hc
    have h2 : {ω | Seen put rnd look c i ω y} = {ω | ∃ l c' j, Seq put rnd look c (List.replicate i Ω ++ [{y}]).length ω 0 l c' j ∧
        List.Forall₂ (fun y A => y ∈ A) l (List.replicate i Ω ++ [{y}])} := by
      ext ω
      simp only [Set.mem_ofPred_eq, Seen, List.length_append, List.length_replicate, List.length_singleton]
      constructor
      · rintro ⟨l, c', j, a1, a2⟩
        refine ⟨l, c', j, a1, List.forall₂_iff_get.mpr ⟨by rw [h.seq_length hl a1]; simp, ?_⟩⟩
        intro t ht ht'
        rw [h.seq_length hl a1] at ht
        simp only [List.get_eq_getElem]
        rcases Nat.lt_or_ge t i with hlt | hge
        · rw [List.getElem_append_left (by simpa using hlt), List.getElem_replicate]
          exact h.seq_mem hl hc a1 _ (List.getElem_mem _)
        · obtain rfl : t = i := by omega
          rw [List.getElem_append_right (by simp)]
          have := (List.getElem?_eq_some_iff.mp a2).2
          simp [this]
      · rintro ⟨l, c', j, a1, a2⟩
        refine ⟨l, c', j, a1, ?_⟩
        obtain ⟨b1, b2⟩ := List.forall₂_iff_get.mp a2
        have hi : i < l.length := by rw [h.seq_length hl a1]; omega
        have := b2 i hi (by simp)
        simp only [List.get_eq_getElem] at this
        rw [List.getElem_append_right (by simp)] at this
        simp only [List.length_replicate, Nat.sub_self, List.getElem_cons_zero, Finset.mem_singleton] at this
        rw [List.getElem?_eq_getElem hi, this]
    rw [h2]
    exact h1.meas 0
  have hmeas : ∀ i (A : Set O), MeasurableSet {ω | X i ω ∈ A} := by
    intro i A
    have h1 : {ω | X i ω ∈ A} = (⋃ y ∈ Ω.filter (· ∈ A), {ω | Seen put rnd look c i ω y}) ∪
        (if o c ∈ A then (⋃ y ∈ Ω, {ω | Seen put rnd look c i ω y})ᶜ else ∅) := by
      ext ω
      by_cases hex : ∃ y, y ∈ Ω ∧ Seen put rnd look c i ω y
      · obtain ⟨y, hy, hs⟩ := hex
        have hv : X i ω = y := h.val_eq hl hy hs
        have hne : ω ∉ (if o c ∈ A then (⋃ y ∈ Ω, {ω | Seen put rnd look c i ω y})ᶜ else ∅) := by
          split
          · intro hc'
            exact hc' (Set.mem_biUnion hy hs)
          · simp
        simp only [Set.mem_union, hne, or_false, Set.mem_ofPred_eq, hv, Set.mem_iUnion, Finset.mem_filter, exists_prop]
        constructor
        · exact fun ha => ⟨y, ⟨hy, ha⟩, hs⟩
        · rintro ⟨y', ⟨_, ha⟩, hs'⟩
          rw [h.seen_unique hl hs hs']; exact ha
      · have hv : X i ω = o c := by rw [hX]; unfold val; rw [dif_neg hex]
        have hn : ω ∉ ⋃ y ∈ Ω, {ω | Seen put rnd look c i ω y} := by
          simp only [Set.mem_iUnion, Set.mem_ofPred_eq, exists_prop]
          exact hex
        have hn' : ω ∉ ⋃ y ∈ Ω.filter (· ∈ A), {ω | Seen put rnd look c i ω y} := by
          simp only [Set.mem_iUnion, Set.mem_ofPred_eq, exists_prop, Finset.mem_filter]
          rintro ⟨y, ⟨hy, _⟩, hs⟩
          exact hex ⟨y, hy, hs⟩
        simp only [Set.mem_union, hn', false_or, Set.mem_ofPred_eq, hv]
        split
        · rename_i ha
          simp only [ha, true_iff]
          exact hn
        · rename_i ha
          simp [ha]
    rw [h1]
    refine MeasurableSet.union (Finset.measurableSet_biUnion _ fun y hy => hseen i y (Finset.mem_filter.mp hy).1) ?_
    split
    · exact (Finset.measurableSet_biUnion _ fun y hy => hseen i y hy).compl
    · exact MeasurableSet.empty
  have hprod : ∀ (S : Finset ℕ) (A : ℕ → Set O), uniformTape {ω | ∀ i ∈ S, X i ω ∈ A i} =
      ∏ i ∈ S, ∑ y ∈ Ω.filter (· ∈ A i), w y := by
    intro S A
    obtain ⟨n, hn⟩ : ∃ n, ∀ i ∈ S, i < n := ⟨S.sup id + 1, fun i hi => Nat.lt_succ_of_le (Finset.le_sup (f := id) hi)⟩
    set As : List (Finset O) := (List.range n).map fun i => if i ∈ S then Ω.filter (· ∈ A i) else Ω with hAs
    have h1 := (h.joint hl As (fun B hB => by
      obtain ⟨i, _, rfl⟩ := List.mem_map.mp hB
      split
      · exact Finset.filter_subset _ _
      · exact le_refl _) c hc).prob 0
    have h2 : uniformTape {ω | ∀ i ∈ S, X i ω ∈ A i} = uniformTape {ω | ∃ l c' j, Seq put rnd look c As.length ω 0 l c' j ∧
        List.Forall₂ (fun y A => y ∈ A) l As} := by
      refine measure_congr ?_
      filter_upwards [hret n] with ω hω
      apply propext
      have hlen : As.length = n := by simp [hAs]
      obtain ⟨l, c', j, hs⟩ := hω
      have hlv := h.seq_val hl hc hs
      have hmem := h.seq_mem hl hc hs
      constructor
      · intro ha
        have ha : ∀ i ∈ S, X i ω ∈ A i := ha
        refine ⟨l, c', j, by rw [hlen]; exact hs, List.forall₂_iff_get.mpr ⟨by rw [h.seq_length hl hs, hlen], ?_⟩⟩
        intro t ht ht'
        have hin : l.get ⟨t, ht⟩ ∈ Ω := hmem _ (List.get_mem _ _)
        have hx : l.get ⟨t, ht⟩ = X t ω := by
          simp only [List.get_eq_getElem]
          simp only [hlv, List.getElem_map, List.getElem_range]
          rw [hX]
        simp only [hAs, List.get_eq_getElem, List.getElem_map, List.getElem_range] at hin hx ⊢
        split
        · rename_i hS
          exact Finset.mem_filter.mpr ⟨hin, by rw [hx]; exact ha t hS⟩
        · exact hin
      · rintro ⟨l', c'', j', hs', hf⟩
        rw [hlen] at hs'
        obtain rfl := h.seq_det hl hs hs'
        obtain ⟨b1, b2⟩ := List.forall₂_iff_get.mp hf
        show ∀ i ∈ S, X i ω ∈ A i
        intro i hi
        have hil : i < l.length := by rw [h.seq_length hl hs]; exact hn i hi
        have hx : l.get ⟨i, hil⟩ = X i ω := by
          simp only [List.get_eq_getElem]
          simp only [hlv, List.getElem_map, List.getElem_range]
          rw [hX]
        have := b2 i hil (by rw [hlen]; exact hn i hi)
        rw [hx] at this
        simp only [hAs, List.get_eq_getElem, List.getElem_map, List.getElem_range, hi, if_true] at this
        exact (Finset.mem_filter.mp this).2
    rw [h2, h1, hAs, List.map_map, ← List.prod_toFinset _ (List.nodup_range), List.toFinset_range]
    rw [← Finset.prod_subset (s₁ := S) (fun i hi => Finset.mem_range.mpr (hn i hi))]
    · exact Finset.prod_congr rfl fun i hi => by simp only [Function.comp, hi, if_true]
    · intro i _ hi
      simp only [Function.comp, hi, if_false]
      exact hw
  have hsingle : ∀ i (A : Set O), uniformTape {ω | X i ω ∈ A} = ∑ y ∈ Ω.filter (· ∈ A), w y := by
    intro i A
    have := hprod {i} (fun _ => A)
    simpa using this
  refine ⟨?_, hmeas, ?_, ?_, ?_⟩
  · rw [ae_all_iff]
    intro n
    filter_upwards [hret n] with ω hω
    obtain ⟨l, c', j, hs⟩ := hω
    have hlv := h.seq_val hl hc hs
    obtain ⟨f₀, hf⟩ := hs
    refine ⟨f₀, fun fuel hfuel => ⟨put c' ⟨ω, j⟩, ?_⟩⟩
    rw [← hlv]
    exact hf fuel hfuel
  · intro S A
    rw [hprod]
    exact Finset.prod_congr rfl fun i _ => (hsingle i (A i)).symm
  · intro i y hy
    have := hsingle i {y}
    simp only [Set.mem_singleton_iff] at this
    rw [this, Finset.sum_filter, Finset.sum_ite_eq' , if_pos hy]
  · intro i
    have := hsingle i (Ω : Set O)
    have this : uniformTape {ω | X i ω ∈ (Ω : Set O)} = 1 := by rw [this, ← hw]; congr 1; ext y; simp
    have := (mem_ae_iff_prob_eq_one (hmeas i _)).mpr this
    filter_upwards [this] with ω hω
    exact hω

end Resample

/-! ## Averages over the samples -/

/-- The mean of a quantity under a law on a finite set. -/
noncomputable def lawMean (Ω : Finset O) (w : O → ENNReal) (f : O → ℝ) : ℝ := ∑ y ∈ Ω, (w y).toReal * f y

/-- The variance of a quantity under a law on a finite set. -/
noncomputable def lawVar (Ω : Finset O) (w : O → ENNReal) (f : O → ℝ) : ℝ := ∑ y ∈ Ω, (w y).toReal * (f y - lawMean Ω w f) ^ 2

namespace Sampled

variable {rnd : ℕ → F → Res F} {look : F → O} {start : Stream → F} {Ω : Finset O} {w : O → ENNReal} {X : ℕ → (ℕ → ℝ) → O}

open Classical in
theorem event (h : Sampled rnd look start Ω w X) (i : ℕ) (A : Set O) : uniformTape {ω | X i ω ∈ A} = ∑ y ∈ Ω.filter (· ∈ A), w y := by
  have h1 : uniformTape {ω | X i ω ∈ A} = uniformTape (⋃ y ∈ Ω.filter (· ∈ A), {ω | X i ω = y}) := by
    refine measure_congr ?_
    filter_upwards [h.mem i] with ω hω
    apply propext
    show X i ω ∈ A ↔ ω ∈ ⋃ y ∈ Ω.filter (· ∈ A), {ω | X i ω = y}
    simp only [Set.mem_iUnion, Finset.mem_filter, Set.mem_ofPred_eq, exists_prop]
    exact ⟨fun ha => ⟨X i ω, ⟨hω, ha⟩, rfl⟩, fun ⟨y, ⟨_, ha⟩, hy⟩ => by rw [hy]; exact ha⟩
  rw [h1, measure_biUnion_finset]
  · exact Finset.sum_congr rfl fun y hy => h.law i y (Finset.mem_filter.mp hy).1
  · intro y _ y' _ hne
    rw [Function.onFun, Set.disjoint_left]
    intro ω h1 h2
    exact hne (Eq.trans (Eq.symm h1) h2)
  · intro y _
    exact h.meas i {y}

theorem measurable (h : Sampled rnd look start Ω w X) (f : O → ℝ) (i : ℕ) : Measurable (fun ω => f (X i ω)) := by
  intro s _
  exact h.meas i (f ⁻¹' s)

theorem iIndep (h : Sampled rnd look start Ω w X) (f : ℕ → O → ℝ) : iIndepFun (fun i ω => f i (X i ω)) uniformTape := by
  rw [iIndepFun_iff_measure_inter_preimage_eq_mul]
  intro S sets _
  have h1 := h.indep S (fun i => f i ⁻¹' sets i)
  have h2 : (⋂ i ∈ S, (fun ω => f i (X i ω)) ⁻¹' sets i) = {ω | ∀ i ∈ S, X i ω ∈ f i ⁻¹' sets i} := by
    ext ω; simp
  rw [h2]
  exact h1

theorem ident (h : Sampled rnd look start Ω w X) (f : O → ℝ) (i : ℕ) :
    IdentDistrib (fun ω => f (X i ω)) (fun ω => f (X 0 ω)) uniformTape uniformTape := by
  refine ⟨(h.measurable f i).aemeasurable, (h.measurable f 0).aemeasurable, ?_⟩
  ext s hs
  rw [Measure.map_apply (h.measurable f i) hs, Measure.map_apply (h.measurable f 0) hs]
  exact (h.event i (f ⁻¹' s)).trans (h.event 0 (f ⁻¹' s)).symm

theorem bounded (h : Sampled rnd look start Ω w X) (f : O → ℝ) (i : ℕ) :
    ∀ᵐ ω ∂uniformTape, ‖f (X i ω)‖ ≤ ∑ y ∈ Ω, ‖f y‖ := by
  filter_upwards [h.mem i] with ω hω
  exact Finset.single_le_sum (f := fun y => ‖f y‖) (fun y _ => norm_nonneg _) hω

theorem memLp (h : Sampled rnd look start Ω w X) (f : O → ℝ) (i : ℕ) (p : ENNReal) : MemLp (fun ω => f (X i ω)) p uniformTape :=
  MemLp.of_bound (h.measurable f i).aestronglyMeasurable _ (h.bounded f i)

theorem integrable (h : Sampled rnd look start Ω w X) (f : O → ℝ) (i : ℕ) : Integrable (fun ω => f (X i ω)) uniformTape :=
  memLp_one_iff_integrable.mp (h.memLp f i 1)

theorem integral (h : Sampled rnd look start Ω w X) (f : O → ℝ) (i : ℕ) : ∫ ω, f (X i ω) ∂uniformTape = lawMean Ω w f := by
  classical
  have hm : ∀ y, MeasurableSet {ω | X i ω = y} := fun y => h.meas i {y}
  have h1 : ∫ ω, f (X i ω) ∂uniformTape = ∫ ω, ∑ y ∈ Ω, {ω | X i ω = y}.indicator (fun _ => f y) ω ∂uniformTape := by
    refine integral_congr_ae ?_
    filter_upwards [h.mem i] with ω hω
    rw [Finset.sum_eq_single (X i ω)]
    · rw [Set.indicator_of_mem (by rfl)]
    · intro y _ hy
      exact Set.indicator_of_notMem (fun hc => hy (Eq.symm hc)) _
    · intro hc; exact absurd hω hc
  rw [h1, integral_finsetSum _ (fun y _ => (integrable_const (f y)).indicator (hm y))]
  refine Finset.sum_congr rfl fun y hy => ?_
  rw [integral_indicator (hm y), setIntegral_const, measureReal_def, h.law i y hy, smul_eq_mul]

theorem variance (h : Sampled rnd look start Ω w X) (f : O → ℝ) (i : ℕ) :
    ProbabilityTheory.variance (fun ω => f (X i ω)) uniformTape = lawVar Ω w f := by
  rw [variance_eq_integral (h.measurable f i).aemeasurable, h.integral f i]
  exact h.integral (fun y => (f y - lawMean Ω w f) ^ 2) i

/-- **The averages converge with probability one.** -/
theorem average (h : Sampled rnd look start Ω w X) (f : O → ℝ) :
    ∀ᵐ ω ∂uniformTape, Tendsto (fun n : ℕ => (∑ i ∈ Finset.range n, f (X i ω)) / n) atTop (nhds (lawMean Ω w f)) := by
  have h1 := strong_law_ae (fun i ω => f (X i ω)) (h.integrable f 0) (fun i j hij => (h.iIndep fun _ => f).indepFun hij)
    (fun i => h.ident f i)
  filter_upwards [h1] with ω hω
  rw [h.integral f 0] at hω
  refine hω.congr fun n => ?_
  rw [smul_eq_mul, div_eq_inv_mul]

/-- The variance of the average over `n` samples is the variance of the quantity divided by `n`. -/
theorem average_variance (h : Sampled rnd look start Ω w X) (f : O → ℝ) {n : ℕ} (hn : 0 < n) :
    ProbabilityTheory.variance (fun ω => (∑ i ∈ Finset.range n, f (X i ω)) / n) uniformTape = lawVar Ω w f / n := by
  have hn' : (n : ℝ) ≠ 0 := by exact_mod_cast hn.ne'
  have h1 : (fun ω => (∑ i ∈ Finset.range n, f (X i ω)) / n) = fun ω => (n : ℝ)⁻¹ * (∑ i ∈ Finset.range n, fun ω => f (X i ω)) ω := by
    funext ω
    rw [Finset.sum_apply, div_eq_inv_mul]
  rw [h1, variance_const_mul, IndepFun.variance_sum (fun i _ => h.memLp f i 2) (fun i _ j _ hij => (h.iIndep fun _ => f).indepFun hij)]
  rw [Finset.sum_congr rfl (fun i _ => h.variance f i), Finset.sum_const, Finset.card_range, nsmul_eq_mul]
  field_simp

/-- **How far the average over `n` samples is from the mean.** -/
theorem average_error (h : Sampled rnd look start Ω w X) (f : O → ℝ) {n : ℕ} (hn : 0 < n) {δ : ℝ} (hδ : 0 < δ) :
    uniformTape {ω | δ ≤ |(∑ i ∈ Finset.range n, f (X i ω)) / n - lawMean Ω w f|} ≤ ENNReal.ofReal (lawVar Ω w f / (n * δ ^ 2)) := by
  have hn' : (n : ℝ) ≠ 0 := by exact_mod_cast hn.ne'
  have hLp : MemLp (fun ω => (∑ i ∈ Finset.range n, f (X i ω)) / n) 2 uniformTape := by
    have := (memLp_finsetSum (Finset.range n) (fun i _ => h.memLp f i 2)).const_mul ((n : ℝ)⁻¹)
    refine this.congr_norm ?_ ?_
    · exact (Finset.measurable_fun_sum _ (fun i _ => h.measurable f i)).div_const _ |>.aestronglyMeasurable
    · refine Filter.Eventually.of_forall fun ω => ?_
      rw [div_eq_inv_mul]
  have hE : ∫ ω, (∑ i ∈ Finset.range n, f (X i ω)) / n ∂uniformTape = lawMean Ω w f := by
    rw [integral_div, integral_finsetSum _ (fun i _ => h.integrable f i), Finset.sum_congr rfl (fun i _ => h.integral f i),
      Finset.sum_const, Finset.card_range, nsmul_eq_mul]
    field_simp
  have h2 := meas_ge_le_variance_div_sq hLp hδ
  rw [hE, h.average_variance f hn] at h2
  refine h2.trans (le_of_eq ?_)
  congr 1
  field_simp

/-- **The error is normally distributed in the limit.** -/
theorem average_normal (h : Sampled rnd look start Ω w X) (f : O → ℝ) (hv : 0 < lawVar Ω w f) {a b : ℝ} (hab : a ≤ b) :
    Tendsto (fun n : ℕ => uniformTape {ω | a ≤ √n * ((∑ i ∈ Finset.range n, f (X i ω)) / n - lawMean Ω w f) ∧
      √n * ((∑ i ∈ Finset.range n, f (X i ω)) / n - lawMean Ω w f) ≤ b}) atTop
      (nhds (gaussianReal 0 (lawVar Ω w f).toNNReal (Set.Icc a b))) := by
  have hvar : Var[fun ω => f (X 0 ω); uniformTape] = lawVar Ω w f := h.variance f 0
  have hE : uniformTape[fun ω => f (X 0 ω)] = lawMean Ω w f := h.integral f 0
  have hclt := tendstoInDistribution_inv_sqrt_mul_sum_sub (P := uniformTape) (X := fun i ω => f (X i ω)) (Y := id)
    (P' := gaussianReal 0 (lawVar Ω w f).toNNReal) (by rw [hvar]; exact ⟨aemeasurable_id, Measure.map_id⟩)
    (h.memLp f 0 2) (h.iIndep fun _ => f) (fun i => h.ident f i)
  have hT := hclt.tendsto
  have hne : (lawVar Ω w f).toNNReal ≠ 0 := by rw [Ne, Real.toNNReal_eq_zero]; exact not_le.mpr hv
  have hnull : gaussianReal 0 (lawVar Ω w f).toNNReal (frontier (Set.Icc a b)) = 0 := by
    have := nullSingletonClass_gaussianReal (μ := 0) hne
    rw [frontier_Icc hab]
    exact (Set.Countable.measure_zero (Set.countable_insert |>.mpr (Set.countable_singleton _)) _)
  have := ProbabilityMeasure.tendsto_measure_of_null_frontier_of_tendsto' hT (E := Set.Icc a b) (by
    show (Measure.map id _) _ = 0
    rw [Measure.map_id]; exact hnull)
  have hlim : (Measure.map id (gaussianReal 0 (lawVar Ω w f).toNNReal)) (Set.Icc a b) = gaussianReal 0 (lawVar Ω w f).toNNReal (Set.Icc a b) := by
    rw [Measure.map_id]
  have this : Tendsto (fun n : ℕ => (Measure.map (fun ω => (√n)⁻¹ * (∑ k ∈ Finset.range n, f (X k ω) - n * ∫ ω, f (X 0 ω) ∂uniformTape)) uniformTape)
      (Set.Icc a b)) atTop (nhds (gaussianReal 0 (lawVar Ω w f).toNNReal (Set.Icc a b))) := hlim ▸ this
  refine this.congr fun n => ?_
  rw [Measure.map_apply (by
    exact ((Finset.measurable_fun_sum _ (fun i _ => h.measurable f i)).sub_const _).const_mul _) measurableSet_Icc]
  congr 1
  ext ω
  rw [h.integral f 0]
  have he : (√n)⁻¹ * (∑ k ∈ Finset.range n, f (X k ω) - n * lawMean Ω w f) =
      √n * ((∑ i ∈ Finset.range n, f (X i ω)) / n - lawMean Ω w f) := by
    rcases Nat.eq_zero_or_pos n with rfl | hpos
    · simp
    · have h1 : (0 : ℝ) < n := by exact_mod_cast hpos
      have h2 : √(n : ℝ) ≠ 0 := (Real.sqrt_pos.mpr h1).ne'
      have h3 : √(n : ℝ) * √n = n := Real.mul_self_sqrt h1.le
      rw [inv_mul_eq_div, div_eq_iff h2]
      have : √(n : ℝ) * ((∑ i ∈ Finset.range n, f (X i ω)) / n - lawMean Ω w f) * √n =
          (√(n : ℝ) * √n) * ((∑ i ∈ Finset.range n, f (X i ω)) / n - lawMean Ω w f) := by ring
      rw [this, h3]
      field_simp
  simp only [Set.mem_preimage, Set.mem_Icc, Set.mem_ofPred_eq, he]

end Sampled

end Verif
