import Verif.Lemmas.Rounds
import Verif.Lemmas.AtLeast
import Verif.Props.ConfigChance
import Verif.Lemmas.ChainConfig
import Verif.Lemmas.WsPlace
import Verif.Lemmas.DogChance
import Verif.Props.Spacial

/-!
# C96: how many rounds the loops that draw until it fits take

The loops of `ConfigurationModel::randomize` and `m_step` (src/configuration_model.rs), of `add_random_edge`
(src/watts_strogatz/ensemble.rs) and of `DogEnsemble::randomize` (src/spacial/dog_networks.rs) have no bound.  In the model the first
argument (`fuel`) is the number of rounds that are allowed (for `Config.randomize` one more, for the last test of the `while`
condition), so "`f n e` returns" says that `n` rounds are enough, and
`roundsNeeded` is the least such `n`.
-/

set_option linter.unusedSectionVars false
set_option linter.unusedSimpArgs false

namespace Verif
open AdjContainer GenericGraph MeasureTheory ProbabilityTheory

variable {T : Type}

namespace Config

/-- `randomize` is done after `n` rounds iff one of the first `n` orders of the halves can be joined. -/
theorem randomize_within {d : List ℕ} (hev : d.sum % 2 = 0) (hpos : 0 < d.sum) {ω : ℕ → ℝ} {E : Finset (Sym2 ℕ)} {n k : ℕ}
    {e : Config T Stream} (h : e.Base) (hd : e.degreeVec = d) (hr : e.rng = ⟨ω, k⟩) :
    (∃ e', e.randomize (n + 1) = .ok e' ∧ e'.graph.edges = E) ↔ ∃ j, UntilN Attempt ω n e.backup k E j := by
  induction n generalizing e k with
  | zero =>
    constructor
    · rintro ⟨e', h1, _⟩
      exfalso
      unfold randomize randLoop at h1
      simp only at h1
      split at h1
      · rename_i he
        have hb : (Rng.shuffle e.rng e.backup).1 = [] := by simpa using he
        have := (Rng.shuffle_perm e.rng e.backup).length_eq
        rw [hb, h.halves.length, hd] at this
        simp at this
        omega
      · obtain ⟨⟨b, g, hf⟩, _, h8⟩ := Res.bind_eq_ok.mp h1
        dsimp only at h8
        split at h8 <;> cases h8
    · rintro ⟨j, hj⟩; exact hj.elim
  | succ n ih =>
    rcases randomize_step h (hd ▸ hev) with ⟨g', h3, h4⟩ | ⟨g', h3, h4, h5, h6⟩
    · rw [h4 n]
      rw [hr] at h3
      constructor
      · rintro ⟨e', h1, h2⟩
        rw [← Res.ok.inj h1] at h2
        have h2 : g'.edges = E := h2
        exact ⟨k + 1, Or.inl ⟨rfl, h2 ▸ h3⟩⟩
      · rintro ⟨j, ⟨_, hj⟩ | ⟨s', i, ⟨_, hj1, hj2⟩, _⟩⟩
        · have hj : joined (Rng.shuffle (⟨ω, k⟩ : Stream) e.backup).1 = some E := hj
          exact ⟨_, rfl, Option.some.inj (h3.symm.trans hj)⟩
        · rw [← hj2, hj1] at h3; cases h3
    · rw [h6 (n + 1)]
      rw [hr] at h3
      have hb : (⟨g', e.degreeVec, e.rng.skip 1, e.halfs, (Rng.shuffle e.rng e.backup).1⟩ : Config T Stream).Base :=
        ⟨h4, by rw [← h.n]; exact h5, h.halves.perm (Rng.shuffle_perm e.rng e.backup)⟩
      rw [ih (k := k + 1) hb hd (by rw [hr]; rfl)]
      constructor
      · rintro ⟨j, hj⟩
        exact ⟨j, Or.inr ⟨_, k + 1, ⟨rfl, by rw [← hr] at h3; exact h3, by rw [hr]⟩, hj⟩⟩
      · rintro ⟨j, ⟨_, hj⟩ | ⟨s', i, ⟨rfl, hj1, hj2⟩, hj⟩⟩
        · have hj : joined (Rng.shuffle (⟨ω, k⟩ : Stream) e.backup).1 = some E := hj
          rw [h3] at hj; cases hj
        · rw [hj2] at hj
          refine ⟨j, ?_⟩
          rw [hr]
          exact hj

theorem attempt_fail {d b : List ℕ} (hb : IsHalves d b) : Chance (fun ω k => ∃ s' j, Attempt b ω k (.inl s') j)
    (1 - (allWays d : ENNReal) * (((halvesOf d).permutations.length : ℕ) : ENNReal)⁻¹) := by
  refine (chance_shuffle hb (fun t => joined t ≠ none)).not.congr fun ω k => ?_
  rw [not_ne_iff]
  exact ⟨fun h => ⟨_, _, rfl, h, rfl⟩, fun ⟨s', j, _, h1, h2⟩ => by rw [← h2]; exact h1⟩

theorem attempt_good {d b : List ℕ} (hb : IsHalves d b) : Chance (fun ω k => ∃ a j, Attempt b ω k (.inr a) j)
    ((allWays d : ENNReal) * (((halvesOf d).permutations.length : ℕ) : ENNReal)⁻¹) := by
  refine (chance_shuffle hb (fun t => joined t ≠ none)).congr fun ω k => ?_
  constructor
  · intro h
    obtain ⟨E, hE⟩ := Option.ne_none_iff_exists'.mp h
    exact ⟨E, _, rfl, hE⟩
  · rintro ⟨E, j, _, h⟩
    have h : joined (Rng.shuffle (⟨ω, k⟩ : Stream) b).1 = some E := h
    rw [h]; simp

theorem length_orders (d : List ℕ) : (halvesOf d).permutations.length = d.sum.factorial := by
  rw [List.length_permutations]
  congr 1
  exact (halves_init d).length

theorem share_le_one (d : List ℕ) : (allWays d : ENNReal) / (d.sum.factorial : ENNReal) ≤ 1 := by
  refine ENNReal.div_le_of_le_mul ?_
  rw [one_mul, ← length_orders]
  exact_mod_cast List.countP_le_length

theorem rounds_chance {e : Config T Stream} (h : e.Base) (n : ℕ) :
    Chance (fun ω k => ∃ a j, UntilN Attempt ω n e.backup k a j)
      (1 - (1 - (allWays e.degreeVec : ENNReal) / (e.degreeVec.sum.factorial : ENNReal)) ^ n) := by
  have hq := share_le_one e.degreeVec
  rw [div_eq_mul_inv, ← length_orders] at hq ⊢
  exact chance_rounds attempt_sampler (I := IsHalves e.degreeVec) (by
    rintro b ω k b' j hb ⟨_, _, rfl⟩
    exact hb.perm (Rng.shuffle_perm _ _)) hq (fun b hb => attempt_fail hb) (fun b hb => attempt_good hb) n e.backup h.halves

end Config

/-- **C96, `ConfigurationModel::randomize`.**  One round of the `while` loop (one shuffle, joining as far as possible) succeeds with
probability `q` = (orders of the halves that can be joined) / (all orders), so `n` rounds are enough with probability
`1 - (1 - q)ⁿ`, … -/
theorem C96_config_within {e : Config T Stream} (h : e.Base) (hev : e.degreeVec.sum % 2 = 0) (hpos : 0 < e.degreeVec.sum) (n k : ℕ) :
    uniformTape {ω | ∃ e', Config.randomize (n + 1) ({ e with rng := ⟨ω, k⟩ } : Config T Stream) = .ok e'} =
      1 - (1 - (allWays e.degreeVec : ENNReal) / (e.degreeVec.sum.factorial : ENNReal)) ^ n := by
  rw [← (Config.rounds_chance h n).prob k]
  congr 1
  ext ω
  have hb : ({ e with rng := ⟨ω, k⟩ } : Config T Stream).Base := ⟨h.wf, h.n, h.halves⟩
  constructor
  · rintro ⟨e', h1⟩
    obtain ⟨j, hj⟩ := (Config.randomize_within hev hpos hb rfl rfl).mp ⟨e', h1, rfl⟩
    exact ⟨_, j, hj⟩
  · rintro ⟨a, j, hj⟩
    obtain ⟨e', h1, _⟩ := (Config.randomize_within hev hpos hb rfl rfl).mpr ⟨j, hj⟩
    exact ⟨e', h1⟩

/-- … and on average `1 / q` rounds are needed (infinitely many if no network with these degrees exists). -/
theorem C96_config_rounds {e : Config T Stream} (h : e.Base) (hev : e.degreeVec.sum % 2 = 0) (hpos : 0 < e.degreeVec.sum) (k : ℕ) :
    ∫⁻ ω, roundsNeeded (fun n => ∃ e', Config.randomize (n + 1) ({ e with rng := ⟨ω, k⟩ } : Config T Stream) = .ok e') ∂uniformTape =
      (e.degreeVec.sum.factorial : ENNReal) / (allWays e.degreeVec : ENNReal) := by
  have hiff : ∀ n ω, (∃ e', Config.randomize (n + 1) ({ e with rng := ⟨ω, k⟩ } : Config T Stream) = .ok e') ↔
      ∃ a j, UntilN Config.Attempt ω n e.backup k a j := by
    intro n ω
    have hb : ({ e with rng := ⟨ω, k⟩ } : Config T Stream).Base := ⟨h.wf, h.n, h.halves⟩
    constructor
    · rintro ⟨e', h1⟩
      obtain ⟨j, hj⟩ := (Config.randomize_within hev hpos hb rfl rfl).mp ⟨e', h1, rfl⟩
      exact ⟨_, j, hj⟩
    · rintro ⟨a, j, hj⟩
      obtain ⟨e', h1, _⟩ := (Config.randomize_within hev hpos hb rfl rfl).mpr ⟨j, hj⟩
      exact ⟨e', h1⟩
  simp only [hiff]
  rw [rounds_mean (done := fun n ω => ∃ a j, UntilN Config.Attempt ω n e.backup k a j)
    (fun n ω ⟨a, j, hj⟩ => ⟨a, j, untilN_mono hj⟩) (fun n => (Config.rounds_chance h n).meas k) (Config.share_le_one _)
    (fun n => (Config.rounds_chance h n).prob k)]
  exact ENNReal.inv_div (Or.inl (ENNReal.natCast_ne_top _)) (Or.inl (by exact_mod_cast (Nat.factorial_pos _).ne'))

/-! ## `ConfigurationModel::m_step` -/

theorem card_positions (l : List ℕ) (x : ℕ) : ((Finset.range l.length).filter (fun i => l.getD i 0 = x)).card = l.count x := by
  have h1 : l = (List.range l.length).map (fun i => l.getD i 0) := by
    apply List.ext_getElem
    · simp
    · intro i h1 h2
      simp [h1]
  conv => rhs; rw [h1]
  rw [List.count, List.countP_map, List.countP_eq_length_filter,
    ← List.toFinset_card_of_nodup (List.nodup_range.filter _)]
  congr 1
  ext i
  simp

/-- The positions drawn second, for a first position `i`, are those different from `i`. -/
theorem card_second (l : List ℕ) {i : ℕ} (hi : i < l.length) :
    ((Finset.range (l.length - 1)).filter (fun j => l.getD i 0 = l.getD (secondPos (i, j)) 0)).card = l.count (l.getD i 0) - 1 := by
  rw [← card_positions, ← Finset.card_erase_of_mem (s := (Finset.range l.length).filter (fun t => l.getD t 0 = l.getD i 0)) (a := i)
    (Finset.mem_filter.mpr ⟨Finset.mem_range.mpr hi, rfl⟩)]
  refine Finset.card_nbij (fun j => secondPos (i, j)) ?_ ?_ ?_
  · intro j hj
    obtain ⟨h1, h2⟩ := Finset.mem_filter.mp hj
    have h1 := Finset.mem_range.mp h1
    refine Finset.mem_erase.mpr ⟨?_, Finset.mem_filter.mpr ⟨Finset.mem_range.mpr (secondPos_lt hi h1), h2.symm⟩⟩
    unfold secondPos; simp only; split <;> omega
  · intro a _ b _ h
    unfold secondPos at h
    simp only at h
    split at h <;> split at h <;> omega
  · intro t ht
    obtain ⟨h1, h2⟩ := Finset.mem_erase.mp ht
    obtain ⟨h2, h3⟩ := Finset.mem_filter.mp h2
    have h2 := Finset.mem_range.mp h2
    have hs : secondPos (i, if t < i then t else t - 1) = t := by
      unfold secondPos
      simp only
      split_ifs <;> omega
    refine ⟨if t < i then t else t - 1, Finset.mem_coe.mpr (Finset.mem_filter.mpr ⟨Finset.mem_range.mpr ?_, ?_⟩), hs⟩
    · split <;> omega
    · rw [hs, h3]

/-- The number of ways to draw two halves of different vertices. -/
theorem card_good {d l : List ℕ} (h : IsHalves d l) :
    (Config.good l).card + (d.map fun x => x * (x - 1)).sum = d.sum * (d.sum - 1) := by
  classical
  have h1 := Finset.card_filter_add_card_filter_not (s := Finset.range l.length ×ˢ Finset.range (l.length - 1))
    (fun p => l.getD p.1 0 ≠ l.getD (secondPos p) 0)
  rw [Finset.card_product, Finset.card_range, Finset.card_range, h.length] at h1
  rw [← h1]
  unfold Config.good
  rw [h.length]
  congr 1
  rw [← h.length]
  rw [Finset.card_filter, Finset.sum_product]
  have h2 : ∀ i ∈ Finset.range l.length, ∑ j ∈ Finset.range (l.length - 1),
      (if ¬ l.getD (i, j).1 0 ≠ l.getD (secondPos (i, j)) 0 then 1 else 0) = l.count (l.getD i 0) - 1 := by
    intro i hi
    rw [← card_second l (Finset.mem_range.mp hi), Finset.card_filter]
    simp only [not_not]
  rw [Finset.sum_congr rfl h2, Finset.sum_range, ← List.sum_ofFn]
  have h3 : (List.ofFn fun i : Fin l.length => l.count (l.getD i 0) - 1) = l.map fun x => l.count x - 1 := by
    apply List.ext_getElem
    · simp
    · intro i h1 h2
      simp at h1
      simp [h1]
  rw [h3, Finset.sum_list_map_count l]
  have h4 : ∑ m ∈ l.toFinset, l.count m • (l.count m - 1) = ∑ v ∈ Finset.range d.length, d.getD v 0 * (d.getD v 0 - 1) := by
    refine Eq.trans (Finset.sum_subset (s₂ := Finset.range d.length) (fun v hv => ?_) (fun v _ hv => ?_)) (Finset.sum_congr rfl fun v _ => ?_)
    · exact Finset.mem_range.mpr (h.lt (List.mem_toFinset.mp hv))
    · rw [List.count_eq_zero_of_not_mem (fun hc => hv (List.mem_toFinset.mpr hc)), zero_smul]
    · rw [h v, smul_eq_mul]
  rw [h4, Finset.sum_range, ← List.sum_ofFn]
  congr 1
  apply List.ext_getElem
  · simp
  · intro i h1 h2
    simp at h1
    simp [h1]

namespace Config

theorem drawVertices_rounds {l : List ℕ} (hl : 2 ≤ l.length) {ω : ℕ → ℝ} {n k j : ℕ} {p : ℕ × ℕ} :
    drawVertices n (⟨ω, k⟩ : Stream) l = .ok (p, ⟨ω, j⟩) ↔
      ∃ d, UntilN (ReadAttempt l.length (l.length - 1) (good l)) ω n () k d j ∧ p = vertsAt l d := by
  have hmem : ∀ k, (partOf (ω k) l.length, partOf (ω (k + 1)) (l.length - 1)) ∈ good l ↔
      l.getD (partOf (ω k) l.length) 0 ≠ l.getD (secondPos (partOf (ω k) l.length, partOf (ω (k + 1)) (l.length - 1))) 0 := by
    intro k
    rw [mem_good]
    exact ⟨fun h => h.2.2, fun h => ⟨partOf_lt _ (by omega), partOf_lt _ (by omega), h⟩⟩
  induction n generalizing k with
  | zero => exact ⟨fun h => (by cases h), fun ⟨_, h, _⟩ => h.elim⟩
  | succ n ih =>
    rw [drawVertices_stream hl]
    split
    · rename_i hs
      refine (ih (k := k + 2)).trans ?_
      constructor
      · rintro ⟨d, h1, h2⟩
        exact ⟨d, Or.inr ⟨(), k + 2, ⟨rfl, fun hc => (hmem k).mp hc hs⟩, h1⟩, h2⟩
      · rintro ⟨d, ⟨_, h1, h3⟩ | ⟨_, i, ⟨rfl, _⟩, h1⟩, h2⟩
        · exact absurd hs ((hmem k).mp (h1 ▸ h3))
        · exact ⟨d, h1, h2⟩
    · rename_i hs
      constructor
      · intro h
        simp only [Res.ok.injEq, Prod.mk.injEq, Stream.mk.injEq, true_and] at h
        obtain ⟨h1, rfl⟩ := h
        exact ⟨_, Or.inl ⟨rfl, rfl, (hmem k).mpr hs⟩, h1.symm⟩
      · rintro ⟨d, ⟨rfl, rfl, h3⟩ | ⟨_, i, ⟨_, h1⟩, _⟩, rfl⟩
        · rfl
        · exact absurd ((hmem k).mpr hs) h1

theorem untilN_read_mem {m n : ℕ} {A : Finset (ℕ × ℕ)} {ω : ℕ → ℝ} {N k j : ℕ} {a : ℕ × ℕ}
    (h : UntilN (ReadAttempt m n A) ω N () k a j) : a ∈ A := by
  induction N generalizing k with
  | zero => exact h.elim
  | succ N ih =>
    obtain ⟨_, _, h⟩ | ⟨_, i, _, h⟩ := h
    · exact h
    · exact ih h

theorem stepWith_total {e : Config T Script} (h1 : e.Inv) {d : Σ _ : ℕ × ℕ, ℕ × ℕ} (hd : d ∈ e.stepDraws) :
    ∃ e', e.stepWith d = .ok e' := by
  obtain ⟨⟨i, j⟩, u, v⟩ := d
  obtain ⟨q1, q2, q3, q4, q5⟩ := mem_stepDraws.mp hd
  obtain ⟨s, g, a1, a2, _⟩ := mStep_script h1 0 q1 q2 q3 (u := u) (v := v)
    (by rw [h1.nbrs_length]; exact q4) (by rw [h1.nbrs_length]; exact q5)
  exact ⟨_, stepWith_eq_ok.mpr ⟨s, a1 []⟩⟩

theorem mStep_within {e : Config T Stream} (h : e.Inv) (h2 : 2 ≤ e.backup.length) {ω : ℕ → ℝ} {n k : ℕ} :
    (∃ s e', mStep n ({ e with rng := ⟨ω, k⟩ } : Config T Stream) = .ok (s, e')) ↔
      ∃ d j, UntilN (ReadAttempt e.backup.length (e.backup.length - 1) (good e.backup)) ω n () k d j := by
  have hf : mStep n ({ e with rng := ⟨ω, k⟩ } : Config T Stream) = _ := mStep_factor n e.core (⟨ω, k⟩ : Stream)
  rw [hf]
  constructor
  · rintro ⟨s, e', h1⟩
    obtain ⟨⟨p, r⟩, h3, _⟩ := Res.bind_eq_ok.mp h1
    obtain ⟨ω', j⟩ := r
    obtain ⟨a, bs, h4, _, _⟩ := drawVertices_adaptive e.backup n ω k _ h3
    rw [h4] at h3
    obtain ⟨d, h5, _⟩ := (drawVertices_rounds h2).mp h3
    exact ⟨d, _, h5⟩
  · rintro ⟨d, j, h1⟩
    have hd := untilN_read_mem h1
    rw [show drawVertices n (⟨ω, k⟩ : Stream) e.core.backup = _ from (drawVertices_rounds h2).mpr ⟨d, h1, rfl⟩]
    have hi : (put e.core (⟨[]⟩ : Script)).Inv := ⟨⟨h.wf, h.n, h.halves⟩, h.deg⟩
    have h3 := rest_stream hi hd ω j
    obtain ⟨d1, d2, d3⟩ := mem_good.mp hd
    have hsd : (⟨d, (partOf (ω j) ((put e.core (⟨[]⟩ : Script)).degAt d.1), partOf (ω (j + 1)) ((put e.core (⟨[]⟩ : Script)).degAt (secondPos d)))⟩ :
        Σ _ : ℕ × ℕ, ℕ × ℕ) ∈ (put e.core (⟨[]⟩ : Script)).stepDraws :=
      mem_stepDraws.mpr ⟨d1, d2, d3, partOf_lt _ (degAt_pos hi.toBase d1), partOf_lt _ (degAt_pos hi.toBase (secondPos_lt d1 d2))⟩
    obtain ⟨e', h4⟩ := stepWith_total hi hsd
    rw [stepWith_eq hi hsd] at h4
    obtain ⟨a, b1, b2⟩ := Res.bind_eq_ok.mp h4
    refine ⟨a.1, put a.2 ⟨ω, j + 2⟩, ?_⟩
    refine Eq.trans (show _ = rest e.core (vertsAt e.backup d) (⟨ω, j⟩ : Stream) from rfl) (h3.trans ?_)
    rw [b1]
    rfl

end Config

/-- A loop that draws until it fits, seen from outside: how often `n` rounds are enough, and how many are needed on average. -/
theorem rounds_law {σ α : Type} {Att : σ → (ℕ → ℝ) → ℕ → σ ⊕ α → ℕ → Prop} {done : ℕ → (ℕ → ℝ) → Prop} {s : σ} {k : ℕ}
    (hiff : ∀ n ω, done n ω ↔ ∃ a j, UntilN Att ω n s k a j) {q : ENNReal} (hq : q ≤ 1)
    (hc : ∀ n, Chance (fun ω k => ∃ a j, UntilN Att ω n s k a j) (1 - (1 - q) ^ n)) :
    (∀ n, uniformTape {ω | done n ω} = 1 - (1 - q) ^ n) ∧ ∫⁻ ω, roundsNeeded (fun n => done n ω) ∂uniformTape = q⁻¹ := by
  have hset : ∀ n, {ω | done n ω} = {ω | ∃ a j, UntilN Att ω n s k a j} := fun n => Set.ext fun ω => hiff n ω
  refine ⟨fun n => by rw [hset]; exact (hc n).prob k, rounds_mean ?_ (fun n => by rw [hset]; exact (hc n).meas k) hq
    (fun n => by rw [hset]; exact (hc n).prob k)⟩
  intro n ω h
  obtain ⟨a, j, hj⟩ := (hiff n ω).mp h
  exact (hiff (n + 1) ω).mpr ⟨a, j, untilN_mono hj⟩

theorem Config.mStep_rounds {e : Config T Stream} (h : e.Inv) (h2 : 2 ≤ e.backup.length) (k : ℕ) :
    (∀ n, uniformTape {ω | ∃ s e', mStep n ({ e with rng := ⟨ω, k⟩ } : Config T Stream) = .ok (s, e')} =
      1 - (1 - ((good e.backup).card : ENNReal) * ((e.backup.length * (e.backup.length - 1) : ℕ) : ENNReal)⁻¹) ^ n) ∧
    ∫⁻ ω, roundsNeeded (fun n => ∃ s e', mStep n ({ e with rng := ⟨ω, k⟩ } : Config T Stream) = .ok (s, e')) ∂uniformTape =
      (((good e.backup).card : ENNReal) * ((e.backup.length * (e.backup.length - 1) : ℕ) : ENNReal)⁻¹)⁻¹ := by
  set m := e.backup.length with hm
  set A := good e.backup with hA
  have hcA : ((Finset.range m ×ˢ Finset.range (m - 1)).filter (fun x => x ∈ A)) = A := by
    rw [Finset.filter_mem_eq_inter]; exact Finset.inter_eq_right.mpr (Finset.filter_subset _ _)
  have hd := chance_draw_pair (m := m) (n := m - 1) (by omega) (by omega) (fun x => x ∈ A)
  rw [hcA] at hd
  have hq : (A.card : ENNReal) * ((m * (m - 1) : ℕ) : ENNReal)⁻¹ ≤ 1 := by rw [← hd.prob 0]; exact prob_le_one
  refine rounds_law (Att := ReadAttempt m (m - 1) A) (s := ()) (k := k) (fun n ω => mStep_within h h2) hq fun n => ?_
  refine chance_rounds (I := fun _ => True) (readAttempt_sampler m (m - 1) A) (fun _ _ => trivial) hq ?_ ?_ n () trivial
  · exact fun _ _ => hd.not.congr fun ω k => ⟨fun h => ⟨(), k + 2, rfl, h⟩, fun ⟨_, _, _, h⟩ => h⟩
  · exact fun _ _ => hd.congr fun ω k => ⟨fun h => ⟨_, k + 2, rfl, rfl, h⟩, fun ⟨_, _, _, h1, h2⟩ => h1 ▸ h2⟩

theorem Config.share_good {d l : List ℕ} (h : IsHalves d l) : ((good l).card : ENNReal) * ((l.length * (l.length - 1) : ℕ) : ENNReal)⁻¹ =
    ((d.sum * (d.sum - 1) - (d.map fun x => x * (x - 1)).sum : ℕ) : ENNReal) / ((d.sum * (d.sum - 1) : ℕ) : ENNReal) := by
  have := card_good h
  rw [h.length, ← div_eq_mul_inv, ← this, Nat.add_sub_cancel]

theorem Config.two_halves {R : Type} {e : Config T R} (h : e.Base) (hev : e.degreeVec.sum % 2 = 0) (hpos : 0 < e.degreeVec.sum) :
    2 ≤ e.backup.length := by
  rw [h.halves.length]; omega

/-- **C96, the loop of `ConfigurationModel::m_step`.**  The loop draws two halves until they belong to different vertices.  `n` rounds
are enough with probability `1 - (1 - q)ⁿ` where `q` is the share of the pairs of halves of different vertices, … -/
theorem C96_config_step_within {e : Config T Stream} (h : e.Inv) (hev : e.degreeVec.sum % 2 = 0) (hpos : 0 < e.degreeVec.sum) (n k : ℕ) :
    uniformTape {ω | ∃ s e', Config.mStep n ({ e with rng := ⟨ω, k⟩ } : Config T Stream) = .ok (s, e')} =
      1 - (1 - ((e.degreeVec.sum * (e.degreeVec.sum - 1) - (e.degreeVec.map fun x => x * (x - 1)).sum : ℕ) : ENNReal) /
        ((e.degreeVec.sum * (e.degreeVec.sum - 1) : ℕ) : ENNReal)) ^ n := by
  rw [(Config.mStep_rounds h (Config.two_halves h.toBase hev hpos) k).1 n, Config.share_good h.halves]

/-- … and on average `1 / q` are needed. -/
theorem C96_config_step_rounds {e : Config T Stream} (h : e.Inv) (hev : e.degreeVec.sum % 2 = 0) (hpos : 0 < e.degreeVec.sum) (k : ℕ) :
    ∫⁻ ω, roundsNeeded (fun n => ∃ s e', Config.mStep n ({ e with rng := ⟨ω, k⟩ } : Config T Stream) = .ok (s, e')) ∂uniformTape =
      ((e.degreeVec.sum * (e.degreeVec.sum - 1) : ℕ) : ENNReal) /
        ((e.degreeVec.sum * (e.degreeVec.sum - 1) - (e.degreeVec.map fun x => x * (x - 1)).sum : ℕ) : ENNReal) := by
  rw [(Config.mStep_rounds h (Config.two_halves h.toBase hev hpos) k).2, Config.share_good h.halves]
  have : 0 < e.degreeVec.sum * (e.degreeVec.sum - 1) := Nat.mul_pos hpos (by omega)
  exact ENNReal.inv_div (Or.inl (ENNReal.natCast_ne_top _)) (Or.inl (by exact_mod_cast this.ne'))

/-! ## Watts-Strogatz -/

namespace Ws
variable [Node T]

theorem addRandomEdge_rounds {n d : Nat} (hn : n < 2 ^ 32) (hn0 : 0 < n) {dat : List T} {g : WSGraph T} {E : Finset (Sym2 ℕ)}
    {org : Sym2 ℕ → Sym2 ℕ} {Pm : Multiset (Sym2 ℕ)} {o : OriginalEdge} (h : J n d dat g E org (o.pair ::ₘ Pm)) {N k : ℕ} {ω : ℕ → ℝ} :
    (∃ x, addRandomEdge N (g, (⟨ω, k⟩ : Stream)) o = .ok x) ↔ ∃ a j, UntilN (PairAttempt n (places n E o.pair)) ω N () k a j := by
  have hpick : ∀ N k, (∃ x, pickPair g o N (⟨ω, k⟩ : Stream) = .ok x) ↔ ∃ a j, UntilN (PairAttempt n (places n E o.pair)) ω N () k a j := by
    intro N
    induction N with
    | zero => intro k; exact ⟨fun ⟨_, h⟩ => (by cases h), fun ⟨_, _, h⟩ => h.elim⟩
    | succ N ih =>
      intro k
      rcases pickPair_succ h.raw hn o N (Stream.genRange_eq (⟨ω, k⟩ : Stream) hn0) (Stream.genRange_eq (⟨ω, k + 1⟩ : Stream) hn0) with
        ⟨h1, h2⟩ | ⟨h1, h2⟩
      · exact ⟨fun _ => ⟨_, k + 2, Or.inl ⟨rfl, rfl, free_iff.mp h1⟩⟩, fun _ => ⟨_, h2⟩⟩
      · rw [h2]
        refine (ih (k + 2)).trans ⟨?_, ?_⟩
        · rintro ⟨a, j, hj⟩
          exact ⟨a, j, Or.inr ⟨(), k + 2, ⟨rfl, fun hc => h1 (free_iff.mpr hc)⟩, hj⟩⟩
        · rintro ⟨a, j, ⟨_, rfl, h3⟩ | ⟨_, i, ⟨rfl, _⟩, hj⟩⟩
          · exact absurd (free_iff.mpr h3) h1
          · exact ⟨a, j, hj⟩
  rw [← hpick]
  constructor
  · rintro ⟨x, hx⟩
    unfold addRandomEdge at hx
    obtain ⟨y, hy, _⟩ := Res.bind_eq_ok.mp hx
    exact ⟨y, hy⟩
  · rintro ⟨⟨a, b, r'⟩, hp⟩
    obtain ⟨_, hf⟩ := pickPair_drawn h.raw hn hn0 o N _ a b r' hp
    obtain ⟨g', h1, _⟩ := addRandomEdge_of_pick h hp hf
    exact ⟨_, h1⟩

end Ws

section
variable [Node T]
open Ws

/-- **C96, the search for a new place in `SmallWorldWS::randomize`** (`add_random_edge`).  While edge `o` has no place, the other edges are
`E` and the pairs that can take it are those of different vertices, not in `E` and not the old place of `o`.  Each round draws
two vertices, `q` = `2 · places / n²`. -/
theorem C96_ws_search {n d : Nat} (hn : n < 2 ^ 32) (hn0 : 0 < n) {dat : List T} {g : WSGraph T} {E : Finset (Sym2 ℕ)}
    {org : Sym2 ℕ → Sym2 ℕ} {Pm : Multiset (Sym2 ℕ)} {o : OriginalEdge} (h : J n d dat g E org (o.pair ::ₘ Pm)) (k : ℕ) :
    (∀ N, uniformTape {ω | ∃ x, addRandomEdge N (g, (⟨ω, k⟩ : Stream)) o = .ok x} =
      1 - (1 - ((2 * ((full n \ E).erase o.pair).card : ℕ) : ENNReal) / ((n * n : ℕ) : ENNReal)) ^ N) ∧
    ∫⁻ ω, roundsNeeded (fun N => ∃ x, addRandomEdge N (g, (⟨ω, k⟩ : Stream)) o = .ok x) ∂uniformTape =
      ((n * n : ℕ) : ENNReal) / ((2 * ((full n \ E).erase o.pair).card : ℕ) : ENNReal) := by
  set F := (full n \ E).erase o.pair with hF
  have hsub : F ⊆ full n := (Finset.erase_subset _ _).trans Finset.sdiff_subset
  have hd := chance_draw_two hn0 (fun x => s(x.1, x.2) ∈ F)
  rw [card_pairs_of hsub, ← div_eq_mul_inv] at hd
  have hq : ((2 * F.card : ℕ) : ENNReal) / ((n * n : ℕ) : ENNReal) ≤ 1 := by rw [← hd.prob 0]; exact prob_le_one
  have h1 := rounds_law (Att := PairAttempt n F) (s := ()) (k := k) (done := fun N ω => ∃ x, addRandomEdge N (g, (⟨ω, k⟩ : Stream)) o = .ok x)
    (fun N ω => addRandomEdge_rounds hn hn0 h) hq (fun N =>
      chance_rounds (I := fun _ => True) (pairAttempt_sampler n F) (fun _ _ => trivial) hq
        (fun _ _ => hd.not.congr fun ω k => ⟨fun h => ⟨(), k + 2, rfl, h⟩, fun ⟨_, _, _, h⟩ => h⟩)
        (fun _ _ => hd.congr fun ω k => ⟨fun h => ⟨_, k + 2, rfl, rfl, h⟩, fun ⟨_, _, _, h1, h2⟩ => h1 ▸ h2⟩) N () trivial)
  refine ⟨h1.1, h1.2.trans ?_⟩
  have : 0 < n * n := Nat.mul_pos hn0 hn0
  exact ENNReal.inv_div (Or.inl (ENNReal.natCast_ne_top _)) (Or.inl (by exact_mod_cast this.ne'))

theorem Ws.J.card_lt {n d : Nat} {dat : List T} {g : WSGraph T} {E : Finset (Sym2 ℕ)} {org : Sym2 ℕ → Sym2 ℕ} {Pm : Multiset (Sym2 ℕ)}
    {o : Sym2 ℕ} (hd : 2 * d + 1 ≤ n) (h : J n d dat g E org (o ::ₘ Pm)) : E.card + 1 ≤ n * d := by
  have := congrArg Multiset.card h.ms
  rw [Multiset.card_add, Multiset.card_map, Multiset.card_cons, Finset.card_val, Finset.card_val, ringSet_card hd] at this
  omega

theorem Ws.J.places_ge {n d : Nat} (hd : 2 * d + 1 ≤ n) {dat : List T} {g : WSGraph T} {E : Finset (Sym2 ℕ)}
    {org : Sym2 ℕ → Sym2 ℕ} {Pm : Multiset (Sym2 ℕ)} {o : Sym2 ℕ} (h : J n d dat g E org (o ::ₘ Pm)) :
    n * (n - 1 - 2 * d) ≤ 2 * ((full n \ E).erase o).card := by
  have h1 := h.card_lt hd
  have hE : E ⊆ full n := by
    intro e he
    induction e using Sym2.ind with
    | h u v => exact mem_full.mpr (h.lt u v he)
  have h2 := Finset.card_sdiff_add_card_eq_card hE
  have h3 := Finset.pred_card_le_card_erase (s := full n \ E) (a := o)
  rw [card_full] at h2
  have h5 : 2 * (n * (n - 1) / 2) = n * (n - 1) := Nat.mul_div_cancel' (Nat.even_mul_pred_self n).two_dvd
  have h6 : n * (n - 1 - 2 * d) = n * (n - 1) - 2 * (n * d) := by
    rw [Nat.mul_sub]; congr 1; ring
  omega

/-- A search takes at most `n / (n - 1 - 2 d)` rounds on average. -/
theorem C96_ws_search_le {n d : Nat} (hn : n < 2 ^ 32) (hd : 2 * d + 1 < n) {dat : List T} {g : WSGraph T} {E : Finset (Sym2 ℕ)}
    {org : Sym2 ℕ → Sym2 ℕ} {Pm : Multiset (Sym2 ℕ)} {o : OriginalEdge} (h : J n d dat g E org (o.pair ::ₘ Pm)) (k : ℕ) :
    ∫⁻ ω, roundsNeeded (fun N => ∃ x, addRandomEdge N (g, (⟨ω, k⟩ : Stream)) o = .ok x) ∂uniformTape ≤
      (n : ENNReal) / ((n - 1 - 2 * d : ℕ) : ENNReal) := by
  rw [(C96_ws_search hn (by omega) h k).2]
  have h4 := h.places_ge (by omega)
  have hn0 : (n : ENNReal) ≠ 0 := by exact_mod_cast (show n ≠ 0 by omega)
  calc ((n * n : ℕ) : ENNReal) / ((2 * ((full n \ E).erase o.pair).card : ℕ) : ENNReal)
      ≤ ((n * n : ℕ) : ENNReal) / ((n * (n - 1 - 2 * d) : ℕ) : ENNReal) := ENNReal.div_le_div_left (by exact_mod_cast h4) _
    _ = _ := by
      rw [Nat.cast_mul, Nat.cast_mul, ENNReal.mul_div_mul_left _ _ hn0 (ENNReal.natCast_ne_top _)]

end

namespace Ws
variable [Node T]

/-- The probability that a search is over after `F` rounds is at least this. -/
noncomputable def enough (n d F : ℕ) : ENNReal := 1 - (((2 * d + 1 : ℕ) : ENNReal) / (n : ENNReal)) ^ F

theorem enough_le {n d : Nat} (hn0 : 0 < n) (hd : 2 * d + 1 ≤ n) {m : ℕ} (hm : n * (n - 1 - 2 * d) ≤ m) (F : ℕ) :
    enough n d F ≤ 1 - (1 - (m : ENNReal) / ((n * n : ℕ) : ENNReal)) ^ F := by
  unfold enough
  refine tsub_le_tsub_left (pow_le_pow_left₀ zero_le ?_ F) 1
  have hn1 : (n : ENNReal) ≠ 0 := by exact_mod_cast hn0.ne'
  have h1 : ((n * (n - 1 - 2 * d) : ℕ) : ENNReal) / ((n * n : ℕ) : ENNReal) ≤ (m : ENNReal) / ((n * n : ℕ) : ENNReal) :=
    ENNReal.div_le_div_right (by exact_mod_cast hm) _
  rw [Nat.cast_mul, Nat.cast_mul n n, ENNReal.mul_div_mul_left _ _ hn1 (ENNReal.natCast_ne_top _)] at h1
  rw [Nat.cast_mul]
  refine (tsub_le_tsub_left h1 1).trans ?_
  rw [tsub_le_iff_right, ← ENNReal.add_div, ← Nat.cast_add, show 2 * d + 1 + (n - 1 - 2 * d) = n by omega,
    ENNReal.div_self hn1 (ENNReal.natCast_ne_top _)]

theorem addRandomEdge_atLeast {n d : Nat} (hn : n < 2 ^ 32) (hn0 : 0 < n) (hd : 2 * d + 1 ≤ n) {dat : List T} {g : WSGraph T}
    {E : Finset (Sym2 ℕ)} {org : Sym2 ℕ → Sym2 ℕ} {Pm : Multiset (Sym2 ℕ)} {o : OriginalEdge} (h : J n d dat g E org (o.pair ::ₘ Pm))
    (F : ℕ) : AtLeast (fun ω k => ∃ g' j, addRandomEdge F (g, (⟨ω, k⟩ : Stream)) o = .ok (g', ⟨ω, j⟩) ∧
      ∃ E' org', J n d dat g' E' org' Pm) (enough n d F) := by
  obtain ⟨w, hw⟩ := ((addRandomEdge_adaptive g o).samplerAt joins_pair F).chance (fun g' => ∃ E' org', J n d dat g' E' org' Pm)
  refine hw.atLeast ?_
  rw [← hw.prob 0]
  refine (enough_le hn0 hd (h.places_ge hd) F).trans (le_of_eq ?_)
  rw [← (C96_ws_search hn hn0 h 0).1 F]
  congr 1
  ext ω
  constructor
  · rintro ⟨x, hx⟩
    have hx' := hx
    unfold addRandomEdge at hx'
    obtain ⟨⟨a, b, r'⟩, hp, _⟩ := Res.bind_eq_ok.mp hx'
    obtain ⟨_, hf⟩ := pickPair_drawn h.raw hn hn0 o F _ a b r' hp
    obtain ⟨g', h1, h2⟩ := addRandomEdge_of_pick h hp hf
    obtain ⟨a, l, h3, _, _⟩ := addRandomEdge_adaptive g o F ω 0 _ hx
    rw [h1] at hx
    cases hx
    obtain ⟨rfl, h4⟩ := joins_pair h3
    exact ⟨g', _, by rw [h1, h4], _, _, h2⟩
  · rintro ⟨g', j, h1, _⟩
    exact ⟨_, h1⟩

theorem addAll_atLeast {n d : Nat} (hn : n < 2 ^ 32) (hn0 : 0 < n) (hd : 2 * d + 1 ≤ n) {dat : List T} (F : ℕ) : ∀ (l : List OriginalEdge)
    {g : WSGraph T} {E : Finset (Sym2 ℕ)} {org : Sym2 ℕ → Sym2 ℕ},
    J n d dat g E org ((l.map OriginalEdge.pair : List (Sym2 ℕ)) : Multiset (Sym2 ℕ)) →
    AtLeast (fun ω k => ∃ g' j, l.foldlM (addRandomEdge F) (g, (⟨ω, k⟩ : Stream)) = .ok (g', ⟨ω, j⟩)) (enough n d F ^ l.length) := by
  intro l
  induction l with
  | nil =>
    intro g E org h
    exact (Chance.true.atLeast (by simp)).congr fun ω k => ⟨fun _ => ⟨g, k, rfl⟩, fun _ => trivial⟩
  | cons o l ih =>
    intro g E org h
    have h' : J n d dat g E org (o.pair ::ₘ ((l.map OriginalEdge.pair : List (Sym2 ℕ)) : Multiset (Sym2 ℕ))) := h
    have h1 := atLeast_bind ((addRandomEdge_adaptive g o).samplerAt joins_pair F) (addRandomEdge_atLeast hn hn0 hd h' F)
      (Q := fun g' ω k => ∃ g'' j, l.foldlM (addRandomEdge F) (g', (⟨ω, k⟩ : Stream)) = .ok (g'', ⟨ω, j⟩))
      (fun g' ⟨E', org', hJ⟩ => ih hJ)
    rw [List.length_cons, pow_succ']
    refine h1.congr fun ω k => ?_
    simp only [List.foldlM_cons]
    constructor
    · rintro ⟨g', j, h2, _, g'', j', h3⟩
      exact ⟨g'', j', by rw [h2]; exact h3⟩
    · rintro ⟨g'', j', h2⟩
      obtain ⟨x, h3, h4⟩ := Res.bind_eq_ok.mp h2
      obtain ⟨g', bs, rfl, _⟩ := addRandomEdge_adaptive g o F ω k _ h3
      have h3' := h3
      unfold addRandomEdge at h3'
      obtain ⟨⟨a, b, r'⟩, hp, _⟩ := Res.bind_eq_ok.mp h3'
      obtain ⟨_, hf⟩ := pickPair_drawn h'.raw hn hn0 o F _ a b r' hp
      obtain ⟨g1, k1, k2⟩ := addRandomEdge_of_pick h' hp hf
      rw [h3] at k1
      cases (Prod.mk.inj (Res.ok.inj k1)).1
      exact ⟨g', _, h3, ⟨_, _, k2⟩, g'', j', h4⟩

theorem enough_le_one (n d F : ℕ) : enough n d F ≤ 1 := tsub_le_self

theorem loop_atLeast (p : ℚ) {n d : Nat} (hn : n < 2 ^ 32) (hn0 : 0 < n) (hd : 2 * d + 1 ≤ n) {dat : List T} (F : ℕ) : ∀ (vs : List ℕ), (∀ i ∈ vs, i < n) →
    ∀ {g : WSGraph T}, Good n d dat g →
    AtLeast (fun ω k => ∃ g' j, vs.foldlM (rewireBody p F) (g, (⟨ω, k⟩ : Stream)) = .ok (g', ⟨ω, j⟩)) (enough n d F ^ (homeSet n g).card) := by
  intro vs
  induction vs with
  | nil =>
    intro _ g _
    refine (Chance.true.atLeast (pow_le_one₀ zero_le (enough_le_one n d F))).congr fun ω k => ⟨fun _ => ⟨g, k, rfl⟩, fun _ => trivial⟩
  | cons i vs ih =>
    intro hvs g hg
    have hi := hvs i (by simp)
    obtain ⟨E, org, hJ⟩ := hg
    have hS := (removeStage_adaptive p g i).samplerAt joins_mk3 F
    have hc : AtLeast (fun ω k => ∃ a j, removeStage p g (⟨ω, k⟩ : Stream) i = .ok (mk3 a ⟨ω, j⟩) ∧
        (J n d dat a.1 (E \ (a.2.map OriginalEdge.pair).toFinset) org ((a.2.map OriginalEdge.pair : List (Sym2 ℕ)) : Multiset (Sym2 ℕ)) ∧
          ∀ e ∈ a.2.map OriginalEdge.pair, e ∈ E ∧ org e = e)) 1 := by
      obtain ⟨w, hw⟩ := hS.chance (fun a =>
        J n d dat a.1 (E \ (a.2.map OriginalEdge.pair).toFinset) org ((a.2.map OriginalEdge.pair : List (Sym2 ℕ)) : Multiset (Sym2 ℕ)) ∧
          ∀ e ∈ a.2.map OriginalEdge.pair, e ∈ E ∧ org e = e)
      refine hw.atLeast ?_
      rw [← hw.prob 0, ← measure_univ (μ := uniformTape)]
      refine measure_mono fun ω _ => ?_
      obtain ⟨g', rewire, rng', a1, a2, _, a4, a5⟩ := removeStage_thrown_list (p := p) hJ hi (⟨ω, 0⟩ : Stream)
      obtain ⟨a, bs, h1, _⟩ := removeStage_adaptive p g i F ω 0 _ a1
      obtain ⟨rfl, h2⟩ := joins_mk3 (a := (g', rewire)) h1
      refine ⟨(g', rewire), _, a1.trans (by rw [h2]; rfl), a2, fun e he => ?_⟩
      have := (a4 e).mp (Thrown.sub a5 e he)
      exact ⟨this.1, this.2.1⟩
    have hbody : ∀ a : WSGraph T × List OriginalEdge,
        (J n d dat a.1 (E \ (a.2.map OriginalEdge.pair).toFinset) org ((a.2.map OriginalEdge.pair : List (Sym2 ℕ)) : Multiset (Sym2 ℕ)) ∧
          ∀ e ∈ a.2.map OriginalEdge.pair, e ∈ E ∧ org e = e) →
        AtLeast (fun ω k => ∃ g' j, (a.2.foldlM (addRandomEdge F) (a.1, (⟨ω, k⟩ : Stream)) >>= fun st => vs.foldlM (rewireBody p F) st) =
          .ok (g', (⟨ω, j⟩ : Stream))) (enough n d F ^ (homeSet n g).card) := by
      rintro ⟨g1, rewire⟩ ⟨hJ1, hsub⟩
      simp only at hJ1 hsub ⊢
      have hnd : (rewire.map OriginalEdge.pair).Nodup := by
        have : ((E \ (rewire.map OriginalEdge.pair).toFinset).val.map org +
          ((rewire.map OriginalEdge.pair : List (Sym2 ℕ)) : Multiset (Sym2 ℕ))).Nodup := by rw [hJ1.ms]; exact (ringSet n d).nodup
        exact Multiset.coe_nodup.mp (Multiset.nodup_add.mp this).2.1
      have hkeep : ∀ {ω k g' j}, rewire.foldlM (addRandomEdge F) (g1, (⟨ω, k⟩ : Stream)) = .ok (g', (⟨ω, j⟩ : Stream)) →
          Good n d dat g' ∧ homeSet n g' = homeSet n g \ (rewire.map OriginalEdge.pair).toFinset := by
        intro ω k g' j hF
        obtain ⟨E', org', b1, b2⟩ := addAll_putBack hn hn0 rewire (⟨ω, k⟩ : Stream) (g', (⟨ω, j⟩ : Stream)) hJ1 hF
        refine ⟨⟨E', org', b1⟩, ?_⟩
        ext e
        rw [mem_homeSet b1, PutBack.home b2, Finset.mem_sdiff, Finset.mem_sdiff, mem_homeSet hJ]
        tauto
      have hcard : rewire.length + (homeSet n g \ (rewire.map OriginalEdge.pair).toFinset).card = (homeSet n g).card := by
        have h1 : (rewire.map OriginalEdge.pair).toFinset ⊆ homeSet n g := by
          intro e he
          rw [mem_homeSet hJ]
          exact hsub e (List.mem_toFinset.mp he)
        have h2 := Finset.card_sdiff_add_card_eq_card h1
        rw [List.toFinset_card_of_nodup hnd, List.length_map] at h2
        omega
      rw [← hcard, pow_add]
      have h1 := atLeast_bind (P := fun g' => Good n d dat g' ∧ homeSet n g' = homeSet n g \ (rewire.map OriginalEdge.pair).toFinset)
        ((addAll_adaptive rewire g1).samplerAt joins_pair F)
        ((addAll_atLeast hn hn0 hd F rewire hJ1).congr fun ω k =>
          ⟨fun ⟨g', j, h⟩ => ⟨g', j, h, hkeep h⟩, fun ⟨g', j, h, _⟩ => ⟨g', j, h⟩⟩)
        (Q := fun g' ω k => ∃ g'' j, vs.foldlM (rewireBody p F) (g', (⟨ω, k⟩ : Stream)) = .ok (g'', ⟨ω, j⟩))
        (w := enough n d F ^ (homeSet n g \ (rewire.map OriginalEdge.pair).toFinset).card)
        (fun g' ⟨hG, hH⟩ => by rw [← hH]; exact ih (fun j hj => hvs j (by simp [hj])) hG)
      refine h1.congr fun ω k => ?_
      constructor
      · rintro ⟨g', j, h2, _, g'', j', h3⟩
        exact ⟨g'', j', by rw [h2]; exact h3⟩
      · rintro ⟨g'', j', h2⟩
        obtain ⟨x, h3, h4⟩ := Res.bind_eq_ok.mp h2
        obtain ⟨g', bs, rfl, _⟩ := addAll_adaptive rewire g1 F ω k _ h3
        exact ⟨g', _, h3, hkeep h3, g'', j', h4⟩
    have h1 := atLeast_bind hS hc hbody
    rw [one_mul] at h1
    refine h1.congr fun ω k => ?_
    simp only [List.foldlM_cons]
    constructor
    · rintro ⟨a, j, h2, _, g'', j', h3⟩
      refine ⟨g'', j', ?_⟩
      unfold rewireBody
      simp only
      rw [h2]
      exact h3
    · rintro ⟨g'', j', h2⟩
      unfold rewireBody at h2
      simp only at h2
      obtain ⟨g', rewire, rng', a1, a2, _, a4, a5⟩ := removeStage_thrown_list (p := p) hJ hi (⟨ω, k⟩ : Stream)
      obtain ⟨a, bs, h3, _⟩ := removeStage_adaptive p g i F ω k _ a1
      obtain ⟨rfl, h4⟩ := joins_mk3 (a := (g', rewire)) h3
      rw [a1] at h2
      rw [h4] at h2 a1
      refine ⟨(g', rewire), _, a1, ⟨a2, fun e he => ?_⟩, g'', j', h2⟩
      have := (a4 e).mp (Thrown.sub a5 e he)
      exact ⟨this.1, this.2.1⟩

end Ws

/-- **C96, `SmallWorldWS::randomize`.**  If each search for a new place is given `F` rounds, the whole call (at most `n d` searches)
returns with probability `(1 - ((2 d + 1) / n)ᶠ) ^ (n d)` or more, whatever the network was before and whatever the rewiring
probability is. -/
theorem C96_ws_within [Node T] {e : Ws T Stream} (h : e.graph.WF) (hd : 2 * e.neighborDistance + 1 ≤ e.graph.vertexCount)
    (hn : e.graph.vertexCount < 2 ^ 32) (F k : ℕ) :
    (1 - (((2 * e.neighborDistance + 1 : ℕ) : ENNReal) / (e.graph.vertexCount : ENNReal)) ^ F) ^
        (e.graph.vertexCount * e.neighborDistance) ≤
      uniformTape {ω | ∃ e', Ws.randomize F ({ e with rng := ⟨ω, k⟩ } : Ws T Stream) = .ok e'} := by
  obtain ⟨g0, h1, h2, h3, h4, h5⟩ := Ws.start h hd hn
  have hlen : g0.vertexCount = e.graph.nextId := h2
  have hn0 : 0 < e.graph.nextId := lt_of_lt_of_le (Nat.succ_pos _) hd
  have hhome : Ws.homeSet e.graph.nextId g0 = ringSet e.graph.nextId e.neighborDistance := by
    ext x
    rw [Ws.mem_homeSet h4]
    simp
  have h6 := (Ws.loop_atLeast (n := e.graph.nextId) e.rewireProb hn hn0 hd F (List.range e.graph.nextId) (fun i hi => List.mem_range.mp hi) ⟨_, _, h4⟩).prob k
  rw [hhome, Ws.ringSet_card (n := e.graph.nextId) hd] at h6
  refine h6.trans (measure_mono ?_)
  rintro ω ⟨g', j, h7⟩
  have h7 : (List.range e.graph.nextId).foldlM (Ws.rewireBody e.rewireProb F) (g0, (⟨ω, k⟩ : Stream)) = .ok (g', ⟨ω, j⟩) := h7
  refine ⟨{ e with graph := g', rng := ⟨ω, j⟩ }, ?_⟩
  unfold Ws.randomize
  simp only
  rw [h1]
  simp only [Res.ok_bind]
  rw [hlen, h7]
  rfl

/-! ## `DogEnsemble` -/

namespace Dog

/-- One round of the search of `DogEnsemble::randomize` as an attempt. -/
def Round (n node : ℕ) (acc : ℕ → ℕ → Prop) [∀ v, DecidablePred (acc v)] (_ : Unit) (ω : ℕ → ℝ) (k : ℕ) (x : Unit ⊕ ℕ) (j : ℕ) : Prop :=
  Try n node acc ω k (x.elim (fun _ => none) some) j

theorem round_sampler (n node : ℕ) (acc : ℕ → ℕ → Prop) [∀ v, DecidablePred (acc v)] (s : Unit) : Sampler (Round n node acc s) := by
  refine ⟨fun {ω k x j} h => ?_, fun {ω k x x' j j'} h h' => ?_⟩
  · obtain ⟨l, h1, h2, h3⟩ := (try_sampler n node acc).loc h
    exact ⟨l, h1, h2, h3⟩
  · obtain ⟨h1, h2⟩ := (try_sampler n node acc).det h h'
    refine ⟨?_, h2⟩
    cases x <;> cases x' <;> simp_all

theorem findPartner_rounds {g : SpacialGraph T} (h : g.WF) {node : Nat} (hnode : node < g.nextId) (D : Nat) {ω : ℕ → ℝ} {N k : ℕ} :
    (∃ x, findPartner node D N g (⟨ω, k⟩ : Stream) = .ok x) ↔
      ∃ a j, UntilN (Round g.nextId node (Takes g.edges D node)) ω N () k a j := by
  induction N generalizing k with
  | zero => exact ⟨fun ⟨_, h⟩ => (by cases h), fun ⟨_, _, h⟩ => h.elim⟩
  | succ N ih =>
    rcases findPartner_try h hnode D ω k with ⟨g1, w, h1, h2, h3⟩ | ⟨j', h1, h2⟩
    · exact ⟨fun _ => ⟨w, _, Or.inl h1⟩, fun _ => ⟨_, h3 N⟩⟩
    · rw [h2]
      refine ih.trans ⟨?_, ?_⟩
      · rintro ⟨a, j, hj⟩
        exact ⟨a, j, Or.inr ⟨(), j', h1, hj⟩⟩
      · rintro ⟨a, j, h4 | ⟨_, i, h4, hj⟩⟩
        · cases ((try_sampler _ _ _).det h1 h4).1
        · obtain ⟨_, rfl⟩ := (try_sampler _ _ _).det h1 h4
          exact ⟨a, j, hj⟩

theorem try_any {n node : ℕ} {acc : ℕ → ℕ → Prop} [∀ v, DecidablePred (acc v)] (hn : 0 < n) :
    Chance (fun ω k => ∃ a j, Try n node acc ω k (some a) j)
      ((n : ENNReal)⁻¹ * (((∑ u ∈ (Finset.range n).erase node, accepts acc u : ℕ) : ENNReal) * ((2 ^ 53 : ℕ) : ENNReal)⁻¹)) := by
  have := Chance.sum ((Finset.range n).erase node) (Q := fun u ω k => ∃ a j, Try n node acc ω k (some a) j ∧ a = u)
    (w := fun u => (n : ENNReal)⁻¹ * ((accepts acc u : ENNReal) * ((2 ^ 53 : ℕ) : ENNReal)⁻¹)) (fun u hu => by
      rw [Finset.mem_erase, Finset.mem_range] at hu
      exact try_chance n node acc hn hu.2 hu.1) (by
      rintro u _ u' _ ω k ⟨a, j, h, rfl⟩ ⟨a', j', h', rfl⟩
      exact Option.some.inj ((try_sampler n node acc).det h h').1)
  rw [← Finset.mul_sum, ← Finset.sum_mul, ← Nat.cast_sum] at this
  refine this.congr fun ω k => ⟨fun ⟨_, _, a, j, h, _⟩ => ⟨a, j, h⟩, fun ⟨a, j, h⟩ => ⟨a, ?_, a, j, h, rfl⟩⟩
  obtain ⟨k1, k2, _⟩ := (try_some n node acc).mp h
  rw [Finset.mem_erase, Finset.mem_range, ← k1]
  exact ⟨k1 ▸ k2, partOf_lt _ hn⟩

end Dog

/-- **C96, the search for a partner in `DogEnsemble::randomize`.**  With degree sum `D` in use, a round accepts vertex `v` with
probability `1/n` times the share of the `2⁵³` coin values below `deg v / D`, if `v` is not adjacent to `node`; so one round is
enough with probability `q` = the sum of these over `v ≠ node`, `N` rounds with `1 - (1 - q)ᴺ`, and on average `1 / q` are needed
(infinitely many if every vertex with an edge is already adjacent). -/
theorem C96_dog_search {g : SpacialGraph T} (h : g.WF) {node : Nat} (hnode : node < g.nextId) (D k : Nat) :
    (∀ N, uniformTape {ω | ∃ x, Dog.findPartner node D N g (⟨ω, k⟩ : Stream) = .ok x} = 1 - (1 - (g.nextId : ENNReal)⁻¹ *
      (((∑ v ∈ (Finset.range g.nextId).erase node, ((Finset.range (2 ^ 53)).filter (fun u =>
        s(node, v) ∉ g.edges ∧ ((u / 2 : ℕ) : ℚ) / 2 ^ 52 < (degOf g.edges v : ℚ) * (1 / (D : ℚ)))).card : ℕ) : ENNReal) *
          ((2 ^ 53 : ℕ) : ENNReal)⁻¹)) ^ N) ∧
    ∫⁻ ω, roundsNeeded (fun N => ∃ x, Dog.findPartner node D N g (⟨ω, k⟩ : Stream) = .ok x) ∂uniformTape =
      ((g.nextId : ENNReal)⁻¹ * (((∑ v ∈ (Finset.range g.nextId).erase node, ((Finset.range (2 ^ 53)).filter (fun u =>
        s(node, v) ∉ g.edges ∧ ((u / 2 : ℕ) : ℚ) / 2 ^ 52 < (degOf g.edges v : ℚ) * (1 / (D : ℚ)))).card : ℕ) : ENNReal) *
          ((2 ^ 53 : ℕ) : ENNReal)⁻¹))⁻¹ := by
  have hd := Dog.try_any (n := g.nextId) (node := node) (acc := Dog.Takes g.edges D node) (by omega)
  have hq := prob_le_one (μ := uniformTape) (s := {ω | ∃ a j, Try g.nextId node (Dog.Takes g.edges D node) ω 0 (some a) j})
  rw [hd.prob 0] at hq
  refine rounds_law (Att := Dog.Round g.nextId node (Dog.Takes g.edges D node)) (s := ()) (k := k)
    (fun N ω => Dog.findPartner_rounds h hnode D) hq (fun N =>
      chance_rounds (I := fun _ => True) (Dog.round_sampler g.nextId node (Dog.Takes g.edges D node)) (fun _ _ => trivial) hq
        (fun _ _ => hd.not.congr fun ω k => ⟨fun h => ?_, ?_⟩) (fun _ _ => hd) N () trivial)
  · obtain ⟨x, j, hx⟩ := try_total g.nextId node (Dog.Takes g.edges D node) ω k
    cases x with
    | none => exact ⟨(), j, hx⟩
    | some a => exact absurd ⟨a, j, hx⟩ h
  · rintro ⟨_, j, h1⟩ ⟨a, j', h2⟩
    cases ((try_sampler _ _ _).det h1 h2).1

/-! ## Examples -/

theorem count_every : countArr 8 [0, 0, 1, 1, 2, 2, 3, 4] (fun _ => true) = 5040 := by decide +kernel

theorem countP_orders (l : List ℕ) : ∃ c, 0 < c ∧ ∀ P : List ℕ → Bool, l.permutations.countP P = c * countArr l.length l P :=
  ⟨_, Finset.card_pos.mpr ⟨1, by simp⟩, countP_permutations l⟩

/-- For the degrees 2, 2, 2, 1, 1 `randomize` takes 35/26 rounds on average, … -/
example {e : Config T Stream} (h : e.Base) (hd : e.degreeVec = [2, 2, 2, 1, 1]) (k : ℕ) :
    ∫⁻ ω, roundsNeeded (fun n => ∃ e', Config.randomize (n + 1) ({ e with rng := ⟨ω, k⟩ } : Config T Stream) = .ok e') ∂uniformTape =
      35 / 26 := by
  rw [C96_config_rounds h (by rw [hd]; rfl) (by rw [hd]; decide), hd, ← Config.length_orders]
  have hh : halvesOf [2, 2, 2, 1, 1] = [0, 0, 1, 1, 2, 2, 3, 4] := rfl
  have hl : ∀ l : List (List ℕ), l.length = l.countP (fun _ => true) := fun l => by simp
  obtain ⟨c, hpos, hP⟩ := countP_orders [0, 0, 1, 1, 2, 2, 3, 4]
  have h1 : (halvesOf [2, 2, 2, 1, 1]).permutations.length = c * 5040 := by
    rw [hl, hh, hP]; exact congrArg (c * ·) count_every
  have h2 : allWays [2, 2, 2, 1, 1] = c * 3744 := by
    unfold allWays; rw [hh, hP]; exact congrArg (c * ·) count_all
  have hc : (c : ENNReal) ≠ 0 := by exact_mod_cast hpos.ne'
  rw [h1, h2, Nat.cast_mul, Nat.cast_mul, ENNReal.mul_div_mul_left _ _ hc (ENNReal.natCast_ne_top c),
    ENNReal.div_eq_div_iff (by norm_num) (by norm_num) (by norm_num) (by norm_num)]
  norm_num

theorem exConfigStream_inv : exConfigStream.Inv := ⟨exConfigStream_base, show exTriEdge.degreeVec = [2, 2, 2, 1, 1] by decide⟩

/-- … and the loop of a Markov step 28/25. -/
example (k : ℕ) : ∫⁻ ω, roundsNeeded (fun n => ∃ s e', Config.mStep n ({ exConfigStream with rng := ⟨ω, k⟩ } : Config Nat Stream) = .ok (s, e'))
    ∂uniformTape = 28 / 25 := by
  rw [C96_config_step_rounds exConfigStream_inv rfl (by decide)]
  show ((56 : ℕ) : ENNReal) / ((50 : ℕ) : ENNReal) = _
  rw [ENNReal.div_eq_div_iff (by norm_num) (by norm_num) (by norm_num) (by norm_num)]
  norm_num

/-- With 100 vertices and `d = 2`, 20 rounds per search are almost always enough. -/
example {e : Ws Nat Stream} (h : e.graph.WF) (hd : e.neighborDistance = 2) (hn : e.graph.vertexCount = 100) (k : ℕ) :
    (1 - (((2 * 2 + 1 : ℕ) : ENNReal) / ((100 : ℕ) : ENNReal)) ^ 20) ^ (100 * 2) ≤ uniformTape {ω | ∃ e', Ws.randomize 20 ({ e with rng := ⟨ω, k⟩ } : Ws Nat Stream) = .ok e'} := by
  refine le_trans (le_of_eq ?_) (C96_ws_within h (by rw [hd, hn]; norm_num) (by rw [hn]; norm_num) 20 k)
  rw [hd, hn]

/-- The hypotheses are met by what `WS::new` returns. -/
example : ∃ g : WSGraph Nat, g.WF ∧ g.vertexCount = 100 := ⟨GenericGraph.new 100, new_wf _, rfl⟩

/-- A search of `DogEnsemble` starts in a well-formed network. -/
example : exSpacial.graph.WF ∧ 2 < exSpacial.graph.nextId := ⟨exSpacial_wf, by decide⟩

end Verif
