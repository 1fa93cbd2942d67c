import Verif.Lemmas.Fair
import Mathlib.Tactic.FieldSimp
import Mathlib.Tactic.Positivity
import Mathlib.Tactic.Linarith

/-!
# Reading numbers from a tape

What the calls on a `Stream` return, how a wanted sequence of draws is found on a fair tape, and what it means that a computation
with a budget eventually returns.
-/

set_option linter.unusedSectionVars false
set_option linter.unusedSimpArgs false

namespace Verif
open MeasureTheory

theorem partOf_eq {x : ℝ} {h k : ℕ} (hk : k < h) (h1 : (k : ℝ) / h ≤ x) (h2 : x < ((k : ℝ) + 1) / h) : partOf x h = k := by
  have hh : (0 : ℝ) < h := by exact_mod_cast (by omega : 0 < h)
  have e : ⌊x * h⌋₊ = k := by
    rw [Nat.floor_eq_iff]
    · exact ⟨(div_le_iff₀ hh).mp h1, (lt_div_iff₀ hh).mp h2⟩
    · have : (0 : ℝ) ≤ (k : ℝ) / h := by positivity
      exact mul_nonneg (this.trans h1) hh.le
  unfold partOf
  omega

/-- The interval of numbers that a range of size `d.1` turns into the draw `d.2`. -/
def slot (d : ℕ × ℕ) : ℚ × ℚ := ((d.2 : ℚ) / d.1, ((d.2 : ℚ) + 1) / d.1)

theorem slot_pattern {l : List (ℕ × ℕ)} (hl : l ≠ []) (h : ∀ d ∈ l, d.2 < d.1) : Pattern (l.map slot) := by
  refine ⟨by simpa using hl, ?_⟩
  intro p hp
  obtain ⟨d, hd, rfl⟩ := List.mem_map.mp hp
  have hlt := h d hd
  have hpos : (0 : ℚ) < d.1 := by exact_mod_cast (by omega : 0 < d.1)
  refine ⟨by unfold slot; positivity, ?_, ?_⟩
  · unfold slot
    dsimp only
    rw [div_lt_div_iff_of_pos_right hpos]
    linarith
  · unfold slot
    dsimp only
    rw [div_le_one hpos]
    exact_mod_cast hlt

/-- On a fair tape every sequence of draws occurs. -/
theorem Fair.draws {ω : ℕ → ℝ} (hω : Fair ω) {l : List (ℕ × ℕ)} (hl : l ≠ []) (h : ∀ d ∈ l, d.2 < d.1) (s : ℕ) :
    ∃ j, ∀ i (hi : i < l.length), partOf (ω (s + j * l.length + i)) l[i].1 = l[i].2 := by
  obtain ⟨j, hj⟩ := hω _ (slot_pattern hl h) s
  rw [List.length_map] at hj
  refine ⟨j, fun i hi => ?_⟩
  have := hj i (by rw [List.length_map]; exact hi)
  rw [List.getElem_map] at this
  apply partOf_eq (h _ (List.getElem_mem hi))
  · have h1 := this.1
    unfold slot at h1
    push_cast at h1
    exact h1
  · have h1 := this.2
    unfold slot at h1
    push_cast at h1
    exact h1

namespace Stream

theorem genRange_eq (r : Stream) {h : ℕ} (hh : 0 < h) : genRange r h = .ok (partOf r.head h, r.skip 1) := by
  unfold Verif.genRange
  rw [if_pos hh]
  rfl

theorem coin_snd (r : Stream) (p : ℚ) : (coin r p).2 = r.skip 1 := rfl

theorem coin_fst (r : Stream) (p : ℚ) : (coin r p).1 = decide ((partOf r.head (2 ^ 53) : ℚ) / 2 ^ 53 ≤ p) := rfl

end Stream

/-- From some budget on the computation returns, always the same value, and the value satisfies `P`. -/
def Eventually {α : Type} (f : ℕ → Res α) (P : α → Prop) : Prop := ∃ F x, P x ∧ ∀ fuel, F ≤ fuel → f fuel = .ok x

theorem Eventually.pure {α : Type} {P : α → Prop} {x : α} (h : P x) : Eventually (fun _ => Res.ok x) P :=
  ⟨0, x, h, fun _ _ => rfl⟩

theorem Eventually.mono {α : Type} {f : ℕ → Res α} {P Q : α → Prop} (h : Eventually f P) (hpq : ∀ x, P x → Q x) : Eventually f Q := by
  obtain ⟨F, x, h1, h2⟩ := h
  exact ⟨F, x, hpq x h1, h2⟩

theorem Eventually.bind {α β : Type} {f : ℕ → Res α} {k : ℕ → α → Res β} {P : α → Prop} {Q : β → Prop}
    (h : Eventually f P) (hk : ∀ x, P x → Eventually (fun fuel => k fuel x) Q) : Eventually (fun fuel => f fuel >>= k fuel) Q := by
  obtain ⟨F, x, h1, h2⟩ := h
  obtain ⟨G, y, k1, k2⟩ := hk x h1
  refine ⟨max F G, y, k1, fun fuel hf => ?_⟩
  show f fuel >>= k fuel = _
  rw [h2 fuel (le_trans (le_max_left _ _) hf)]
  exact k2 fuel (le_trans (le_max_right _ _) hf)

theorem Eventually.foldlM {α β : Type} {f : ℕ → β → α → Res β} {I : ℕ → β → Prop} : ∀ (l : List α) (b : β) (m : ℕ), I m b →
    (∀ i (hi : i < l.length) b, I (m + i) b → Eventually (fun fuel => f fuel b l[i]) (I (m + i + 1))) →
    Eventually (fun fuel => l.foldlM (f fuel) b) (I (m + l.length)) := by
  intro l
  induction l with
  | nil => intro b m h _; exact Eventually.pure h
  | cons a l ih =>
    intro b m h hs
    have h0 := hs 0 (by simp) b h
    have : Eventually (fun fuel => f fuel b a >>= fun b => l.foldlM (f fuel) b) (I (m + (a :: l).length)) := by
      apply Eventually.bind h0
      intro x hx
      have := ih x (m + 1) hx (fun i hi b hb => by
        have e : m + 1 + i = m + (i + 1) := by omega
        rw [e] at hb ⊢
        exact hs (i + 1) (by simpa using hi) b hb)
      rw [List.length_cons, show m + (l.length + 1) = m + 1 + l.length by omega]
      exact this
    simpa only [List.foldlM_cons] using this

end Verif
