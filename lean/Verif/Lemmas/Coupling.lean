import Verif.Lemmas.Spacial
import Verif.Model.Chain

/-!
# Two chains that use the same random numbers

A Markov step of `ErEnsembleC` and of `SpacialEnsemble` draws a pair and throws a coin for it, independently of the present network.
-/

set_option linter.unusedSectionVars false
set_option linter.unusedSimpArgs false

namespace Verif
open AdjContainer GenericGraph

variable {R : Type} [Rng R]

theorem coin_mono (r : R) {p q : ℚ} (h : p ≤ q) (hp : (coin r p).1 = true) : (coin r q).1 = true := by
  unfold coin at hp ⊢
  dsimp only at hp ⊢
  rw [decide_eq_true_eq] at hp ⊢
  exact hp.trans h

theorem coin_rng (r : R) (p q : ℚ) : (coin r p).2 = (coin r q).2 := rfl

theorem throws_rng (p q : ℕ × ℕ → ℚ) : ∀ (l : List (ℕ × ℕ)) (r : R), (throws p l r).2 = (throws q l r).2
  | [], _ => rfl
  | x :: l, r => by
    show (throws p l (coin r (p x)).2).2 = (throws q l (coin r (q x)).2).2
    rw [coin_rng r (p x) (q x)]
    exact throws_rng p q l _

theorem chosen_cons (x : ℕ × ℕ) (l : List (ℕ × ℕ)) (b : Bool) (bs : List Bool) :
    chosen (x :: l) (b :: bs) = if b then insert (toEdge x) (chosen l bs) else chosen l bs := by
  unfold chosen
  cases b <;> simp

theorem throws_mono {p q : ℕ × ℕ → ℚ} : ∀ (l : List (ℕ × ℕ)) (r : R), (∀ x ∈ l, p x ≤ q x) → chosen l (throws p l r).1 ⊆ chosen l (throws q l r).1
  | [], _, _ => fun _ h => h
  | x :: l, r, h => by
    have ih := throws_mono l (coin r (p x)).2 (fun y hy => h y (List.mem_cons_of_mem _ hy))
    show chosen (x :: l) ((coin r (p x)).1 :: (throws p l (coin r (p x)).2).1) ⊆ chosen (x :: l) ((coin r (q x)).1 :: (throws q l (coin r (q x)).2).1)
    rw [coin_rng r (q x) (p x), chosen_cons, chosen_cons]
    by_cases hp : (coin r (p x)).1 = true
    · rw [if_pos hp, if_pos (coin_mono r (h x List.mem_cons_self) hp)]
      exact Finset.insert_subset_insert _ ih
    · rw [if_neg hp]
      split
      · exact ih.trans (Finset.subset_insert _ _)
      · exact ih

theorem coins_throws (p : ℚ) : ∀ (l : List (ℕ × ℕ)) (r : R), coins p l.length r = throws (fun _ => p) l r
  | [], _ => rfl
  | x :: l, r => by
    show ((coin r p).1 :: (coins p l.length (coin r p).2).1, (coins p l.length (coin r p).2).2) = _
    rw [coins_throws p l]
    rfl

/-- The pairs drawn by the first `k` steps on `n` vertices. -/
def drawnPairs (n : ℕ) : ℕ → R → Finset (Sym2 ℕ)
  | 0, _ => ∅
  | k + 1, r => match drawTwoFromRange r n with
    | .ok ((x, y), r') => insert s(x, y) (drawnPairs n k (Rng.genUnit r').2)
    | _ => ∅

/-- Steps that draw a pair and throw a coin for it. -/
structure PairSteps {E S : Type} (step : E → Res (S × E)) (n : ℕ) (V : E → Prop) (edges : E → Finset (Sym2 ℕ)) (rng : E → R)
    (prob : E → ℕ → ℕ → ℚ) : Prop where
  two : 2 ≤ n
  step : ∀ e, V e → ∀ x y r, drawTwoFromRange (rng e) n = .ok ((x, y), r) → x < n → y < n → x ≠ y →
    ∃ s e', step e = .ok (s, e') ∧ V e' ∧ rng e' = (coin r (prob e x y)).2 ∧ prob e' = prob e ∧
      edges e' = if (coin r (prob e x y)).1 then insert s(x, y) (edges e) else (edges e).erase s(x, y)

namespace PairSteps
variable {E S : Type} {step : E → Res (S × E)} {n : ℕ} {V : E → Prop} {edges : E → Finset (Sym2 ℕ)} {rng : E → R} {prob : E → ℕ → ℕ → ℚ}

/-- Nested networks stay nested. -/
theorem nested (c : PairSteps step n V edges rng prob) : ∀ (k : ℕ) {e e' : E}, V e → V e' → rng e' = rng e →
    (∀ i j, prob e i j ≤ prob e' i j) → edges e ⊆ edges e' →
    ∃ s s' x x', mSteps step k e = .ok (s, x) ∧ mSteps step k e' = .ok (s', x') ∧ V x ∧ V x' ∧ rng x' = rng x ∧ prob x = prob e ∧
      prob x' = prob e' ∧ edges x ⊆ edges x'
  | 0, e, e', h, h', hr, _, hs => ⟨[], [], e, e', rfl, rfl, h, h', hr, rfl, rfl, hs⟩
  | k + 1, e, e', h, h', hr, hp, hs => by
    obtain ⟨a, b, r, d1, d2, d3, d4⟩ := drawTwo_spec (rng e) c.two
    obtain ⟨s, y, u1, u2, u3, u4, u5⟩ := c.step e h a b r d1 d2 d3 d4
    obtain ⟨s', y', w1, w2, w3, w4, w5⟩ := c.step e' h' a b r (by rw [hr]; exact d1) d2 d3 d4
    obtain ⟨t, t', x, x', v1, v2, v3, v4, v5, v6, v7, v8⟩ := nested c k u2 w2 (by rw [u3, w3]; rfl) (by rw [u4, w4]; exact hp) (by
      rw [u5, w5]
      by_cases hb : (coin r (prob e a b)).1 = true
      · rw [if_pos hb, if_pos (coin_mono r (hp a b) hb)]
        exact Finset.insert_subset_insert _ hs
      · rw [if_neg hb]
        split
        · exact (Finset.erase_subset _ _).trans (hs.trans (Finset.subset_insert _ _))
        · exact Finset.erase_subset_erase _ hs)
    refine ⟨s :: t, s' :: t', x, x', ?_, ?_, v3, v4, v5, v6.trans u4, v7.trans w4, v8⟩
    · show (do let (s, e) ← step e; let (l, e) ← mSteps step k e; return (s :: l, e)) = _
      rw [u1, Res.ok_bind]
      dsimp only
      rw [v1]
      rfl
    · show (do let (s, e) ← step e'; let (l, e) ← mSteps step k e; return (s :: l, e)) = _
      rw [w1, Res.ok_bind]
      dsimp only
      rw [v2]
      rfl

/-- Networks agree in the pairs drawn so far; the other pairs are as at the start. -/
theorem meet (c : PairSteps step n V edges rng prob) : ∀ (k : ℕ) {e e' : E}, V e → V e' → rng e' = rng e → prob e' = prob e →
    ∃ s s' x x', mSteps step k e = .ok (s, x) ∧ mSteps step k e' = .ok (s', x') ∧ V x ∧ V x' ∧ rng x' = rng x ∧
      ∀ q, (q ∈ drawnPairs n k (rng e) → (q ∈ edges x' ↔ q ∈ edges x)) ∧
        (q ∉ drawnPairs n k (rng e) → (q ∈ edges x ↔ q ∈ edges e) ∧ (q ∈ edges x' ↔ q ∈ edges e'))
  | 0, e, e', h, h', hr, _ => ⟨[], [], e, e', rfl, rfl, h, h', hr, fun q => ⟨fun hq => absurd hq (Finset.notMem_empty q), fun _ => ⟨Iff.rfl, Iff.rfl⟩⟩⟩
  | k + 1, e, e', h, h', hr, hp => by
    obtain ⟨a, b, r, d1, d2, d3, d4⟩ := drawTwo_spec (rng e) c.two
    obtain ⟨s, y, u1, u2, u3, u4, u5⟩ := c.step e h a b r d1 d2 d3 d4
    obtain ⟨s', y', w1, w2, w3, w4, w5⟩ := c.step e' h' a b r (by rw [hr]; exact d1) d2 d3 d4
    obtain ⟨t, t', x, x', v1, v2, v3, v4, v5, v6⟩ := meet c k u2 w2 (by rw [u3, w3]; rfl) (by rw [u4, w4, hp])
    have hd : drawnPairs n (k + 1) (rng e) = insert s(a, b) (drawnPairs n k (rng y)) := by
      rw [drawnPairs, d1, u3]
      rfl
    refine ⟨s :: t, s' :: t', x, x', ?_, ?_, v3, v4, v5, fun q => ?_⟩
    · show (do let (s, e) ← step e; let (l, e) ← mSteps step k e; return (s :: l, e)) = _
      rw [u1, Res.ok_bind]
      dsimp only
      rw [v1]
      rfl
    · show (do let (s, e) ← step e'; let (l, e) ← mSteps step k e; return (s :: l, e)) = _
      rw [w1, Res.ok_bind]
      dsimp only
      rw [v2]
      rfl
    · rw [hd, Finset.mem_insert]
      rw [hp] at w5
      obtain ⟨v7, v8⟩ := v6 q
      constructor
      · intro hq
        by_cases hk : q ∈ drawnPairs n k (rng y)
        · exact v7 hk
        · obtain ⟨g1, g2⟩ := v8 hk
          rcases hq with rfl | hq
          · rw [g1, g2, u5, w5]
            split <;> simp
          · exact absurd hq hk
      · intro hq
        push Not at hq
        obtain ⟨g1, g2⟩ := v8 hq.2
        rw [g1, g2, u5, w5]
        split <;> simp [hq.1]

end PairSteps

end Verif
