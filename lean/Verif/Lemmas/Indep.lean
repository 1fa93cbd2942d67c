import Verif.Lemmas.Lump
import Verif.Props.Spacial

/-!
# Chains that toggle one pair at a time

Common part of the convergence theorems for `ErEnsembleC` and `SpacialEnsemble` (C66).
-/

set_option linter.unusedSectionVars false
set_option linter.unusedSimpArgs false

namespace Verif
open AdjContainer GenericGraph

/-- The possible edges of a graph on `n` vertices. -/
def pairSet (n : ℕ) : Finset (Sym2 ℕ) := ((allPairs n).map toEdge).toFinset

theorem mem_pairSet {n : ℕ} {x : Sym2 ℕ} : x ∈ pairSet n ↔ ∃ p ∈ allPairs n, toEdge p = x := by
  simp [pairSet]

theorem pairSet_mk {n a b : ℕ} (hab : a ≠ b) (ha : a < n) (hb : b < n) : s(a, b) ∈ pairSet n := by
  rw [mem_pairSet]
  rcases Nat.lt_or_gt_of_ne hab with hlt | hlt
  · exact ⟨(a, b), mem_allPairs.mpr ⟨hlt, hb⟩, rfl⟩
  · exact ⟨(b, a), mem_allPairs.mpr ⟨hlt, ha⟩, Sym2.eq_swap⟩

theorem nodup_pairs (n : ℕ) : ((allPairs n).map toEdge).Nodup := by
  rw [List.nodup_map_iff_inj_on (nodup_allPairs n)]
  exact fun p hp q hq h => toEdge_injOn hp hq h

theorem card_pairSet (n : ℕ) : (pairSet n).card = n * (n - 1) / 2 := by
  rw [pairSet, List.toFinset_card_of_nodup (nodup_pairs n), List.length_map, length_allPairs]

theorem drawn_mem {n a b : ℕ} (ha : a < n) (hb : b < n - 1) : drawn (a, b) ∈ pairSet n := by
  unfold drawn
  simp only
  split
  · exact pairSet_mk (by omega) ha (by omega)
  · exact pairSet_mk (by omega) ha (by omega)

theorem exists_drawn {n : ℕ} {x : Sym2 ℕ} (hx : x ∈ pairSet n) : ∃ a b, a < n ∧ b < n - 1 ∧ drawn (a, b) = x := by
  obtain ⟨p, hp, rfl⟩ := mem_pairSet.mp hx
  have := mem_allPairs.mp hp
  refine ⟨p.2, p.1, this.2, by omega, ?_⟩
  simp only [drawn, toEdge, this.1, if_true]
  exact Sym2.eq_swap

section
variable {T A : Type} [AdjContainer T A] [LawfulAdj T A]

theorem edges_sub_pairSet {g : GenericGraph T A} (h : g.WF) : g.edges ⊆ pairSet g.nextId := by
  intro x hx
  exact mem_pairSet.mpr (edge_pair h hx)

/-- Every set of pairs is the edge set of a graph with the same vertices; it is reached by `add_edge` from the cleared graph. -/
theorem exists_edges {g : GenericGraph T A} (h : g.WF) {P : GenericGraph T A → Prop} (h0 : P g.clearEdges)
    (hP : ∀ g g' i j r, g.WF → P g → g.addEdge i j = .ok (r, g') → P g') (S : Finset (Sym2 ℕ)) :
    S ⊆ pairSet g.nextId → ∃ g', g'.WF ∧ g'.nextId = g.nextId ∧ g'.edges = S ∧ P g' := by
  classical
  induction S using Finset.induction_on with
  | empty => intro _; exact ⟨g.clearEdges, clearEdges_wf h, clearEdges_nextId g, Verif.clearEdges_edges h, h0⟩
  | insert x S hx ih =>
    intro hS
    obtain ⟨g1, a1, a2, a3, a4⟩ := ih (fun y hy => hS (Finset.mem_insert_of_mem hy))
    obtain ⟨p, hp, rfl⟩ := mem_pairSet.mp (hS (Finset.mem_insert_self _ _))
    have hp := mem_allPairs.mp hp
    obtain ⟨g2, b1, b2, b3, _, b5, _⟩ := addEdge_edges a1 (i := p.1) (j := p.2) (by omega) (by omega) (by omega)
      (by rw [a3]; exact hx)
    exact ⟨g2, b2, b3.trans a2, by rw [b5, a3]; rfl, hP _ _ _ _ _ a1 a4 b1⟩
end

/-- Probability that the coin with probability `p` says "edge", as a number. -/
def headProb (p : ℚ) : ℚ := (heads p : ℚ) / 2 ^ 53

theorem heads_le (p : ℚ) : heads p ≤ 2 ^ 53 := by
  have := Finset.card_filter_le (Finset.range (2 ^ 53)) (fun u : ℕ => (u : ℚ) / 2 ^ 53 ≤ p)
  rwa [Finset.card_range] at this

theorem headProb_nonneg (p : ℚ) : 0 ≤ headProb p := div_nonneg (Nat.cast_nonneg _) (by norm_num)

theorem headProb_le_one (p : ℚ) : headProb p ≤ 1 := by
  unfold headProb
  rw [div_le_one (by norm_num)]
  have : ((heads p : ℕ) : ℚ) ≤ ((2 ^ 53 : ℕ) : ℚ) := Nat.cast_le.mpr (heads_le p)
  rwa [Nat.cast_pow, Nat.cast_ofNat] at this

/-- Probability of the edge set `S` if each pair `x` is an edge with probability `pr x` independently of the others. -/
def indepProb (n : ℕ) (pr : Sym2 ℕ → ℚ) (S : Finset (Sym2 ℕ)) : ℚ := ∏ x ∈ pairSet n, if x ∈ S then pr x else 1 - pr x

theorem indepProb_sum (n : ℕ) (pr : Sym2 ℕ → ℚ) : ∑ S ∈ (pairSet n).powerset, indepProb n pr S = 1 := by
  have h := Finset.prod_add pr (fun x => 1 - pr x) (pairSet n)
  simp only [add_sub_cancel, Finset.prod_const_one] at h
  rw [h]
  refine Finset.sum_congr rfl (fun S hS => ?_)
  rw [Finset.mem_powerset] at hS
  unfold indepProb
  rw [Finset.prod_ite]
  congr 1
  · exact Finset.prod_congr (by ext x; simp only [Finset.mem_filter]; exact ⟨fun h => h.2, fun h => ⟨hS h, h⟩⟩) (fun _ _ => rfl)
  · exact Finset.prod_congr (by ext x; simp [Finset.mem_filter, Finset.mem_sdiff]) (fun _ _ => rfl)

/-- The factor of one pair taken out. -/
theorem indepProb_split {n : ℕ} (pr : Sym2 ℕ → ℚ) (S : Finset (Sym2 ℕ)) {x : Sym2 ℕ} (hx : x ∈ pairSet n) :
    indepProb n pr S = (if x ∈ S then pr x else 1 - pr x) *
      ∏ y ∈ (pairSet n).erase x, if y ∈ S.erase x then pr y else 1 - pr y := by
  unfold indepProb
  rw [← Finset.mul_prod_erase _ _ hx]
  congr 1
  refine Finset.prod_congr rfl (fun y hy => ?_)
  have := Finset.ne_of_mem_erase hy
  simp [this]

/-- Where the draws `d` of one step lead. -/
def toggled (q : Sym2 ℕ → ℚ) (S : Finset (Sym2 ℕ)) (d : ℕ × ℕ × ℕ) : Finset (Sym2 ℕ) :=
  if (d.2.2 : ℚ) / 2 ^ 53 ≤ q (drawn (d.1, d.2.1)) then insert (drawn (d.1, d.2.1)) S else S.erase (drawn (d.1, d.2.1))

/-- The draws of one step. -/
def pairDraws (n : ℕ) : Finset (ℕ × ℕ × ℕ) := Finset.range n ×ˢ Finset.range (n - 1) ×ˢ Finset.range (2 ^ 53)

theorem toggle_count (q : Sym2 ℕ → ℚ) (n : ℕ) (S S' : Finset (Sym2 ℕ)) :
    (((pairDraws n).filter (fun d => toggled q S d = S')).card : ℚ) =
      2 ^ 53 * ∑ a ∈ Finset.range n, ∑ b ∈ Finset.range (n - 1),
        (if S.erase (drawn (a, b)) = S'.erase (drawn (a, b)) then
          (if drawn (a, b) ∈ S' then headProb (q (drawn (a, b))) else 1 - headProb (q (drawn (a, b)))) else 0) := by
  rw [Finset.card_filter, pairDraws]
  rw [Finset.sum_product, Nat.cast_sum, Finset.mul_sum]
  refine Finset.sum_congr rfl (fun a _ => ?_)
  rw [Finset.sum_product, Nat.cast_sum, Finset.mul_sum]
  refine Finset.sum_congr rfl (fun b _ => ?_)
  rw [← Finset.card_filter]
  set x := drawn (a, b) with hxdef
  have h1 : ∀ u : ℕ, toggled q S (a, b, u) = S' ↔ S.erase x = S'.erase x ∧ ((u : ℚ) / 2 ^ 53 ≤ q x ↔ x ∈ S') := by
    intro u
    have : toggled q S (a, b, u) = if (u : ℚ) / 2 ^ 53 ≤ q x then insert x S else S.erase x := rfl
    rw [this]
    by_cases hu : (u : ℚ) / 2 ^ 53 ≤ q x
    · rw [if_pos hu]
      constructor
      · rintro rfl
        exact ⟨by rw [Finset.erase_insert_eq_erase], by simp [hu]⟩
      · rintro ⟨h2, h3⟩
        have hx : x ∈ S' := h3.mp hu
        ext y
        rw [Finset.mem_insert]
        by_cases hy : y = x
        · subst hy; simp [hx]
        · have := congrArg (fun F => y ∈ F) h2
          simp only [Finset.mem_erase, ne_eq, hy, not_false_eq_true, true_and, eq_iff_iff] at this
          simp [hy, this]
    · rw [if_neg hu]
      constructor
      · rintro rfl
        exact ⟨by rw [Finset.erase_idem], by simp [hu]⟩
      · rintro ⟨h2, h3⟩
        have hx : x ∉ S' := fun hc => hu (h3.mpr hc)
        rw [h2, Finset.erase_eq_of_notMem hx]
  by_cases he : S.erase x = S'.erase x
  · rw [if_pos he]
    by_cases hx : x ∈ S'
    · rw [if_pos hx, Finset.filter_congr (q := fun u : ℕ => (u : ℚ) / 2 ^ 53 ≤ q x) (fun u _ => by rw [h1]; simp [he, hx])]
      rw [show (((Finset.range (2 ^ 53)).filter (fun u : ℕ => (u : ℚ) / 2 ^ 53 ≤ q x)).card : ℚ) = (heads (q x) : ℚ) from rfl, headProb]
      field_simp
    · rw [if_neg hx, Finset.filter_congr (q := fun u : ℕ => ¬ (u : ℚ) / 2 ^ 53 ≤ q x) (fun u _ => by rw [h1]; simp [he, hx])]
      rw [tails_card, Nat.cast_sub (heads_le _), headProb, Nat.cast_pow, Nat.cast_ofNat]
      field_simp
  · rw [if_neg he, Finset.filter_false_of_mem (fun u _ => by rw [h1]; simp [he])]
    simp

/-- Detailed balance of the chain that toggles pairs. -/
theorem toggle_balance (q : Sym2 ℕ → ℚ) (n : ℕ) (S S' : Finset (Sym2 ℕ)) :
    indepProb n (fun x => headProb (q x)) S * (((pairDraws n).filter (fun d => toggled q S d = S')).card : ℚ) =
      indepProb n (fun x => headProb (q x)) S' * (((pairDraws n).filter (fun d => toggled q S' d = S)).card : ℚ) := by
  rw [toggle_count, toggle_count, mul_left_comm, mul_left_comm _ ((2 : ℚ) ^ 53)]
  congr 1
  simp only [Finset.mul_sum]
  refine Finset.sum_congr rfl (fun a ha => Finset.sum_congr rfl (fun b hb => ?_))
  have hx := drawn_mem (Finset.mem_range.mp ha) (Finset.mem_range.mp hb)
  rw [indepProb_split _ S hx, indepProb_split _ S' hx]
  set x := drawn (a, b)
  by_cases he : S.erase x = S'.erase x
  · rw [if_pos he, if_pos he.symm, he]
    ring
  · rw [if_neg he, if_neg (Ne.symm he), mul_zero, mul_zero]

theorem headProb_pos {p : ℚ} (h : 0 < headProb p) : ∃ u : ℕ, u < 2 ^ 53 ∧ (u : ℚ) / 2 ^ 53 ≤ p := by
  have : 0 < heads p := by
    rcases Nat.eq_zero_or_pos (heads p) with h0 | h0
    · rw [headProb, h0] at h; simp at h
    · exact h0
  obtain ⟨u, hu⟩ := Finset.card_pos.mp this
  rw [Finset.mem_filter, Finset.mem_range] at hu
  exact ⟨u, hu⟩

theorem headProb_lt {p : ℚ} (h : headProb p < 1) : ∃ u : ℕ, u < 2 ^ 53 ∧ ¬ (u : ℚ) / 2 ^ 53 ≤ p := by
  by_contra hc
  push Not at hc
  have : heads p = 2 ^ 53 := by
    unfold heads
    rw [Finset.filter_true_of_mem, Finset.card_range]
    intro u hu
    exact hc u (Finset.mem_range.mp hu)
  rw [headProb, this, Nat.cast_pow, Nat.cast_ofNat, div_self (by norm_num)] at h
  exact lt_irrefl _ h

/-- The possible steps of such a chain. -/
theorem toggle_possible {E : Type} {V : E → Prop} {n : ℕ} {q : Sym2 ℕ → ℚ} {obs : E → Finset (Sym2 ℕ)}
    {draws : E → Finset (ℕ × ℕ × ℕ)} {run : E → ℕ × ℕ × ℕ → Res E}
    (hdraws : ∀ e, V e → draws e = pairDraws n) (hex : ∀ S ⊆ pairSet n, ∃ e, V e ∧ obs e = S)
    (hstep : ∀ e, V e → ∀ d ∈ pairDraws n, ∃ e', run e d = .ok e' ∧ V e' ∧ obs e' = toggled q (obs e) d) :
    ∀ S ⊆ pairSet n, ∀ x ∈ pairSet n,
      (0 < headProb (q x) → Markov.Possible V draws run obs S (insert x S)) ∧
      (headProb (q x) < 1 → Markov.Possible V draws run obs S (S.erase x)) := by
  intro S hS x hx
  obtain ⟨e, he, rfl⟩ := hex S hS
  obtain ⟨a, b, ha, hb, rfl⟩ := exists_drawn hx
  constructor
  · intro h
    obtain ⟨u, hu, hp⟩ := headProb_pos h
    have hd : (a, b, u) ∈ pairDraws n := by
      simp only [pairDraws, Finset.mem_product, Finset.mem_range]; exact ⟨ha, hb, hu⟩
    obtain ⟨e', h1, h2, h3⟩ := hstep e he _ hd
    exact ⟨e, he, rfl, _, by rw [hdraws e he]; exact hd, e', h1, by rw [h3, toggled, if_pos hp]⟩
  · intro h
    obtain ⟨u, hu, hp⟩ := headProb_lt h
    have hd : (a, b, u) ∈ pairDraws n := by
      simp only [pairDraws, Finset.mem_product, Finset.mem_range]; exact ⟨ha, hb, hu⟩
    obtain ⟨e', h1, h2, h3⟩ := hstep e he _ hd
    exact ⟨e, he, rfl, _, by rw [hdraws e he]; exact hd, e', h1, by rw [h3, toggled, if_neg hp]⟩

/-- Every chain whose step toggles a uniformly drawn pair with a coin. -/
theorem toggle_ergodic {E : Type} {V : E → Prop} {n : ℕ} (hn : 2 ≤ n) {q : Sym2 ℕ → ℚ} {obs : E → Finset (Sym2 ℕ)}
    {draws : E → Finset (ℕ × ℕ × ℕ)} {run : E → ℕ × ℕ × ℕ → Res E}
    (hdraws : ∀ e, V e → draws e = pairDraws n)
    (hmem : ∀ e, V e → obs e ⊆ pairSet n) (hex : ∀ S ⊆ pairSet n, ∃ e, V e ∧ obs e = S)
    (hstep : ∀ e, V e → ∀ d ∈ pairDraws n, ∃ e', run e d = .ok e' ∧ V e' ∧ obs e' = toggled q (obs e) d) :
    Markov.Ergodic V draws (fun e _ => 1 / ((draws e).card : ℚ)) run obs (pairSet n).powerset
      (indepProb n (fun x => headProb (q x))) := by
  classical
  have hcnt : ∀ e, V e → ∀ S, Markov.cnt draws run obs e S = ((pairDraws n).filter (fun d => toggled q (obs e) d = S)).card := by
    intro e he S
    unfold Markov.cnt
    rw [hdraws e he]
    congr 1
    refine Finset.filter_congr (fun d hd => ?_)
    obtain ⟨e', h1, h2, h3⟩ := hstep e he d hd
    constructor
    · rintro ⟨e'', k1, k2⟩
      rw [h1] at k1
      cases k1
      rw [← h3, k2]
    · intro k; exact ⟨e', h1, by rw [h3, k]⟩
  have hl : Markov.Lumped V draws run obs (pairSet n).powerset (pairDraws n).card := by
    refine ⟨fun e he => by rw [hdraws e he], ?_, ?_, fun e he => Finset.mem_powerset.mpr (hmem e he),
      fun S hS => hex S (Finset.mem_powerset.mp hS), ?_⟩
    · refine Finset.card_pos.mpr ⟨(0, 0, 0), ?_⟩
      simp only [pairDraws, Finset.mem_product, Finset.mem_range]
      refine ⟨by omega, by omega, by norm_num⟩
    · intro e he d hd
      rw [hdraws e he] at hd
      obtain ⟨e', h1, h2, _⟩ := hstep e he d hd
      exact ⟨e', h1, h2⟩
    · intro e e' he he' ho S _
      rw [hcnt e he, hcnt e' he', ho]
  have hposs := toggle_possible hdraws hex hstep
  let o : Finset (Sym2 ℕ) := (pairSet n).filter (fun x => headProb (q x) = 1)
  have ho : o ⊆ pairSet n := Finset.filter_subset _ _
  have hmo : ∀ x ∈ pairSet n, (x ∈ o ↔ headProb (q x) = 1) := fun x hx => by simp [o, hx]
  have hfix : ∀ S ⊆ pairSet n, ∀ x ∈ pairSet n,
      Markov.Possible V draws run obs S (if x ∈ o then insert x S else S.erase x) := by
    intro S hS x hx
    split
    · rename_i hxo
      exact (hposs S hS x hx).1 (by rw [(hmo x hx).mp hxo]; norm_num)
    · rename_i hxo
      exact (hposs S hS x hx).2 (lt_of_le_of_ne (headProb_le_one _) (fun hc => hxo ((hmo x hx).mpr hc)))
  have h01 : s(0, 1) ∈ pairSet n := pairSet_mk (by omega) (by omega) (by omega)
  exact hl.ergodic (w := indepProb n (fun x => headProb (q x)))
    (fun S _ => Finset.prod_nonneg (fun x _ => by
      split
      · exact headProb_nonneg _
      · exact sub_nonneg.mpr (headProb_le_one _)))
    (by rw [indepProb_sum]; norm_num)
    (by
      intro e e' he he'
      rw [hcnt e he, hcnt e' he']
      exact toggle_balance q n _ _)
    (o := o) (Finset.mem_powerset.mpr ho)
    (by
      left
      have := hfix o ho _ h01
      by_cases hc : s(0, 1) ∈ o
      · rwa [if_pos hc, Finset.insert_eq_of_mem hc] at this
      · rwa [if_neg hc, Finset.erase_eq_of_notMem hc] at this)
    (by
      intro S hS
      rw [Finset.mem_powerset] at hS
      have key : ∀ F : Finset (Sym2 ℕ), F ⊆ pairSet n →
          Relation.ReflTransGen (Markov.Possible V draws run obs) S ((S \ F) ∪ (o ∩ F)) := by
        intro F
        induction F using Finset.induction_on with
        | empty => intro _; simp only [Finset.sdiff_empty, Finset.inter_empty, Finset.union_empty]; exact .refl
        | insert x F hx ih =>
          intro hF
          have hxn := hF (Finset.mem_insert_self _ _)
          have h1 := ih (fun y hy => hF (Finset.mem_insert_of_mem hy))
          have h2 := hfix ((S \ F) ∪ (o ∩ F)) (Finset.union_subset (fun y hy => hS (Finset.mem_sdiff.mp hy).1)
            (fun y hy => ho (Finset.mem_inter.mp hy).1)) x hxn
          have h3 : (if x ∈ o then insert x ((S \ F) ∪ (o ∩ F)) else ((S \ F) ∪ (o ∩ F)).erase x) =
              (S \ insert x F) ∪ (o ∩ insert x F) := by
            ext y
            by_cases hy : y = x
            · subst hy
              split <;> simp_all
            · split <;> simp [hy]
          rw [h3] at h2
          exact h1.tail h2
      have := key (pairSet n) (Finset.Subset.refl _)
      rwa [Finset.sdiff_eq_empty_iff_subset.mpr hS, Finset.empty_union, Finset.inter_eq_left.mpr ho] at this)

/-- Convergence of every chain whose step toggles a uniformly drawn pair with a coin. -/
theorem toggle_converges {E : Type} {V : E → Prop} {n : ℕ} (hn : 2 ≤ n) {q : Sym2 ℕ → ℚ} {obs : E → Finset (Sym2 ℕ)}
    {draws : E → Finset (ℕ × ℕ × ℕ)} {run : E → ℕ × ℕ × ℕ → Res E}
    (hdraws : ∀ e, V e → draws e = pairDraws n)
    (hmem : ∀ e, V e → obs e ⊆ pairSet n) (hex : ∀ S ⊆ pairSet n, ∃ e, V e ∧ obs e = S)
    (hstep : ∀ e, V e → ∀ d ∈ pairDraws n, ∃ e', run e d = .ok e' ∧ V e' ∧ obs e' = toggled q (obs e) d) {ε : ℚ} (hε : 0 < ε) :
    ∃ t₀, ∀ t, t₀ ≤ t → ∀ e, V e → ∀ S ⊆ pairSet n,
      |lawAfter draws run obs t e S - indepProb n (fun x => headProb (q x)) S| < ε := by
  obtain ⟨t₀, ht⟩ := (toggle_ergodic hn hdraws hmem hex hstep).converges hε
  refine ⟨t₀, fun t hle e he S hS => ?_⟩
  have := ht t hle e he S (Finset.mem_powerset.mpr hS)
  rw [← lawAfter_eq] at this
  rwa [indepProb_sum, div_one] at this

/-- The step toggles a uniformly drawn pair with a coin. -/
structure Toggles {E : Type} (V : E → Prop) (n : ℕ) (q : Sym2 ℕ → ℚ) (draws : E → Finset (ℕ × ℕ × ℕ)) (run : E → ℕ × ℕ × ℕ → Res E)
    (obs : E → Finset (Sym2 ℕ)) : Prop where
  draws_eq : ∀ e, V e → draws e = pairDraws n
  mem : ∀ e, V e → obs e ⊆ pairSet n
  ex : ∀ S ⊆ pairSet n, ∃ e, V e ∧ obs e = S
  step : ∀ e, V e → ∀ d ∈ pairDraws n, ∃ e', run e d = .ok e' ∧ V e' ∧ obs e' = toggled q (obs e) d

theorem Toggles.ergodic {E : Type} {V : E → Prop} {n : ℕ} {q : Sym2 ℕ → ℚ} {draws : E → Finset (ℕ × ℕ × ℕ)}
    {run : E → ℕ × ℕ × ℕ → Res E} {obs : E → Finset (Sym2 ℕ)} (h : Toggles V n q draws run obs) (hn : 2 ≤ n) :
    Markov.Ergodic V draws (fun e _ => 1 / ((draws e).card : ℚ)) run obs (pairSet n).powerset (indepProb n (fun x => headProb (q x))) :=
  toggle_ergodic hn h.draws_eq h.mem h.ex h.step

end Verif
