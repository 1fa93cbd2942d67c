import Verif.Props.Er
import Mathlib.Tactic.NormNum
import Mathlib.Tactic.Linarith

/-!
# C33, C34: reversibility and irreducibility of the Erdős–Rényi chains

The outcomes of the draws of one step are counted with scripted generators: the numbers of a script are the values the draws
return, so equally many scripts means equal probability under a uniform generator.
-/

set_option linter.unusedSectionVars false
set_option linter.unusedSimpArgs false

namespace Verif
open AdjContainer GenericGraph

variable {T : Type}

/-! ### C33 -/

/-- The scripts `(a, b, u)` of one step of `ErEnsembleC` (two index draws and one uniform number) that lead from the state `e`
to a state with the edge set `S`. -/
noncomputable def ErC.ways (e : ErC T Script) (S : Finset (Sym2 ℕ)) : Finset (ℕ × ℕ × ℕ) :=
  open Classical in
  (Finset.range e.graph.nextId ×ˢ Finset.range (e.graph.nextId - 1) ×ˢ Finset.range (2 ^ 53)).filter (fun d =>
    ∃ s e', ({ e with rng := ⟨[d.1, d.2.1, d.2.2]⟩ } : ErC T Script).mStep = .ok (s, e') ∧ e'.graph.edges = S)

/-- Number of values of the uniform number for which the coin with probability `p` says "edge". -/
def heads (p : ℚ) : ℕ := ((Finset.range (2 ^ 53)).filter (fun u : ℕ => (u : ℚ) / 2 ^ 53 ≤ p)).card

/-- The weight of a graph with `k` of `m` possible edges in the ensemble G(n, p), times `2^(53 m)`. -/
def gnpWeight (p : ℚ) (m k : ℕ) : ℕ := heads p ^ k * (2 ^ 53 - heads p) ^ (m - k)

/-- The pair drawn by the script. -/
def drawn (d : ℕ × ℕ) : Sym2 ℕ := s(d.1, if d.2 < d.1 then d.2 else d.2 + 1)

theorem coin_script (u : Nat) (l : List Nat) (p : ℚ) (hu : u < 2 ^ 53) :
    coin (⟨u :: l⟩ : Script) p = (decide ((u : ℚ) / 2 ^ 53 ≤ p), ⟨l⟩) := by
  have : (Rng.genUnit (⟨u :: l⟩ : Script)) = (u, ⟨l⟩) := by
    show (u % 2 ^ 53, _) = _
    rw [Nat.mod_eq_of_lt hu]; rfl
  simp only [coin, this]

theorem ErC.script_step {e : ErC T Script} (h : e.graph.WF) {a b u : Nat} {l : List Nat} (ha : a < e.graph.nextId)
    (hb : b < e.graph.nextId - 1) (hu : u < 2 ^ 53) (hr : e.rng = ⟨a :: b :: u :: l⟩) :
    ∃ s e', e.mStep = .ok (s, e') ∧ e'.graph.WF ∧ e'.graph.nextId = e.graph.nextId ∧ e'.prob = e.prob ∧
      e'.graph.data = e.graph.data ∧ e'.rng = ⟨l⟩ ∧
      e'.graph.edges = if (u : ℚ) / 2 ^ 53 ≤ e.prob then insert (drawn (a, b)) e.graph.edges
        else e.graph.edges.erase (drawn (a, b)) := by
  have hd := drawTwo_script (l := u :: l) ha hb
  rw [← hr] at hd
  obtain ⟨s, e', m1, m2, m3, m4, m5, m6, m7, m8, m9⟩ := ErC.mStep_cases h hd ha (by split <;> omega) (by split <;> omega)
  rw [coin_script u l _ hu] at m7 m9
  refine ⟨s, e', m1, m2, m3, m5, m4, m7, ?_⟩
  rw [m9]
  simp [drawn]

theorem ErC.mem_ways {e : ErC T Script} (h : e.graph.WF) {S : Finset (Sym2 ℕ)} {d : ℕ × ℕ × ℕ} :
    d ∈ ErC.ways e S ↔ (d.1 < e.graph.nextId ∧ d.2.1 < e.graph.nextId - 1 ∧ d.2.2 < 2 ^ 53) ∧
      (if (d.2.2 : ℚ) / 2 ^ 53 ≤ e.prob then insert (drawn (d.1, d.2.1)) e.graph.edges
        else e.graph.edges.erase (drawn (d.1, d.2.1))) = S := by
  unfold ErC.ways
  classical
  rw [Finset.mem_filter, Finset.mem_product, Finset.mem_product, Finset.mem_range, Finset.mem_range, Finset.mem_range]
  apply and_congr_right
  rintro ⟨ha, hb, hu⟩
  obtain ⟨s, e', m1, _, _, _, _, _, m9⟩ := ErC.script_step (e := { e with rng := ⟨[d.1, d.2.1, d.2.2]⟩ }) h ha hb hu rfl
  constructor
  · rintro ⟨s', e'', h1, h2⟩
    rw [m1] at h1
    simp only [Res.ok.injEq, Prod.mk.injEq] at h1
    rw [← h2, ← h1.2, m9]
  · intro h1
    exact ⟨s, e', m1, by rw [m9]; exact h1⟩

/-- Draws of the pair for which inserting it leads from `S` to `S'`. -/
def insWays (n : ℕ) (S S' : Finset (Sym2 ℕ)) : Finset (ℕ × ℕ) :=
  (Finset.range n ×ˢ Finset.range (n - 1)).filter (fun d => insert (drawn d) S = S')

/-- Draws of the pair for which erasing it leads from `S` to `S'`. -/
def delWays (n : ℕ) (S S' : Finset (Sym2 ℕ)) : Finset (ℕ × ℕ) :=
  (Finset.range n ×ˢ Finset.range (n - 1)).filter (fun d => S.erase (drawn d) = S')

theorem delWays_eq (n : ℕ) {S S' : Finset (Sym2 ℕ)} (hne : S ≠ S') : delWays n S' S = insWays n S S' := by
  unfold delWays insWays
  apply Finset.filter_congr
  intro d _
  constructor
  · intro h
    have : drawn d ∈ S' := by
      by_contra hc
      rw [Finset.erase_eq_of_notMem hc] at h
      exact hne h.symm
    rw [← h, Finset.insert_erase this]
  · intro h
    have : drawn d ∉ S := by
      intro hc
      rw [Finset.insert_eq_of_mem hc] at h
      exact hne h
    rw [← h, Finset.erase_insert this]

theorem ErC.ways_card {e : ErC T Script} (h : e.graph.WF) (S : Finset (Sym2 ℕ)) :
    (ErC.ways e S).card = heads e.prob * (insWays e.graph.nextId e.graph.edges S).card +
      (2 ^ 53 - heads e.prob) * (delWays e.graph.nextId e.graph.edges S).card := by
  classical
  set n := e.graph.nextId
  set E := e.graph.edges
  let H := (Finset.range (2 ^ 53)).filter (fun u : ℕ => (u : ℚ) / 2 ^ 53 ≤ e.prob)
  let L := (Finset.range (2 ^ 53)).filter (fun u : ℕ => ¬ (u : ℚ) / 2 ^ 53 ≤ e.prob)
  have hHL : H.card + L.card = 2 ^ 53 := by
    have := Finset.card_filter_add_card_filter_not (s := Finset.range (2 ^ 53)) (fun u : ℕ => (u : ℚ) / 2 ^ 53 ≤ e.prob)
    rw [Finset.card_range] at this
    exact this
  have hL : L.card = 2 ^ 53 - heads e.prob := by
    have : heads e.prob = H.card := rfl
    omega
  let f : (ℕ × ℕ) × ℕ → ℕ × ℕ × ℕ := fun x => (x.1.1, x.1.2, x.2)
  have hf : Function.Injective f := by
    rintro ⟨⟨a, b⟩, u⟩ ⟨⟨a', b'⟩, u'⟩ hx
    simp only [f, Prod.mk.injEq] at hx ⊢
    exact ⟨⟨hx.1, hx.2.1⟩, hx.2.2⟩
  have hset : ErC.ways e S = ((insWays n E S ×ˢ H) ∪ (delWays n E S ×ˢ L)).image f := by
    ext ⟨a, b, u⟩
    rw [ErC.mem_ways h, Finset.mem_image]
    constructor
    · rintro ⟨⟨ha, hb, hu⟩, h2⟩
      refine ⟨((a, b), u), ?_, rfl⟩
      rw [Finset.mem_union, Finset.mem_product, Finset.mem_product]
      simp only [insWays, delWays, H, L, Finset.mem_filter, Finset.mem_product, Finset.mem_range]
      simp only at ha hb hu h2
      by_cases hc : (u : ℚ) / 2 ^ 53 ≤ e.prob
      · rw [if_pos hc] at h2
        exact .inl ⟨⟨⟨ha, hb⟩, h2⟩, hu, hc⟩
      · rw [if_neg hc] at h2
        exact .inr ⟨⟨⟨ha, hb⟩, h2⟩, hu, hc⟩
    · rintro ⟨⟨⟨a', b'⟩, u'⟩, hx, hfx⟩
      simp only [f, Prod.mk.injEq] at hfx
      obtain ⟨rfl, rfl, rfl⟩ := hfx
      rw [Finset.mem_union, Finset.mem_product, Finset.mem_product] at hx
      simp only [insWays, delWays, H, L, Finset.mem_filter, Finset.mem_product, Finset.mem_range] at hx
      rcases hx with ⟨⟨⟨h1, h2⟩, h3⟩, h4, h5⟩ | ⟨⟨⟨h1, h2⟩, h3⟩, h4, h5⟩
      · refine ⟨⟨h1, h2, h4⟩, ?_⟩
        rw [if_pos h5]; exact h3
      · refine ⟨⟨h1, h2, h4⟩, ?_⟩
        rw [if_neg h5]; exact h3
  rw [hset, Finset.card_image_of_injective _ hf, Finset.card_union_of_disjoint, Finset.card_product, Finset.card_product, hL]
  · have hH : H.card = heads e.prob := rfl
    rw [hH, Nat.mul_comm, Nat.mul_comm (delWays n E S).card]
  · rw [Finset.disjoint_left]
    rintro ⟨d, u⟩ h1 h2
    rw [Finset.mem_product] at h1 h2
    simp only [H, L, Finset.mem_filter] at h1 h2
    exact h2.2.2 h1.2.2

theorem edges_card_le {A : Type} [AdjContainer T A] [LawfulAdj T A] {g : GenericGraph T A} (h : g.WF) :
    g.edges.card ≤ (allPairs g.nextId).length := by
  have := h.edgeCount_le
  rw [← h.edgeCount_eq_card, length_allPairs]; omega

/-- **Detailed balance** of `ErEnsembleC`: for all two states over the same vertices and with the same probability, the weight
of the first times the number of draws leading to the second equals the weight of the second times the number of draws leading
back.  Hence G(n, p) is stationary. -/
theorem C33_er_c_detailed_balance {e e' : ErC T Script} (h : e.graph.WF) (h' : e'.graph.WF)
    (hn : e'.graph.vertexCount = e.graph.vertexCount) (hp : e'.prob = e.prob) :
    gnpWeight e.prob (e.graph.vertexCount * (e.graph.vertexCount - 1) / 2) e.graph.edgeCount *
        (ErC.ways e e'.graph.edges).card =
      gnpWeight e.prob (e.graph.vertexCount * (e.graph.vertexCount - 1) / 2) e'.graph.edgeCount *
        (ErC.ways e' e.graph.edges).card := by
  have hvc : ∀ g : Graph T, g.vertexCount = g.nextId := fun _ => rfl
  rw [hvc, hvc] at hn
  rw [hvc, ErC.ways_card h, ErC.ways_card h', hn, hp, h.edgeCount_eq_card, h'.edgeCount_eq_card, ← length_allPairs]
  have b1 := edges_card_le h
  have b2 := edges_card_le h'
  rw [hn] at b2
  set M := (allPairs e.graph.nextId).length
  set S := e.graph.edges
  set S' := e'.graph.edges
  set n := e.graph.nextId
  by_cases hS : S = S'
  · rw [hS]
  rw [delWays_eq n hS, delWays_eq n (Ne.symm hS)]
  set K := heads e.prob
  set F := 2 ^ 53 - K
  -- inserting leads from `S` to `S'` only if `S'` has one more edge
  have hins : ∀ {A B : Finset (Sym2 ℕ)}, A ≠ B → (insWays n A B).card ≠ 0 → B.card = A.card + 1 := by
    intro A B hAB hc
    obtain ⟨d, hd⟩ := Finset.card_ne_zero.mp hc
    simp only [insWays, Finset.mem_filter] at hd
    have hdA : drawn d ∉ A := by
      intro hc'
      rw [Finset.insert_eq_of_mem hc'] at hd
      exact hAB hd.2
    rw [← hd.2, Finset.card_insert_of_notMem hdA]
  unfold gnpWeight
  by_cases hI : (insWays n S S').card = 0
  · by_cases hD : (insWays n S' S).card = 0
    · simp [hI, hD]
    · have hk := hins (Ne.symm hS) hD
      rw [hI, hk]
      have e1 : M - S'.card = (M - (S'.card + 1)) + 1 := by omega
      rw [e1, pow_succ K S'.card, pow_succ F]
      ring
  · have hk := hins hS hI
    have hD : (insWays n S' S).card = 0 := by
      by_contra hc
      have := hins (Ne.symm hS) hc
      omega
    rw [hD, hk]
    have e1 : M - S.card = (M - (S.card + 1)) + 1 := by omega
    rw [e1, pow_succ K S.card, pow_succ F]
    ring

/-- Every pair is hit by exactly two of the draws. -/
theorem drawn_card {n x y : ℕ} (hx : x < n) (hy : y < n) (hxy : x ≠ y) :
    ((Finset.range n ×ˢ Finset.range (n - 1)).filter (fun d => drawn d = s(x, y))).card = 2 := by
  have : (Finset.range n ×ˢ Finset.range (n - 1)).filter (fun d => drawn d = s(x, y)) =
      {(x, if y < x then y else y - 1), (y, if x < y then x else x - 1)} := by
    ext ⟨a, b⟩
    simp only [Finset.mem_filter, Finset.mem_product, Finset.mem_range, drawn, Sym2.eq_iff, Finset.mem_insert,
      Finset.mem_singleton, Prod.mk.injEq]
    constructor
    · rintro ⟨⟨h1, h2⟩, ⟨rfl, h3⟩ | ⟨rfl, h3⟩⟩
      · left; refine ⟨rfl, ?_⟩; split at h3 <;> split <;> omega
      · right; refine ⟨rfl, ?_⟩; split at h3 <;> split <;> omega
    · rintro (⟨rfl, rfl⟩ | ⟨rfl, rfl⟩)
      · refine ⟨⟨hx, by split <;> omega⟩, .inl ⟨rfl, ?_⟩⟩
        by_cases h1 : y < a
        · simp [h1]
        · rw [if_neg h1, if_neg (by omega)]; omega
      · refine ⟨⟨hy, by split <;> omega⟩, .inr ⟨rfl, ?_⟩⟩
        by_cases h1 : x < a
        · simp [h1]
        · rw [if_neg h1, if_neg (by omega)]; omega
  rw [this, Finset.card_pair]
  simp [hxy]

/-- The transition numbers: an absent edge is added by `2 * heads` draws, a present one removed by `2 * (2^53 - heads)`. -/
theorem C33_er_c_transition_counts {e : ErC T Script} (h : e.graph.WF) {x y : ℕ} (hx : x < e.graph.vertexCount)
    (hy : y < e.graph.vertexCount) (hxy : x ≠ y) :
    (s(x, y) ∉ e.graph.edges → (ErC.ways e (insert s(x, y) e.graph.edges)).card = 2 * heads e.prob) ∧
    (s(x, y) ∈ e.graph.edges → (ErC.ways e (e.graph.edges.erase s(x, y))).card = 2 * (2 ^ 53 - heads e.prob)) := by
  constructor
  · intro hnew
    have hne : e.graph.edges ≠ insert s(x, y) e.graph.edges := fun hc => hnew (by rw [hc]; simp)
    rw [ErC.ways_card h]
    have h1 : insWays e.graph.nextId e.graph.edges (insert s(x, y) e.graph.edges) =
        (Finset.range e.graph.nextId ×ˢ Finset.range (e.graph.nextId - 1)).filter (fun d => drawn d = s(x, y)) := by
      unfold insWays
      apply Finset.filter_congr
      intro d _
      constructor
      · intro hd
        have : drawn d ∉ e.graph.edges := by
          intro hc
          rw [Finset.insert_eq_of_mem hc] at hd; exact hne hd
        have hm : drawn d ∈ insert s(x, y) e.graph.edges := by rw [← hd]; simp
        rcases Finset.mem_insert.mp hm with hm | hm
        · exact hm
        · exact absurd hm this
      · intro hd; rw [hd]
    have h2 : delWays e.graph.nextId e.graph.edges (insert s(x, y) e.graph.edges) = ∅ := by
      unfold delWays
      rw [Finset.filter_eq_empty_iff]
      intro d _ hd
      have : s(x, y) ∈ e.graph.edges.erase (drawn d) := by rw [hd]; simp
      exact hnew (Finset.mem_of_mem_erase this)
    rw [h1, h2, drawn_card (n := e.graph.nextId) hx hy hxy]
    simp [Nat.mul_comm]
  · intro hex
    have hne : e.graph.edges ≠ e.graph.edges.erase s(x, y) := fun hc => by
      rw [hc] at hex; simp at hex
    rw [ErC.ways_card h]
    have h1 : delWays e.graph.nextId e.graph.edges (e.graph.edges.erase s(x, y)) =
        (Finset.range e.graph.nextId ×ˢ Finset.range (e.graph.nextId - 1)).filter (fun d => drawn d = s(x, y)) := by
      unfold delWays
      apply Finset.filter_congr
      intro d _
      constructor
      · intro hd
        by_contra hc
        have : s(x, y) ∈ e.graph.edges.erase (drawn d) := Finset.mem_erase.mpr ⟨fun h => hc h.symm, hex⟩
        rw [hd] at this; simp at this
      · intro hd; rw [hd]
    have h2 : insWays e.graph.nextId e.graph.edges (e.graph.edges.erase s(x, y)) = ∅ := by
      unfold insWays
      rw [Finset.filter_eq_empty_iff]
      intro d _ hd
      have : s(x, y) ∈ insert (drawn d) e.graph.edges := by simp [hex]
      rw [hd] at this; simp at this
    rw [h1, h2, drawn_card (n := e.graph.nextId) hx hy hxy]
    simp [Nat.mul_comm]

/-- A script that makes the steps visit the pairs of a list, the coin saying "edge" exactly for the pairs in `S`. -/
def forceScript (S : Finset (Sym2 ℕ)) (uh ut : ℕ) (L : List (Nat × Nat)) : List ℕ :=
  L.flatMap (fun p => [p.2, p.1, if toEdge p ∈ S then uh else ut])

theorem ErC.force (S : Finset (Sym2 ℕ)) {uh ut : ℕ} (huh : uh < 2 ^ 53) (hut : ut < 2 ^ 53) :
    ∀ (L : List (Nat × Nat)) {e : ErC T Script} (_ : e.graph.WF) (_ : ∀ p ∈ L, p ∈ allPairs e.graph.nextId)
      (_ : (uh : ℚ) / 2 ^ 53 ≤ e.prob) (_ : ¬ (ut : ℚ) / 2 ^ 53 ≤ e.prob) (_ : e.rng = ⟨forceScript S uh ut L⟩),
    ∃ steps e', mSteps ErC.mStep L.length e = .ok (steps, e') ∧ e'.graph.WF ∧ e'.graph.nextId = e.graph.nextId ∧
      ∀ x, x ∈ e'.graph.edges ↔ if x ∈ L.map toEdge then x ∈ S else x ∈ e.graph.edges := by
  intro L
  induction L with
  | nil => intro e h _ _ _ _; exact ⟨[], _, rfl, h, rfl, by simp⟩
  | cons p L ih =>
    intro e h hL h1 h2 hr
    have hp := mem_allPairs.mp (hL p (by simp))
    have hdr : drawn (p.2, p.1) = toEdge p := by
      simp only [drawn, toEdge, hp.1, if_true]; exact Sym2.eq_swap
    obtain ⟨s, e1, m1, m2, m3, m4, m5, m6, m7⟩ := ErC.script_step h (a := p.2) (b := p.1)
      (u := if toEdge p ∈ S then uh else ut) (l := forceScript S uh ut L) (by omega) (by omega) (by split <;> assumption)
      (by rw [hr]; rfl)
    obtain ⟨steps, e', c1, c2, c3, c4⟩ := ih m2 (fun q hq => by rw [m3]; exact hL q (by simp [hq]))
      (by rw [m4]; exact h1) (by rw [m4]; exact h2) m6
    refine ⟨s :: steps, e', ?_, c2, c3.trans m3, ?_⟩
    · simp [mSteps, m1, c1]
    · intro x
      rw [c4, m7, hdr]
      by_cases hxL : x ∈ L.map toEdge
      · have : x ∈ (p :: L).map toEdge := by simp only [List.map_cons, List.mem_cons]; exact .inr hxL
        simp only [hxL, this, if_true]
      · by_cases hxp : x = toEdge p
        · subst hxp
          have : toEdge p ∈ (p :: L).map toEdge := by simp
          simp only [hxL, this, if_true, if_false]
          by_cases hpS : toEdge p ∈ S
          · simp [hpS, h1]
          · simp [hpS, h2]
        · have : x ∉ (p :: L).map toEdge := by
            simp only [List.map_cons, List.mem_cons]; rintro (hc | hc)
            · exact hxp hc
            · exact hxL hc
          simp only [hxL, this, if_false]
          split <;> simp [hxp]

/-- **Irreducibility** of `ErEnsembleC`: if both outcomes of the coin are possible, some sequence of draws leads from any state
to any graph on the same vertices. -/
theorem C33_er_c_irreducible {e : ErC T Script} (h : e.graph.WF) (h1 : 0 < heads e.prob) (h2 : heads e.prob < 2 ^ 53)
    {g : Graph T} (hg : g.WF) (hn : g.vertexCount = e.graph.vertexCount) :
    ∃ draws k steps e', mSteps ErC.mStep k ({ e with rng := ⟨draws⟩ } : ErC T Script) = .ok (steps, e') ∧
      e'.graph.WF ∧ e'.graph.edges = g.edges := by
  obtain ⟨uh, huh⟩ := Finset.card_pos.mp h1
  rw [Finset.mem_filter, Finset.mem_range] at huh
  obtain ⟨ut, hut1, hut2⟩ : ∃ u : ℕ, u < 2 ^ 53 ∧ ¬ (u : ℚ) / 2 ^ 53 ≤ e.prob := by
    by_contra hc
    push Not at hc
    have : heads e.prob = 2 ^ 53 := by
      unfold heads
      rw [Finset.filter_true_of_mem, Finset.card_range]
      intro u hu
      exact hc u (Finset.mem_range.mp hu)
    omega
  obtain ⟨steps, e', c1, c2, c3, c4⟩ := ErC.force g.edges huh.1 hut1 (allPairs e.graph.nextId)
    (e := { e with rng := ⟨forceScript g.edges uh ut (allPairs e.graph.nextId)⟩ }) h (fun _ hp => hp) huh.2 hut2 rfl
  refine ⟨_, _, steps, e', c1, c2, ?_⟩
  have mem : ∀ {g' : Graph T}, g'.WF → g'.nextId = e.graph.nextId → ∀ x ∈ g'.edges, x ∈ (allPairs e.graph.nextId).map toEdge := by
    intro g' hg' hn' x
    induction x using Sym2.ind with
    | _ a b =>
      intro hx
      have hab := hg'.mem_edges.mp hx
      have l1 := hg'.lt_left hab
      have l2 := hg'.lt a b hab
      rw [hn'] at l1 l2
      rw [List.mem_map]
      rcases Nat.lt_or_gt_of_ne (hg'.ne hab) with hlt | hlt
      · exact ⟨(a, b), mem_allPairs.mpr ⟨hlt, l2⟩, rfl⟩
      · exact ⟨(b, a), mem_allPairs.mpr ⟨hlt, l1⟩, Sym2.eq_swap⟩
  ext x
  rw [c4]
  by_cases hx : x ∈ (allPairs e.graph.nextId).map toEdge
  · simp only [hx, if_true]
  · simp only [hx, if_false]
    exact ⟨fun hc => absurd (mem h rfl x hc) hx, fun hc => absurd (mem hg hn x hc) hx⟩

/-- Both outcomes of the coin are possible exactly if `0 ≤ p` and `p < 1 - 2^-53`; in particular a probability `0` still
accepts the draw `0.0`. -/
theorem C33_heads (p : ℚ) : (0 < heads p ↔ 0 ≤ p) ∧ (heads p < 2 ^ 53 ↔ p < (2 ^ 53 - 1) / 2 ^ 53) := by
  have hpos : (0 : ℚ) < 2 ^ 53 := by norm_num
  constructor
  · rw [heads, Finset.card_pos]
    constructor
    · rintro ⟨u, hu⟩
      rw [Finset.mem_filter] at hu
      exact le_trans (div_nonneg (Nat.cast_nonneg u) hpos.le) hu.2
    · intro hp
      exact ⟨0, by rw [Finset.mem_filter, Finset.mem_range]; simpa using hp⟩
  · have hc : heads p ≤ 2 ^ 53 := by
      have := Finset.card_filter_le (Finset.range (2 ^ 53)) (fun u : ℕ => (u : ℚ) / 2 ^ 53 ≤ p)
      rwa [Finset.card_range] at this
    constructor
    · intro hlt
      by_contra hge
      push Not at hge
      have : heads p = 2 ^ 53 := by
        unfold heads
        rw [Finset.filter_true_of_mem, Finset.card_range]
        intro u hu
        rw [Finset.mem_range] at hu
        refine le_trans ?_ hge
        apply div_le_div_of_nonneg_right _ hpos.le
        have : u + 1 ≤ 2 ^ 53 := hu
        have : ((u + 1 : ℕ) : ℚ) ≤ ((2 ^ 53 : ℕ) : ℚ) := Nat.cast_le.mpr this
        rw [Nat.cast_add, Nat.cast_one, Nat.cast_pow, Nat.cast_ofNat] at this
        exact le_sub_iff_add_le.mpr this
      omega
    · intro hlt
      rcases Nat.lt_or_ge (heads p) (2 ^ 53) with h1 | h1
      · exact h1
      · exfalso
        have heq : (Finset.range (2 ^ 53)).filter (fun u : ℕ => (u : ℚ) / 2 ^ 53 ≤ p) = Finset.range (2 ^ 53) := by
          apply Finset.eq_of_subset_of_card_le (Finset.filter_subset _ _)
          rw [Finset.card_range]; exact h1
        have hm : (2 ^ 53 - 1 : ℕ) ∈ Finset.range (2 ^ 53) := by rw [Finset.mem_range]; omega
        rw [← heq, Finset.mem_filter] at hm
        have hcast : ((2 ^ 53 - 1 : ℕ) : ℚ) = 2 ^ 53 - 1 := by norm_num
        rw [hcast] at hm
        exact absurd hm.2 (not_le.mpr hlt)

/-! ### C34 -/

/-- The draws `(i, j)` of one step of `ErEnsembleM` that lead from the state `e` to a state with the edge set `S`. -/
noncomputable def ErM.ways (e : ErM T Script) (S : Finset (Sym2 ℕ)) : Finset (ℕ × ℕ) :=
  open Classical in
  (Finset.range e.currentEdges.length ×ˢ Finset.range e.possibleEdges.length).filter (fun d =>
    ∃ s e', ({ e with rng := ⟨[d.1, d.2]⟩ } : ErM T Script).mStep = .ok (s, e') ∧ e'.graph.edges = S)

theorem ErM.script_step {e : ErM T Script} (h : e.Inv) {i j : Nat} {l : List Nat} (hi : i < e.currentEdges.length)
    (hj : j < e.possibleEdges.length) (hr : e.rng = ⟨i :: j :: l⟩) :
    ∃ s e', e.mStep = .ok (s, e') ∧ e'.Inv ∧ e'.graph.nextId = e.graph.nextId ∧ e'.m = e.m ∧ e'.rng = ⟨l⟩ ∧
      e'.graph.edges = insert (toEdge e.possibleEdges[j]) (e.graph.edges.erase (toEdge e.currentEdges[i])) ∧
      toEdge e.currentEdges[i] ∈ e.graph.edges ∧ toEdge e.possibleEdges[j] ∉ e.graph.edges := by
  have hi' : e.currentEdges[i]? = some e.currentEdges[i] := List.getElem?_eq_getElem hi
  have hj' : e.possibleEdges[j]? = some e.possibleEdges[j] := List.getElem?_eq_getElem hj
  obtain ⟨e', c1, c2, c3, c4, c5, c6, c7, c8, c9, c10, c11, c12⟩ := ErM.step_spec (h.withRng ⟨l⟩) hi' hj'
  refine ⟨⟨e.currentEdges[i], i, e.possibleEdges[j], j⟩, e', ?_, c2, c3, c5, c6, c10, c11, c12⟩
  unfold ErM.mStep
  rw [hr, script_genRange hi]
  simp only [Res.ok_bind]
  rw [script_genRange hj]
  simp [Vec.idx_of_some hi', Vec.idx_of_some hj', c1]

theorem ErM.mem_ways {e : ErM T Script} (h : e.Inv) {S : Finset (Sym2 ℕ)} {d : ℕ × ℕ} :
    d ∈ ErM.ways e S ↔ ∃ (h1 : d.1 < e.currentEdges.length) (h2 : d.2 < e.possibleEdges.length),
      insert (toEdge e.possibleEdges[d.2]) (e.graph.edges.erase (toEdge e.currentEdges[d.1])) = S := by
  unfold ErM.ways
  classical
  rw [Finset.mem_filter, Finset.mem_product, Finset.mem_range, Finset.mem_range]
  constructor
  · rintro ⟨⟨h1, h2⟩, s, e', h3, h4⟩
    refine ⟨h1, h2, ?_⟩
    obtain ⟨s', e'', m1, _, _, _, _, m6, _⟩ := ErM.script_step (h.withRng ⟨[d.1, d.2]⟩) h1 h2 rfl
    rw [m1] at h3
    simp only [Res.ok.injEq, Prod.mk.injEq] at h3
    rw [← h4, ← h3.2, m6]
  · rintro ⟨h1, h2, h3⟩
    obtain ⟨s', e'', m1, _, _, _, _, m6, _⟩ := ErM.script_step (h.withRng ⟨[d.1, d.2]⟩) h1 h2 rfl
    exact ⟨⟨h1, h2⟩, s', e'', m1, by rw [m6]; exact h3⟩

/-- An edge that is not present is in the list of absent edges. -/
theorem ErM.Inv.exists_possible {e : ErM T Script} (h : e.Inv) {p : Nat × Nat} (hp : p ∈ allPairs e.graph.nextId)
    (hne : toEdge p ∉ e.graph.edges) : ∃ (j : Nat) (hj : j < e.possibleEdges.length), e.possibleEdges[j] = p := by
  have : p ∈ e.currentEdges ++ e.possibleEdges := h.split.mem_iff.mpr hp
  rcases List.mem_append.mp this with h1 | h1
  · exact absurd ((h.mem_edges_iff hp).mpr h1) hne
  · obtain ⟨j, hj, hjp⟩ := List.getElem_of_mem h1
    exact ⟨j, hj, hjp⟩

theorem ErM.Inv.exists_current {e : ErM T Script} (h : e.Inv) {x : Sym2 ℕ} (hx : x ∈ e.graph.edges) :
    ∃ (i : Nat) (hi : i < e.currentEdges.length), toEdge e.currentEdges[i] = x := by
  rw [h.cur, List.mem_toFinset, List.mem_map] at hx
  obtain ⟨p, hp, hpx⟩ := hx
  obtain ⟨i, hi, hip⟩ := List.getElem_of_mem hp
  exact ⟨i, hi, by rw [hip]; exact hpx⟩

theorem edge_pair {A : Type} [AdjContainer T A] [LawfulAdj T A] {g : GenericGraph T A} (h : g.WF) {x : Sym2 ℕ} (hx : x ∈ g.edges) : ∃ p ∈ allPairs g.nextId, toEdge p = x := by
  induction x using Sym2.ind with
  | _ a b =>
    have hab := h.mem_edges.mp hx
    rcases Nat.lt_or_gt_of_ne (h.ne hab) with hlt | hlt
    · exact ⟨(a, b), mem_allPairs.mpr ⟨hlt, h.lt a b hab⟩, rfl⟩
    · exact ⟨(b, a), mem_allPairs.mpr ⟨hlt, h.lt_left hab⟩, Sym2.eq_swap⟩

/-- The number of draws leading to the edge set of a graph with as many edges: one if exactly one edge has to be exchanged,
else none. -/
theorem C34_er_m_transition_counts {e : ErM T Script} (h : e.Inv) {g : Graph T} (hg : g.WF)
    (hn : g.vertexCount = e.graph.vertexCount) (hm : g.edgeCount = e.m) :
    (ErM.ways e g.edges).card = if (e.graph.edges \ g.edges).card = 1 then 1 else 0 := by
  have hcard : (e.graph.edges \ g.edges).card = (g.edges \ e.graph.edges).card := by
    have h1 := Finset.card_sdiff_add_card_inter e.graph.edges g.edges
    have h2 := Finset.card_sdiff_add_card_inter g.edges e.graph.edges
    rw [← hg.edgeCount_eq_card, Finset.inter_comm] at h2
    rw [← h.wf.edgeCount_eq_card, h.edgeCount] at h1
    omega
  have hnd := h.nodup
  rw [List.nodup_append] at hnd
  split
  · rename_i hone
    obtain ⟨x, hx⟩ := Finset.card_eq_one.mp hone
    obtain ⟨y, hy⟩ := Finset.card_eq_one.mp (hcard.symm.trans hone)
    have hx' : x ∈ e.graph.edges ∧ x ∉ g.edges := by
      rw [← Finset.mem_sdiff, hx]; simp
    have hy' : y ∈ g.edges ∧ y ∉ e.graph.edges := by
      rw [← Finset.mem_sdiff, hy]; simp
    obtain ⟨i, hi, hix⟩ := h.exists_current hx'.1
    obtain ⟨q, hq, hqy⟩ := edge_pair hg hy'.1
    rw [show g.nextId = e.graph.nextId from hn] at hq
    obtain ⟨j, hj, hjq⟩ := h.exists_possible hq (by rw [hqy]; exact hy'.2)
    rw [Finset.card_eq_one]
    refine ⟨(i, j), ?_⟩
    ext ⟨a, b⟩
    rw [ErM.mem_ways h, Finset.mem_singleton]
    constructor
    · rintro ⟨h1, h2, h3⟩
      simp only at h1 h2 h3
      have hc : toEdge e.currentEdges[a] ∈ e.graph.edges :=
        (h.mem_edges_iff (h.mem_lt (.inl (List.getElem_mem h1)))).mpr (List.getElem_mem h1)
      have hp : toEdge e.possibleEdges[b] ∉ e.graph.edges := by
        intro hc'
        have := (h.mem_edges_iff (h.mem_lt (.inr (List.getElem_mem h2)))).mp hc'
        exact hnd.2.2 _ this _ (List.getElem_mem h2) rfl
      have e1 : toEdge e.currentEdges[a] = x := by
        have : toEdge e.currentEdges[a] ∈ e.graph.edges \ g.edges := by
          rw [Finset.mem_sdiff]
          refine ⟨hc, ?_⟩
          rw [← h3, Finset.mem_insert]
          rintro (hc' | hc')
          · rw [hc'] at hc; exact hp hc
          · simp at hc'
        rw [hx] at this; simpa using this
      have e2 : toEdge e.possibleEdges[b] = y := by
        have : toEdge e.possibleEdges[b] ∈ g.edges \ e.graph.edges := by
          rw [Finset.mem_sdiff]
          exact ⟨by rw [← h3]; simp, hp⟩
        rw [hy] at this; simpa using this
      have e3 : e.currentEdges[a] = e.currentEdges[i] :=
        toEdge_injOn (h.mem_lt (.inl (List.getElem_mem h1))) (h.mem_lt (.inl (List.getElem_mem hi))) (e1.trans hix.symm)
      have e4 : e.possibleEdges[b] = e.possibleEdges[j] :=
        toEdge_injOn (h.mem_lt (.inr (List.getElem_mem h2))) (h.mem_lt (.inr (List.getElem_mem hj)))
          (by rw [e2, hjq, hqy])
      rw [hnd.1.getElem_inj_iff] at e3
      rw [hnd.2.1.getElem_inj_iff] at e4
      rw [e3, e4]
    · intro heq
      simp only [Prod.mk.injEq] at heq
      obtain ⟨rfl, rfl⟩ := heq
      refine ⟨hi, hj, ?_⟩
      simp only
      rw [hix, hjq, hqy]
      ext z
      rw [Finset.mem_insert, Finset.mem_erase]
      have hz1 : z ∈ e.graph.edges ∧ z ∉ g.edges ↔ z = x := by rw [← Finset.mem_sdiff, hx]; simp
      have hz2 : z ∈ g.edges ∧ z ∉ e.graph.edges ↔ z = y := by rw [← Finset.mem_sdiff, hy]; simp
      tauto
  · rename_i hone
    rw [Finset.card_eq_zero, Finset.eq_empty_iff_forall_notMem]
    rintro ⟨a, b⟩ hab
    rw [ErM.mem_ways h] at hab
    obtain ⟨h1, h2, h3⟩ := hab
    simp only at h1 h2 h3
    apply hone
    have hc : toEdge e.currentEdges[a] ∈ e.graph.edges :=
      (h.mem_edges_iff (h.mem_lt (.inl (List.getElem_mem h1)))).mpr (List.getElem_mem h1)
    have hp : toEdge e.possibleEdges[b] ∉ e.graph.edges := by
      intro hc'
      have := (h.mem_edges_iff (h.mem_lt (.inr (List.getElem_mem h2)))).mp hc'
      exact hnd.2.2 _ this _ (List.getElem_mem h2) rfl
    rw [Finset.card_eq_one]
    refine ⟨toEdge e.currentEdges[a], ?_⟩
    ext z
    rw [← h3, Finset.mem_sdiff, Finset.mem_insert, Finset.mem_erase, Finset.mem_singleton]
    constructor
    · rintro ⟨z1, z2⟩
      by_contra hz
      exact z2 (.inr ⟨hz, z1⟩)
    · rintro rfl
      refine ⟨hc, ?_⟩
      rintro (hz | hz)
      · rw [hz] at hc; exact hp hc
      · exact hz.1 rfl

/-- **Symmetry** of the proposals of `ErEnsembleM`: as many draws lead from the first to the second edge set as back, so the
uniform distribution over all graphs with `m` edges is stationary. -/
theorem C34_er_m_symmetric {e e' : ErM T Script} (h : e.Inv) (h' : e'.Inv) (hn : e'.graph.vertexCount = e.graph.vertexCount)
    (hm : e'.m = e.m) : (ErM.ways e e'.graph.edges).card = (ErM.ways e' e.graph.edges).card := by
  rw [C34_er_m_transition_counts h h'.wf hn (h'.edgeCount.trans hm),
    C34_er_m_transition_counts h' h.wf hn.symm (h.edgeCount.trans hm.symm)]
  have h1 := Finset.card_sdiff_add_card_inter e.graph.edges e'.graph.edges
  have h2 := Finset.card_sdiff_add_card_inter e'.graph.edges e.graph.edges
  rw [← h'.wf.edgeCount_eq_card, Finset.inter_comm, h'.edgeCount] at h2
  rw [← h.wf.edgeCount_eq_card, h.edgeCount] at h1
  have : (e.graph.edges \ e'.graph.edges).card = (e'.graph.edges \ e.graph.edges).card := by omega
  rw [this]

theorem ErM.step_rng {e e' : ErM T Script} {s : ErStepM} (h : e.step s = .ok e') (r : Script) :
    ({ e with rng := r } : ErM T Script).step s = .ok { e' with rng := r } := by
  unfold ErM.step at h ⊢
  simp only [Res.bind_eq_ok] at h ⊢
  obtain ⟨p1, a1, g1, a2, p2, a3, g2, a4, c, a5, q, a6, a7⟩ := h
  simp only [Res.pure_eq, Res.ok.injEq] at a7
  subst a7
  exact ⟨p1, a1, g1, a2, p2, a3, g2, a4, c, a5, q, a6, rfl⟩

/-- **Irreducibility** of `ErEnsembleM`: any graph with `m` edges on the same vertices can be reached, with as many steps as
edges have to be exchanged. -/
theorem C34_er_m_irreducible : ∀ (k : Nat) {e : ErM T Script} (_ : e.Inv) {g : Graph T} (_ : g.WF)
    (_ : g.vertexCount = e.graph.vertexCount) (_ : g.edgeCount = e.m) (_ : (e.graph.edges \ g.edges).card = k),
    ∃ draws steps e', mSteps ErM.mStep k ({ e with rng := ⟨draws⟩ } : ErM T Script) = .ok (steps, e') ∧ e'.Inv ∧
      e'.graph.edges = g.edges := by
  intro k
  induction k with
  | zero =>
    intro e h g hg hn hm hk
    refine ⟨[], [], _, rfl, h.withRng _, ?_⟩
    rw [Finset.card_eq_zero, Finset.sdiff_eq_empty_iff_subset] at hk
    apply Finset.eq_of_subset_of_card_le hk
    rw [← hg.edgeCount_eq_card, ← h.wf.edgeCount_eq_card, h.edgeCount, hm]
  | succ k ih =>
    intro e h g hg hn hm hk
    have hcard : (g.edges \ e.graph.edges).card = k + 1 := by
      have h1 := Finset.card_sdiff_add_card_inter e.graph.edges g.edges
      have h2 := Finset.card_sdiff_add_card_inter g.edges e.graph.edges
      rw [← hg.edgeCount_eq_card, Finset.inter_comm] at h2
      rw [← h.wf.edgeCount_eq_card, h.edgeCount] at h1
      omega
    obtain ⟨x, hx⟩ := Finset.card_pos.mp (show 0 < (e.graph.edges \ g.edges).card by omega)
    obtain ⟨y, hy⟩ := Finset.card_pos.mp (show 0 < (g.edges \ e.graph.edges).card by omega)
    rw [Finset.mem_sdiff] at hx hy
    obtain ⟨i, hi, hix⟩ := h.exists_current hx.1
    obtain ⟨q, hq, hqy⟩ := edge_pair hg hy.1
    rw [show g.nextId = e.graph.nextId from hn] at hq
    obtain ⟨j, hj, hjq⟩ := h.exists_possible hq (by rw [hqy]; exact hy.2)
    -- run the remaining steps from the state after this one, whose generator is irrelevant
    obtain ⟨s0, e0, m1, m2, m3, m4, m5, m6, m7, m8⟩ := ErM.script_step (h.withRng ⟨[i, j]⟩) hi hj rfl
    have hsd : (e0.graph.edges \ g.edges).card = k := by
      have : e0.graph.edges \ g.edges = (e.graph.edges \ g.edges).erase x := by
        ext z
        rw [m6]
        simp only [hix, hjq, hqy, Finset.mem_sdiff, Finset.mem_insert, Finset.mem_erase]
        constructor
        · rintro ⟨rfl | ⟨z1, z2⟩, z3⟩
          · exact absurd hy.1 z3
          · exact ⟨z1, z2, z3⟩
        · rintro ⟨z1, z2, z3⟩; exact ⟨.inr ⟨z1, z2⟩, z3⟩
      rw [this, Finset.card_erase_of_mem (Finset.mem_sdiff.mpr hx), hk]; rfl
    obtain ⟨draws, steps, e', c1, c2, c3⟩ := ih m2 hg (by rw [hn]; exact m3.symm) (by rw [hm]; exact m4.symm) hsd
    refine ⟨i :: j :: draws, s0 :: steps, e', ?_, c2, c3⟩
    have hrun : ({ e with rng := ⟨i :: j :: draws⟩ } : ErM T Script).mStep = .ok (s0, { e0 with rng := ⟨draws⟩ }) := by
      unfold ErM.mStep at m1 ⊢
      simp only [script_genRange hi, script_genRange hj, Res.ok_bind] at m1 ⊢
      simp only [Res.bind_eq_ok] at m1 ⊢
      obtain ⟨c, a1, q, a2, e1, a3, a4⟩ := m1
      simp only [Res.pure_eq, Res.ok.injEq, Prod.mk.injEq] at a4
      obtain ⟨rfl, rfl⟩ := a4
      exact ⟨c, a1, q, a2, _, ErM.step_rng a3 _, rfl⟩
    simp only [mSteps, hrun, Res.ok_bind, c1]
    rfl

/-- The hypotheses are met: a state with 4 of the 10 possible edges on 5 vertices, a probability of one half. -/
example : (∃ e : ErM Nat Script, e.Inv ∧ e.m = 4 ∧ e.graph.nextId = 5) ∧ (0 < heads (1 / 2) ∧ heads (1 / 2) < 2 ^ 53) ∧
    exTail.WF ∧ exTail.vertexCount = 5 := by
  refine ⟨?_, ⟨(C33_heads _).1.mpr (by norm_num), (C33_heads _).2.mpr (by norm_num)⟩, exTail_wf, by decide⟩
  obtain ⟨e, _, h2, h3, h4, _⟩ := ErM.new_spec (T := Nat) (n := 5) (m := 4) (by decide) (by decide) (⟨[]⟩ : Script)
  exact ⟨e, h2, h4, h3⟩

end Verif
