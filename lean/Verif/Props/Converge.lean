import Verif.Lemmas.Indep
import Mathlib.Data.Finset.Powerset

/-!
# C66: the Markov chains converge to the documented distributions
-/

set_option linter.unusedSectionVars false
set_option linter.unusedSimpArgs false

namespace Verif
open AdjContainer GenericGraph

variable {T : Type}

/-! ## `ErEnsembleC` -/

/-- The equally likely draws of one step: the two draws for the pair and the uniform number. -/
def ErC.stepDraws (e : ErC T Script) : Finset (ℕ × ℕ × ℕ) :=
  Finset.range e.graph.vertexCount ×ˢ Finset.range (e.graph.vertexCount - 1) ×ˢ Finset.range (2 ^ 53)

/-- The state after one `m_step` with the given draws. -/
def ErC.stepWith (e : ErC T Script) (d : ℕ × ℕ × ℕ) : Res (ErC T Script) := do
  let (_, e') ← ({ e with rng := ⟨[d.1, d.2.1, d.2.2]⟩ } : ErC T Script).mStep
  return e'

theorem ErC.stepWith_spec {e : ErC T Script} (h : e.graph.WF) {n : ℕ} (hn : e.graph.nextId = n) {d : ℕ × ℕ × ℕ}
    (hd : d ∈ pairDraws n) : ∃ e', e.stepWith d = .ok e' ∧ (e'.graph.WF ∧ e'.graph.nextId = n ∧ e'.prob = e.prob) ∧
      e'.graph.edges = toggled (fun _ => e.prob) e.graph.edges d := by
  obtain ⟨a, b, u⟩ := d
  simp only [pairDraws, Finset.mem_product, Finset.mem_range] at hd
  subst hn
  obtain ⟨s, e', m1, m2, m3, m4, _, _, m7⟩ := ErC.script_step (e := ({ e with rng := ⟨[a, b, u]⟩ } : ErC T Script)) (l := []) h
    hd.1 hd.2.1 hd.2.2 rfl
  refine ⟨e', ?_, ⟨m2, m3, m4⟩, m7⟩
  unfold ErC.stepWith
  rw [m1]
  rfl

theorem ErC.toggles {n : ℕ} {p : ℚ} {e0 : ErC T Script} (w0 : e0.graph.WF) (n0 : e0.graph.nextId = n) (p0 : e0.prob = p) :
    Toggles (fun e : ErC T Script => e.graph.WF ∧ e.graph.nextId = n ∧ e.prob = p) n (fun _ => p) ErC.stepDraws ErC.stepWith
      (fun e => e.graph.edges) :=
  Toggles.mk
    (by rintro e ⟨_, h2, _⟩
        show Finset.range e.graph.nextId ×ˢ Finset.range (e.graph.nextId - 1) ×ˢ Finset.range (2 ^ 53) = _
        rw [h2]; rfl)
    (by rintro e ⟨h1, h2, _⟩; rw [← h2]; exact edges_sub_pairSet h1)
    (by
      intro S hS
      obtain ⟨g, g1, g2, g3, _⟩ := exists_edges w0 (P := fun _ => True) trivial (fun _ _ _ _ _ _ _ _ => trivial) S
        (by rw [n0]; exact hS)
      exact ⟨{ e0 with graph := g }, ⟨g1, g2.trans n0, p0⟩, g3⟩)
    (by
      rintro e ⟨h1, h2, h3⟩ d hd
      obtain ⟨e', k1, k2, k3⟩ := ErC.stepWith_spec h1 h2 hd
      rw [h3] at k2 k3
      exact ⟨e', k1, k2, k3⟩)

theorem ErC.ergodic {n : ℕ} (hn : 2 ≤ n) {p : ℚ} {e0 : ErC T Script} (w0 : e0.graph.WF) (n0 : e0.graph.nextId = n)
    (p0 : e0.prob = p) :
    Markov.Ergodic (fun e : ErC T Script => e.graph.WF ∧ e.graph.nextId = n ∧ e.prob = p) ErC.stepDraws
      (fun e _ => 1 / ((ErC.stepDraws e).card : ℚ)) ErC.stepWith (fun e => e.graph.edges) (pairSet n).powerset
      (indepProb n (fun _ => headProb p)) :=
  (ErC.toggles w0 n0 p0).ergodic hn

/-- The chain of `m_step` of `ErEnsembleC` converges to G(n, p), from every state: after sufficiently many steps the probability of
every graph is, up to an arbitrarily small error, what independent edges give.  (`headProb p` is the probability with which the
coin of the code says "edge".) -/
theorem C66_er_c_converges {n : ℕ} (hn : 2 ≤ n) (p : ℚ) {ε : ℚ} (hε : 0 < ε) :
    ∃ t₀, ∀ t, t₀ ≤ t → ∀ e : ErC T Script, e.graph.WF → e.graph.vertexCount = n → e.prob = p →
      ∀ g : Graph T, g.WF → g.vertexCount = n →
        |lawAfter ErC.stepDraws ErC.stepWith (fun e => e.graph.edges) t e g.edges -
          headProb p ^ g.edgeCount * (1 - headProb p) ^ (n * (n - 1) / 2 - g.edgeCount)| < ε := by
  by_cases hex : ∃ e : ErC T Script, e.graph.WF ∧ e.graph.nextId = n ∧ e.prob = p
  · obtain ⟨e0, w0, n0, p0⟩ := hex
    obtain ⟨t₀, ht⟩ := (ErC.ergodic hn w0 n0 p0).converges hε
    refine ⟨t₀, fun t hle e w1 n1 p1 g hg hgn => ?_⟩
    have hsub : g.edges ⊆ pairSet n := by rw [← hgn]; exact edges_sub_pairSet hg
    have := ht t hle e ⟨w1, n1, p1⟩ g.edges (Finset.mem_powerset.mpr hsub)
    rw [← lawAfter_eq, indepProb_sum, div_one] at this
    have hw : indepProb n (fun _ => headProb p) g.edges =
        headProb p ^ g.edgeCount * (1 - headProb p) ^ (n * (n - 1) / 2 - g.edgeCount) := by
      unfold indepProb
      rw [Finset.prod_ite, Finset.prod_const, Finset.prod_const]
      have c1 : ((pairSet n).filter (fun x => x ∈ g.edges)).card = g.edgeCount := by
        rw [hg.edgeCount_eq_card]
        congr 1
        ext x
        rw [Finset.mem_filter]
        exact ⟨fun h => h.2, fun h => ⟨hsub h, h⟩⟩
      have c2 := Finset.card_filter_add_card_filter_not (s := pairSet n) (fun x => x ∈ g.edges)
      rw [c1, card_pairSet] at c2
      rw [c1]
      congr 2
      omega
    rwa [hw] at this
  · exact ⟨0, fun t _ e w1 n1 p1 => absurd ⟨e, w1, n1, p1⟩ hex⟩

/-! ## `SpacialEnsemble` -/

/-- The equally likely draws of one step: the two draws for the pair and the uniform number. -/
def Spacial.stepDraws (e : Spacial T Script) : Finset (ℕ × ℕ × ℕ) :=
  Finset.range e.graph.vertexCount ×ˢ Finset.range (e.graph.vertexCount - 1) ×ˢ Finset.range (2 ^ 53)

/-- The state after one `m_step` with the given draws. -/
def Spacial.stepWith (e : Spacial T Script) (d : ℕ × ℕ × ℕ) : Res (Spacial T Script) := do
  let (_, e') ← ({ e with rng := ⟨[d.1, d.2.1, d.2.2]⟩ } : Spacial T Script).mStep
  return e'

/-- The probability with which the coin of a pair is thrown. -/
def Spacial.pairProb (e₀ : Spacial T Script) (hsym : ∀ p q, e₀.law p q = e₀.law q p) : Sym2 ℕ → ℚ :=
  Sym2.lift ⟨fun x y => e₀.prob x y, fun x y => Spacial.prob_symm hsym x y⟩

theorem Spacial.toggles {e₀ : Spacial T Script} (h₀ : e₀.graph.WF) {n : ℕ} (hndef : e₀.graph.nextId = n)
    (hsym : ∀ p q, e₀.law p q = e₀.law q p) :
    Toggles (fun e : Spacial T Script => e.graph.WF ∧ e.graph.nextId = n ∧ e.law = e₀.law ∧ coords e.graph = coords e₀.graph) n
      (e₀.pairProb hsym) Spacial.stepDraws Spacial.stepWith (fun e => e.graph.edges) :=
  Toggles.mk
    (by rintro e ⟨_, h2, _⟩
        show Finset.range e.graph.nextId ×ˢ Finset.range (e.graph.nextId - 1) ×ˢ Finset.range (2 ^ 53) = _
        rw [h2]; rfl)
    (by rintro e ⟨h1, h2, _⟩; rw [← h2]; exact edges_sub_pairSet h1)
    (by
      intro S hS
      obtain ⟨g, g1, g2, g3, g4⟩ := exists_edges h₀ (P := fun g => coords g = coords e₀.graph) (coords_clearEdges _)
        (fun _ _ _ _ _ _ hc ha => (coords_addEdge ha).trans hc) S (by rw [hndef]; exact hS)
      exact ⟨{ e₀ with graph := g }, ⟨g1, g2.trans hndef, rfl, g4⟩, g3⟩)
    (by
      rintro e ⟨h1, h2, h3, h4⟩ ⟨a, b, u⟩ hd
      simp only [pairDraws, Finset.mem_product, Finset.mem_range] at hd
      rw [← h2] at hd
      have hdr := drawTwo_script (l := [u]) hd.1 hd.2.1
      have hy : (if b < a then b else b + 1) < e.graph.nextId := by split <;> omega
      obtain ⟨s, e', m1, m2, m3, _, m5, m6, _, _, m9⟩ := Spacial.mStep_cases
        (e := { e with rng := (⟨[a, b, u]⟩ : Script) }) h1 hdr hd.1 hy (by split <;> omega)
      rw [coin_script u [] _ hd.2.2] at m9
      refine ⟨e', by unfold Spacial.stepWith; rw [m1]; rfl, ⟨m2, m3.trans h2, m6.trans h3, m5.trans h4⟩, ?_⟩
      have hp : ∀ x y, ({ e with rng := (⟨[a, b, u]⟩ : Script) } : Spacial T Script).prob x y = e₀.prob x y := by
        intro x y; unfold Spacial.prob; simp only [h3, h4]
      simp only [hp, decide_eq_true_eq] at m9
      exact m9)

theorem Spacial.ergodic {e₀ : Spacial T Script} (h₀ : e₀.graph.WF) {n : ℕ} (hn : 2 ≤ n) (hndef : e₀.graph.nextId = n)
    (hsym : ∀ p q, e₀.law p q = e₀.law q p) :
    Markov.Ergodic (fun e : Spacial T Script => e.graph.WF ∧ e.graph.nextId = n ∧ e.law = e₀.law ∧ coords e.graph = coords e₀.graph)
      Spacial.stepDraws (fun e _ => 1 / ((Spacial.stepDraws e).card : ℚ)) Spacial.stepWith (fun e => e.graph.edges)
      (pairSet n).powerset (indepProb n (fun x => headProb (e₀.pairProb hsym x))) :=
  (Spacial.toggles h₀ hndef hsym).ergodic hn

/-- The chain of `m_step` of `SpacialEnsemble` converges from every state to the distribution in which every pair is an edge with its
own probability, independently of the others. -/
theorem C66_spacial_converges {e₀ : Spacial T Script} (h₀ : e₀.graph.WF) (hn : 2 ≤ e₀.graph.vertexCount)
    (hsym : ∀ p q, e₀.law p q = e₀.law q p) {ε : ℚ} (hε : 0 < ε) :
    ∃ t₀, ∀ t, t₀ ≤ t → ∀ e : Spacial T Script, e.graph.WF → e.graph.vertexCount = e₀.graph.vertexCount → e.law = e₀.law →
      coords e.graph = coords e₀.graph → ∀ g : SpacialGraph T, g.WF → g.vertexCount = e₀.graph.vertexCount →
        |lawAfter Spacial.stepDraws Spacial.stepWith (fun e => e.graph.edges) t e g.edges -
          (e₀.weight g.edges : ℚ) / (2 ^ 53) ^ (e₀.graph.vertexCount * (e₀.graph.vertexCount - 1) / 2)| < ε := by
  set n := e₀.graph.vertexCount with hndef
  let q : Sym2 ℕ → ℚ := e₀.pairProb hsym
  have hq : ∀ x y, q s(x, y) = e₀.prob x y := fun _ _ => rfl
  obtain ⟨t₀, ht⟩ := (Spacial.ergodic h₀ hn rfl hsym).converges hε
  refine ⟨t₀, fun t hle e w1 n1 l1 c1 g hg hgn => ?_⟩
  have hsub : g.edges ⊆ pairSet n := by rw [← hgn]; exact edges_sub_pairSet hg
  have := ht t hle e ⟨w1, n1, l1, c1⟩ g.edges (Finset.mem_powerset.mpr hsub)
  rw [← lawAfter_eq, indepProb_sum, div_one] at this
  have hw : indepProb n (fun x => headProb (q x)) g.edges = (e₀.weight g.edges : ℚ) / (2 ^ 53) ^ (n * (n - 1) / 2) := by
    unfold indepProb Spacial.weight
    rw [← length_allPairs, ← List.toFinset_card_of_nodup (nodup_allPairs n), ← Finset.prod_const, Nat.cast_prod,
      ← Finset.prod_div_distrib]
    have himg : pairSet n = (allPairs n).toFinset.image toEdge := by
      ext x; simp [pairSet]
    rw [himg, Finset.prod_image (by
      intro p hp p' hp' hpp
      exact toEdge_injOn (List.mem_toFinset.mp hp) (List.mem_toFinset.mp hp') hpp)]
    refine Finset.prod_congr rfl (fun p _ => ?_)
    have hqp : q (toEdge p) = e₀.prob p.1 p.2 := rfl
    simp only [hqp]
    split
    · rfl
    · rw [Nat.cast_sub (heads_le _), Nat.cast_pow, Nat.cast_ofNat, headProb]
      field_simp
  rwa [hw] at this

/-! ## `ErEnsembleM` -/

/-- The equally likely draws of one step: the position of the edge to remove and of the edge to add. -/
def ErM.stepDraws (e : ErM T Script) : Finset (ℕ × ℕ) :=
  Finset.range e.currentEdges.length ×ˢ Finset.range e.possibleEdges.length

/-- The state after one `m_step` with the given draws. -/
def ErM.stepWith (e : ErM T Script) (d : ℕ × ℕ) : Res (ErM T Script) := do
  let (_, e') ← ({ e with rng := ⟨[d.1, d.2]⟩ } : ErM T Script).mStep
  return e'

theorem ErM.stepWith_spec {e : ErM T Script} (h : e.Inv) {i j : ℕ} (hi : i < e.currentEdges.length)
    (hj : j < e.possibleEdges.length) : ∃ e', e.stepWith (i, j) = .ok e' ∧ e'.Inv ∧ e'.graph.nextId = e.graph.nextId ∧ e'.m = e.m ∧
      e'.graph.edges = insert (toEdge e.possibleEdges[j]) (e.graph.edges.erase (toEdge e.currentEdges[i])) := by
  obtain ⟨s, e', m1, m2, m3, m4, _, m6, _⟩ := ErM.script_step (h.withRng ⟨[i, j]⟩) (l := []) hi hj rfl
  exact ⟨e', by unfold ErM.stepWith; rw [m1]; rfl, m2, m3, m4, m6⟩

/-- A state with any given set of `m` pairs. -/
theorem ErM.exists_state {e : ErM T Script} (h : e.Inv) {S : Finset (Sym2 ℕ)} (hS : S ⊆ pairSet e.graph.nextId) (hm : S.card = e.m) :
    ∃ e' : ErM T Script, e'.Inv ∧ e'.graph.nextId = e.graph.nextId ∧ e'.m = e.m ∧ e'.graph.edges = S := by
  classical
  obtain ⟨g, g1, g2, g3, _⟩ := exists_edges h.wf (P := fun _ => True) trivial (fun _ _ _ _ _ _ _ _ => trivial) S hS
  have hcur : S = (((allPairs e.graph.nextId).filter (fun p => decide (toEdge p ∈ S))).map toEdge).toFinset := by
    ext x
    simp only [List.mem_toFinset, List.mem_map, List.mem_filter, decide_eq_true_eq]
    constructor
    · intro hx
      obtain ⟨p, hp, rfl⟩ := mem_pairSet.mp (hS hx)
      exact ⟨p, ⟨hp, hx⟩, rfl⟩
    · rintro ⟨p, ⟨_, hp⟩, rfl⟩; exact hp
  refine ⟨{ e with
      graph := g
      currentEdges := (allPairs e.graph.nextId).filter (fun p => decide (toEdge p ∈ S))
      possibleEdges := (allPairs e.graph.nextId).filter (fun p => !decide (toEdge p ∈ S)) }, ⟨g1, ?_, ?_, ?_, ?_⟩, g2, rfl, g3⟩
  · show ((allPairs e.graph.nextId).filter (fun p => decide (toEdge p ∈ S))).length = e.m
    rw [← hm]
    conv => rhs; rw [hcur]
    rw [List.toFinset_card_of_nodup, List.length_map]
    exact (nodup_pairs _).sublist (List.filter_sublist.map _)
  · rw [g3]; exact hcur
  · show List.Perm _ (allPairs g.nextId)
    rw [g2]
    exact List.filter_append_perm _ _
  · show List.Perm _ (allPairs g.nextId)
    rw [g2]
    exact h.all

/-- Exchanging one edge is possible. -/
theorem ErM.possible_exch {n m : ℕ} {e0 : ErM T Script} (w0 : e0.Inv) (n0 : e0.graph.nextId = n) (p0 : e0.m = m) :
    ∀ S, S ⊆ pairSet n → S.card = m → ∀ x ∈ S, ∀ y ∈ pairSet n, y ∉ S →
      Markov.Possible (fun e : ErM T Script => e.Inv ∧ e.graph.nextId = n ∧ e.m = m) ErM.stepDraws ErM.stepWith
        (fun e => e.graph.edges) S (insert y (S.erase x)) := by
  intro S h1 h2 x hx y hy hyS
  obtain ⟨e, k1, k2, k3, rfl⟩ := ErM.exists_state w0 (S := S) (by rw [n0]; exact h1) (h2.trans p0.symm)
  have he : e.Inv ∧ e.graph.nextId = n ∧ e.m = m := ⟨k1, k2.trans n0, k3.trans p0⟩
  obtain ⟨i, hi, hix⟩ := he.1.exists_current hx
  obtain ⟨p, hp, rfl⟩ := mem_pairSet.mp hy
  obtain ⟨j, hj, hjp⟩ := he.1.exists_possible (by rw [he.2.1]; exact hp) hyS
  obtain ⟨e', k1, k2, k3, k4, k5⟩ := ErM.stepWith_spec he.1 hi hj
  refine ⟨e, he, rfl, (i, j), ?_, e', k1, ?_⟩
  · simp only [ErM.stepDraws, Finset.mem_product, Finset.mem_range]; exact ⟨hi, hj⟩
  · show e'.graph.edges = _
    rw [k5, hix, hjp]

theorem ErM.ergodic {n m : ℕ} (hm0 : 0 < m) (hm : m < n * (n - 1) / 2) {e0 : ErM T Script} (w0 : e0.Inv)
    (n0 : e0.graph.nextId = n) (p0 : e0.m = m) :
    Markov.Ergodic (fun e : ErM T Script => e.Inv ∧ e.graph.nextId = n ∧ e.m = m) ErM.stepDraws
      (fun e _ => 1 / ((ErM.stepDraws e).card : ℚ)) ErM.stepWith (fun e => e.graph.edges) (Finset.powersetCard m (pairSet n))
      (fun _ => 1) := by
  classical
  let V : ErM T Script → Prop := fun e => e.Inv ∧ e.graph.nextId = n ∧ e.m = m
  let obs : ErM T Script → Finset (Sym2 ℕ) := fun e => e.graph.edges
  have hmemΩ : ∀ e, V e → obs e ⊆ pairSet n ∧ (obs e).card = m := by
    rintro e ⟨h1, h2, h3⟩
    refine ⟨by rw [← h2]; exact edges_sub_pairSet h1.wf, ?_⟩
    show e.graph.edges.card = m
    rw [← h1.wf.edgeCount_eq_card, h1.edgeCount, h3]
  have hexΩ : ∀ S, S ⊆ pairSet n → S.card = m → ∃ e, V e ∧ obs e = S := by
    intro S h1 h2
    obtain ⟨e', k1, k2, k3, k4⟩ := ErM.exists_state w0 (S := S) (by rw [n0]; exact h1) (h2.trans p0.symm)
    exact ⟨e', ⟨k1, k2.trans n0, k3.trans p0⟩, k4⟩
  have hlen : ∀ e, V e → e.currentEdges.length = m ∧ e.possibleEdges.length = n * (n - 1) / 2 - m := by
    rintro e ⟨h1, h2, h3⟩
    have := h1.possible_len
    rw [length_allPairs, h2, h3] at this
    exact ⟨h1.len.trans h3, by omega⟩
  have hcnt : ∀ e, V e → ∀ S, Markov.cnt ErM.stepDraws ErM.stepWith obs e S = (ErM.ways e S).card := by
    rintro e he S
    unfold Markov.cnt ErM.ways
    congr 1
    refine Finset.filter_congr (fun d hd => ?_)
    unfold ErM.stepWith
    constructor
    · rintro ⟨e', k1, k2⟩
      simp only [Res.bind_eq_ok, Prod.exists, Res.pure_eq, Res.ok.injEq] at k1
      obtain ⟨s, e'', k1, rfl⟩ := k1
      exact ⟨s, _, k1, k2⟩
    · rintro ⟨s, e', k1, k2⟩
      exact ⟨e', by rw [k1]; rfl, k2⟩
  have hl : Markov.Lumped V ErM.stepDraws ErM.stepWith obs (Finset.powersetCard m (pairSet n))
      (m * (n * (n - 1) / 2 - m)) := by
    refine ⟨?_, Nat.mul_pos hm0 (by omega), ?_, fun e he => Finset.mem_powersetCard.mpr (hmemΩ e he),
      fun S hS => hexΩ S (Finset.mem_powersetCard.mp hS).1 (Finset.mem_powersetCard.mp hS).2, ?_⟩
    · intro e he
      unfold ErM.stepDraws
      rw [Finset.card_product, Finset.card_range, Finset.card_range, (hlen e he).1, (hlen e he).2]
    · rintro e ⟨h1, h2, h3⟩ ⟨i, j⟩ hd
      simp only [ErM.stepDraws, Finset.mem_product, Finset.mem_range] at hd
      obtain ⟨e', k1, k2, k3, k4, _⟩ := ErM.stepWith_spec h1 hd.1 hd.2
      exact ⟨e', k1, k2, k3.trans h2, k4.trans h3⟩
    · intro e e' he he' ho S hS
      rw [Finset.mem_powersetCard] at hS
      obtain ⟨x, ⟨x1, x2, x3⟩, rfl⟩ := hexΩ S hS.1 hS.2
      rw [hcnt e he, hcnt e' he', C34_er_m_transition_counts he.1 x1.wf (x2.trans he.2.1.symm) (x1.edgeCount.trans (x3.trans he.2.2.symm)),
        C34_er_m_transition_counts he'.1 x1.wf (x2.trans he'.2.1.symm) (x1.edgeCount.trans (x3.trans he'.2.2.symm))]
      rw [show e.graph.edges = e'.graph.edges from ho]
  have hposs := ErM.possible_exch w0 n0 p0
  obtain ⟨o, ho, hom⟩ := Finset.exists_subset_card_eq (s := pairSet n) (n := m) (by rw [card_pairSet]; omega)
  have hnpos : 3 ≤ n * (n - 1) / 2 := by
    rcases Nat.lt_or_ge n 3 with h3 | h3
    · exfalso
      rcases (by omega : n = 0 ∨ n = 1 ∨ n = 2) with rfl | rfl | rfl <;> omega
    · have : 3 * 2 ≤ n * (n - 1) := Nat.mul_le_mul h3 (by omega)
      omega
  exact hl.ergodic (w := fun _ => 1) (fun _ _ => by norm_num)
    (by
      rw [Finset.sum_const, nsmul_eq_mul, mul_one]
      exact_mod_cast Finset.card_pos.mpr ⟨o, Finset.mem_powersetCard.mpr ⟨ho, hom⟩⟩)
    (by
      intro e e' he he'
      rw [hcnt e he, hcnt e' he', C34_er_m_symmetric he.1 he'.1 (he'.2.1.trans he.2.1.symm) (he'.2.2.trans he.2.2.symm)])
    (o := o) (Finset.mem_powersetCard.mpr ⟨ho, hom⟩)
    (by
      right
      have hcomp : (pairSet n \ o).card = n * (n - 1) / 2 - m := by
        rw [Finset.card_sdiff_of_subset ho, card_pairSet, hom]
      obtain ⟨x, hx⟩ := Finset.card_pos.mp (show 0 < o.card by omega)
      obtain ⟨y, hy⟩ := Finset.card_pos.mp (show 0 < (pairSet n \ o).card by omega)
      rw [Finset.mem_sdiff] at hy
      have hxy : x ≠ y := fun hc => hy.2 (hc ▸ hx)
      have sub : ∀ {S : Finset (Sym2 ℕ)} {x y}, S ⊆ pairSet n → S.card = m → x ∈ S → y ∈ pairSet n → y ∉ S →
          insert y (S.erase x) ⊆ pairSet n ∧ (insert y (S.erase x)).card = m := by
        intro S x y h1 h2 h3 h4 h5
        constructor
        · exact Finset.insert_subset h4 ((Finset.erase_subset _ _).trans h1)
        · rw [Finset.card_insert_of_notMem (fun hc => h5 (Finset.mem_of_mem_erase hc)), Finset.card_erase_of_mem h3]; omega
      have hp := hposs
      have p1 := hposs o ho hom x hx y hy.1 hy.2
      obtain ⟨s1, c1⟩ := sub ho hom hx hy.1 hy.2
      have p2 := hposs _ s1 c1 y (by simp) x (ho hx) (by simp [hxy])
      have e2 : insert x ((insert y (o.erase x)).erase y) = o := by
        rw [Finset.erase_insert (fun hc => hy.2 (Finset.mem_of_mem_erase hc)), Finset.insert_erase hx]
      rw [e2] at p2
      by_cases h2 : 2 ≤ (pairSet n \ o).card
      · obtain ⟨z, hz, hzy⟩ := Finset.exists_mem_ne (show 1 < (pairSet n \ o).card by omega) y
        rw [Finset.mem_sdiff] at hz
        have hxz : x ≠ z := fun hc => hz.2 (hc ▸ hx)
        have hz1 : z ∉ insert y (o.erase x) := by
          rw [Finset.mem_insert, Finset.mem_erase]; tauto
        have p3 := hposs _ s1 c1 y (by simp) z hz.1 hz1
        obtain ⟨s2, c2⟩ := sub s1 c1 (Finset.mem_insert_self y _) hz.1 hz1
        have hb : insert z ((insert y (o.erase x)).erase y) = insert z (o.erase x) := by
          rw [Finset.erase_insert (fun hc => hy.2 (Finset.mem_of_mem_erase hc))]
        rw [hb] at p3 s2 c2
        have p4 := hposs _ s2 c2 z (by simp) x (ho hx) (by simp [hxz])
        rw [Finset.erase_insert (fun hc => hz.2 (Finset.mem_of_mem_erase hc)), Finset.insert_erase hx] at p4
        exact ⟨_, _, p1, p2, p3, p4⟩
      · obtain ⟨z, hz, hzx⟩ := Finset.exists_mem_ne (show 1 < o.card by omega) x
        have hzy : z ≠ y := fun hc => hy.2 (hc ▸ hz)
        have p3 := hposs _ s1 c1 z (by simp [hzx, hz]) x (ho hx) (by simp [hxy])
        have hb : insert x ((insert y (o.erase x)).erase z) = insert y (o.erase z) := by
          ext v
          simp only [Finset.mem_insert, Finset.mem_erase]
          by_cases hv : v = x
          · subst hv; simp [hx, Ne.symm hzx]
          · by_cases hv' : v = y
            · subst hv'; simp [Ne.symm hzy]
            · simp [hv, hv']
        rw [hb] at p3
        obtain ⟨s2, c2⟩ := sub ho hom hz hy.1 hy.2
        have p4 := hposs _ s2 c2 y (by simp) z (ho hz) (by simp [hzy])
        rw [Finset.erase_insert (fun hc => hy.2 (Finset.mem_of_mem_erase hc)), Finset.insert_erase hz] at p4
        exact ⟨_, _, p1, p2, p3, p4⟩)
    (by
      intro S hS
      rw [Finset.mem_powersetCard] at hS
      obtain ⟨k, hk⟩ : ∃ k, (S \ o).card = k := ⟨_, rfl⟩
      induction k generalizing S with
      | zero =>
        rw [Finset.card_eq_zero, Finset.sdiff_eq_empty_iff_subset] at hk
        rw [Finset.eq_of_subset_of_card_le hk (by rw [hom, hS.2])]
      | succ k ih =>
        have hcard : (o \ S).card = k + 1 := by
          have h1 := Finset.card_sdiff_add_card_inter S o
          have h2 := Finset.card_sdiff_add_card_inter o S
          rw [Finset.inter_comm] at h2
          omega
        obtain ⟨x, hx⟩ := Finset.card_pos.mp (show 0 < (S \ o).card by omega)
        obtain ⟨y, hy⟩ := Finset.card_pos.mp (show 0 < (o \ S).card by omega)
        rw [Finset.mem_sdiff] at hx hy
        refine Relation.ReflTransGen.head (hposs S hS.1 hS.2 x hx.1 y (ho hy.1) hy.2) (ih _ ⟨?_, ?_⟩ ?_)
        · exact Finset.insert_subset (ho hy.1) ((Finset.erase_subset _ _).trans hS.1)
        · rw [Finset.card_insert_of_notMem (fun hc => hy.2 (Finset.mem_of_mem_erase hc)), Finset.card_erase_of_mem hx.1]; omega
        · have : insert y (S.erase x) \ o = (S \ o).erase x := by
            ext z
            simp only [Finset.mem_sdiff, Finset.mem_insert, Finset.mem_erase]
            constructor
            · rintro ⟨rfl | ⟨z1, z2⟩, z3⟩
              · exact absurd hy.1 z3
              · exact ⟨z1, z2, z3⟩
            · rintro ⟨z1, z2, z3⟩; exact ⟨.inr ⟨z1, z2⟩, z3⟩
          rw [this, Finset.card_erase_of_mem (Finset.mem_sdiff.mpr hx), hk]; rfl)

/-- The chain of `m_step` of `ErEnsembleM` converges to the uniform distribution on the graphs with `m` edges, from every state. -/
theorem C66_er_m_converges {n m : ℕ} (hm0 : 0 < m) (hm : m < n * (n - 1) / 2) {ε : ℚ} (hε : 0 < ε) :
    ∃ t₀, ∀ t, t₀ ≤ t → ∀ e : ErM T Script, e.Inv → e.graph.vertexCount = n → e.m = m →
      ∀ g : Graph T, g.WF → g.vertexCount = n → g.edgeCount = m →
        |lawAfter ErM.stepDraws ErM.stepWith (fun e => e.graph.edges) t e g.edges - 1 / ((n * (n - 1) / 2).choose m : ℚ)| < ε := by
  classical
  by_cases hex : ∃ e : ErM T Script, e.Inv ∧ e.graph.nextId = n ∧ e.m = m
  · obtain ⟨e0, w0, n0, p0⟩ := hex
    obtain ⟨t₀, ht⟩ := (ErM.ergodic hm0 hm w0 n0 p0).converges hε
    refine ⟨t₀, fun t hle e w1 n1 p1 g hg hgn hgm => ?_⟩
    have hsub : g.edges ⊆ pairSet n := by rw [← hgn]; exact edges_sub_pairSet hg
    have := ht t hle e ⟨w1, n1, p1⟩ g.edges (Finset.mem_powersetCard.mpr ⟨hsub, by rw [← hg.edgeCount_eq_card, hgm]⟩)
    rw [← lawAfter_eq] at this
    rwa [Finset.sum_const, nsmul_eq_mul, mul_one, Finset.card_powersetCard, card_pairSet] at this
  · exact ⟨0, fun t _ e w1 n1 p1 => absurd ⟨e, w1, n1, p1⟩ hex⟩

/-- The hypotheses are met: graphs on 5 vertices, the spatial example, a state with 4 of the 10 possible edges. -/
example : (exTail.WF ∧ exTail.vertexCount = 5) ∧
    (exSpacial.graph.WF ∧ 2 ≤ exSpacial.graph.vertexCount ∧ ∀ p q, exSpacial.law p q = exSpacial.law q p) ∧
    ((0 < 4 ∧ 4 < 5 * (5 - 1) / 2) ∧ ∃ e : ErM Nat Script, e.Inv ∧ e.graph.vertexCount = 5 ∧ e.m = 4) := by
  refine ⟨⟨exTail_wf, by decide⟩, ⟨exSpacial_wf, by decide, fun p q => by simp only [exSpacial, eq_comm]⟩, by decide, ?_⟩
  obtain ⟨e, _, h2, h3, h4, _⟩ := ErM.new_spec (T := Nat) (n := 5) (m := 4) (by decide) (by decide) (⟨[]⟩ : Script)
  exact ⟨e, h2, h3, h4⟩

end Verif
