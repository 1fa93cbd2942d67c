import Verif.Lemmas.Resample
import Verif.Lemmas.WsChance
import Verif.Lemmas.ChainSteps
import Verif.Lemmas.ChainConfig
import Verif.Props.Average
import Verif.Props.DogLaw
import Verif.Props.WsPlace
import Verif.Props.AlmostSure
import Verif.Props.Forget
import Verif.Props.BaChance
import Verif.Props.ConfigChance
import Mathlib.Data.Sym.Sym2.Order
import Mathlib.Data.List.Permutation

/-!
# C94: samples drawn one after the other

`randomize` called again and again gives independent networks.
-/

set_option linter.unusedSectionVars false
set_option linter.unusedSimpArgs false

namespace Verif
open MeasureTheory ProbabilityTheory Filter AdjContainer GenericGraph

variable {T : Type}

/-! ## Independent edges -/

theorem throws_cons_stream (p : ℕ × ℕ → ℚ) (q : ℕ × ℕ) (l : List (ℕ × ℕ)) (ω : ℕ → ℝ) (k : ℕ) :
    (throws p (q :: l) (⟨ω, k⟩ : Stream)).1 =
      (coin (⟨ω, k⟩ : Stream) (p q)).1 :: (throws p l (⟨ω, k + 1⟩ : Stream)).1 := rfl

/-- The probability that exactly the edges `S` are thrown. -/
theorem throws_chance (p : ℕ × ℕ → ℚ) : ∀ (l : List (ℕ × ℕ)), (l.map toEdge).Nodup → ∀ S ⊆ (l.map toEdge).toFinset,
    Chance (fun ω k => chosen l (throws p l (⟨ω, k⟩ : Stream)).1 = S)
      ((l.map fun q => if toEdge q ∈ S then Ws.q1 (p q) else Ws.q0 (p q)).prod) := by
  intro l
  induction l with
  | nil =>
    intro _ S hS
    have : S = ∅ := by simpa using hS
    subst this
    exact Chance.true.congr fun ω k => ⟨fun _ => rfl, fun _ => trivial⟩
  | cons q l ih =>
    intro hnd S hS
    rw [List.map_cons, List.nodup_cons] at hnd
    have hq : ∀ bs, toEdge q ∉ chosen l bs := fun bs hc => hnd.1 (List.mem_toFinset.mp (Dog.chosen_sub l bs hc))
    rw [List.map_cons, List.prod_cons]
    have hmap : ∀ S' : Finset (Sym2 ℕ), (∀ x ∈ l.map toEdge, x ∈ S' ↔ x ∈ S) →
        (l.map fun q => if toEdge q ∈ S' then Ws.q1 (p q) else Ws.q0 (p q)) = (l.map fun q => if toEdge q ∈ S then Ws.q1 (p q) else Ws.q0 (p q)) := by
      intro S' h
      refine List.map_congr_left fun x hx => ?_
      simp only [h _ (List.mem_map.mpr ⟨x, hx, rfl⟩)]
    have hdraw : ∀ (b : Bool) {w : ENNReal}, Chance (fun ω k => (coin (⟨ω, k⟩ : Stream) (p q)).1 = b) w →
        Chance (fun ω k => ∃ a j, (a = (coin (⟨ω, k⟩ : Stream) (p q)).1 ∧ j = k + 1) ∧ a = b) w := fun b _ h =>
      h.congr fun ω k => ⟨fun h => ⟨_, _, ⟨rfl, rfl⟩, h⟩, fun ⟨a, j, ⟨h, _⟩, h'⟩ => h ▸ h'⟩
    by_cases hqS : toEdge q ∈ S
    · rw [if_pos hqS]
      have hih := ih hnd.2 (S.erase (toEdge q)) (by
        intro x hx
        rw [Finset.mem_erase] at hx
        have := hS hx.2
        rw [List.map_cons, List.toFinset_cons, Finset.mem_insert] at this
        exact this.resolve_left hx.1)
      rw [hmap _ (fun x hx => by
        rw [Finset.mem_erase]
        exact ⟨fun h => h.2, fun h => ⟨fun e => hnd.1 (e ▸ hx), h⟩⟩)] at hih
      refine (chance_bind (Ws.coin_sampler (p q)) (hdraw true (Ws.coin_one (p q)))
        (Q := fun _ ω j => chosen l (throws p l (⟨ω, j⟩ : Stream)).1 = S.erase (toEdge q)) (fun _ _ => hih)).congr fun ω k => ?_
      rw [throws_cons_stream, Dog.chosen_cons]
      constructor
      · rintro ⟨a, j, ⟨rfl, rfl⟩, h1, h2⟩
        rw [if_pos h1, h2, Finset.insert_erase hqS]
      · intro h
        by_cases hc : (coin (⟨ω, k⟩ : Stream) (p q)).1 = true
        · rw [if_pos hc] at h
          refine ⟨_, _, ⟨rfl, rfl⟩, hc, ?_⟩
          rw [← h, Finset.erase_insert (hq _)]
        · rw [if_neg hc] at h
          exact absurd (h ▸ hqS) (hq _)
    · rw [if_neg hqS]
      have hih := ih hnd.2 S (by
        intro x hx
        have := hS hx
        rw [List.map_cons, List.toFinset_cons, Finset.mem_insert] at this
        exact this.resolve_left (fun e => hqS (e ▸ hx)))
      refine (chance_bind (Ws.coin_sampler (p q)) (hdraw false (Ws.coin_zero (p q)))
        (Q := fun _ ω j => chosen l (throws p l (⟨ω, j⟩ : Stream)).1 = S) (fun _ _ => hih)).congr fun ω k => ?_
      rw [throws_cons_stream, Dog.chosen_cons]
      constructor
      · rintro ⟨a, j, ⟨rfl, rfl⟩, h1, h2⟩
        rw [if_neg (by rw [h1]; simp), h2]
      · intro h
        by_cases hc : (coin (⟨ω, k⟩ : Stream) (p q)).1 = true
        · rw [if_pos hc] at h
          exact absurd (h ▸ Finset.mem_insert_self _ _) hqS
        · rw [if_neg hc] at h
          exact ⟨_, _, ⟨rfl, rfl⟩, by simpa using hc, h⟩

theorem q1_eq (p : ℚ) : Ws.q1 p = ENNReal.ofReal ((headProb p : ℚ) : ℝ) := by
  unfold Ws.q1 headProb
  have hM : ((2 ^ 53 : ℕ) : ENNReal) = ENNReal.ofReal ((2 : ℝ) ^ 53) := by
    rw [← ENNReal.ofReal_natCast]; congr 1; rw [Nat.cast_pow, Nat.cast_ofNat]
  rw [hM, ← ENNReal.ofReal_inv_of_pos (by positivity), ← ENNReal.ofReal_natCast, ← ENNReal.ofReal_mul (Nat.cast_nonneg _)]
  congr 1
  rw [Rat.cast_div, Rat.cast_pow, Rat.cast_natCast, Rat.cast_ofNat, div_eq_mul_inv]

theorem q0_eq (p : ℚ) : Ws.q0 p = ENNReal.ofReal (((1 - headProb p : ℚ)) : ℝ) := by
  unfold Ws.q0
  rw [q1_eq, Rat.cast_sub, Rat.cast_one, ENNReal.ofReal_sub _ (by exact_mod_cast headProb_nonneg p), ENNReal.ofReal_one]

/-- The probability of the edges `S` if the pair `x` is an edge with probability `pr x`, independently of the others. -/
noncomputable def edgesLaw (n : ℕ) (pr : Sym2 ℕ → ℚ) (S : Finset (Sym2 ℕ)) : ENNReal := ENNReal.ofReal ((indepProb n pr S : ℚ) : ℝ)

theorem indepProb_nonneg {n : ℕ} {pr : Sym2 ℕ → ℚ} (h0 : ∀ x, 0 ≤ pr x) (h1 : ∀ x, pr x ≤ 1) (S : Finset (Sym2 ℕ)) :
    0 ≤ indepProb n pr S := by
  refine Finset.prod_nonneg fun x _ => ?_
  split
  · exact h0 x
  · have := h1 x; linarith

theorem edgesLaw_sum {n : ℕ} {pr : Sym2 ℕ → ℚ} (h0 : ∀ x, 0 ≤ pr x) (h1 : ∀ x, pr x ≤ 1) :
    ∑ S ∈ (pairSet n).powerset, edgesLaw n pr S = 1 := by
  unfold edgesLaw
  rw [← ENNReal.ofReal_sum_of_nonneg (fun S _ => by exact_mod_cast indepProb_nonneg h0 h1 S), ← Rat.cast_sum, indepProb_sum]
  simp

theorem prod_pairs_ofReal (n : ℕ) (q : Sym2 ℕ → ℚ) (p : ℕ × ℕ → ℚ) (hp : ∀ x ∈ allPairs n, p x = q (toEdge x)) (S : Finset (Sym2 ℕ)) :
    ((allPairs n).map fun x => if toEdge x ∈ S then Ws.q1 (p x) else Ws.q0 (p x)).prod = edgesLaw n (fun x => headProb (q x)) S := by
  have h1 : ((allPairs n).map fun x => if toEdge x ∈ S then Ws.q1 (p x) else Ws.q0 (p x)) =
      ((allPairs n).map toEdge).map fun x => ENNReal.ofReal (((if x ∈ S then headProb (q x) else 1 - headProb (q x) : ℚ)) : ℝ) := by
    rw [List.map_map]
    refine List.map_congr_left fun x hx => ?_
    simp only [Function.comp, hp x hx]
    split
    · exact q1_eq _
    · exact q0_eq _
  rw [h1, ← List.prod_toFinset _ (nodup_pairs n)]
  unfold edgesLaw indepProb
  rw [Rat.cast_prod, ENNReal.ofReal_prod_of_nonneg]
  · rfl
  · intro x _
    have := headProb_nonneg (q x)
    have := headProb_le_one (q x)
    split
    · exact_mod_cast headProb_nonneg (q x)
    · exact_mod_cast sub_nonneg.mpr (headProb_le_one (q x))

/-! ## ErEnsembleC -/

namespace ErC

theorem randBody_adaptive (p : ℚ) (i j : ℕ) (g : Graph T) : Adaptive Prod.mk (fun _ (r : Stream) => randBody p i (g, r) j) := by
  unfold randBody
  dsimp only
  have := (Adaptive.coin p).bind (mk' := Prod.mk) (g := fun _ (b : Bool × Stream) =>
    if b.1 then (do
      let a ← Vec.idx g.vertices i
      let c ← Vec.idx (g.vertices.set i { a with adj := a.adj ++ [j] }) j
      return ((GenericGraph.mk g.nextId (g.edgeCount + 1) ((g.vertices.set i { a with adj := a.adj ++ [j] }).set j { c with adj := c.adj ++ [i] }) : Graph T), b.2))
    else return (g, b.2)) (fun b => by
      dsimp only
      cases b with
      | false => exact Adaptive.ok g
      | true =>
        simp only [if_true]
        exact Adaptive.constBind fun a _ => Adaptive.constBind fun c _ => Adaptive.ok (mk := Prod.mk) _)
  exact this

theorem randomize_adaptive (c : ErC T Unit) : Adaptive put (fun _ r => (put c r : ErC T Stream).randomize) := by
  unfold randomize
  refine Adaptive.bind (mk := Prod.mk) (f := fun _ (r : Stream) => (List.range c.graph.clearEdges.vertexCount).foldlM
    (fun s i => (List.range' (i + 1) (c.graph.clearEdges.vertexCount - (i + 1))).foldlM (randBody c.prob i) s) (c.graph.clearEdges, r))
    (g := fun _ s => .ok (⟨s.1, c.prob, c.cTarget, s.2⟩ : ErC T Stream)) ?_ ?_
  · exact Adaptive.foldlM (step := fun _ s i => (List.range' (i + 1) (c.graph.clearEdges.vertexCount - (i + 1))).foldlM (randBody c.prob i) s)
      (fun i a => Adaptive.foldlM (step := fun _ => randBody c.prob i) (fun j a => randBody_adaptive c.prob i j a) _ _) _ _
  · intro g
    exact Adaptive.ok (mk := put) (⟨g, c.prob, c.cTarget, ()⟩ : ErC T Unit)

theorem randomize_ret {c c' : ErC T Unit} (hc : c.graph.WF) {ω : ℕ → ℝ} {k j : ℕ}
    (h : RetOf put (fun _ r => (put c r : ErC T Stream).randomize) ω k c' j) : c'.graph.WF ∧ c'.graph.nextId = c.graph.nextId ∧
      c'.prob = c.prob ∧ c'.graph.edges = chosen (allPairs c.graph.nextId) (throws (fun _ => c.prob) (allPairs c.graph.nextId) (⟨ω, k⟩ : Stream)).1 := by
  obtain ⟨F, hF⟩ := h
  have h1 : (put c (⟨ω, k⟩ : Stream) : ErC T Stream).randomize = .ok (put c' ⟨ω, j⟩) := hF F (le_refl F)
  obtain ⟨e', a1, a2, a3, _, a5, _, _, a8⟩ := randomize_spec (e := (put c (⟨ω, k⟩ : Stream) : ErC T Stream)) hc
  rw [a1] at h1
  cases Res.ok.inj h1
  rw [coins_eq_throws] at a8
  exact ⟨a2, a3, a5, a8⟩

theorem resample (n : ℕ) (p : ℚ) : Resample (put : ErC T Unit → Stream → ErC T Stream) (fun _ => randomize)
    (fun c => c.graph.WF ∧ c.graph.nextId = n ∧ c.prob = p) (fun c => c.graph.edges) (pairSet n).powerset
    (edgesLaw n (fun _ => headProb p)) := by
  refine ⟨joins_put, randomize_adaptive, ?_, ?_⟩
  · rintro c ⟨h1, h2, h3⟩ ω k c' j h
    obtain ⟨a1, a2, a3, a4⟩ := randomize_ret h1 h
    exact ⟨⟨a1, a2.trans h2, a3.trans h3⟩, Finset.mem_powerset.mpr (by
      have := edges_sub_pairSet a1
      rwa [a2, h2] at this)⟩
  · rintro c ⟨h1, h2, h3⟩ S hS
    have hc := throws_chance (fun _ => p) (allPairs n) (nodup_pairs n) S (Finset.mem_powerset.mp hS)
    rw [prod_pairs_ofReal n (fun _ => p) (fun _ => p) (fun _ _ => rfl) S] at hc
    refine hc.congr fun ω k => ?_
    subst h2 h3
    constructor
    · intro he
      obtain ⟨e', a1, a2, a3, _, a5, _, a7, a8⟩ := randomize_spec (e := (put c (⟨ω, k⟩ : Stream) : ErC T Stream)) h1
      obtain ⟨c', j, b1, b2⟩ := (randomize_adaptive c).ret (fuel := 0) (r := ⟨ω, k⟩) a1
      exact ⟨c', j, b2, by rw [(randomize_ret h1 b2).2.2.2]; exact he⟩
    · rintro ⟨c', j, b2, rfl⟩
      exact (randomize_ret h1 b2).2.2.2.symm

end ErC

/-! ## SpacialEnsemble -/

namespace Spacial

theorem randBody_adaptive (law : Pos → Pos → ℚ) (i j : ℕ) (g : SpacialGraph T) :
    Adaptive Prod.mk (fun _ (r : Stream) => randBody law i (g, r) j) := by
  unfold randBody
  dsimp only
  refine Adaptive.constBind fun p _ => ?_
  have := (Adaptive.coin p).bind (mk' := Prod.mk) (g := fun _ (b : Bool × Stream) =>
    if b.1 then (do
      let a ← Vec.idx g.vertices i
      let c ← Vec.idx (g.vertices.set i { a with adj := a.adj ++ [j] }) j
      return ((GenericGraph.mk g.nextId (g.edgeCount + 1) ((g.vertices.set i { a with adj := a.adj ++ [j] }).set j { c with adj := c.adj ++ [i] }) : SpacialGraph T), b.2))
    else return (g, b.2)) (fun b => by
      dsimp only
      cases b with
      | false => exact Adaptive.ok g
      | true =>
        simp only [if_true]
        exact Adaptive.constBind fun a _ => Adaptive.constBind fun c _ => Adaptive.ok (mk := Prod.mk) _)
  exact this

theorem randomize_adaptive (c : Spacial T Unit) : Adaptive put (fun _ r => (put c r : Spacial T Stream).randomize) := by
  unfold randomize
  refine Adaptive.bind (mk := Prod.mk) (f := fun _ (r : Stream) => (List.range c.graph.clearEdges.vertexCount).foldlM
    (fun s i => (List.range' (i + 1) (c.graph.clearEdges.vertexCount - (i + 1))).foldlM (randBody c.law i) s) (c.graph.clearEdges, r))
    (g := fun _ s => .ok (⟨s.1, s.2, c.law⟩ : Spacial T Stream)) ?_ ?_
  · exact Adaptive.foldlM (step := fun _ s i => (List.range' (i + 1) (c.graph.clearEdges.vertexCount - (i + 1))).foldlM (randBody c.law i) s)
      (fun i a => Adaptive.foldlM (step := fun _ => randBody c.law i) (fun j a => randBody_adaptive c.law i j a) _ _) _ _
  · intro g
    exact Adaptive.ok (mk := put) (⟨g, (), c.law⟩ : Spacial T Unit)

theorem randomize_ret {c c' : Spacial T Unit} (hc : c.graph.WF) {ω : ℕ → ℝ} {k j : ℕ}
    (h : RetOf put (fun _ r => (put c r : Spacial T Stream).randomize) ω k c' j) : c'.graph.WF ∧ c'.graph.nextId = c.graph.nextId ∧
      coords c'.graph = coords c.graph ∧ c'.law = c.law ∧ c'.graph.edges =
        chosen (allPairs c.graph.nextId) (throws (fun p => c.prob p.1 p.2) (allPairs c.graph.nextId) (⟨ω, k⟩ : Stream)).1 := by
  obtain ⟨F, hF⟩ := h
  have h1 : (put c (⟨ω, k⟩ : Stream) : Spacial T Stream).randomize = .ok (put c' ⟨ω, j⟩) := hF F (le_refl F)
  obtain ⟨e', a1, a2, a3, _, a5, a6, _, a8⟩ := randomize_spec (e := (put c (⟨ω, k⟩ : Stream) : Spacial T Stream)) hc
  rw [a1] at h1
  cases Res.ok.inj h1
  exact ⟨a2, a3, a5, a6, a8⟩

/-- The probability for the edge between two vertices, from their positions: the vertex with the smaller index comes first. -/
def edgeLaw (law : Pos → Pos → ℚ) (xy : List Pos) (x : Sym2 ℕ) : ℚ := law (posAt xy x.inf) (posAt xy x.sup)

theorem resample (n : ℕ) (law : Pos → Pos → ℚ) (xy : List Pos) : Resample (put : Spacial T Unit → Stream → Spacial T Stream)
    (fun _ => randomize) (fun c => c.graph.WF ∧ c.graph.nextId = n ∧ c.law = law ∧ coords c.graph = xy) (fun c => c.graph.edges)
    (pairSet n).powerset (edgesLaw n (fun x => headProb (edgeLaw law xy x))) := by
  refine ⟨joins_put, randomize_adaptive, ?_, ?_⟩
  · rintro c ⟨h1, h2, h3, h4⟩ ω k c' j h
    obtain ⟨a1, a2, a3, a4, _⟩ := randomize_ret h1 h
    exact ⟨⟨a1, a2.trans h2, a4.trans h3, a3.trans h4⟩, Finset.mem_powerset.mpr (by
      have := edges_sub_pairSet a1
      rwa [a2, h2] at this)⟩
  · rintro c ⟨h1, h2, h3, h4⟩ S hS
    have hc := throws_chance (fun p => c.prob p.1 p.2) (allPairs n) (nodup_pairs n) S (Finset.mem_powerset.mp hS)
    rw [prod_pairs_ofReal n (edgeLaw law xy) (fun p => c.prob p.1 p.2) (fun x hx => by
      have := mem_allPairs.mp hx
      unfold prob edgeLaw toEdge
      rw [h3, h4]
      simp [min_eq_left this.1.le, max_eq_right this.1.le]) S] at hc
    refine hc.congr fun ω k => ?_
    subst h2
    constructor
    · intro he
      obtain ⟨e', a1, _⟩ := randomize_spec (e := (put c (⟨ω, k⟩ : Stream) : Spacial T Stream)) h1
      obtain ⟨c', j, b1, b2⟩ := (randomize_adaptive c).ret (fuel := 0) (r := ⟨ω, k⟩) a1
      exact ⟨c', j, b2, by rw [(randomize_ret h1 b2).2.2.2.2]; exact he⟩
    · rintro ⟨c', j, b2, rfl⟩
      exact (randomize_ret h1 b2).2.2.2.2.symm

end Spacial

/-! ## ErEnsembleM -/

/-- The chance that a shuffled list has a property. -/
theorem shuffle_chance {α : Type} (l : List α) (P : List α → Prop) [DecidablePred P] :
    Chance (fun ω k => P (Rng.shuffle (⟨ω, k⟩ : Stream) l).1)
      ((l.permutations.countP (fun t => P t) : ENNReal) * ((l.length.factorial : ℕ) : ENNReal)⁻¹) := by
  have hpos : 0 < l.permutations.length := by rw [List.length_permutations]; exact Nat.factorial_pos _
  have := chance_draw hpos (fun i => P (l.permutations.getD i l))
  have hc : ((Finset.range l.permutations.length).filter (fun i => P (l.permutations.getD i l))).card =
      l.permutations.countP (fun t => P t) := by
    rw [List.countP_eq_length_filter]
    have h1 : l.permutations = (List.range l.permutations.length).map (fun i => l.permutations.getD i l) := by
      apply List.ext_getElem
      · simp
      · intro i h1 h2
        simp [h1]
    conv => rhs; rw [h1]
    rw [List.filter_map, List.length_map]
    have h2 : (Finset.range l.permutations.length).filter (fun i => P (l.permutations.getD i l)) =
        ((List.range l.permutations.length).filter (fun i => P (l.permutations.getD i l))).toFinset := by
      ext i; simp
    rw [h2, List.toFinset_card_of_nodup (List.nodup_range.filter _)]
    rfl
  rw [hc, List.length_permutations] at this
  refine this.congr fun ω k => ?_
  show _ ↔ P (l.permutations.getD (partOf (ω k) l.permutations.length) l)
  rw [List.length_permutations]

/-- The number of orders of a list in which given elements come first. -/
theorem count_first {α : Type} [DecidableEq α] {l : List α} (hl : l.Nodup) {S : Finset α} (hS : S ⊆ l.toFinset) :
    l.permutations.countP (fun t => (t.take S.card).toFinset = S) = S.card.factorial * (l.length - S.card).factorial := by
  have hlen : ∀ A : Finset α, A.toList.permutations.toFinset.card = A.card.factorial := by
    intro A
    rw [List.toFinset_card_of_nodup (List.nodup_permutations _ A.nodup_toList), List.length_permutations, Finset.length_toList]
  have hcard : (l.toFinset \ S).card = l.length - S.card := by
    rw [Finset.card_sdiff_of_subset hS, List.toFinset_card_of_nodup hl]
  rw [List.countP_eq_length_filter, ← List.toFinset_card_of_nodup ((List.nodup_permutations l hl).filter _), ← hcard, ← hlen, ← hlen,
    ← Finset.card_product]
  symm
  apply Finset.card_bij (fun (p : List α × List α) _ => p.1 ++ p.2)
  · rintro ⟨a, b⟩ h
    simp only [Finset.mem_product, List.mem_toFinset, List.mem_permutations, List.mem_filter, decide_eq_true_eq] at h ⊢
    obtain ⟨h1, h2⟩ := h
    have e1 : a.length = S.card := by rw [h1.length_eq, Finset.length_toList]
    have ha : a.toFinset = S := by rw [List.toFinset_eq_of_perm _ _ h1, Finset.toList_toFinset]
    have hb : b.toFinset = l.toFinset \ S := by rw [List.toFinset_eq_of_perm _ _ h2, Finset.toList_toFinset]
    refine ⟨?_, by rw [← e1, List.take_left', ha]; rfl⟩
    apply List.perm_of_nodup_nodup_toFinset_eq _ hl
    · rw [List.toFinset_append, ha, hb, Finset.union_sdiff_of_subset hS]
    · rw [List.nodup_append']
      refine ⟨h1.nodup_iff.mpr S.nodup_toList, h2.nodup_iff.mpr (Finset.nodup_toList _), ?_⟩
      rw [← List.disjoint_toFinset_iff_disjoint, ha, hb]
      exact Finset.disjoint_sdiff
  · rintro ⟨a, b⟩ h ⟨a', b'⟩ h' he
    simp only [Finset.mem_product, List.mem_toFinset, List.mem_permutations] at h h'
    have := List.append_inj he (by rw [h.1.length_eq, h'.1.length_eq])
    exact Prod.ext this.1 this.2
  · intro t ht
    simp only [List.mem_toFinset, List.mem_filter, List.mem_permutations, decide_eq_true_eq] at ht
    obtain ⟨h1, h2⟩ := ht
    have hnd : (t.take S.card ++ t.drop S.card).Nodup := by rw [List.take_append_drop]; exact h1.nodup_iff.mpr hl
    rw [List.nodup_append'] at hnd
    refine ⟨(t.take S.card, t.drop S.card), ?_, List.take_append_drop _ _⟩
    simp only [Finset.mem_product, List.mem_toFinset, List.mem_permutations]
    refine ⟨List.perm_of_nodup_nodup_toFinset_eq hnd.1 S.nodup_toList (by rw [h2, Finset.toList_toFinset]),
      List.perm_of_nodup_nodup_toFinset_eq hnd.2.1 (Finset.nodup_toList _) ?_⟩
    have hd : (t.drop S.card).toFinset = t.toFinset \ (t.take S.card).toFinset := by
      ext x
      simp only [List.mem_toFinset, Finset.mem_sdiff]
      constructor
      · intro hx
        exact ⟨List.mem_of_mem_drop hx, fun hx' => hnd.2.2 hx' hx⟩
      · rintro ⟨hx, hx'⟩
        rw [← List.take_append_drop S.card t, List.mem_append] at hx
        exact hx.resolve_left hx'
    rw [Finset.toList_toFinset, ← List.toFinset_eq_of_perm _ _ h1, hd, h2]

namespace ErM

theorem randomize_adaptive (c : ErM T Unit) : Adaptive put (fun _ r => (put c r : ErM T Stream).randomize) := by
  unfold randomize
  simp only [put]
  refine Adaptive.bind (mk := Prod.mk) (f := fun _ r => .ok (Rng.shuffle r c.allEdges)) (g := fun _ x => do
    Res.assert (decide (c.m ≤ x.1.length))
    let currentEdges ← copyFromSlice c.currentEdges (x.1.take c.m)
    let graph ← currentEdges.foldlM (fun g edge => do
      let p ← g.addEdge edge.1 edge.2
      unwrapOk p) c.graph.clearEdges
    let possibleEdges ← copyFromSlice c.possibleEdges (x.1.drop c.m)
    return (⟨graph, c.m, x.2, x.1, possibleEdges, currentEdges⟩ : ErM T Stream)) (Adaptive.shuffle _) ?_
  intro l
  simp only []
  refine Adaptive.constBind (x := Res.assert (decide (c.m ≤ l.length))) (g := fun _ _ r => do
    let currentEdges ← copyFromSlice c.currentEdges (l.take c.m)
    let graph ← currentEdges.foldlM (fun g edge => do
      let p ← g.addEdge edge.1 edge.2
      unwrapOk p) c.graph.clearEdges
    let possibleEdges ← copyFromSlice c.possibleEdges (l.drop c.m)
    return (⟨graph, c.m, r, l, possibleEdges, currentEdges⟩ : ErM T Stream)) fun _ _ => ?_
  refine Adaptive.constBind fun cur _ => ?_
  refine Adaptive.constBind fun g _ => ?_
  refine Adaptive.constBind fun pos _ => ?_
  exact Adaptive.ok (mk := put) (⟨g, c.m, (), l, pos, cur⟩ : ErM T Unit)

theorem resample (n m : ℕ) (hm : m ≤ n * (n - 1) / 2) : Resample (put : ErM T Unit → Stream → ErM T Stream) (fun _ => randomize)
    (fun c => (put c (⟨fun _ => 0, 0⟩ : Stream)).Inv ∧ c.graph.nextId = n ∧ c.m = m) (fun c => c.graph.edges)
    ((pairSet n).powersetCard m) (fun _ => (((n * (n - 1) / 2).choose m : ℕ) : ENNReal)⁻¹) := by
  refine Resample.of_law joins_put randomize_adaptive (look := fun e => e.graph.edges) (fun _ _ => rfl) ?_ ?_
  · rintro c ⟨h1, h2, h3⟩ fuel r c' r' h
    obtain ⟨e', a1, a2, a3, a4, a5, _⟩ := randomize_spec (e := (put c r : ErM T Stream)) h1.wf h1.all h1.len h1.possible_len
    have h : (put c r).randomize = .ok (put c' r') := h
    rw [a1] at h
    cases h
    have hn : c'.graph.nextId = n := a3.trans h2
    have hm' : c'.m = m := a5.trans h3
    refine ⟨⟨⟨a2.wf, a2.len, a2.cur, a2.split, a2.all⟩, hn, hm'⟩, Finset.mem_powersetCard.mpr ⟨?_, ?_⟩⟩
    · have := edges_sub_pairSet a2.wf
      have hn' : (put c' r').graph.nextId = n := hn
      rwa [hn'] at this
    · have h5 := a2.edgeCount
      rw [a2.wf.edgeCount_eq_card] at h5
      exact h5.trans hm'
  · rintro c ⟨h1, h2, h3⟩ S hS
    obtain ⟨hS1, hS2⟩ := Finset.mem_powersetCard.mp hS
    have hlen : c.allEdges.length = n * (n - 1) / 2 := by
      refine h1.all.length_eq.trans ?_
      rw [length_allPairs]
      exact congrArg (fun x => x * (x - 1) / 2) h2
    have hnd : (c.allEdges.map toEdge).Nodup := by
      refine (h1.all.map toEdge).nodup_iff.mpr (nodup_pairs _)
    have hset : (c.allEdges.map toEdge).toFinset = pairSet n := by
      refine (List.toFinset_eq_of_perm _ _ (h1.all.map toEdge)).trans ?_
      rw [← h2]; rfl
    have hcount := count_first hnd (hset ▸ hS1)
    rw [← List.map_permutations, List.countP_map, List.length_map, hlen, hS2] at hcount
    have hch := (shuffle_chance c.allEdges (fun t => ((t.map toEdge).take m).toFinset = S)).prob 0
    have hfun : ((fun t : List (Sym2 ℕ) => decide ((t.take m).toFinset = S)) ∘ List.map toEdge) =
        fun t : List (ℕ × ℕ) => decide (((t.map toEdge).take m).toFinset = S) := rfl
    rw [hfun] at hcount
    rw [hcount, hlen] at hch
    have hlaw : ((m.factorial * (n * (n - 1) / 2 - m).factorial : ℕ) : ENNReal) * (((n * (n - 1) / 2).factorial : ℕ) : ENNReal)⁻¹ =
        (((n * (n - 1) / 2).choose m : ℕ) : ENNReal)⁻¹ := by
      have h4 := Nat.choose_mul_factorial_mul_factorial hm
      have hpos : 0 < m.factorial * (n * (n - 1) / 2 - m).factorial := Nat.mul_pos (Nat.factorial_pos _) (Nat.factorial_pos _)
      rw [← h4, mul_assoc, Nat.cast_mul ((n * (n - 1) / 2).choose m), ENNReal.mul_inv (Or.inr (ENNReal.natCast_ne_top _)) (Or.inl (ENNReal.natCast_ne_top _)),
        mul_comm, mul_assoc, ENNReal.inv_mul_cancel (by exact_mod_cast hpos.ne') (ENNReal.natCast_ne_top _), mul_one]
    rw [hlaw] at hch
    rw [← hch]
    congr 1
    ext ω
    simp only [Set.mem_ofPred_eq]
    obtain ⟨e', a1, a2, a3, a4, a5, a6, a7, a8, a9⟩ :=
      randomize_spec (e := (put c (⟨ω, 0⟩ : Stream) : ErM T Stream)) h1.wf h1.all h1.len h1.possible_len
    have hed : e'.graph.edges = (((Rng.shuffle (⟨ω, 0⟩ : Stream) c.allEdges).1.map toEdge).take m).toFinset := by
      rw [a2.cur, a8, a6, List.map_take]
      show _ = _
      rw [← h3]; rfl
    constructor
    · rintro ⟨_, e'', b1, b2⟩
      rw [a1] at b1
      cases b1
      rw [← hed, b2]
    · intro hb
      exact ⟨0, e', a1, hed.trans hb⟩

theorem law_sum (n m : ℕ) (hm : m ≤ n * (n - 1) / 2) :
    ∑ _S ∈ (pairSet n).powersetCard m, (((n * (n - 1) / 2).choose m : ℕ) : ENNReal)⁻¹ = 1 := by
  rw [Finset.sum_const, Finset.card_powersetCard, card_pairSet, nsmul_eq_mul]
  exact ENNReal.mul_inv_cancel (by exact_mod_cast (Nat.choose_pos hm).ne') (ENNReal.natCast_ne_top _)

end ErM

/-! ## Configuration model -/

namespace Config

theorem randLoop_adaptive : ∀ (fuel : ℕ) (c : Config T Unit) (ω : ℕ → ℝ) (k : ℕ) (b : Config T Stream),
    randLoop fuel (put c (⟨ω, k⟩ : Stream)) = .ok b → ∃ (a : Config T Unit) (l : List (ℕ × ℕ)), b = put a ⟨ω, k + l.length⟩ ∧
      Matches ω k l ∧ ∀ fuel', fuel ≤ fuel' → ∀ ω' k', Matches ω' k' l →
        randLoop fuel' (put c (⟨ω', k'⟩ : Stream)) = .ok (put a ⟨ω', k' + l.length⟩) := by
  intro fuel
  induction fuel with
  | zero => intro c ω k b hb; cases hb
  | succ fuel ih =>
    intro c ω k b hb
    unfold randLoop at hb
    by_cases he : c.halfs.isEmpty = true
    · rw [show (put c (⟨ω, k⟩ : Stream)).halfs = c.halfs from rfl, if_pos he] at hb
      refine ⟨c, [], (Res.ok.inj hb).symm, matches_nil _ _, ?_⟩
      intro fuel' hf ω' k' _
      obtain ⟨F, rfl⟩ : ∃ F, fuel' = F + 1 := ⟨fuel' - 1, by omega⟩
      unfold randLoop
      rw [show (put c (⟨ω', k'⟩ : Stream)).halfs = c.halfs from rfl, if_pos he]
      rfl
    · rw [show (put c (⟨ω, k⟩ : Stream)).halfs = c.halfs from rfl, if_neg he] at hb
      obtain ⟨⟨added, g, h⟩, h1, h2⟩ := Res.bind_eq_ok.mp hb
      have h1 : addMultiple (c.halfs.length + 1) c.graph c.halfs = .ok (added, g, h) := h1
      have hstep : ∀ F ω' k', randLoop (F + 1) (put c (⟨ω', k'⟩ : Stream)) =
          if added then randLoop F (put ⟨g, c.degreeVec, (), h, c.backup⟩ (⟨ω', k'⟩ : Stream)) else
            randLoop F (put ⟨g.clearEdges, c.degreeVec, (), (Rng.shuffle (⟨ω', k'⟩ : Stream) c.backup).1,
              (Rng.shuffle (⟨ω', k'⟩ : Stream) c.backup).1⟩ (⟨ω', k' + 1⟩ : Stream)) := by
        intro F ω' k'
        conv => lhs; unfold randLoop
        rw [show (put c (⟨ω', k'⟩ : Stream)).halfs = c.halfs from rfl, if_neg he,
          show (put c (⟨ω', k'⟩ : Stream)).graph = c.graph from rfl, h1]
        rfl
      cases added with
      | true =>
        have h2 : randLoop fuel (put ⟨g, c.degreeVec, (), h, c.backup⟩ (⟨ω, k⟩ : Stream)) = .ok b := h2
        obtain ⟨a, l, a1, a2, a3⟩ := ih _ ω k b h2
        refine ⟨a, l, a1, a2, ?_⟩
        intro fuel' hf ω' k' hm
        obtain ⟨F, rfl⟩ : ∃ F, fuel' = F + 1 := ⟨fuel' - 1, by omega⟩
        rw [hstep, if_pos rfl]
        exact a3 F (by omega) ω' k' hm
      | false =>
        have h2 : randLoop fuel (put ⟨g.clearEdges, c.degreeVec, (), (Rng.shuffle (⟨ω, k⟩ : Stream) c.backup).1,
          (Rng.shuffle (⟨ω, k⟩ : Stream) c.backup).1⟩ (⟨ω, k + 1⟩ : Stream)) = .ok b := h2
        obtain ⟨a, l, a1, a2, a3⟩ := ih _ ω (k + 1) b h2
        have hsh := Adaptive.shuffle c.backup 0 ω k _ rfl
        refine ⟨a, (c.backup.permutations.length, partOf (ω k) c.backup.permutations.length) :: l, ?_, ?_, ?_⟩
        · rw [a1, List.length_cons]; congr 2; omega
        · exact matches_append (l := [_]).mpr ⟨matches_single.mpr rfl, a2⟩
        · intro fuel' hf ω' k' hm
          obtain ⟨F, rfl⟩ : ∃ F, fuel' = F + 1 := ⟨fuel' - 1, by omega⟩
          obtain ⟨m1, m2⟩ := matches_append (l := [_]).mp hm
          have m1 := matches_single.mp m1
          rw [hstep, if_neg (by simp)]
          have hs : (Rng.shuffle (⟨ω', k'⟩ : Stream) c.backup).1 = (Rng.shuffle (⟨ω, k⟩ : Stream) c.backup).1 := by
            show c.backup.permutations.getD (partOf (ω' k') c.backup.permutations.length) c.backup = _
            rw [m1]; rfl
          rw [hs, a3 F (by omega) ω' (k' + 1) m2, List.length_cons]
          congr 3; omega

theorem randomize_adaptive (c : Config T Unit) : Adaptive put (fun fuel r => randomize fuel (put c r : Config T Stream)) := by
  refine Adaptive.bind (mk := Prod.mk) (f := fun _ r => .ok (Rng.shuffle r c.backup))
    (g := fun fuel x => randLoop fuel (put ⟨c.graph.clearEdges, c.degreeVec, (), x.1, x.1⟩ x.2)) (Adaptive.shuffle c.backup) ?_
  intro a
  exact fun fuel ω k b hb => randLoop_adaptive fuel _ ω k b hb

theorem resample (ds : List ℕ) (hev : ds.sum % 2 = 0) : Resample (put : Config T Unit → Stream → Config T Stream) randomize
    (fun c => (put c (⟨fun _ => 0, 0⟩ : Stream)).Base ∧ c.degreeVec = ds) (fun c => c.graph.edges)
    (pairSet ds.length).powerset (fun E => (ways ds E : ENNReal) / (allWays ds : ENNReal)) := by
  refine Resample.of_law joins_put randomize_adaptive (look := fun e => e.graph.edges) (fun _ _ => rfl) ?_ ?_
  · rintro c ⟨h1, h2⟩ fuel r c' r' h
    have hb : (put c r).Base := ⟨h1.wf, h1.n, h1.halves⟩
    have h3 := randLoop_spec fuel _ (restart hb (backup := (Rng.shuffle r c.backup).1) (rng := (Rng.shuffle r c.backup).2) rfl)
      (by rw [← h2] at hev; exact hev)
    have h4 : (randomize fuel (put c r)).wp _ True := h3
    rw [h] at h4
    obtain ⟨h5, h6, _⟩ := h4
    have h7 : c'.degreeVec = ds := h6.trans h2
    refine ⟨⟨⟨h5.wf, h5.n, h5.halves⟩, h7⟩, Finset.mem_powerset.mpr ?_⟩
    have := edges_sub_pairSet h5.wf
    have hn : (put c' r').graph.nextId = ds.length := by rw [← h7]; exact h5.n
    rwa [hn] at this
  · rintro c ⟨h1, rfl⟩ E _
    exact C83_config_law (e := put c (⟨fun _ => 0, 0⟩ : Stream)) h1 hev 0 E

end Config

/-! ## Barabási-Albert -/

namespace Ba

def put {R : Type} (c : Ba T Unit) (r : R) : Ba T R := ⟨c.source, c.graph, r, c.m, c.weights⟩

theorem joins_put : Joins (put : Ba T Unit → Stream → Ba T Stream) := by
  intro a a' r r' h
  obtain ⟨s, g, _, m, w⟩ := a
  obtain ⟨s', g', _, m', w'⟩ := a'
  simp only [put, Ba.mk.injEq] at h
  obtain ⟨rfl, rfl, rfl, rfl, rfl⟩ := h
  exact ⟨rfl, rfl⟩

theorem randomize_adaptive (c : Ba T Unit) : Adaptive put (fun fuel r => randomize fuel (put c r : Ba T Stream)) := by
  unfold randomize
  simp only [put]
  refine Adaptive.constBind fun g _ => ?_
  refine Adaptive.bind (mk := Prod.mk) (f := fun _ r => .ok (Rng.shuffle r (List.range' c.source.vertexCount (g.vertexCount - c.source.vertexCount))))
    (g := fun fuel x => do
      let weights ← initWeights c.source g.vertexCount c.weights
      let y ← x.1.foldlM (growBody c.m fuel) (g, weights, x.2)
      return (⟨c.source, y.1, y.2.2, c.m, y.2.1⟩ : Ba T Stream)) (Adaptive.shuffle _) ?_
  intro order
  simp only []
  refine Adaptive.constBind fun w _ => ?_
  refine Adaptive.bind (mk := Ws.mk3) (f := fun fuel r => order.foldlM (growBody c.m fuel) (Ws.mk3 (g, w) r))
    (g := fun _ y => .ok (⟨c.source, y.1, y.2.2, c.m, y.2.1⟩ : Ba T Stream))
    (Adaptive.foldlM' (step := fun fuel => growBody (T := T) (R := Stream) c.m fuel) (mk := Ws.mk3)
      (fun x a => growBody_adaptive c.m a x) order (g, w)) ?_
  intro a
  exact Adaptive.ok (mk := put) (⟨c.source, a.1, (), c.m, a.2⟩ : Ba T Unit)

/-- The probability that growing `source` to `n` vertices in a random order gives the edges `E`. -/
noncomputable def growLaw (source : Graph T) (n m : ℕ) (E : Finset (Sym2 ℕ)) : ENNReal :=
  ((List.range' source.vertexCount (n - source.vertexCount)).permutations.map fun order => grownLaw n m order source.edges E).sum /
    ((n - source.vertexCount).factorial : ENNReal)

theorem resample (source : Graph T) (hE : 1 ≤ source.edgeCount) (n m : ℕ) : Resample (put : Ba T Unit → Stream → Ba T Stream) randomize
    (fun c => (put c (⟨fun _ => 0, 0⟩ : Stream)).Valid ∧ c.source = source ∧ c.graph.vertexCount = n ∧ c.m = m) (fun c => c.graph.edges)
    (pairSet n).powerset (growLaw source n m) := by
  refine Resample.of_law joins_put randomize_adaptive (look := fun e => e.graph.edges) (fun _ _ => rfl) ?_ ?_
  · rintro c ⟨h1, rfl, rfl, rfl⟩ fuel r c' r' h
    have hv : (put c r).Valid := ⟨h1.source, h1.graph, h1.le, h1.len⟩
    obtain ⟨k1, k2, k3, k4, k5, _⟩ := (C44_ba_randomize hv hE fuel).2 _ h
    refine ⟨⟨⟨k1.source, k1.graph, k1.le, k1.len⟩, k2, k5, k3⟩, Finset.mem_powerset.mpr ?_⟩
    have := edges_sub_pairSet k1.graph
    have hn : (put c' r').graph.nextId = c.graph.vertexCount := k5
    rwa [hn] at this
  · rintro c ⟨h1, rfl, rfl, rfl⟩ E _
    exact C84_ba_law (e := put c (⟨fun _ => 0, 0⟩ : Stream)) h1 hE 0 E

end Ba

/-! ## Watts-Strogatz -/

namespace Ws

def put {R : Type} (c : Ws T Unit) (r : R) : Ws T R := ⟨c.graph, c.rewireProb, r, c.neighborDistance⟩

theorem joins_put : Joins (put : Ws T Unit → Stream → Ws T Stream) := by
  intro a a' r r' h
  obtain ⟨g, p, _, d⟩ := a
  obtain ⟨g', p', _, d'⟩ := a'
  simp only [put, Ws.mk.injEq] at h
  obtain ⟨rfl, rfl, rfl, rfl⟩ := h
  exact ⟨rfl, rfl⟩

theorem randomize_adaptive [Node T] (c : Ws T Unit) : Adaptive put (fun fuel r => randomize fuel (put c r : Ws T Stream)) := by
  unfold randomize
  simp only [put]
  refine Adaptive.constBind fun x _ => ?_
  obtain ⟨res, g⟩ := x
  cases res with
  | error _ => exact Adaptive.panic
  | ok u =>
    refine Adaptive.bind (mk := Prod.mk) (f := fun fuel r => (List.range g.vertexCount).foldlM (rewireBody c.rewireProb fuel) (g, r))
      (g := fun _ y => .ok (⟨y.1, c.rewireProb, y.2, c.neighborDistance⟩ : Ws T Stream)) (loop_adaptive _ _ _) ?_
    intro a
    exact Adaptive.ok (mk := put) (⟨a, c.rewireProb, (), c.neighborDistance⟩ : Ws T Unit)

/-- The probability that one call of `randomize` leads from the graph `g` to the edges `E`. -/
noncomputable def oneLaw (g : WSGraph T) (p : ℚ) (d : ℕ) (E : Finset (Sym2 ℕ)) : ENNReal :=
  uniformTape {ω | ∃ fuel e', randomize fuel (⟨g, p, ⟨ω, 0⟩, d⟩ : Ws T Stream) = .ok e' ∧ e'.graph.edges = E}

theorem resample [Node T] {g : WSGraph T} (hg : g.WF) (hn : g.vertexCount < 2 ^ 32) {d : ℕ} (hd : 2 * d + 1 ≤ g.vertexCount) (p : ℚ) :
    Resample (put : Ws T Unit → Stream → Ws T Stream) randomize
    (fun c => c.graph.WF ∧ c.graph.vertexCount = g.vertexCount ∧ c.graph.data = g.data ∧ c.rewireProb = p ∧ c.neighborDistance = d)
    (fun c => c.graph.edges) (pairSet g.vertexCount).powerset (oneLaw g p d) := by
  refine Resample.of_law joins_put randomize_adaptive (look := fun e => e.graph.edges) (fun _ _ => rfl) ?_ ?_
  · rintro c ⟨h1, h2, h3, rfl, rfl⟩ fuel r c' r' h
    obtain ⟨k1, k2, k3, k4, k5, _⟩ := (C45_ws_randomize (e := put c r) h1 (by rw [← h2] at hd; exact hd) (by rw [← h2] at hn; exact hn) fuel).2 _ h
    refine ⟨⟨k1.wf, k2.trans h2, k3.trans h3, k4, k5⟩, Finset.mem_powerset.mpr ?_⟩
    have := edges_sub_pairSet k1.wf
    have hv : (put c' r').graph.nextId = g.vertexCount := k2.trans h2
    rwa [hv] at this
  · rintro c ⟨h1, h2, h3, rfl, rfl⟩ E _
    unfold oneLaw
    congr 1
    ext ω
    simp only [Set.mem_ofPred_eq]
    have : ∀ fuel, randomize fuel (put c (⟨ω, 0⟩ : Stream)) = randomize fuel (⟨g, c.rewireProb, ⟨ω, 0⟩, c.neighborDistance⟩ : Ws T Stream) :=
      fun fuel => C69_ws_forgets (e := (⟨g, c.rewireProb, ⟨ω, 0⟩, c.neighborDistance⟩ : Ws T Stream)) (e' := put c (⟨ω, 0⟩ : Stream)) hg h1 h3 rfl rfl rfl fuel
    simp only [this]

end Ws

/-! ## DogEnsemble -/

namespace Dog

/-- The ensemble with the graph `g` and the generator `r`; the parameters do not change. -/
def put (law : Pos → Pos → ℚ) (tau : ℚ) (lambda : ℕ) (poisson : Stream → ℕ × Stream) (g : SpacialGraph T) (r : Stream) : Dog T Stream :=
  ⟨g, r, law, tau, lambda, poisson⟩

theorem joins_put (law : Pos → Pos → ℚ) (tau : ℚ) (lambda : ℕ) (poisson : Stream → ℕ × Stream) :
    Joins (put law tau lambda poisson : SpacialGraph T → Stream → Dog T Stream) := by
  intro a a' r r' h
  simp only [put, Dog.mk.injEq] at h
  exact ⟨h.1, h.2.1⟩

theorem randomize_adaptive (law : Pos → Pos → ℚ) (tau : ℚ) (lambda : ℕ) {poisson : Stream → ℕ × Stream} {q : ℕ → ENNReal}
    (hq : Counts poisson q) (g : SpacialGraph T) :
    Adaptive (put law tau lambda poisson) (fun fuel r => randomize fuel (put law tau lambda poisson g r)) := by
  unfold randomize
  simp only [put, GenericGraph.vertexCount, clearEdges_nextId]
  have hnear : ∀ r : Stream, (List.range g.nextId).foldlM (fun s i => (List.range i).foldlM (nearBody law i) s) (g.clearEdges, r) =
      nearLoop law g r := fun r => by rw [foldlM_lowPairs]; rfl
  simp only [hnear]
  refine Adaptive.bind (mk := Prod.mk) (f := fun _ r => nearLoop law g r) (nearLoop_adaptive law g) (g := fun fuel (s : SpacialGraph T × Stream) => do
    let special ← prefixOf (Rng.shuffle s.2 (List.range g.nextId)).1 (roundUsize ((g.nextId : ℚ) * (1 - tau)))
    Res.assert (decide (0 < lambda))
    Res.assert (decide (0 < g.nextId))
    let t ← special.foldlM (farBody poisson fuel) ((s.1, (s.1.vertices.map AdjContainer.degree).sum),
      (Rng.shuffle s.2 (List.range g.nextId)).2)
    return (⟨t.1.1, t.2, law, tau, lambda, poisson⟩ : Dog T Stream)) ?_
  intro g'
  refine Adaptive.bind (mk := Prod.mk) (f := fun _ r => .ok (Rng.shuffle r (List.range g.nextId))) (Adaptive.shuffle _)
    (g := fun fuel (s : List ℕ × Stream) => do
    let special ← prefixOf s.1 (roundUsize ((g.nextId : ℚ) * (1 - tau)))
    Res.assert (decide (0 < lambda))
    Res.assert (decide (0 < g.nextId))
    let t ← special.foldlM (farBody poisson fuel) ((g', (g'.vertices.map AdjContainer.degree).sum), s.2)
    return (⟨t.1.1, t.2, law, tau, lambda, poisson⟩ : Dog T Stream)) ?_
  intro order
  simp only []
  refine Adaptive.constBind fun special _ => ?_
  refine Adaptive.constBind fun _ _ => ?_
  refine Adaptive.constBind fun _ _ => ?_
  refine Adaptive.bind (mk := Prod.mk) (f := fun fuel r => special.foldlM (farBody poisson fuel) ((g', (g'.vertices.map AdjContainer.degree).sum), r))
    (Adaptive.foldlM (step := fun fuel => farBody (T := T) poisson fuel) (fun x a => farBody_adaptive hq x a) special _)
    (g := fun _ t => .ok (⟨t.1.1, t.2, law, tau, lambda, poisson⟩ : Dog T Stream)) ?_
  intro a
  exact Adaptive.ok (mk := put law tau lambda poisson) a.1

theorem resample (n : ℕ) (hn : 0 < n) (xy : List Pos) (law : Pos → Pos → ℚ) (tau : ℚ) {lambda : ℕ} (hl : 0 < lambda)
    {poisson : Stream → ℕ × Stream} {q : ℕ → ENNReal} (hq : Counts poisson q) {num : ℕ}
    (hnum : roundUsize ((n : ℚ) * (1 - tau)) = num) (hle : num ≤ n) :
    Resample (put law tau lambda poisson : SpacialGraph T → Stream → Dog T Stream) randomize
      (fun g => g.WF ∧ g.vertexCount = n ∧ coords g = xy) (fun g => g.edges) (pairSet n).powerset
      (dogLaw n num (fun i j => law (posAt xy i) (posAt xy j)) q) := by
  refine Resample.of_law (joins_put _ _ _ _) (randomize_adaptive law tau lambda hq) (look := fun e => e.graph.edges) (fun _ _ => rfl) ?_ ?_
  · rintro g ⟨h1, rfl, rfl⟩ fuel r g' r' h
    have h2 := C47_dog_randomize (e := put law tau lambda poisson g r) h1 fuel (by rw [← hnum] at hle; exact hle) hl hn
    obtain ⟨k1, k2, _, k4, _⟩ := h2.post h
    refine ⟨⟨k1, k2, k4⟩, Finset.mem_powerset.mpr ?_⟩
    have := edges_sub_pairSet k1
    have hv : (put law tau lambda poisson g' r').graph.nextId = g.vertexCount := k2
    rwa [hv] at this
  · rintro g ⟨h1, rfl, rfl⟩ E _
    exact (Dog.law_chance h1 hn law hl hq hnum hle E).prob 0

end Dog

/-! ## C94 -/

section claims

/-- The ensemble without its generator. -/
def ErC.core' (e : ErC T Stream) : ErC T Unit := ⟨e.graph, e.prob, e.cTarget, ()⟩
def ErM.core' (e : ErM T Stream) : ErM T Unit := ⟨e.graph, e.m, (), e.allEdges, e.possibleEdges, e.currentEdges⟩
def Spacial.core' (e : Spacial T Stream) : Spacial T Unit := ⟨e.graph, (), e.law⟩
def Config.core' (e : Config T Stream) : Config T Unit := ⟨e.graph, e.degreeVec, (), e.halfs, e.backup⟩
def Ba.core' (e : Ba T Stream) : Ba T Unit := ⟨e.source, e.graph, (), e.m, e.weights⟩
def Ws.core' (e : Ws T Stream) : Ws T Unit := ⟨e.graph, e.rewireProb, (), e.neighborDistance⟩

/-- **C94, `ErEnsembleC`.**  Call `randomize` again and again and look at the edges after each call: with probability one all calls return,
the edge sets are independent, and each has the law of independent edges. -/
theorem C94_er_c_independent {e : ErC T Stream} (h : e.graph.WF) :
    ∃ X, Sampled (fun _ => ErC.randomize) (fun e => e.graph.edges) (fun r => { e with rng := r })
      (pairSet e.graph.vertexCount).powerset (edgesLaw e.graph.vertexCount (fun _ => headProb e.prob)) X :=
  ⟨_, (ErC.resample e.graph.vertexCount e.prob).sampled (edgesLaw_sum (fun _ => headProb_nonneg _) (fun _ => headProb_le_one _))
    (look := fun e => e.graph.edges) (fun _ _ => rfl) (c := e.core') ⟨h, rfl, rfl⟩⟩

/-- **C94, `ErEnsembleM`.**  The same, each edge set with `m` edges having the same probability. -/
theorem C94_er_m_independent {e : ErM T Stream} (h : e.Inv) :
    ∃ X, Sampled (fun _ => ErM.randomize) (fun e => e.graph.edges) (fun r => { e with rng := r })
      ((pairSet e.graph.vertexCount).powersetCard e.m)
      (fun _ => (((e.graph.vertexCount * (e.graph.vertexCount - 1) / 2).choose e.m : ℕ) : ENNReal)⁻¹) X := by
  have hm : e.m ≤ e.graph.vertexCount * (e.graph.vertexCount - 1) / 2 := by
    have h1 := h.len
    have h3 := h.split.length_eq
    rw [List.length_append, length_allPairs] at h3
    show e.m ≤ e.graph.nextId * (e.graph.nextId - 1) / 2
    omega
  exact ⟨_, (ErM.resample e.graph.vertexCount e.m hm).sampled (ErM.law_sum _ _ hm) (look := fun e => e.graph.edges) (fun _ _ => rfl)
    (c := e.core') ⟨⟨h.wf, h.len, h.cur, h.split, h.all⟩, rfl, rfl⟩⟩

/-- **C94, `SpacialEnsemble`.** -/
theorem C94_spacial_independent {e : Spacial T Stream} (h : e.graph.WF) :
    ∃ X, Sampled (fun _ => Spacial.randomize) (fun e => e.graph.edges) (fun r => { e with rng := r })
      (pairSet e.graph.vertexCount).powerset
      (edgesLaw e.graph.vertexCount (fun x => headProb (Spacial.edgeLaw e.law (coords e.graph) x))) X :=
  ⟨_, (Spacial.resample e.graph.vertexCount e.law (coords e.graph)).sampled
    (edgesLaw_sum (fun _ => headProb_nonneg _) (fun _ => headProb_le_one _))
    (look := fun e => e.graph.edges) (fun _ _ => rfl) (c := e.core') ⟨h, rfl, rfl, rfl⟩⟩

/-- **C94, `ConfigurationModel`** holding a network with the prescribed degrees: each edge set with the probability (orders of the halves
that are joined to it) / (orders that can be joined). -/
theorem C94_config_independent {e : Config T Stream} (h : e.Inv) :
    ∃ X, Sampled Config.randomize (fun e => e.graph.edges) (fun r => { e with rng := r })
      (pairSet e.graph.vertexCount).powerset (fun E => (ways e.degreeVec E : ENNReal) / (allWays e.degreeVec : ENNReal)) X := by
  have hn : e.degreeVec.length = e.graph.vertexCount := h.n.symm
  have h1 := Config.resample (T := T) e.degreeVec (by
    have h2 := h.length
    rw [h.halves.length] at h2
    omega)
  have hv : (Config.put e.core' (⟨fun _ => 0, 0⟩ : Stream) : Config T Stream).Base ∧ e.core'.degreeVec = e.degreeVec :=
    ⟨⟨h.wf, h.n, h.halves⟩, rfl⟩
  rw [← hn]
  refine ⟨_, h1.sampled (h1.total hv ?_) (look := fun e => e.graph.edges) (fun _ _ => rfl) (c := e.core') hv⟩
  have h2 := C70_config_randomize (g := e.graph) (d := e.degreeVec) (halfs := e.halfs) (backup := e.backup) (fun r => ⟨⟨h.wf, h.n, h.halves⟩, h.deg⟩)
  filter_upwards [h2] with ω ⟨F, e', hF⟩
  exact ⟨F, e', hF F (le_refl F)⟩

/-- **C94, `BAensemble`** whose source has enough vertices with neighbours. -/
theorem C94_ba_independent {e : Ba T Stream} (h : e.Valid) (hE : 1 ≤ e.source.edgeCount) (hlt : e.source.vertexCount < e.graph.vertexCount)
    (hm : e.m ≤ (Ba.attachable e.source).card) :
    ∃ X, Sampled Ba.randomize (fun e => e.graph.edges) (fun r => { e with rng := r })
      (pairSet e.graph.vertexCount).powerset (Ba.growLaw e.source e.graph.vertexCount e.m) X := by
  have h1 := Ba.resample e.source hE e.graph.vertexCount e.m
  have hv : (Ba.put e.core' (⟨fun _ => 0, 0⟩ : Stream) : Ba T Stream).Valid ∧ e.core'.source = e.source ∧
      e.core'.graph.vertexCount = e.graph.vertexCount ∧ e.core'.m = e.m :=
    ⟨⟨h.source, h.graph, h.le, h.len⟩, rfl, rfl, rfl⟩
  refine ⟨_, h1.sampled (h1.total hv ?_) (look := fun e => e.graph.edges) (fun _ _ => rfl) (c := e.core') hv⟩
  have h2 := (C70_ba_iff (source := e.source) (graph := e.graph) (weights := e.weights) (m := e.m)
    (fun r => ⟨h.source, h.graph, h.le, h.len⟩) hE hlt).mpr hm
  filter_upwards [h2] with ω ⟨F, e', hF⟩
  exact ⟨F, e', hF F (le_refl F)⟩

/-- **C94, `SmallWorldWS`** with `n ≥ 2d + 2`: independent, all with the law of a single call. -/
theorem C94_ws_independent [Node T] {e : Ws T Stream} (h : e.graph.WF) (hn : e.graph.vertexCount < 2 ^ 32)
    (hd : 2 * e.neighborDistance + 2 ≤ e.graph.vertexCount) :
    ∃ X, Sampled Ws.randomize (fun e => e.graph.edges) (fun r => { e with rng := r })
      (pairSet e.graph.vertexCount).powerset (Ws.oneLaw e.graph e.rewireProb e.neighborDistance) X := by
  have h1 := Ws.resample h hn (d := e.neighborDistance) (by omega) e.rewireProb
  have hv : e.core'.graph.WF ∧ e.core'.graph.vertexCount = e.graph.vertexCount ∧ e.core'.graph.data = e.graph.data ∧
    e.core'.rewireProb = e.rewireProb ∧ e.core'.neighborDistance = e.neighborDistance := ⟨h, rfl, rfl, rfl, rfl⟩
  refine ⟨_, h1.sampled (h1.total hv ?_) (look := fun e => e.graph.edges) (fun _ _ => rfl) (c := e.core') hv⟩
  filter_upwards [C70_ws_randomize h hn hd e.rewireProb] with ω ⟨F, e', hF⟩
  exact ⟨F, e', hF F (le_refl F)⟩

/-- **C94, `DogEnsemble`** if `randomize` returns with probability one. -/
theorem C94_dog_independent {e : Dog T Stream} (h : e.graph.WF) (hn : 0 < e.graph.vertexCount) (hl : 0 < e.lambda)
    {q : ℕ → ENNReal} (hq : Counts e.poisson q) {num : ℕ} (hnum : roundUsize ((e.graph.vertexCount : ℚ) * (1 - e.tau)) = num)
    (hle : num ≤ e.graph.vertexCount)
    (hret : ∀ᵐ ω ∂uniformTape, ∃ fuel e', Dog.randomize fuel { e with rng := (⟨ω, 0⟩ : Stream) } = .ok e') :
    ∃ X, Sampled Dog.randomize (fun e => e.graph.edges) (fun r => { e with rng := r }) (pairSet e.graph.vertexCount).powerset
      (dogLaw e.graph.vertexCount num (fun i j => e.law (posAt (coords e.graph) i) (posAt (coords e.graph) j)) q) X := by
  have h1 := Dog.resample (T := T) e.graph.vertexCount hn (coords e.graph) e.law e.tau hl hq hnum hle
  have hv : e.graph.WF ∧ e.graph.vertexCount = e.graph.vertexCount ∧ coords e.graph = coords e.graph := ⟨h, rfl, rfl⟩
  exact ⟨_, h1.sampled (h1.total hv hret) (look := fun e => e.graph.edges) (fun _ _ => rfl) (c := e.graph) hv⟩

/-- **C94, `DogEnsemble` and its probability of hanging.**  The probability that the first calls all return, with the edges
`E₁, E₂, …` after them, is the product of the probabilities; no condition. -/
theorem C94_dog_list {e : Dog T Stream} (h : e.graph.WF) (hn : 0 < e.graph.vertexCount) (hl : 0 < e.lambda)
    {q : ℕ → ENNReal} (hq : Counts e.poisson q) {num : ℕ} (hnum : roundUsize ((e.graph.vertexCount : ℚ) * (1 - e.tau)) = num)
    (hle : num ≤ e.graph.vertexCount) {Es : List (Finset (Sym2 ℕ))} (hEs : ∀ E ∈ Es, E ⊆ pairSet e.graph.vertexCount) (k : ℕ) :
    uniformTape {ω | ∃ fuel e', samples (Dog.randomize fuel) (fun e => e.graph.edges) Es.length { e with rng := (⟨ω, k⟩ : Stream) } =
      .ok (Es, e')} =
    (Es.map (dogLaw e.graph.vertexCount num (fun i j => e.law (posAt (coords e.graph) i) (posAt (coords e.graph) j)) q)).prod :=
  (Dog.resample (T := T) e.graph.vertexCount hn (coords e.graph) e.law e.tau hl hq hnum hle).exact_list (look := fun e => e.graph.edges)
    (fun _ _ => rfl) (fun E hE => Finset.mem_powerset.mpr (hEs E hE)) (c := e.graph) ⟨h, rfl, rfl⟩ k

/-- The same for `ConfigurationModel`, also if no network with the degrees exists. -/
theorem C94_config_list {e : Config T Stream} (h : e.Base) (hev : e.degreeVec.sum % 2 = 0) {Es : List (Finset (Sym2 ℕ))}
    (hEs : ∀ E ∈ Es, E ⊆ pairSet e.graph.vertexCount) (k : ℕ) :
    uniformTape {ω | ∃ fuel e', samples (Config.randomize fuel) (fun e => e.graph.edges) Es.length { e with rng := (⟨ω, k⟩ : Stream) } =
      .ok (Es, e')} = (Es.map fun E => (ways e.degreeVec E : ENNReal) / (allWays e.degreeVec : ENNReal)).prod := by
  have hn : e.degreeVec.length = e.graph.vertexCount := h.n.symm
  rw [← hn] at hEs
  exact (Config.resample (T := T) e.degreeVec hev).exact_list (look := fun e => e.graph.edges)
    (fun _ _ => rfl) (fun E hE => Finset.mem_powerset.mpr (hEs E hE)) (c := e.core') ⟨⟨h.wf, h.n, h.halves⟩, rfl⟩ k

/-- The same for `BAensemble`, also if `randomize` may hang. -/
theorem C94_ba_list {e : Ba T Stream} (h : e.Valid) (hE : 1 ≤ e.source.edgeCount) {Es : List (Finset (Sym2 ℕ))}
    (hEs : ∀ E ∈ Es, E ⊆ pairSet e.graph.vertexCount) (k : ℕ) :
    uniformTape {ω | ∃ fuel e', samples (Ba.randomize fuel) (fun e => e.graph.edges) Es.length { e with rng := (⟨ω, k⟩ : Stream) } =
      .ok (Es, e')} = (Es.map (Ba.growLaw e.source e.graph.vertexCount e.m)).prod :=
  (Ba.resample e.source hE e.graph.vertexCount e.m).exact_list (look := fun e => e.graph.edges)
    (fun _ _ => rfl) (fun E hE => Finset.mem_powerset.mpr (hEs E hE)) (c := e.core') ⟨⟨h.source, h.graph, h.le, h.len⟩, rfl, rfl, rfl⟩ k

/-- The same for `SmallWorldWS`, also for `n = 2d + 1`, where `randomize` may hang. -/
theorem C94_ws_list [Node T] {e : Ws T Stream} (h : e.graph.WF) (hn : e.graph.vertexCount < 2 ^ 32)
    (hd : 2 * e.neighborDistance + 1 ≤ e.graph.vertexCount) {Es : List (Finset (Sym2 ℕ))}
    (hEs : ∀ E ∈ Es, E ⊆ pairSet e.graph.vertexCount) (k : ℕ) :
    uniformTape {ω | ∃ fuel e', samples (Ws.randomize fuel) (fun e => e.graph.edges) Es.length { e with rng := (⟨ω, k⟩ : Stream) } =
      .ok (Es, e')} = (Es.map fun E => uniformTape {ω | ∃ fuel e', Ws.randomize fuel { e with rng := (⟨ω, 0⟩ : Stream) } = .ok e' ∧
        e'.graph.edges = E}).prod :=
  (Ws.resample h hn hd e.rewireProb).exact_list (look := fun e => e.graph.edges)
    (fun _ _ => rfl) (fun E hE => Finset.mem_powerset.mpr (hEs E hE)) (c := e.core') ⟨h, rfl, rfl, rfl, rfl⟩ k

end claims

variable {F O : Type} {rnd : ℕ → F → Res F} {look : F → O} {start : Stream → F} {Ω : Finset O} {w : O → ENNReal} {X : ℕ → (ℕ → ℝ) → O}

/-- **C94, averages converge.**  For samples as in the theorems above and every quantity `f`, the average over the first `n` samples
converges, with probability one, to the expectation of `f` under the law of a single call. -/
theorem C94_average (h : Sampled rnd look start Ω w X) (f : O → ℝ) :
    ∀ᵐ ω ∂uniformTape, Tendsto (fun n : ℕ => (∑ i ∈ Finset.range n, f (X i ω)) / n) atTop (nhds (∑ y ∈ Ω, (w y).toReal * f y)) :=
  h.average f

/-- **C94, the error.**  The variance of the average of `n` samples is that of one sample divided by `n`; it is off by `δ` or more with
probability at most variance / (n δ²). -/
theorem C94_average_error (h : Sampled rnd look start Ω w X) (f : O → ℝ) {n : ℕ} (hn : 0 < n) :
    variance (fun ω => (∑ i ∈ Finset.range n, f (X i ω)) / n) uniformTape =
      (∑ y ∈ Ω, (w y).toReal * (f y - ∑ z ∈ Ω, (w z).toReal * f z) ^ 2) / n ∧
    ∀ δ : ℝ, 0 < δ → uniformTape {ω | δ ≤ |(∑ i ∈ Finset.range n, f (X i ω)) / n - ∑ y ∈ Ω, (w y).toReal * f y|} ≤
      ENNReal.ofReal ((∑ y ∈ Ω, (w y).toReal * (f y - ∑ z ∈ Ω, (w z).toReal * f z) ^ 2) / (n * δ ^ 2)) :=
  ⟨h.average_variance f hn, fun _ hδ => h.average_error f hn hδ⟩

/-- **C94, error bars.**  `√n` times the error of the average is in the limit normally distributed, with the variance of one sample. -/
theorem C94_average_normal (h : Sampled rnd look start Ω w X) (f : O → ℝ)
    (hv : 0 < ∑ y ∈ Ω, (w y).toReal * (f y - ∑ z ∈ Ω, (w z).toReal * f z) ^ 2) {a b : ℝ} (hab : a ≤ b) :
    Tendsto (fun n : ℕ => uniformTape {ω | a ≤ √n * ((∑ i ∈ Finset.range n, f (X i ω)) / n - ∑ y ∈ Ω, (w y).toReal * f y) ∧
      √n * ((∑ i ∈ Finset.range n, f (X i ω)) / n - ∑ y ∈ Ω, (w y).toReal * f y) ≤ b}) atTop
      (nhds (gaussianReal 0 (∑ y ∈ Ω, (w y).toReal * (f y - ∑ z ∈ Ω, (w z).toReal * f z) ^ 2).toNNReal (Set.Icc a b))) :=
  h.average_normal f hv hab

/-- The variance is positive as soon as two outcomes that do occur give different values. -/
theorem C94_variance_pos (f : O → ℝ) {y z : O} (hy : y ∈ Ω) (hz : z ∈ Ω) (hwy : 0 < (w y).toReal) (hwz : 0 < (w z).toReal)
    (hne : f y ≠ f z) : 0 < ∑ y ∈ Ω, (w y).toReal * (f y - ∑ z ∈ Ω, (w z).toReal * f z) ^ 2 := by
  have h0 : ∀ y ∈ Ω, 0 ≤ (w y).toReal * (f y - ∑ z ∈ Ω, (w z).toReal * f z) ^ 2 := fun y _ => mul_nonneg ENNReal.toReal_nonneg (sq_nonneg _)
  by_cases h : f y = ∑ z ∈ Ω, (w z).toReal * f z
  · refine Finset.sum_pos' h0 ⟨z, hz, mul_pos hwz (sq_pos_of_ne_zero ?_)⟩
    rw [← h, sub_ne_zero]
    exact hne.symm
  · exact Finset.sum_pos' h0 ⟨y, hy, mul_pos hwy (sq_pos_of_ne_zero (sub_ne_zero.mpr h))⟩

/-! ## The hypotheses can be met -/

example : ∃ e : ErC Nat Stream, e.graph.WF ∧ e.graph.vertexCount = 5 ∧ 0 < e.prob ∧ e.prob < 1 :=
  ⟨⟨exTail, 1 / 2, 2, ⟨fun _ => 0, 0⟩⟩, exTail_wf, rfl, by norm_num, by norm_num⟩

example : ∃ e : ErM Nat Stream, e.Inv ∧ e.graph.vertexCount = 5 ∧ e.m = 4 := by
  obtain ⟨e, _, h2, h3, h4, _⟩ := ErM.new_spec (T := Nat) (n := 5) (m := 4) (by decide) (by decide) (⟨fun _ => 0, 0⟩ : Stream)
  exact ⟨e, h2, h3, h4⟩

example : ∃ e : Spacial Nat Stream, e.graph.WF ∧ e.graph.vertexCount = 3 :=
  ⟨⟨exSpacial.graph, ⟨fun _ => 0, 0⟩, exSpacial.law⟩, exSpacial_wf, rfl⟩

example : ∃ e : Config Nat Stream, e.Inv ∧ e.degreeVec = [1, 2, 2, 1] :=
  ⟨⟨exPath, [1, 2, 2, 1], ⟨fun _ => 0, 0⟩, [], [0, 1, 1, 2, 2, 3]⟩,
    ⟨⟨exPath_wf, rfl, halves_init [1, 2, 2, 1]⟩, show exPath.degreeVec = [1, 2, 2, 1] by decide⟩, rfl⟩

example : ∃ e : Ba Nat Stream, e.Valid ∧ 1 ≤ e.source.edgeCount ∧ e.source.vertexCount < e.graph.vertexCount ∧
    e.m ≤ (Ba.attachable e.source).card ∧ 1 < e.m :=
  ⟨⟨exPath, GenericGraph.new 6, ⟨fun _ => 0, 0⟩, 2, [0, 0, 0, 0, 0, 0]⟩,
    ⟨exPath_wf, new_wf _, show exPath.vertexCount ≤ 6 by decide, rfl⟩, by decide, by decide, show 2 ≤ _ by decide, by decide⟩

example : ∃ e : Ws Nat Stream, e.graph.WF ∧ e.graph.vertexCount < 2 ^ 32 ∧ 2 * e.neighborDistance + 2 ≤ e.graph.vertexCount ∧
    1 ≤ e.neighborDistance :=
  ⟨⟨GenericGraph.new 8, 1 / 10, ⟨fun _ => 0, 0⟩, 3⟩, new_wf _, show 8 < 2 ^ 32 by decide, show 2 * 3 + 2 ≤ 8 by decide, by decide⟩

/-- A `DogEnsemble` in which the vertices of the second part get no edges: `randomize` always returns. -/
example : ∃ (e : Dog Nat Stream) (q : ℕ → ENNReal), e.graph.WF ∧ 0 < e.graph.vertexCount ∧ 0 < e.lambda ∧ Counts e.poisson q ∧
    roundUsize ((e.graph.vertexCount : ℚ) * (1 - e.tau)) ≤ e.graph.vertexCount ∧
    ∀ᵐ ω ∂uniformTape, ∃ fuel e', Dog.randomize fuel { e with rng := (⟨ω, 0⟩ : Stream) } = .ok e' := by
  have hround : roundUsize ((exSpacial.graph.nextId : ℚ) * (1 - 1)) = 0 := by decide +kernel
  refine ⟨⟨exSpacial.graph, ⟨fun _ => 0, 0⟩, fun _ _ => 1 / 2, 1, 1, fun r => (0, r)⟩, fun m => if m = 0 then 1 else 0,
    exSpacial_wf, by decide, by decide, ⟨Adaptive.ok (mk := Prod.mk) 0, fun m => ?_⟩, ?_, Filter.Eventually.of_forall fun ω => ?_⟩
  · by_cases hm : m = 0
    · rw [if_pos hm]
      exact Chance.true.congr fun ω k => ⟨fun _ => hm.symm, fun _ => trivial⟩
    · rw [if_neg hm]
      refine ⟨fun k => ?_, fun _ h => h, fun k => ?_⟩ <;> simp [Ne.symm hm]
  · exact le_of_eq_of_le hround (Nat.zero_le _)
  · obtain ⟨g', a1, a2, _⟩ := Dog.nearLoop_ret (fun _ _ => 1 / 2) exSpacial_wf ω 0
    have h1 := Dog.randomize_after (fun _ _ => 1 / 2) 1 (lambda := 1) (fun r => (0, r)) 0 (by decide) (by decide)
      (le_of_eq_of_le hround (Nat.zero_le _)) a1 a2.wf
    rw [hround] at h1
    exact ⟨0, _, h1⟩

/-- Graphs with three vertices and one edge: whether the edge is 0 - 1 is a quantity with positive variance. -/
example : 0 < ∑ y ∈ (pairSet 3).powersetCard 1, (((3 : ℕ) : ENNReal)⁻¹).toReal *
    ((if s(0, 1) ∈ y then (1 : ℝ) else 0) - ∑ z ∈ (pairSet 3).powersetCard 1, (((3 : ℕ) : ENNReal)⁻¹).toReal *
      (if s(0, 1) ∈ z then (1 : ℝ) else 0)) ^ 2 := by
  refine C94_variance_pos (w := fun _ => ((3 : ℕ) : ENNReal)⁻¹) (fun E : Finset (Sym2 ℕ) => if s(0, 1) ∈ E then (1 : ℝ) else 0)
    (y := {s(0, 1)}) (z := {s(0, 2)}) (by decide) (by decide) ?_ ?_ ?_
  · rw [ENNReal.toReal_inv]; norm_num
  · rw [ENNReal.toReal_inv]; norm_num
  · rw [if_pos (by decide), if_neg (by decide)]; norm_num

end Verif
