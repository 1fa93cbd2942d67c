import Verif.Lemmas.DogLaw

/-!
# C91: the law of `DogEnsemble`
-/

set_option linter.unusedSectionVars false
set_option linter.unusedSimpArgs false

namespace Verif
open AdjContainer GenericGraph MeasureTheory ProbabilityTheory

variable {T : Type}

/-! ## Specification -/

/-- The probability that independent throws, for `i` and `j < i` with `Uniform::new(0.0, 1.0)` below `p i j`, give the edges `S`. -/
noncomputable def nearProb (n : ℕ) (p : ℕ → ℕ → ℚ) (S : Finset (Sym2 ℕ)) : ENNReal :=
  ∏ i ∈ Finset.range n, ∏ j ∈ Finset.range i,
    if s(i, j) ∈ S then (headsLt (p i j) : ENNReal) / 2 ^ 52 else 1 - (headsLt (p i j) : ENNReal) / 2 ^ 52

/-- The probability that `randomize` ends with the edges `E`: independent short edges, then a random order of the vertices, of which
the first `num` are special. -/
noncomputable def dogLaw (n num : ℕ) (p : ℕ → ℕ → ℚ) (q : ℕ → ENNReal) (E : Finset (Sym2 ℕ)) : ENNReal :=
  ∑ E0 ∈ (pairSet n).powerset, nearProb n p E0 *
    (((List.range n).permutations.map fun order => farLaw n q (order.take num) E0 E).sum / (n.factorial : ENNReal))

/-! ## Proof -/

namespace Dog

theorem nearBody_adaptive (law : Pos → Pos → ℚ) (i j : ℕ) (g : SpacialGraph T) :
    Adaptive Prod.mk (fun _ (r : Stream) => nearBody law i (g, r) j) := by
  unfold nearBody
  dsimp only
  refine Adaptive.constBind fun c _ => ?_
  have := (Adaptive.coinLt (law c.1.pos c.2.pos)).bind (mk' := Prod.mk) (g := fun _ (b : Bool × Stream) =>
    if b.1 then (AdjContainer.push c.1 c.2 >>= fun x =>
      pure (({ g with vertices := (g.vertices.set i x.2.1).set j x.2.2, edgeCount := g.edgeCount + 1 } : SpacialGraph T), b.2))
    else pure (g, b.2)) (fun b => by
      dsimp only
      cases b with
      | false => exact Adaptive.ok g
      | true =>
        simp only [if_true]
        exact Adaptive.constBind fun x _ => Adaptive.ok (mk := Prod.mk)
          ({ g with vertices := (g.vertices.set i x.2.1).set j x.2.2, edgeCount := g.edgeCount + 1 } : SpacialGraph T))
  exact this

/-- The first loop. -/
noncomputable def nearLoop (law : Pos → Pos → ℚ) (g : SpacialGraph T) (r : Stream) : Res (SpacialGraph T × Stream) :=
  (lowPairs g.nextId).foldlM (fun s p => nearBody law p.1 s p.2) (g.clearEdges, r)

theorem nearLoop_adaptive (law : Pos → Pos → ℚ) (g : SpacialGraph T) : Adaptive Prod.mk (fun _ (r : Stream) => nearLoop law g r) :=
  Adaptive.foldlM (step := fun _ s (p : ℕ × ℕ) => nearBody law p.1 s p.2) (fun x a => nearBody_adaptive law x.1 x.2 a) _ _

theorem chosen_cons (q : ℕ × ℕ) (l : List (ℕ × ℕ)) (b : Bool) (bs : List Bool) :
    chosen (q :: l) (b :: bs) = if b then insert (toEdge q) (chosen l bs) else chosen l bs := by
  cases b <;> simp [chosen]

theorem chosen_sub (l : List (ℕ × ℕ)) (bs : List Bool) : chosen l bs ⊆ (l.map toEdge).toFinset := by
  intro x hx
  unfold chosen at hx
  rw [List.mem_toFinset, List.mem_map] at hx ⊢
  obtain ⟨⟨q, b⟩, h1, h2⟩ := hx
  exact ⟨q, (List.of_mem_zip (List.mem_of_mem_filter h1)).1, h2⟩

theorem throwsLt_cons (p : ℕ × ℕ → ℚ) (q : ℕ × ℕ) (l : List (ℕ × ℕ)) (ω : ℕ → ℝ) (k : ℕ) :
    (throwsLt p (q :: l) (⟨ω, k⟩ : Stream)).1 =
      decide (((partOf (ω k) (2 ^ 53) / 2 : ℕ) : ℚ) / 2 ^ 52 < p q) :: (throwsLt p l (⟨ω, k + 1⟩ : Stream)).1 := rfl

theorem throws_chance (p : ℕ × ℕ → ℚ) : ∀ (l : List (ℕ × ℕ)), (l.map toEdge).Nodup → ∀ S ⊆ (l.map toEdge).toFinset,
    Chance (fun ω k => chosen l (throwsLt p l (⟨ω, k⟩ : Stream)).1 = S)
      ((l.map fun q => if toEdge q ∈ S then (headsLt (p q) : ENNReal) / 2 ^ 52 else 1 - (headsLt (p q) : ENNReal) / 2 ^ 52).prod) := by
  intro l
  induction l with
  | nil =>
    intro _ S hS
    have : S = ∅ := by simpa using hS
    subst this
    exact Chance.true.congr fun ω k => ⟨fun _ => rfl, fun _ => trivial⟩
  | cons q l ih =>
    intro hnd S hS
    rw [List.map_cons, List.nodup_cons] at hnd
    have hq : ∀ bs, toEdge q ∉ chosen l bs := fun bs hc => hnd.1 (List.mem_toFinset.mp (chosen_sub l bs hc))
    set A : ℕ → Prop := fun u => ((u / 2 : ℕ) : ℚ) / 2 ^ 52 < p q with hA
    have hyes : Chance (fun ω k => A (partOf (ω k) (2 ^ 53))) ((headsLt (p q) : ENNReal) / 2 ^ 52) := by
      have := chance_draw (h := 2 ^ 53) (by positivity) A
      rw [← headsLt_eq, div_eq_mul_inv]
      rw [Nat.cast_pow, Nat.cast_ofNat] at this
      exact this
    have hno := hyes.not
    have hdraw : ∀ {P : ℕ → Prop} {w : ENNReal}, Chance (fun ω k => P (partOf (ω k) (2 ^ 53))) w →
        Chance (fun ω k => ∃ a j, (a = partOf (ω k) (2 ^ 53) ∧ j = k + 1) ∧ P a) w := fun h =>
      h.congr fun ω k => ⟨fun h => ⟨_, _, ⟨rfl, rfl⟩, h⟩, fun ⟨a, j, ⟨h, _⟩, h'⟩ => h ▸ h'⟩
    rw [List.map_cons, List.prod_cons]
    have hmap : ∀ S' : Finset (Sym2 ℕ), (∀ x ∈ l.map toEdge, x ∈ S' ↔ x ∈ S) →
        (l.map fun q => if toEdge q ∈ S' then (headsLt (p q) : ENNReal) / 2 ^ 52 else 1 - (headsLt (p q) : ENNReal) / 2 ^ 52) =
        (l.map fun q => if toEdge q ∈ S then (headsLt (p q) : ENNReal) / 2 ^ 52 else 1 - (headsLt (p q) : ENNReal) / 2 ^ 52) := by
      intro S' h
      refine List.map_congr_left fun x hx => ?_
      simp only [h _ (List.mem_map.mpr ⟨x, hx, rfl⟩)]
    by_cases hqS : toEdge q ∈ S
    · rw [if_pos hqS]
      have hih := ih hnd.2 (S.erase (toEdge q)) (by
        intro x hx
        rw [Finset.mem_erase] at hx
        have := hS hx.2
        rw [List.map_cons, List.toFinset_cons, Finset.mem_insert] at this
        exact this.resolve_left hx.1)
      rw [hmap _ (fun x hx => by
        rw [Finset.mem_erase]
        exact ⟨fun h => h.2, fun h => ⟨fun e => hnd.1 (e ▸ hx), h⟩⟩)] at hih
      refine (chance_bind (Sampler.draw (2 ^ 53)) (hdraw hyes)
        (Q := fun _ ω j => chosen l (throwsLt p l (⟨ω, j⟩ : Stream)).1 = S.erase (toEdge q)) (fun _ _ => hih)).congr fun ω k => ?_
      rw [throwsLt_cons, chosen_cons]
      constructor
      · rintro ⟨a, j, ⟨rfl, rfl⟩, h1, h2⟩
        rw [if_pos (decide_eq_true h1), h2, Finset.insert_erase hqS]
      · intro h
        by_cases hc : A (partOf (ω k) (2 ^ 53))
        · rw [if_pos (decide_eq_true hc)] at h
          refine ⟨_, _, ⟨rfl, rfl⟩, hc, ?_⟩
          rw [← h, Finset.erase_insert (hq _)]
        · rw [if_neg (fun e => hc (of_decide_eq_true e))] at h
          exact absurd (h ▸ hqS) (hq _)
    · rw [if_neg hqS]
      have hih := ih hnd.2 S (by
        intro x hx
        have := hS hx
        rw [List.map_cons, List.toFinset_cons, Finset.mem_insert] at this
        exact this.resolve_left (fun e => hqS (e ▸ hx)))
      refine (chance_bind (Sampler.draw (2 ^ 53)) (hdraw (P := fun u => ¬ A u) hno)
        (Q := fun _ ω j => chosen l (throwsLt p l (⟨ω, j⟩ : Stream)).1 = S) (fun _ _ => hih)).congr fun ω k => ?_
      rw [throwsLt_cons, chosen_cons]
      constructor
      · rintro ⟨a, j, ⟨rfl, rfl⟩, h1, h2⟩
        rw [if_neg (fun e => h1 (of_decide_eq_true e)), h2]
      · intro h
        by_cases hc : A (partOf (ω k) (2 ^ 53))
        · rw [if_pos (decide_eq_true hc)] at h
          exact absurd (h ▸ Finset.mem_insert_self _ _) hqS
        · rw [if_neg (fun e => hc (of_decide_eq_true e))] at h
          exact ⟨_, _, ⟨rfl, rfl⟩, hc, h⟩

theorem prod_range_list (n : ℕ) (f : ℕ → ENNReal) : ((List.range n).map f).prod = ∏ i ∈ Finset.range n, f i := by
  induction n with
  | zero => rfl
  | succ n ih => rw [List.range_succ, List.map_append, List.prod_append, ih, Finset.prod_range_succ]; simp

theorem prod_lowPairs (n : ℕ) (f : ℕ × ℕ → ENNReal) :
    ((lowPairs n).map f).prod = ∏ i ∈ Finset.range n, ∏ j ∈ Finset.range i, f (i, j) := by
  induction n with
  | zero => rfl
  | succ n ih =>
    have : lowPairs (n + 1) = lowPairs n ++ (List.range n).map (fun j => (n, j)) := by
      unfold lowPairs
      rw [List.range_succ, List.flatMap_append]
      simp
    rw [this, List.map_append, List.prod_append, ih, Finset.prod_range_succ, List.map_map, prod_range_list]
    rfl

theorem lowPairs_edges (n : ℕ) : ((lowPairs n).map toEdge).toFinset = pairSet n := by
  ext x
  rw [List.mem_toFinset, List.mem_map]
  constructor
  · rintro ⟨q, hq, rfl⟩
    have := mem_lowPairs.mp hq
    exact pairSet_mk (by omega) this.2 (by omega)
  · intro hx
    obtain ⟨p, hp, rfl⟩ := mem_pairSet.mp hx
    have := mem_allPairs.mp hp
    exact ⟨(p.2, p.1), mem_lowPairs.mpr (by simp only; omega), Sym2.eq_swap⟩

theorem throwsLt_snd (p : ℕ × ℕ → ℚ) : ∀ (l : List (ℕ × ℕ)) (ω : ℕ → ℝ) (k : ℕ),
    (throwsLt p l (⟨ω, k⟩ : Stream)).2 = ⟨ω, k + l.length⟩ := by
  intro l
  induction l with
  | nil => intro ω k; rfl
  | cons q l ih =>
    intro ω k
    have : (throwsLt p (q :: l) (⟨ω, k⟩ : Stream)).2 = (throwsLt p l (⟨ω, k + 1⟩ : Stream)).2 := rfl
    rw [this, ih, List.length_cons]
    congr 1
    omega

theorem nearLoop_ret (law : Pos → Pos → ℚ) {g : SpacialGraph T} (h : g.WF) (ω : ℕ → ℝ) (k : ℕ) :
    ∃ g', nearLoop law g (⟨ω, k⟩ : Stream) = .ok (g', ⟨ω, k + (lowPairs g.nextId).length⟩) ∧ Good g.nextId (g', 2 * g'.edgeCount) ∧
      g'.edges = chosen (lowPairs g.nextId) (throwsLt (fun p => law (posAt (coords g) p.1) (posAt (coords g) p.2)) (lowPairs g.nextId)
        (⟨ω, k⟩ : Stream)).1 := by
  obtain ⟨g', a1, a2, a3, a4, a5, a6⟩ := near_spec (e := (⟨g, ⟨ω, k⟩, law, 0, 0, fun r => (0, r)⟩ : Dog T Stream)) h
  rw [foldlM_lowPairs] at a1
  refine ⟨g', ?_, ⟨a2, a3, rfl⟩, a6⟩
  rw [← throwsLt_snd (fun p => law (posAt (coords g) p.1) (posAt (coords g) p.2))]
  exact a1

/-- The part of `randomize` after the first loop. -/
theorem randomize_after {g g' : SpacialGraph T} (law : Pos → Pos → ℚ) (tau : ℚ) {lambda : ℕ} (poisson : Stream → ℕ × Stream) (fuel : ℕ)
    {r r' : Stream} (hn : 0 < g.nextId) (hl : 0 < lambda) (hnum : roundUsize ((g.nextId : ℚ) * (1 - tau)) ≤ g.nextId)
    (h : nearLoop law g r = .ok (g', r')) (hg : g'.WF) :
    randomize fuel (⟨g, r, law, tau, lambda, poisson⟩ : Dog T Stream) =
      (((Rng.shuffle r' (List.range g.nextId)).1.take (roundUsize ((g.nextId : ℚ) * (1 - tau)))).foldlM (farBody poisson fuel)
        ((g', 2 * g'.edgeCount), (Rng.shuffle r' (List.range g.nextId)).2) >>= fun t =>
        .ok (⟨t.1.1, t.2, law, tau, lambda, poisson⟩ : Dog T Stream)) := by
  have hpl := (Rng.shuffle_perm r' (List.range g.nextId)).length_eq
  rw [List.length_range] at hpl
  have hp : prefixOf (Rng.shuffle r' (List.range g.nextId)).1 (roundUsize ((g.nextId : ℚ) * (1 - tau))) =
      .ok ((Rng.shuffle r' (List.range g.nextId)).1.take (roundUsize ((g.nextId : ℚ) * (1 - tau)))) := by
    unfold prefixOf
    rw [if_pos (by rw [hpl]; exact hnum)]
  have h' : (List.range g.nextId).foldlM (fun s i => (List.range i).foldlM (nearBody law i) s) (g.clearEdges, r) = .ok (g', r') := by
    rw [foldlM_lowPairs]
    exact h
  unfold randomize
  simp only [GenericGraph.vertexCount, clearEdges_nextId, h', Res.ok_bind, hp, hl, hn, decide_true, Res.assert, if_true,
    degree_sum hg]
  rfl

end Dog

namespace Dog

/-- The edges after `randomize`, as an event about the tape. -/
def Ends (g : SpacialGraph T) (law : Pos → Pos → ℚ) (tau : ℚ) (lambda : ℕ) (poisson : Stream → ℕ × Stream) (E : Finset (Sym2 ℕ))
    (ω : ℕ → ℝ) (k : ℕ) : Prop :=
  ∃ fuel, ∃ e' : Dog T Stream, Dog.randomize fuel ⟨g, ⟨ω, k⟩, law, tau, lambda, poisson⟩ = .ok e' ∧ e'.graph.edges = E

theorem law_chance {g : SpacialGraph T} (h : g.WF) (hn : 0 < g.vertexCount) (law : Pos → Pos → ℚ) {tau : ℚ} {lambda : ℕ}
    (hl : 0 < lambda) {poisson : Stream → ℕ × Stream} {q : ℕ → ENNReal} (hq : Counts poisson q) {num : ℕ}
    (hnum : roundUsize ((g.vertexCount : ℚ) * (1 - tau)) = num) (hle : num ≤ g.vertexCount) (E : Finset (Sym2 ℕ)) :
    Chance (Ends g law tau lambda poisson E) (dogLaw g.vertexCount num (fun i j => law (posAt (coords g) i) (posAt (coords g) j)) q E) := by
  set n := g.nextId with hndef
  have hn' : 0 < n := hn
  set l := List.range n with hldef
  have hlen : l.permutations.length = n.factorial := by rw [List.length_permutations, hldef, List.length_range]
  have hN : 0 < l.permutations.length := by rw [hlen]; exact Nat.factorial_pos _
  have hS : Sampler (RetOf Prod.mk (fun _ (r : Stream) => Dog.nearLoop law g r)) := (Dog.nearLoop_adaptive law g).sampler joins_pair
  -- the second part for a given graph and order
  have hpart : ∀ (g1 : SpacialGraph T), Dog.Good n (g1, 2 * g1.edgeCount) →
      Chance (fun ω j => ∃ b i, (b = partOf (ω j) l.permutations.length ∧ i = j + 1) ∧
        ∃ a j', RetOf Prod.mk (fun fuel r => ((l.permutations.getD b l).take num).foldlM (Dog.farBody poisson fuel)
          ((g1, 2 * g1.edgeCount), r)) ω i a j' ∧ a.1.edges = E)
      ((l.permutations.map fun order => farLaw n q (order.take num) g1.edges E).sum / (n.factorial : ENNReal)) := by
    intro g1 hg1
    have hterm : ∀ p ∈ Finset.range l.permutations.length, Chance (fun ω k => ∃ b i,
        (b = partOf (ω k) l.permutations.length ∧ i = k + 1) ∧ b = p ∧
        ∃ a j', RetOf Prod.mk (fun fuel r => ((l.permutations.getD b l).take num).foldlM (Dog.farBody poisson fuel)
          ((g1, 2 * g1.edgeCount), r)) ω i a j' ∧ a.1.edges = E)
        ((l.permutations.length : ENNReal)⁻¹ * farLaw n q ((l.permutations.getD p l).take num) g1.edges E) := by
      intro p hp
      rw [Finset.mem_range] at hp
      refine chance_bind (Sampler.draw l.permutations.length) (P := fun b => b = p) ?_
        (Q := fun b ω i => ∃ a j', RetOf Prod.mk (fun fuel r => ((l.permutations.getD b l).take num).foldlM (Dog.farBody poisson fuel)
          ((g1, 2 * g1.edgeCount), r)) ω i a j' ∧ a.1.edges = E) ?_
      · have := chance_draw hN (fun i => i = p)
        rw [Finset.filter_eq', if_pos (Finset.mem_range.mpr hp), Finset.card_singleton, Nat.cast_one, one_mul] at this
        refine this.congr fun ω k => ?_
        exact ⟨fun h => ⟨_, _, ⟨rfl, rfl⟩, h⟩, fun ⟨b, i, ⟨h, _⟩, h'⟩ => h ▸ h'⟩
      · rintro b rfl
        have hperm : (l.permutations.getD b l).Perm l := by
          rw [List.getD_eq_getElem?_getD, List.getElem?_eq_getElem hp]
          exact List.mem_permutations.mp (List.getElem_mem hp)
        exact Dog.far_chance hq E _ (fun v hv => List.mem_range.mp (hperm.mem_iff.mp (List.mem_of_mem_take hv))) _ hg1
    have hsum := Chance.sum _ hterm (by
      rintro p _ p' _ ω k ⟨b, i, ⟨hb, _⟩, h, _⟩ ⟨b', i', ⟨hb', _⟩, h', _⟩
      rw [← h, ← h', hb, hb'])
    rw [sum_map_eq _ l, div_eq_mul_inv, mul_comm (∑ p ∈ _, _), ← hlen, Finset.mul_sum]
    refine hsum.congr fun ω k => ?_
    constructor
    · rintro ⟨p, _, b, i, h1, _, h2⟩
      exact ⟨b, i, h1, h2⟩
    · rintro ⟨b, i, ⟨rfl, rfl⟩, h2⟩
      exact ⟨_, Finset.mem_range.mpr (partOf_lt _ hN), _, _, ⟨rfl, rfl⟩, rfl, h2⟩
  have hterm : ∀ E0 ∈ (pairSet n).powerset, Chance (fun ω k => ∃ g1 j,
      RetOf Prod.mk (fun _ (r : Stream) => Dog.nearLoop law g r) ω k g1 j ∧ (Dog.Good n (g1, 2 * g1.edgeCount) ∧ g1.edges = E0) ∧
      ∃ b i, (b = partOf (ω j) l.permutations.length ∧ i = j + 1) ∧
        ∃ a j', RetOf Prod.mk (fun fuel r => ((l.permutations.getD b l).take num).foldlM (Dog.farBody poisson fuel)
          ((g1, 2 * g1.edgeCount), r)) ω i a j' ∧ a.1.edges = E)
      (nearProb n (fun i j => law (posAt (coords g) i) (posAt (coords g) j)) E0 *
        ((l.permutations.map fun order => farLaw n q (order.take num) E0 E).sum / (n.factorial : ENNReal))) := by
    intro E0 hE0
    rw [Finset.mem_powerset, ← Dog.lowPairs_edges] at hE0
    refine chance_bind hS (P := fun g1 => Dog.Good n (g1, 2 * g1.edgeCount) ∧ g1.edges = E0) ?_
      (Q := fun g1 ω j => ∃ b i, (b = partOf (ω j) l.permutations.length ∧ i = j + 1) ∧
        ∃ a j', RetOf Prod.mk (fun fuel r => ((l.permutations.getD b l).take num).foldlM (Dog.farBody poisson fuel)
          ((g1, 2 * g1.edgeCount), r)) ω i a j' ∧ a.1.edges = E) ?_
    · have h1 := Dog.throws_chance (fun p => law (posAt (coords g) p.1) (posAt (coords g) p.2)) (lowPairs n) (lowPairs_nodup n) E0 hE0
      rw [Dog.prod_lowPairs] at h1
      refine h1.congr fun ω k => ?_
      obtain ⟨g', a1, a2, a3⟩ := Dog.nearLoop_ret law h ω k
      constructor
      · intro h2
        exact ⟨g', _, ⟨0, fun _ _ => a1⟩, a2, a3.trans h2⟩
      · rintro ⟨g1, j, ⟨F, hF⟩, _, h3⟩
        have h4 := a1.symm.trans (hF F (le_refl F))
        have h5 : g' = g1 := congrArg Prod.fst (Res.ok.inj h4)
        rw [← h3, ← h5]
        exact a3.symm
    · rintro g1 ⟨h1, rfl⟩
      exact hpart g1 h1
  have hsum := Chance.sum _ hterm (by
    rintro E1 _ E2 _ ω k ⟨b, l, h1, ⟨_, h2⟩, _⟩ ⟨b', l', h1', ⟨_, h2'⟩, _⟩
    obtain ⟨rfl, _⟩ := hS.det h1 h1'
    exact h2.symm.trans h2')
  refine hsum.congr fun ω k => ?_
  unfold Ends
  obtain ⟨g', a1, a2, a3⟩ := Dog.nearLoop_ret law h ω k
  have hrun : ∀ fuel, Dog.randomize fuel (⟨g, ⟨ω, k⟩, law, tau, lambda, poisson⟩ : Dog T Stream) =
      (((l.permutations.getD (partOf (ω (k + (lowPairs n).length)) l.permutations.length) l).take num).foldlM (Dog.farBody poisson fuel)
        ((g', 2 * g'.edgeCount), (⟨ω, k + (lowPairs n).length + 1⟩ : Stream)) >>= fun t =>
        .ok (⟨t.1.1, t.2, law, tau, lambda, poisson⟩ : Dog T Stream)) := by
    intro fuel
    have hnum' : roundUsize ((g.nextId : ℚ) * (1 - tau)) = num := hnum
    rw [Dog.randomize_after law tau poisson fuel hn' hl (by rw [hnum']; exact hle) a1 a2.wf, hnum']
    rfl
  have had := Adaptive.foldlM (step := fun fuel => Dog.farBody (T := T) poisson fuel) (fun x a => Dog.farBody_adaptive hq x a)
    ((l.permutations.getD (partOf (ω (k + (lowPairs n).length)) l.permutations.length) l).take num) (g', 2 * g'.edgeCount)
  symm
  constructor
  · rintro ⟨fuel, e', hr, hE⟩
    rw [hrun] at hr
    obtain ⟨⟨a, r⟩, h2, h3⟩ := Res.bind_eq_ok.mp hr
    cases h3
    obtain ⟨a', j, h4, h5⟩ := had.ret h2
    obtain ⟨rfl, _⟩ := Prod.mk.inj h4
    refine ⟨g'.edges, ?_, g', _, ⟨0, fun _ _ => a1⟩, ⟨a2, rfl⟩, _, _, ⟨rfl, rfl⟩, a, j, h5, hE⟩
    rw [Finset.mem_powerset]
    have := edges_sub_pairSet a2.wf
    rwa [a2.n] at this
  · rintro ⟨E0, _, g1, j, ⟨F1, hF1⟩, _, b, i, ⟨rfl, rfl⟩, a, j', ⟨F, hF⟩, hE⟩
    have h4 := a1.symm.trans (hF1 F1 (le_refl F1))
    obtain ⟨h5, h6⟩ := Prod.mk.inj (Res.ok.inj h4)
    subst h5
    cases h6
    refine ⟨F, ⟨a.1, ⟨ω, j'⟩, law, tau, lambda, poisson⟩, ?_, hE⟩
    rw [hrun]
    have := hF F (le_refl F)
    rw [Res.bind_eq_ok]
    exact ⟨_, this, rfl⟩

theorem ends_iff {g : SpacialGraph T} (h : g.WF) (hn : 0 < g.vertexCount) (law : Pos → Pos → ℚ) {tau : ℚ} {lambda : ℕ}
    (hl : 0 < lambda) {poisson : Stream → ℕ × Stream} {q : ℕ → ENNReal} (hq : Counts poisson q)
    (hle : roundUsize ((g.vertexCount : ℚ) * (1 - tau)) ≤ g.vertexCount) (ω : ℕ → ℝ) (k : ℕ) :
    ∃ (g' : SpacialGraph T) (L : List ℕ) (j : ℕ), Good g.nextId (g', 2 * g'.edgeCount) ∧ (∀ v ∈ L, v < g.nextId) ∧
      ∀ E, Ends g law tau lambda poisson E ω k → ∃ a i, RetOf Prod.mk (fun fuel r => L.foldlM (farBody poisson fuel)
        ((g', 2 * g'.edgeCount), r)) ω j a i ∧ a.1.edges = E := by
  obtain ⟨g', a1, a2, a3⟩ := nearLoop_ret law h ω k
  refine ⟨g', (Rng.shuffle (⟨ω, k + (lowPairs g.nextId).length⟩ : Stream) (List.range g.nextId)).1.take
    (roundUsize ((g.nextId : ℚ) * (1 - tau))), k + (lowPairs g.nextId).length + 1, a2, ?_, ?_⟩
  · intro v hv
    exact List.mem_range.mp ((Rng.shuffle_perm _ _).mem_iff.mp (List.mem_of_mem_take hv))
  · rintro E ⟨fuel, e', hr, hE⟩
    rw [randomize_after law tau poisson fuel hn hl hle a1 a2.wf] at hr
    obtain ⟨⟨a, r⟩, h2, h3⟩ := Res.bind_eq_ok.mp hr
    cases h3
    obtain ⟨a', j, h4, h5⟩ := (Adaptive.foldlM (step := fun fuel => farBody (T := T) poisson fuel) (fun x a => farBody_adaptive hq x a)
      _ (g', 2 * g'.edgeCount)).ret h2
    obtain ⟨rfl, _⟩ := Prod.mk.inj h4
    exact ⟨a, j, h5, hE⟩

end Dog

/-- **C91, the law of `randomize`.**  Whatever the present state, `randomize` of `DogEnsemble` gives the graph the edges `E` with the
probability of: independent short edges, then a uniformly random order of the vertices, of which the first `num` get long-range edges,
each a number of edges distributed as `q`, the partners drawn one after the other with probability proportional to
`partnerWeight`. -/
theorem C91_dog_law {g : SpacialGraph T} (h : g.WF) (hn : 0 < g.vertexCount) (law : Pos → Pos → ℚ) {tau : ℚ} {lambda : ℕ}
    (hl : 0 < lambda) {poisson : Stream → ℕ × Stream} {q : ℕ → ENNReal} (hq : Counts poisson q) {num : ℕ}
    (hnum : roundUsize ((g.vertexCount : ℚ) * (1 - tau)) = num) (hle : num ≤ g.vertexCount) (k : ℕ) (E : Finset (Sym2 ℕ)) :
    uniformTape {ω | ∃ fuel, ∃ e' : Dog T Stream, Dog.randomize fuel ⟨g, ⟨ω, k⟩, law, tau, lambda, poisson⟩ = .ok e' ∧
      e'.graph.edges = E} =
      dogLaw g.vertexCount num (fun i j => law (posAt (coords g) i) (posAt (coords g) j)) q E :=
  (Dog.law_chance h hn law hl hq hnum hle E).prob k

/-- **C91, whether `randomize` returns.**  The probabilities of the edge sets add up to the probability that the call returns. -/
theorem C91_dog_returns {g : SpacialGraph T} (h : g.WF) (hn : 0 < g.vertexCount) (law : Pos → Pos → ℚ) {tau : ℚ} {lambda : ℕ}
    (hl : 0 < lambda) {poisson : Stream → ℕ × Stream} {q : ℕ → ENNReal} (hq : Counts poisson q) {num : ℕ}
    (hnum : roundUsize ((g.vertexCount : ℚ) * (1 - tau)) = num) (hle : num ≤ g.vertexCount) (k : ℕ) :
    uniformTape {ω | ∃ fuel, ∃ e' : Dog T Stream, Dog.randomize fuel ⟨g, ⟨ω, k⟩, law, tau, lambda, poisson⟩ = .ok e'} =
      ∑ E ∈ (pairSet g.vertexCount).powerset,
        dogLaw g.vertexCount num (fun i j => law (posAt (coords g) i) (posAt (coords g) j)) q E := by
  have hsum := Chance.sum (pairSet g.vertexCount).powerset (fun E _ => Dog.law_chance h hn law hl hq hnum hle E) (by
    intro E _ E' _ ω k h1 h2
    obtain ⟨g', L, j, _, _, b3⟩ := Dog.ends_iff h hn law hl hq (by rw [hnum]; exact hle) ω k
    obtain ⟨a, i, c1, c2⟩ := b3 E h1
    obtain ⟨a', i', d1, d2⟩ := b3 E' h2
    have hS := (Adaptive.foldlM (step := fun fuel => Dog.farBody (T := T) poisson fuel) (fun x a => Dog.farBody_adaptive hq x a)
      L (g', 2 * g'.edgeCount)).sampler joins_pair
    obtain ⟨rfl, _⟩ := hS.det c1 d1
    exact c2.symm.trans d2)
  refine Eq.trans ?_ (hsum.prob k)
  congr 1
  ext ω
  simp only [Set.mem_ofPred_eq]
  constructor
  · rintro ⟨fuel, e', hr⟩
    have hend : Dog.Ends g law tau lambda poisson e'.graph.edges ω k := ⟨fuel, e', hr, rfl⟩
    refine ⟨e'.graph.edges, ?_, hend⟩
    obtain ⟨g', L, j, b1, b2, b3⟩ := Dog.ends_iff h hn law hl hq (by rw [hnum]; exact hle) ω k
    obtain ⟨a, i, ⟨F, hF⟩, c2⟩ := b3 _ hend
    have hfar : Dog.Far (R := Stream) g' [] ((g', 2 * g'.edgeCount), ⟨ω, j⟩) := ⟨b1.wf, rfl, rfl, rfl, rfl, .start⟩
    obtain ⟨_, _, _, _, _, d⟩ := (Dog.far_loop poisson F (by rw [b1.n]; exact b2) hfar).post (hF F (le_refl F))
    have hw : a.1.WF := d.wf
    have hn1 : a.1.nextId = g.nextId := d.n.trans b1.n
    rw [Finset.mem_powerset, ← c2]
    have := edges_sub_pairSet hw
    rwa [hn1] at this
  · rintro ⟨E, _, fuel, e', hr, _⟩
    exact ⟨fuel, e', hr⟩

/-- **C91, one partner.**  The loop that looks for a partner of `node` returns with `v` as partner with
probability `partnerProb`. -/
theorem C91_dog_partner {g : SpacialGraph T} (h : g.WF) {node v : ℕ} (hnode : node < g.vertexCount) (hv : v < g.vertexCount) (hne : v ≠ node)
    (k : ℕ) : uniformTape {ω | ∃ fuel g' r', Dog.findPartner node (2 * g.edgeCount) fuel g (⟨ω, k⟩ : Stream) = .ok (g', r') ∧
      g'.edges = insert s(node, v) g.edges ∧ s(node, v) ∉ g.edges} = partnerProb g.vertexCount g.edges node v := by
  refine Eq.trans ?_ ((Dog.partner_chance h hnode hv hne).prob k)
  congr 1
  ext ω
  simp only [Set.mem_ofPred_eq]
  constructor
  · rintro ⟨fuel, g', r', h1, h2, h3⟩
    obtain ⟨w, hw⟩ := (Dog.findPartner_spec h hnode _ fuel (⟨ω, k⟩ : Stream)).post h1
    have h4 : s(node, w) ∈ insert s(node, v) g.edges := h2 ▸ hw.edges ▸ Finset.mem_insert_self _ _
    have hwv : w = v := Sym2.congr_right.mp ((Finset.mem_insert.mp h4).resolve_right hw.partner.2.2.1)
    subst hwv
    obtain ⟨a, j, h5, h6⟩ := (Dog.findPartner_adaptive node (2 * g.edgeCount) g).ret h1
    obtain ⟨rfl, _⟩ := Prod.mk.inj h5
    exact ⟨g', j, h6, hw⟩
  · rintro ⟨g', j, ⟨F, hF⟩, hl⟩
    exact ⟨F, g', _, hF F (le_refl F), hl.edges, hl.partner.2.2.1⟩

theorem card_frac {N d D : ℕ} (hN : 0 < N) (hD : 0 < D) (hd : d ≤ D) :
    d * N ≤ ((Finset.range N).filter (fun u : ℕ => (u : ℚ) / N < (d : ℚ) / (D : ℚ))).card * D ∧
      ((Finset.range N).filter (fun u : ℕ => (u : ℚ) / N < (d : ℚ) / (D : ℚ))).card * D ≤ d * (N + D) := by
  have hDq : (0 : ℚ) < D := by exact_mod_cast hD
  have hNq : (0 : ℚ) < N := by exact_mod_cast hN
  have e2 : ∀ u : ℕ, u < N → ((u : ℚ) / N < (d : ℚ) / D ↔ u < ⌈(d : ℚ) / D * N⌉₊) := by
    intro u _
    rw [div_lt_iff₀ hNq, Nat.lt_ceil]
  have hle : (d : ℚ) / D * N ≤ N := by
    have : (d : ℚ) / D ≤ 1 := (div_le_one hDq).mpr (by exact_mod_cast hd)
    nlinarith
  have hmin : ⌈(d : ℚ) / D * N⌉₊ ≤ N := Nat.ceil_le.mpr hle
  rw [range_filter_card e2, min_eq_right hmin]
  have h1 := Nat.le_ceil ((d : ℚ) / D * N)
  have h2 := Nat.ceil_lt_add_one (show 0 ≤ (d : ℚ) / D * N by positivity)
  generalize hc : ⌈(d : ℚ) / D * N⌉₊ = c at *
  have h3 : (d : ℚ) / D * N * D = d * N := by field_simp
  constructor
  · have : (d : ℚ) * N ≤ c * D := by
      rw [← h3]
      exact mul_le_mul_of_nonneg_right h1 hDq.le
    exact_mod_cast this
  · rcases Nat.eq_zero_or_pos d with rfl | hpos
    · have : c = 0 := by rw [← hc]; simp
      rw [this]; simp
    · have : (c : ℚ) * D ≤ d * N + D := by
        rw [← h3]
        have := mul_le_mul_of_nonneg_right h2.le hDq.le
        linarith
      have h4 : c * D ≤ d * N + D := by exact_mod_cast this
      nlinarith

theorem headsLt_frac {d D : ℕ} (hD : 0 < D) (hd : d ≤ D) :
    d * 2 ^ 52 ≤ headsLt ((d : ℚ) / (D : ℚ)) * D ∧ headsLt ((d : ℚ) / (D : ℚ)) * D ≤ d * (2 ^ 52 + D) := by
  have h := card_frac (Nat.two_pow_pos 52) hD hd
  have hc : ((2 ^ 52 : ℕ) : ℚ) = 2 ^ 52 := Nat.cast_pow 2 52
  rw [hc] at h
  exact h

/-- The share of `v` in the degrees of the vertices that are not joined to `node`. -/
noncomputable def partnerShare (n : ℕ) (E : Finset (Sym2 ℕ)) (node v : ℕ) : ℝ :=
  (degOf E v : ℝ) / ((∑ u ∈ ((Finset.range n).erase node).filter (fun u => s(node, u) ∉ E), degOf E u : ℕ) : ℝ)

/-- **C91, preferential attachment.**  The probability of a partner that is not a neighbour differs from its share of the degrees, among the
vertices that are not neighbours, by at most the sum of all degrees times `2^-52`. -/
theorem C91_partner_proportional {n : ℕ} {E : Finset (Sym2 ℕ)} {node v : ℕ} (hv : v < n) (hne : v ≠ node) (hnew : s(node, v) ∉ E) :
    |(partnerProb n E node v).toReal - partnerShare n E node v| ≤ (2 * E.card : ℕ) / 2 ^ 52 := by
  rcases Nat.eq_zero_or_pos E.card with h0 | hpos
  · have : E = ∅ := Finset.card_eq_zero.mp h0
    subst this
    have h1 : ∀ u, partnerWeight ∅ node u = 0 := by
      intro u
      unfold partnerWeight headsLt
      rw [if_neg (by simp), Finset.card_eq_zero, Finset.filter_eq_empty_iff]
      intro x _
      simp only [degOf, Finset.filter_empty, Finset.card_empty, Nat.cast_zero, zero_div, not_lt]
      positivity
    simp [partnerProb, partnerShare, h1, degOf]
  · set D := 2 * E.card with hDdef
    have hD : 0 < D := by omega
    set w := partnerWeight E node with hwdef
    let d : ℕ → ℕ := fun u => if s(node, u) ∈ E then 0 else degOf E u
    have hdD : ∀ u, degOf E u ≤ D := fun u => (Finset.card_filter_le _ _).trans (by omega)
    have hwd : ∀ u, d u * 2 ^ 52 ≤ w u * D ∧ w u * D ≤ d u * (2 ^ 52 + D) := by
      intro u
      simp only [d, hwdef, partnerWeight]
      split
      · simp
      · exact headsLt_frac hD (hdD u)
    have hdv : d v = degOf E v := if_neg hnew
    have hS : ∑ u ∈ ((Finset.range n).erase node).filter (fun u => s(node, u) ∉ E), degOf E u = ∑ u ∈ (Finset.range n).erase node, d u := by
      rw [Finset.sum_filter]
      refine Finset.sum_congr rfl fun u _ => ?_
      simp only [d]
      by_cases hu : s(node, u) ∈ E <;> simp [hu]
    have hmem : v ∈ (Finset.range n).erase node := Finset.mem_erase.mpr ⟨hne, Finset.mem_range.mpr hv⟩
    have hdS : d v ≤ ∑ u ∈ (Finset.range n).erase node, d u := Finset.single_le_sum (fun _ _ => Nat.zero_le _) hmem
    have hwW : w v ≤ ∑ u ∈ (Finset.range n).erase node, w u := Finset.single_le_sum (fun _ _ => Nat.zero_le _) hmem
    have hsum1 : (∑ u ∈ (Finset.range n).erase node, d u) * 2 ^ 52 ≤ (∑ u ∈ (Finset.range n).erase node, w u) * D := by
      rw [Finset.sum_mul, Finset.sum_mul]; exact Finset.sum_le_sum fun u _ => (hwd u).1
    have hsum2 : (∑ u ∈ (Finset.range n).erase node, w u) * D ≤ (∑ u ∈ (Finset.range n).erase node, d u) * (2 ^ 52 + D) := by
      rw [Finset.sum_mul, Finset.sum_mul]; exact Finset.sum_le_sum fun u _ => (hwd u).2
    have hp : (partnerProb n E node v).toReal = (w v : ℝ) / ((∑ u ∈ (Finset.range n).erase node, w u : ℕ) : ℝ) := by
      unfold partnerProb
      rw [ENNReal.toReal_div, ENNReal.toReal_natCast, ENNReal.toReal_natCast]
    rw [hp, partnerShare, hS, ← hdv]
    generalize (∑ u ∈ (Finset.range n).erase node, w u) = W at *
    generalize (∑ u ∈ (Finset.range n).erase node, d u) = S at *
    obtain ⟨h1, h2⟩ := hwd v
    generalize w v = a at *
    generalize d v = b at *
    have hDr : (0 : ℝ) < D := by exact_mod_cast hD
    have k1 : (b : ℝ) * 2 ^ 52 ≤ a * D := by exact_mod_cast h1
    have k2 : (a : ℝ) * D ≤ b * (2 ^ 52 + D) := by exact_mod_cast h2
    have k3 : (S : ℝ) * 2 ^ 52 ≤ W * D := by exact_mod_cast hsum1
    have k4 : (W : ℝ) * D ≤ S * (2 ^ 52 + D) := by exact_mod_cast hsum2
    have k5 : (b : ℝ) ≤ S := by exact_mod_cast hdS
    have k6 : (a : ℝ) ≤ W := by exact_mod_cast hwW
    have ha : (0 : ℝ) ≤ a := by positivity
    have hb : (0 : ℝ) ≤ b := by positivity
    rcases Nat.eq_zero_or_pos S with hS0 | hS0
    · have hb0 : b = 0 := by omega
      have ha0 : a = 0 := by
        rw [hb0, Nat.zero_mul] at h2
        rcases Nat.mul_eq_zero.mp (Nat.le_zero.mp h2) with h | h
        · exact h
        · omega
      rw [ha0, hb0]
      simp only [Nat.cast_zero, zero_div, sub_zero, abs_zero]
      positivity
    · have hSr : (0 : ℝ) < S := by exact_mod_cast hS0
      have hWr : (0 : ℝ) < W := by
        by_contra hc
        nlinarith
      have hεle : ∀ x y : ℝ, x ≤ y * (1 + D / 2 ^ 52) → y ≤ 1 → 0 ≤ y → x - y ≤ D / 2 ^ 52 := by
        intro x y h1 h2 h3
        have : (0 : ℝ) ≤ D / 2 ^ 52 := by positivity
        nlinarith
      have m1 : (a : ℝ) / W ≤ b / S * (1 + D / 2 ^ 52) := by
        rw [show (b : ℝ) / S * (1 + D / 2 ^ 52) = (b * (2 ^ 52 + D)) / (S * 2 ^ 52) by field_simp,
          div_le_div_iff₀ hWr (by positivity)]
        have : (a : ℝ) * D * (S * 2 ^ 52) ≤ b * (2 ^ 52 + D) * (W * D) := mul_le_mul k2 k3 (by positivity) (by positivity)
        have h7 : (a * (S * 2 ^ 52)) * (D : ℝ) ≤ (b * (2 ^ 52 + D) * W) * D := by linarith
        exact le_of_mul_le_mul_right h7 hDr
      have m2 : (b : ℝ) / S ≤ a / W * (1 + D / 2 ^ 52) := by
        rw [show (a : ℝ) / W * (1 + D / 2 ^ 52) = (a * (2 ^ 52 + D)) / (W * 2 ^ 52) by field_simp,
          div_le_div_iff₀ hSr (by positivity)]
        have : (b : ℝ) * 2 ^ 52 * (W * D) ≤ a * D * (S * (2 ^ 52 + D)) := mul_le_mul k1 k4 (by positivity) (by positivity)
        have h7 : (b * (W * 2 ^ 52)) * (D : ℝ) ≤ (a * (2 ^ 52 + D) * S) * D := by linarith
        exact le_of_mul_le_mul_right h7 hDr
      rw [abs_sub_le_iff]
      exact ⟨hεle _ _ m1 ((div_le_one hSr).mpr k5) (by positivity), hεle _ _ m2 ((div_le_one hWr).mpr k6) (by positivity)⟩

/-! A path `0 - 1 - 2` and a further vertex `3`: vertex `1` becomes the partner of `3` with probability close to one half. -/

example : partnerShare 4 {s(0, 1), s(1, 2)} 3 1 = 1 / 2 := by
  have h : ((Finset.range 4).erase 3).filter (fun u => s(3, u) ∉ ({s(0, 1), s(1, 2)} : Finset (Sym2 ℕ))) = {0, 1, 2} := by decide
  have h0 : degOf {s(0, 1), s(1, 2)} 0 = 1 := by decide
  have h1 : degOf {s(0, 1), s(1, 2)} 1 = 2 := by decide
  have h2 : degOf {s(0, 1), s(1, 2)} 2 = 1 := by decide
  unfold partnerShare
  rw [h, Finset.sum_insert (by decide), Finset.sum_insert (by decide), Finset.sum_singleton, h0, h1, h2]
  norm_num

/-- A sampler of numbers as the law needs it: zero, one or two partners. -/
example : Counts (fun r => (partOf r.head 3, r.skip 1)) (fun m => if m < 3 then (3 : ENNReal)⁻¹ else 0) := by
  refine ⟨?_, fun m => ?_⟩
  · intro fuel ω k b hb
    cases hb
    refine ⟨_, [(3, partOf (ω k) 3)], rfl, matches_single.mpr rfl, fun fuel' _ ω' k' hm => ?_⟩
    show Res.ok (partOf (ω' k') 3, _) = _
    rw [matches_single.mp hm]
    rfl
  · have := chance_draw (h := 3) (by norm_num) (fun i => i = m)
    rw [Finset.filter_eq'] at this
    by_cases hm : m < 3
    · rw [if_pos (Finset.mem_range.mpr hm), Finset.card_singleton, Nat.cast_one, one_mul] at this
      rw [if_pos hm]
      exact this
    · rw [if_neg (by simpa using hm), Finset.card_empty, Nat.cast_zero, zero_mul] at this
      rw [if_neg hm]
      exact this

example : exSpacial.graph.WF ∧ 0 < exSpacial.graph.vertexCount ∧
    roundUsize ((exSpacial.graph.vertexCount : ℚ) * (1 - 1 / 2)) ≤ exSpacial.graph.vertexCount := by
  refine ⟨exSpacial_wf, by decide, ?_⟩
  decide +kernel

end Verif
