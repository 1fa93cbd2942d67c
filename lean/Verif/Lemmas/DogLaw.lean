import Verif.Lemmas.DogChance
import Verif.Lemmas.Indep

/-!
# The law of the long-range edges in `DogEnsemble`
-/

set_option linter.unusedSectionVars false
set_option linter.unusedSimpArgs false

namespace Verif
open MeasureTheory ProbabilityTheory AdjContainer GenericGraph

/-! ## Specification -/

/-- The weight of `v` as partner of `node`: none if they are joined already, otherwise the number of values of `Uniform::new(0.0, 1.0)`
below the share of `v` in the sum of the degrees. -/
def partnerWeight (E : Finset (Sym2 ℕ)) (node v : ℕ) : ℕ :=
  if s(node, v) ∈ E then 0 else headsLt ((degOf E v : ℚ) / ((2 * E.card : ℕ) : ℚ))

/-- The probability that `v` becomes the partner of `node`, among `n` vertices with the edges `E`. -/
noncomputable def partnerProb (n : ℕ) (E : Finset (Sym2 ℕ)) (node v : ℕ) : ENNReal :=
  (partnerWeight E node v : ENNReal) / ((∑ u ∈ (Finset.range n).erase node, partnerWeight E node u : ℕ) : ENNReal)

/-- The probability that `m` partners of `node`, one after the other, lead from the edges `E` to the edges `E'`. -/
noncomputable def linksLaw (n node : ℕ) : ℕ → Finset (Sym2 ℕ) → Finset (Sym2 ℕ) → ENNReal
  | 0, E, E' => if E = E' then 1 else 0
  | m + 1, E, E' => ∑ v ∈ (Finset.range n).erase node, partnerProb n E node v * linksLaw n node m (insert s(node, v) E) E'

/-- The probability that the special vertices of the list, each with a number of partners distributed as `q`, lead from `E` to `E'`. -/
noncomputable def farLaw (n : ℕ) (q : ℕ → ENNReal) : List ℕ → Finset (Sym2 ℕ) → Finset (Sym2 ℕ) → ENNReal
  | [], E, E' => if E = E' then 1 else 0
  | node :: rest, E, E' => ∑ E1 ∈ (pairSet n).powerset, (∑ m ∈ Finset.range n, q m * linksLaw n node m E E1) * farLaw n q rest E1 E'

/-- The sampler of the numbers of partners: it reads finitely many numbers of the tape, and gives `m` with probability `q m`. -/
structure Counts (poisson : Stream → ℕ × Stream) (q : ℕ → ENNReal) : Prop where
  adaptive : Adaptive Prod.mk (fun _ r => .ok (poisson r))
  prob : ∀ m, Chance (fun ω k => (poisson ⟨ω, k⟩).1 = m) (q m)

/-! ## Proof -/

variable {T : Type}

namespace Dog

theorem accepts_takes (E : Finset (Sym2 ℕ)) (node v : ℕ) :
    accepts (Takes E (2 * E.card) node) v = partnerWeight E node v * 2 := by
  unfold accepts partnerWeight
  split
  · rename_i h
    rw [Nat.zero_mul, Finset.card_eq_zero, Finset.filter_eq_empty_iff]
    exact fun u _ hu => hu.1 h
  · rename_i h
    have h1 := card_half (2 ^ 52) (fun u : ℕ => (u : ℚ) / 2 ^ 52 < (degOf E v : ℚ) / ((2 * E.card : ℕ) : ℚ))
    rw [show (2 : ℕ) ^ 52 * 2 = 2 ^ 53 by norm_num] at h1
    refine Eq.trans (congrArg Finset.card ?_) h1
    refine Finset.filter_congr fun u _ => ?_
    unfold Takes
    rw [mul_one_div]
    exact ⟨fun hu => hu.2, fun hu => ⟨h, hu⟩⟩

/-- **The partner of a vertex.** -/
theorem partner_chance {g : SpacialGraph T} (h : g.WF) {node : ℕ} (hnode : node < g.nextId) {v : ℕ} (hv : v < g.nextId) (hne : v ≠ node) :
    Chance (fun ω k => ∃ g' j, RetOf Prod.mk (fun fuel (r : Stream) => findPartner node (2 * g.edgeCount) fuel g r) ω k g' j ∧
      Linked g node g' v) (partnerProb g.nextId g.edges node v) := by
  have h1 := until_try_chance g.nextId node (Takes g.edges (2 * g.edgeCount) node) (by omega) hv hne
  rw [h.edgeCount_eq_card, accepts_takes, Finset.sum_congr rfl (fun u _ => accepts_takes g.edges node u), ← Finset.sum_mul,
    Nat.cast_mul, Nat.cast_mul, ENNReal.mul_div_mul_right _ _ (by norm_num) (ENNReal.natCast_ne_top _)] at h1
  refine h1.congr fun ω k => ?_
  rw [h.edgeCount_eq_card]
  exact (findPartner_ret h hnode (2 * g.edges.card) v).symm

/-- One long-range edge with the update of the sum of degrees. -/
noncomputable def linkBody (node : ℕ) (fuel : ℕ) (s : (SpacialGraph T × ℕ) × Stream) (_ : ℕ) : Res ((SpacialGraph T × ℕ) × Stream) := do
  let (g, rng) ← findPartner node s.1.2 fuel s.1.1 s.2
  return ((g, s.1.2 + 2), rng)

theorem farBody_def (poisson : Stream → ℕ × Stream) (fuel : ℕ) (s : (SpacialGraph T × ℕ) × Stream) (node : ℕ) :
    farBody poisson fuel s node = (List.range (poisson s.2).1).foldlM (linkBody node fuel) (s.1, (poisson s.2).2) := rfl

theorem linkBody_adaptive (node x : ℕ) (a : SpacialGraph T × ℕ) : Adaptive Prod.mk (fun fuel r => linkBody node fuel (a, r) x) := by
  unfold linkBody
  exact (findPartner_adaptive node a.2 a.1).bind (mk' := Prod.mk) (g := fun _ p => pure ((p.1, a.2 + 2), p.2))
    (fun g => Adaptive.ok (mk := Prod.mk) (g, a.2 + 2))

theorem linkBody_ret {node x : ℕ} {a b : SpacialGraph T × ℕ} {ω : ℕ → ℝ} {k j : ℕ} :
    RetOf Prod.mk (fun fuel r => linkBody node fuel (a, r) x) ω k b j ↔
      RetOf Prod.mk (fun fuel (r : Stream) => findPartner node a.2 fuel a.1 r) ω k b.1 j ∧ b.2 = a.2 + 2 := by
  have := RetOf.bind_iff (mk' := Prod.mk) (findPartner_adaptive (T := T) node a.2 a.1)
    (g := fun _ p => pure ((p.1, a.2 + 2), p.2)) (ω := ω) (k := k) (j := j) (c := b)
  refine this.trans ?_
  constructor
  · rintro ⟨g, i, h1, F, h2⟩
    have h3 := Res.ok.inj (h2 F (le_refl F))
    obtain ⟨h4, h5⟩ := Prod.mk.inj h3
    subst h4
    cases h5
    exact ⟨h1, rfl⟩
  · rintro ⟨h1, h2⟩
    exact ⟨b.1, j, h1, 0, fun _ _ => by rw [← h2]; rfl⟩

/-- The state of the loop over the special vertices. -/
structure Good (n : ℕ) (a : SpacialGraph T × ℕ) : Prop where
  wf : a.1.WF
  n : a.1.nextId = n
  sum : a.2 = 2 * a.1.edgeCount

theorem Good.linked {n : ℕ} {a b : SpacialGraph T × ℕ} {node v : ℕ} (h : Good n a) (hl : Linked a.1 node b.1 v) (hb : b.2 = a.2 + 2) :
    Good n b := by
  refine ⟨hl.wf, hl.n.trans h.n, ?_⟩
  have : b.1.edgeCount = a.1.edgeCount + 1 := by
    rw [hl.wf.edgeCount_eq_card, hl.edges, Finset.card_insert_of_notMem hl.partner.2.2.1, h.wf.edgeCount_eq_card]
  rw [hb, this, h.sum]
  ring

theorem linkBody_linked {n node x : ℕ} (hnode : node < n) {a b : SpacialGraph T × ℕ} (h : Good n a) {ω : ℕ → ℝ} {k j : ℕ}
    (hr : RetOf Prod.mk (fun fuel r => linkBody node fuel (a, r) x) ω k b j) : ∃ v, Linked a.1 node b.1 v ∧ b.2 = a.2 + 2 := by
  obtain ⟨⟨F, hF⟩, h2⟩ := linkBody_ret.mp hr
  obtain ⟨v, hv⟩ := (findPartner_spec h.wf (by rw [h.n]; exact hnode) a.2 F (⟨ω, k⟩ : Stream)).post (hF F (le_refl F))
  exact ⟨v, hv, h2⟩

theorem links_chance {n node : ℕ} (hnode : node < n) (E' : Finset (Sym2 ℕ)) : ∀ (L : List ℕ) (a : SpacialGraph T × ℕ), Good n a →
    Chance (fun ω k => ∃ b j, RetOf Prod.mk (fun fuel r => L.foldlM (linkBody node fuel) (a, r)) ω k b j ∧ Good n b ∧ b.1.edges = E')
      (linksLaw n node L.length a.1.edges E') := by
  intro L
  induction L with
  | nil =>
    intro a ha
    have hret : ∀ ω k, (∃ b j, RetOf Prod.mk (fun fuel r => ([] : List ℕ).foldlM (linkBody node fuel) (a, r)) ω k b j ∧ Good n b ∧
        b.1.edges = E') ↔ a.1.edges = E' := by
      intro ω k
      constructor
      · rintro ⟨b, j, ⟨F, hF⟩, _, h⟩
        have h1 := hF F (le_refl F)
        obtain ⟨rfl, _⟩ := Prod.mk.inj (Res.ok.inj h1)
        exact h
      · exact fun h => ⟨a, k, ⟨0, fun _ _ => rfl⟩, ha, h⟩
    rw [List.length_nil]
    unfold linksLaw
    split
    · rename_i h
      exact Chance.true.congr fun ω k => by rw [hret]; exact ⟨fun _ => h, fun _ => trivial⟩
    · rename_i h
      exact Chance.false.congr fun ω k => by rw [hret]; exact ⟨False.elim, fun h' => h h'⟩
  | cons x L ih =>
    intro a ha
    have hS : Sampler (RetOf Prod.mk (fun fuel (r : Stream) => linkBody node fuel (a, r) x)) :=
      (linkBody_adaptive node x a).sampler joins_pair
    have hfold : ∀ {ω k b j}, RetOf Prod.mk (fun fuel r => (x :: L).foldlM (linkBody node fuel) (a, r)) ω k b j ↔
        ∃ c l, RetOf Prod.mk (fun fuel r => linkBody node fuel (a, r) x) ω k c l ∧
          RetOf Prod.mk (fun fuel r => L.foldlM (linkBody node fuel) (c, r)) ω l b j := by
      intro ω k b j
      have := RetOf.bind_iff (mk' := Prod.mk) (linkBody_adaptive node x a) (g := fun fuel b => L.foldlM (linkBody node fuel) b)
        (ω := ω) (k := k) (j := j) (c := b)
      simpa only [List.foldlM_cons] using this
    rw [List.length_cons]
    unfold linksLaw
    have hterm : ∀ v ∈ (Finset.range n).erase node, Chance (fun ω k => ∃ c l,
        RetOf Prod.mk (fun fuel r => linkBody node fuel (a, r) x) ω k c l ∧ (Linked a.1 node c.1 v ∧ c.2 = a.2 + 2) ∧
        ∃ b j, RetOf Prod.mk (fun fuel r => L.foldlM (linkBody node fuel) (c, r)) ω l b j ∧ Good n b ∧ b.1.edges = E')
        (partnerProb n a.1.edges node v * linksLaw n node L.length (insert s(node, v) a.1.edges) E') := by
      intro v hv
      rw [Finset.mem_erase, Finset.mem_range] at hv
      refine chance_bind hS (P := fun c => Linked a.1 node c.1 v ∧ c.2 = a.2 + 2) ?_
        (Q := fun c ω l => ∃ b j, RetOf Prod.mk (fun fuel r => L.foldlM (linkBody node fuel) (c, r)) ω l b j ∧ Good n b ∧ b.1.edges = E') ?_
      · have h1 := partner_chance ha.wf (by rw [ha.n]; exact hnode) (by rw [ha.n]; exact hv.2) hv.1
        rw [ha.n, ← ha.sum] at h1
        refine h1.congr fun ω k => ?_
        constructor
        · rintro ⟨g', j, h2, h3⟩
          exact ⟨(g', a.2 + 2), j, linkBody_ret.mpr ⟨h2, rfl⟩, h3, rfl⟩
        · rintro ⟨c, j, h2, h3, _⟩
          exact ⟨c.1, j, (linkBody_ret.mp h2).1, h3⟩
      · rintro c ⟨h1, h2⟩
        have := ih c (ha.linked h1 h2)
        rwa [h1.edges] at this
    refine (Chance.sum _ hterm ?_).congr fun ω k => ?_
    · rintro v _ v' _ ω k ⟨b, l, h1, ⟨h2, _⟩, _⟩ ⟨b', l', h1', ⟨h2', _⟩, _⟩
      obtain ⟨rfl, _⟩ := hS.det h1 h1'
      have h4 : s(node, v) ∈ insert s(node, v') a.1.edges := h2'.edges ▸ h2.edges ▸ Finset.mem_insert_self _ _
      exact Sym2.congr_right.mp ((Finset.mem_insert.mp h4).resolve_right h2.partner.2.2.1)
    · constructor
      · rintro ⟨v, _, c, l, h1, _, b, j, h2, h3⟩
        exact ⟨b, j, hfold.mpr ⟨c, l, h1, h2⟩, h3⟩
      · rintro ⟨b, j, h1, h2⟩
        obtain ⟨c, l, h3, h4⟩ := hfold.mp h1
        obtain ⟨v, hv⟩ := linkBody_linked hnode ha h3
        refine ⟨v, ?_, c, l, h3, hv, b, j, h4, h2⟩
        rw [Finset.mem_erase, Finset.mem_range, ← ha.n]
        exact ⟨hv.1.partner.2.1, hv.1.partner.1⟩

theorem degOf_lt {g : SpacialGraph T} (h : g.WF) {v : ℕ} (hv : v < g.nextId) : degOf g.edges v < g.nextId := by
  rw [← h.deg_eq, ← List.toFinset_card_of_nodup (h.nodup v)]
  have hsub : (g.nbrs v).toFinset ⊆ (Finset.range g.nextId).erase v := by
    intro u hu
    rw [List.mem_toFinset] at hu
    rw [Finset.mem_erase, Finset.mem_range]
    exact ⟨fun e => h.irrefl v (e ▸ hu), h.lt _ _ hu⟩
  have := Finset.card_le_card hsub
  rw [Finset.card_erase_of_mem (Finset.mem_range.mpr hv), Finset.card_range] at this
  omega

theorem farBody_adaptive {poisson : Stream → ℕ × Stream} {q : ℕ → ENNReal} (hq : Counts poisson q) (node : ℕ) (a : SpacialGraph T × ℕ) :
    Adaptive Prod.mk (fun fuel r => farBody poisson fuel (a, r) node) :=
  hq.adaptive.bind (mk' := Prod.mk) (g := fun fuel (p : ℕ × Stream) => (List.range p.1).foldlM (linkBody node fuel) (a, p.2))
    (fun m => Adaptive.foldlM (fun x a => linkBody_adaptive node x a) (List.range m) a)

theorem farBody_ret {poisson : Stream → ℕ × Stream} {q : ℕ → ENNReal} (hq : Counts poisson q) {node : ℕ} {a b : SpacialGraph T × ℕ}
    {ω : ℕ → ℝ} {k j : ℕ} : RetOf Prod.mk (fun fuel r => farBody poisson fuel (a, r) node) ω k b j ↔
      ∃ m i, RetOf Prod.mk (fun _ r => .ok (poisson r)) ω k m i ∧
        RetOf Prod.mk (fun fuel r => (List.range m).foldlM (linkBody node fuel) (a, r)) ω i b j :=
  RetOf.bind_iff (mk' := Prod.mk) hq.adaptive (g := fun fuel (p : ℕ × Stream) => (List.range p.1).foldlM (linkBody node fuel) (a, p.2))
    (ω := ω) (k := k) (j := j) (c := b)

theorem farBody_good {poisson : Stream → ℕ × Stream} {n node : ℕ} (hnode : node < n) {a b : SpacialGraph T × ℕ} (h : Good n a)
    {ω : ℕ → ℝ} {k j : ℕ} (hr : RetOf Prod.mk (fun fuel r => farBody poisson fuel (a, r) node) ω k b j) :
    Good n b ∧ (poisson ⟨ω, k⟩).1 < n := by
  obtain ⟨F, hF⟩ := hr
  have hfar : Far (R := Stream) a.1 [] (a, ⟨ω, k⟩) := ⟨h.wf, rfl, rfl, rfl, h.sum, .start⟩
  obtain ⟨l', h1, h2⟩ := (farBody_spec poisson F hfar (by rw [h.n]; exact hnode)).post (hF F (le_refl F))
  have hn : b.1.nextId = n := h2.n.trans h.n
  refine ⟨⟨h2.wf, hn, h2.sum⟩, ?_⟩
  have h3 := h2.links.degree node
  rw [List.nil_append, h1, List.count_replicate_self] at h3
  have hw : b.1.WF := h2.wf
  have h4 := degOf_lt hw (v := node) (by rw [hn]; exact hnode)
  rw [hn] at h4
  have h5 : degOf a.1.edges node + (poisson ⟨ω, k⟩).1 ≤ degOf b.1.edges node := h3
  omega

theorem farBody_chance {poisson : Stream → ℕ × Stream} {q : ℕ → ENNReal} (hq : Counts poisson q) {n node : ℕ} (hnode : node < n)
    (E' : Finset (Sym2 ℕ)) {a : SpacialGraph T × ℕ} (ha : Good n a) :
    Chance (fun ω k => ∃ b j, RetOf Prod.mk (fun fuel r => farBody poisson fuel (a, r) node) ω k b j ∧ Good n b ∧ b.1.edges = E')
      (∑ m ∈ Finset.range n, q m * linksLaw n node m a.1.edges E') := by
  have hS : Sampler (RetOf Prod.mk (fun _ r => .ok (poisson r))) := hq.adaptive.sampler joins_pair
  have hpo : ∀ {ω k m i}, RetOf Prod.mk (fun _ r => .ok (poisson r)) ω k m i → (poisson ⟨ω, k⟩).1 = m := by
    rintro ω k m i ⟨F, hF⟩
    exact congrArg Prod.fst (Res.ok.inj (hF F (le_refl F)))
  have hterm : ∀ m ∈ Finset.range n, Chance (fun ω k => ∃ m' i, RetOf Prod.mk (fun _ r => .ok (poisson r)) ω k m' i ∧ m' = m ∧
      ∃ b j, RetOf Prod.mk (fun fuel r => (List.range m').foldlM (linkBody node fuel) (a, r)) ω i b j ∧ Good n b ∧ b.1.edges = E')
      (q m * linksLaw n node m a.1.edges E') := by
    intro m _
    refine chance_bind hS (P := fun m' => m' = m) ?_
      (Q := fun m' ω i => ∃ b j, RetOf Prod.mk (fun fuel r => (List.range m').foldlM (linkBody node fuel) (a, r)) ω i b j ∧ Good n b ∧
        b.1.edges = E') ?_
    · refine (hq.prob m).congr fun ω k => ?_
      constructor
      · intro h
        obtain ⟨m', j, h1, h2⟩ := hq.adaptive.ret (fuel := 0) (r := ⟨ω, k⟩) rfl
        exact ⟨m', j, h2, by rw [← h, h1]⟩
      · rintro ⟨m', j, h1, h2⟩
        rw [hpo h1, h2]
    · intro m' hm'
      subst hm'
      have := links_chance hnode E' (List.range m') a ha
      rwa [List.length_range] at this
  refine (Chance.sum _ hterm ?_).congr fun ω k => ?_
  · rintro m _ m' _ ω k ⟨b, l, h1, h2, _⟩ ⟨b', l', h1', h2', _⟩
    rw [← h2, ← h2', ← hpo h1, ← hpo h1']
  · constructor
    · rintro ⟨m, _, m', i, h1, rfl, b, j, h2, h3⟩
      exact ⟨b, j, (farBody_ret hq).mpr ⟨m', i, h1, h2⟩, h3⟩
    · rintro ⟨b, j, h1, h2⟩
      obtain ⟨m, i, h3, h4⟩ := (farBody_ret hq).mp h1
      refine ⟨m, ?_, m, i, h3, rfl, b, j, h4, h2⟩
      rw [Finset.mem_range, ← hpo h3]
      exact (farBody_good hnode ha h1).2

theorem far_chance {poisson : Stream → ℕ × Stream} {q : ℕ → ENNReal} (hq : Counts poisson q) {n : ℕ} (E' : Finset (Sym2 ℕ)) :
    ∀ (L : List ℕ), (∀ v ∈ L, v < n) → ∀ (a : SpacialGraph T × ℕ), Good n a →
    Chance (fun ω k => ∃ b j, RetOf Prod.mk (fun fuel r => L.foldlM (farBody poisson fuel) (a, r)) ω k b j ∧ b.1.edges = E')
      (farLaw n q L a.1.edges E') := by
  intro L
  induction L with
  | nil =>
    intro _ a ha
    have hret : ∀ ω k, (∃ b j, RetOf Prod.mk (fun fuel r => ([] : List ℕ).foldlM (farBody poisson fuel) (a, r)) ω k b j ∧
        b.1.edges = E') ↔ a.1.edges = E' := by
      intro ω k
      constructor
      · rintro ⟨b, j, ⟨F, hF⟩, h⟩
        have h1 := hF F (le_refl F)
        obtain ⟨rfl, _⟩ := Prod.mk.inj (Res.ok.inj h1)
        exact h
      · exact fun h => ⟨a, k, ⟨0, fun _ _ => rfl⟩, h⟩
    unfold farLaw
    split
    · rename_i h
      exact Chance.true.congr fun ω k => by rw [hret]; exact ⟨fun _ => h, fun _ => trivial⟩
    · rename_i h
      exact Chance.false.congr fun ω k => by rw [hret]; exact ⟨False.elim, fun h' => h h'⟩
  | cons node L ih =>
    intro hL a ha
    have hnode := hL node (by simp)
    have hS : Sampler (RetOf Prod.mk (fun fuel (r : Stream) => farBody poisson fuel (a, r) node)) :=
      (farBody_adaptive hq node a).sampler joins_pair
    have hfold : ∀ {ω k b j}, RetOf Prod.mk (fun fuel r => (node :: L).foldlM (farBody poisson fuel) (a, r)) ω k b j ↔
        ∃ c l, RetOf Prod.mk (fun fuel r => farBody poisson fuel (a, r) node) ω k c l ∧
          RetOf Prod.mk (fun fuel r => L.foldlM (farBody poisson fuel) (c, r)) ω l b j := by
      intro ω k b j
      have := RetOf.bind_iff (mk' := Prod.mk) (farBody_adaptive hq node a) (g := fun fuel b => L.foldlM (farBody poisson fuel) b)
        (ω := ω) (k := k) (j := j) (c := b)
      simpa only [List.foldlM_cons] using this
    unfold farLaw
    have hterm : ∀ E1 ∈ (pairSet n).powerset, Chance (fun ω k => ∃ c l,
        RetOf Prod.mk (fun fuel r => farBody poisson fuel (a, r) node) ω k c l ∧ (Good n c ∧ c.1.edges = E1) ∧
        ∃ b j, RetOf Prod.mk (fun fuel r => L.foldlM (farBody poisson fuel) (c, r)) ω l b j ∧ b.1.edges = E')
        ((∑ m ∈ Finset.range n, q m * linksLaw n node m a.1.edges E1) * farLaw n q L E1 E') := by
      intro E1 _
      refine chance_bind hS (P := fun c => Good n c ∧ c.1.edges = E1) (farBody_chance hq hnode E1 ha)
        (Q := fun c ω l => ∃ b j, RetOf Prod.mk (fun fuel r => L.foldlM (farBody poisson fuel) (c, r)) ω l b j ∧ b.1.edges = E') ?_
      rintro c ⟨h1, rfl⟩
      exact ih (fun v hv => hL v (by simp [hv])) c h1
    refine (Chance.sum _ hterm ?_).congr fun ω k => ?_
    · rintro E1 _ E2 _ ω k ⟨b, l, h1, ⟨_, h2⟩, _⟩ ⟨b', l', h1', ⟨_, h2'⟩, _⟩
      obtain ⟨rfl, _⟩ := hS.det h1 h1'
      exact h2.symm.trans h2'
    · constructor
      · rintro ⟨E1, _, c, l, h1, _, b, j, h2, h3⟩
        exact ⟨b, j, hfold.mpr ⟨c, l, h1, h2⟩, h3⟩
      · rintro ⟨b, j, h1, h2⟩
        obtain ⟨c, l, h3, h4⟩ := hfold.mp h1
        have hc := (farBody_good hnode ha h3).1
        refine ⟨c.1.edges, ?_, c, l, h3, ⟨hc, rfl⟩, b, j, h4, h2⟩
        rw [Finset.mem_powerset, ← hc.n]
        exact edges_sub_pairSet hc.wf

end Dog

end Verif
