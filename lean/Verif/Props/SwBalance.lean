import Verif.Props.Sw
import Verif.Props.ErBalance
import Verif.Lemmas.SwReach
import Mathlib.Tactic.IntervalCases
import Mathlib.Data.Fintype.Prod

/-!
# C55: the Markov chain of the small-world ensemble: detailed balance and irreducibility
-/

set_option linter.unusedSectionVars false
set_option linter.unusedSimpArgs false

namespace Verif
open AdjContainer GenericGraph

variable {T : Type}

/-- The rooted edges of a network: (vertex it is rooted at, original target, present target). -/
def SwGraph.rooted (g : SwGraph T) : Finset (ℕ × ℕ × ℕ) :=
  (Finset.range g.nextId ×ˢ Finset.range g.nextId ×ˢ Finset.range g.nextId).filter
    (fun t => (⟨t.2.2, some t.2.1⟩ : SwEdge) ∈ SwGraph.raw g t.1)

theorem SwValid.mem_rooted {g : SwGraph T} (h : SwValid g) {i o j : ℕ} :
    (i, o, j) ∈ SwGraph.rooted g ↔ (⟨j, some o⟩ : SwEdge) ∈ SwGraph.raw g i := by
  unfold SwGraph.rooted
  simp only [Finset.mem_filter, Finset.mem_product, Finset.mem_range, and_iff_right_iff_imp]
  intro he
  have hjn : j ∈ g.nbrs i := sw_mem_nbrs.mpr ⟨_, he, rfl⟩
  exact ⟨h.wf.lt_left hjn, (h.orig_lt he).1, h.wf.lt _ _ hjn⟩

/-- The rooted edges determine which vertices are adjacent. -/
theorem SwValid.nbrs_iff {g : SwGraph T} (h : SwValid g) {x y : ℕ} :
    y ∈ g.nbrs x ↔ ∃ o, (x, o, y) ∈ SwGraph.rooted g ∨ (y, o, x) ∈ SwGraph.rooted g := by
  constructor
  · intro hy
    obtain ⟨⟨d, o⟩, h1, h2⟩ := sw_mem_nbrs.mp hy
    obtain ⟨⟨d', o'⟩, h3, h4⟩ := sw_mem_nbrs.mp (h.wf.symm _ _ hy)
    simp only at h2 h4
    subst h2 h4
    have := h.oneEnd _ _ h1 _ h3 rfl
    cases o with
    | some o => exact ⟨o, .inl (h.mem_rooted.mpr h1)⟩
    | none =>
      cases o' with
      | some o => exact ⟨o, .inr (h.mem_rooted.mpr h3)⟩
      | none => simp [SwEdge.isRoot] at this
  · rintro ⟨o, h1 | h1⟩
    · exact sw_mem_nbrs.mpr ⟨_, h.mem_rooted.mp h1, rfl⟩
    · exact h.wf.symm _ _ (sw_mem_nbrs.mpr ⟨_, h.mem_rooted.mp h1, rfl⟩)

theorem SwValid.edges_of_rooted {g g' : SwGraph T} (h : SwValid g) (h' : SwValid g')
    (e : SwGraph.rooted g' = SwGraph.rooted g) : g'.edges = g.edges := by
  apply h'.wf.edges_eq_of
  intro x y
  rw [h.wf.mem_edges, h.nbrs_iff, h'.nbrs_iff, e]

theorem SwMoved.rooted {g g' : SwGraph T} {i j k o : ℕ} (m : SwMoved g g' i j k o) (h : SwValid g) :
    SwGraph.rooted g' = insert (i, o, k) ((SwGraph.rooted g).erase (i, o, j)) := by
  have h' := m.valid h
  ext ⟨x, p, y⟩
  rw [h'.mem_rooted, m.mem h.wf, Finset.mem_insert, Finset.mem_erase, h.mem_rooted]
  simp only [SwEdge.mk.injEq, Option.some.injEq, Prod.mk.injEq, ne_eq, reduceCtorEq, and_false, false_or]
  constructor
  · rintro (⟨rfl, rfl, rfl⟩ | ⟨h1, h2, _⟩)
    · exact .inl ⟨rfl, rfl, rfl⟩
    · exact .inr ⟨fun hc => h2 ⟨hc.1, hc.2.2⟩, h1⟩
  · rintro (⟨rfl, rfl, rfl⟩ | ⟨h1, h2⟩)
    · exact .inl ⟨rfl, rfl, rfl⟩
    · refine .inr ⟨h2, ?_, ?_⟩
      · rintro ⟨rfl, rfl⟩
        have := sw_raw_inj h.wf h2 m.old_mem rfl
        simp only [SwEdge.mk.injEq, Option.some.injEq, true_and] at this
        exact h1 ⟨rfl, this, rfl⟩
      · rintro ⟨rfl, rfl⟩
        have := sw_raw_inj h.wf h2 (h.loose m.old_mem) rfl
        simp at this

/-! ## One step as a function of the draws -/

/-- The target proposed for an edge rooted at `i`, originally to `o`: with the uniform number `u` below the probability it is the
vertex drawn by `x` among the others, else the original target. -/
def proposal (p : ℚ) (i o u x : ℕ) : ℕ :=
  if (u : ℚ) / 2 ^ 53 ≤ p then (if x < i then x else x + 1) else o

theorem SwEns.randomizeEdge_script {e : SwEns T Script} (h : SwValid e.graph) {i j o u x : ℕ}
    (he : (⟨j, some o⟩ : SwEdge) ∈ SwGraph.raw e.graph i) (hu : u < 2 ^ 53) (hx : x < e.graph.nextId - 1) :
    ∃ s g', (∀ l, ({ e with rng := ⟨u :: x :: l⟩ } : SwEns T Script).randomizeEdge i j =
        .ok (s, { e with graph := g', rng := if (u : ℚ) / 2 ^ 53 ≤ e.rProb then ⟨l⟩ else ⟨x :: l⟩ })) ∧
      ((proposal e.rProb i o u x = j ∨ proposal e.rProb i o u x ∈ e.graph.nbrs i) ∧ g' = e.graph ∨
        proposal e.rProb i o u x ≠ j ∧ proposal e.rProb i o u x ∉ e.graph.nbrs i ∧
        SwMoved e.graph g' i j (proposal e.rProb i o u x) o) := by
  have hi := (h.orig_mem he).1
  unfold SwEns.randomizeEdge
  simp only [coin_script u _ e.rProb hu]
  by_cases hc : (u : ℚ) / 2 ^ 53 ≤ e.rProb
  · have hsub : Res.sub e.graph.vertexCount 1 = .ok (e.graph.vertexCount - 1) :=
      Res.sub_of_le (by show 1 ≤ e.graph.nextId; omega)
    have hd : ∀ l, drawRemaining (⟨x :: l⟩ : Script) i (e.graph.vertexCount - 1) = .ok (if x < i then x else x + 1, ⟨l⟩) :=
      fun _ => drawRemaining_script hx
    have hp : proposal e.rProb i o u x = if x < i then x else x + 1 := by unfold proposal; rw [if_pos hc]
    rw [hp]
    generalize hk : (if x < i then x else x + 1) = k at hd
    have hkn : k < e.graph.nextId := by rw [← hk]; split <;> omega
    have hki : k ≠ i := by rw [← hk]; split <;> omega
    simp only [hc, decide_true, if_true, hsub, hd, Res.ok_bind]
    rcases rewireEdge_spec h he hkn hki with ⟨h3, h4⟩ | ⟨_, h3, h4⟩ | ⟨h2, h3, g', h4, h5⟩
    · exact ⟨_, e.graph, by intro l; simp only [h4, Res.ok_bind]; rfl, .inl ⟨.inl h3.symm, rfl⟩⟩
    · exact ⟨_, e.graph, by intro l; simp only [h4, Res.ok_bind]; rfl, .inl ⟨.inr h3, rfl⟩⟩
    · exact ⟨_, g', by intro l; simp only [h4, Res.ok_bind]; rfl, .inr ⟨Ne.symm h2, h3, h5⟩⟩
  · have hp : proposal e.rProb i o u x = o := by unfold proposal; rw [if_neg hc]
    rw [hp]
    simp only [hc, decide_false, if_false, Bool.false_eq_true]
    rcases resetEdge_spec h he with ⟨h3, h4⟩ | ⟨_, h3, h4⟩ | ⟨h2, h3, g', h4, h5⟩
    · exact ⟨_, e.graph, by intro l; simp only [h4, Res.ok_bind]; rfl, .inl ⟨.inl h3.symm, rfl⟩⟩
    · exact ⟨_, e.graph, by intro l; simp only [h4, Res.ok_bind]; rfl, .inl ⟨.inr h3, rfl⟩⟩
    · exact ⟨_, g', by intro l; simp only [h4, Res.ok_bind]; rfl, .inr ⟨Ne.symm h2, h3, h5⟩⟩

/-- The draws of one step correspond to a rooted edge and a proposal for it. -/
theorem SwEns.mStep_script {e : SwEns T Script} (h : SwValid e.graph) :
    ∃ f : ℕ → ℕ × ℕ × ℕ, Set.BijOn f {x | x < 2 * e.graph.nextId} (SwGraph.rooted e.graph) ∧
      ∀ num < 2 * e.graph.nextId, ∀ u < 2 ^ 53, ∀ x < e.graph.nextId - 1,
      ∃ s g', (∀ l, ({ e with rng := ⟨num :: u :: x :: l⟩ } : SwEns T Script).mStep =
        .ok (s, { e with graph := g', rng := if (u : ℚ) / 2 ^ 53 ≤ e.rProb then ⟨l⟩ else ⟨x :: l⟩ })) ∧
      ((proposal e.rProb (f num).1 (f num).2.1 u x = (f num).2.2 ∨
          proposal e.rProb (f num).1 (f num).2.1 u x ∈ e.graph.nbrs (f num).1) ∧ g' = e.graph ∨
        proposal e.rProb (f num).1 (f num).2.1 u x ≠ (f num).2.2 ∧
        proposal e.rProb (f num).1 (f num).2.1 u x ∉ e.graph.nbrs (f num).1 ∧
        SwMoved e.graph g' (f num).1 (f num).2.2 (proposal e.rProb (f num).1 (f num).2.1 u x) (f num).2.1) := by
  obtain ⟨f, h1, h2⟩ := C29_draw_edge_bijective h
  rw [h.count] at h1 h2
  have ho : ∀ p : ℕ × ℕ, ∃ o, (∃ edge ∈ SwGraph.raw e.graph p.1, edge.isRoot = true ∧ edge.dst = p.2) →
      (⟨p.2, some o⟩ : SwEdge) ∈ SwGraph.raw e.graph p.1 := by
    intro p
    by_cases hp : ∃ edge ∈ SwGraph.raw e.graph p.1, edge.isRoot = true ∧ edge.dst = p.2
    · obtain ⟨⟨d, o⟩, a1, a2, a3⟩ := hp
      cases o with
      | none => simp [SwEdge.isRoot] at a2
      | some o => exact ⟨o, fun _ => by simp only at a3; rw [← a3]; exact a1⟩
    · exact ⟨0, fun hc => absurd hc hp⟩
  choose w hw using ho
  refine ⟨fun num => ((f num).1, w (f num), (f num).2), ⟨?_, ?_, ?_⟩, ?_⟩
  · intro x hx
    exact Finset.mem_coe.mpr (h.mem_rooted.mpr (hw _ (h2.mapsTo hx)))
  · intro a ha b hb hab
    simp only [Prod.mk.injEq] at hab
    exact h2.injOn ha hb (Prod.ext hab.1 hab.2.2)
  · rintro ⟨i, o, j⟩ hm
    have hm' := h.mem_rooted.mp (Finset.mem_coe.mp hm)
    obtain ⟨x, hx, hfx⟩ := h2.surjOn (show (i, j) ∈ _ from ⟨_, hm', rfl, rfl⟩)
    refine ⟨x, hx, ?_⟩
    have := hw (f x) (h2.mapsTo hx)
    simp only [hfx] at this ⊢
    have := sw_raw_inj h.wf this hm' rfl
    simp only [SwEdge.mk.injEq, Option.some.injEq, true_and] at this
    rw [this]
  · intro num hnum u hu x hx
    obtain ⟨s, g', a1, a2⟩ := SwEns.randomizeEdge_script h (hw (f num) (h2.mapsTo hnum)) hu hx
    refine ⟨s, g', fun l => ?_, a2⟩
    unfold SwEns.mStep
    rw [h1 num hnum]
    simp only [Res.ok_bind]
    exact a1 l

/-! ## Detailed balance -/

/-- The draws of one step (position of the edge, uniform number, new target) that lead to the rooted edges `S`.  If the edge is
reset the code does not draw the third number, so all its values count. -/
noncomputable def SwEns.ways (e : SwEns T Script) (S : Finset (ℕ × ℕ × ℕ)) : Finset (ℕ × ℕ × ℕ) :=
  open Classical in
  (Finset.range e.graph.edgeCount ×ˢ Finset.range (2 ^ 53) ×ˢ Finset.range (e.graph.nextId - 1)).filter (fun d =>
    ∃ s e', ({ e with rng := ⟨[d.1, d.2.1, d.2.2]⟩ } : SwEns T Script).mStep = .ok (s, e') ∧ SwGraph.rooted e'.graph = S)

/-- Number of outcomes (coin, target) that place an edge rooted at `t.1`, originally to `t.2.1`, at `t.2.2`, when the edge is
rewired with probability `p` to a vertex drawn uniformly among the others. -/
def placings (n : ℕ) (p : ℚ) (t : ℕ × ℕ × ℕ) : ℕ :=
  ((Finset.range (2 ^ 53) ×ˢ Finset.range (n - 1)).filter (fun d => proposal p t.1 t.2.1 d.1 d.2 = t.2.2)).card

/-- The weight of a network if all its edges were rewired independently: number of outcomes of one coin and one target per edge
that give this network. -/
def swWeight (n : ℕ) (p : ℚ) (S : Finset (ℕ × ℕ × ℕ)) : ℕ := ∏ t ∈ S, placings n p t

theorem exchange_inj {α : Type} [DecidableEq α] {E : Finset α} {a b a' b' : α} (ha : a ∈ E) (hb : b ∉ E)
    (h : insert b (E.erase a) = insert b' (E.erase a')) : a = a' ∧ b = b' := by
  constructor
  · by_contra hc
    have h1 : a ∈ insert b' (E.erase a') := Finset.mem_insert_of_mem (Finset.mem_erase.mpr ⟨hc, ha⟩)
    rw [← h, Finset.mem_insert] at h1
    rcases h1 with h1 | h1
    · exact hb (h1 ▸ ha)
    · exact (Finset.mem_erase.mp h1).1 rfl
  · have h1 : b ∈ insert b' (E.erase a') := by rw [← h]; exact Finset.mem_insert_self _ _
    rw [Finset.mem_insert] at h1
    rcases h1 with h1 | h1
    · exact h1
    · exact absurd (Finset.mem_of_mem_erase h1) hb

/-- Number of draws that change nothing. -/
theorem SwEns.ways_stay {e : SwEns T Script} (h : SwValid e.graph) :
    (SwEns.ways e (SwGraph.rooted e.graph)).card = ∑ t ∈ SwGraph.rooted e.graph,
      open Classical in ((Finset.range (2 ^ 53) ×ˢ Finset.range (e.graph.nextId - 1)).filter (fun d =>
        proposal e.rProb t.1 t.2.1 d.1 d.2 = t.2.2 ∨ ∃ o', (t.1, o', proposal e.rProb t.1 t.2.1 d.1 d.2) ∈ SwGraph.rooted e.graph ∨
          (proposal e.rProb t.1 t.2.1 d.1 d.2, o', t.1) ∈ SwGraph.rooted e.graph)).card := by
  classical
  obtain ⟨f, hf, hstep⟩ := SwEns.mStep_script h
  have hset : SwEns.ways e (SwGraph.rooted e.graph) =
      (Finset.range (2 * e.graph.nextId) ×ˢ (Finset.range (2 ^ 53) ×ˢ Finset.range (e.graph.nextId - 1))).filter (fun d =>
        proposal e.rProb (f d.1).1 (f d.1).2.1 d.2.1 d.2.2 = (f d.1).2.2 ∨
          ∃ o', ((f d.1).1, o', proposal e.rProb (f d.1).1 (f d.1).2.1 d.2.1 d.2.2) ∈ SwGraph.rooted e.graph ∨
          (proposal e.rProb (f d.1).1 (f d.1).2.1 d.2.1 d.2.2, o', (f d.1).1) ∈ SwGraph.rooted e.graph) := by
    unfold SwEns.ways
    rw [h.count]
    apply Finset.filter_congr
    rintro ⟨num, u, x⟩ hd
    simp only [Finset.mem_product, Finset.mem_range] at hd
    obtain ⟨s', g', b1, b2⟩ := hstep num hd.1 u hd.2.1 x hd.2.2
    replace b1 := b1 []
    simp only [← h.nbrs_iff]
    constructor
    · rintro ⟨s, e', a1, a2⟩
      rw [b1] at a1
      simp only [Res.ok.injEq, Prod.mk.injEq] at a1
      obtain ⟨_, rfl⟩ := a1
      simp only at a2
      rcases b2 with ⟨c1, _⟩ | ⟨_, c2, c3⟩
      · exact c1
      · rw [c3.rooted h] at a2
        exact absurd (h.nbrs_iff.mpr ⟨_, .inl (a2 ▸ Finset.mem_insert_self _ _)⟩) c2
    · intro hc
      rcases b2 with ⟨_, rfl⟩ | ⟨c1, c2, _⟩
      · exact ⟨s', _, b1, rfl⟩
      · exact absurd hc (not_or.mpr ⟨c1, c2⟩)
  rw [hset, Finset.card_filter, Finset.sum_product]
  simp only [Finset.card_filter]
  refine Finset.sum_nbij f ?_ ?_ ?_ (fun _ _ => rfl)
  · intro x hx; exact Finset.mem_coe.mp (hf.mapsTo (Finset.mem_range.mp hx))
  · intro a ha b hb hab; exact hf.injOn (by simpa using ha) (by simpa using hb) hab
  · intro t ht
    obtain ⟨x, hx, hfx⟩ := hf.surjOn ht
    exact ⟨x, by simpa using hx, hfx⟩

/-- Number of draws that move one edge. -/
theorem SwEns.ways_move {e : SwEns T Script} (h : SwValid e.graph) {i o j k : ℕ} (ha : (i, o, j) ∈ SwGraph.rooted e.graph)
    (hkj : k ≠ j) (hk : k ∉ e.graph.nbrs i) :
    (SwEns.ways e (insert (i, o, k) ((SwGraph.rooted e.graph).erase (i, o, j)))).card = placings e.graph.nextId e.rProb (i, o, k) := by
  classical
  obtain ⟨f, hf, hstep⟩ := SwEns.mStep_script h
  obtain ⟨m, hm, hfm⟩ := hf.surjOn (Finset.mem_coe.mpr ha)
  have hm : m < 2 * e.graph.nextId := hm
  have hkE : (i, o, k) ∉ SwGraph.rooted e.graph := fun hc => hk (h.nbrs_iff.mpr ⟨o, .inl hc⟩)
  have hne : SwGraph.rooted e.graph ≠ insert (i, o, k) ((SwGraph.rooted e.graph).erase (i, o, j)) := by
    intro hc
    exact hkE (hc ▸ Finset.mem_insert_self _ _)
  have hset : SwEns.ways e (insert (i, o, k) ((SwGraph.rooted e.graph).erase (i, o, j))) =
      ({m} : Finset ℕ) ×ˢ (Finset.range (2 ^ 53) ×ˢ Finset.range (e.graph.nextId - 1)).filter
        (fun d => proposal e.rProb i o d.1 d.2 = k) := by
    ext ⟨num, u, x⟩
    unfold SwEns.ways
    rw [h.count]
    simp only [Finset.mem_filter, Finset.mem_product, Finset.mem_range, Finset.mem_singleton]
    constructor
    · rintro ⟨⟨hnum, hu, hx⟩, s, e', a1, a2⟩
      obtain ⟨s', g', b1, b2⟩ := hstep num hnum u hu x hx
      replace b1 := b1 []
      rw [b1] at a1
      simp only [Res.ok.injEq, Prod.mk.injEq] at a1
      obtain ⟨_, rfl⟩ := a1
      simp only at a2
      rcases b2 with ⟨_, rfl⟩ | ⟨c1, c2, c3⟩
      · exact absurd a2 hne
      · rw [c3.rooted h] at a2
        obtain ⟨d1, d2⟩ := exchange_inj (h.mem_rooted.mpr c3.old_mem)
          (fun hc => c2 (h.nbrs_iff.mpr ⟨_, .inl hc⟩)) a2
        have hmn : num = m := hf.injOn hnum hm (by rw [hfm]; exact d1)
        subst hmn
        rw [hfm] at d2
        simp only [Prod.mk.injEq, true_and] at d2
        exact ⟨rfl, ⟨hu, hx⟩, d2⟩
    · rintro ⟨rfl, ⟨hu, hx⟩, hp⟩
      refine ⟨⟨hm, hu, hx⟩, ?_⟩
      obtain ⟨s', g', b1, b2⟩ := hstep num hm u hu x hx
      replace b1 := b1 []
      rw [hfm] at b2
      simp only [hp] at b2
      refine ⟨s', _, b1, ?_⟩
      rcases b2 with ⟨c1 | c1, _⟩ | ⟨c1, c2, c3⟩
      · exact absurd c1 hkj
      · exact absurd c1 hk
      · exact c3.rooted h
  rw [hset, Finset.card_product, Finset.card_singleton, one_mul]
  rfl

/-- A step that changes the network moves one edge. -/
theorem SwEns.ways_ne {e : SwEns T Script} (h : SwValid e.graph) {S : Finset (ℕ × ℕ × ℕ)} (hne : SwGraph.rooted e.graph ≠ S)
    (hc : (SwEns.ways e S).card ≠ 0) : ∃ i o j k, (i, o, j) ∈ SwGraph.rooted e.graph ∧ k ≠ j ∧ k ∉ e.graph.nbrs i ∧ k < e.graph.nextId ∧
      k ≠ i ∧ S = insert (i, o, k) ((SwGraph.rooted e.graph).erase (i, o, j)) := by
  classical
  obtain ⟨f, hf, hstep⟩ := SwEns.mStep_script h
  obtain ⟨⟨num, u, x⟩, hd⟩ := Finset.card_ne_zero.mp hc
  unfold SwEns.ways at hd
  rw [h.count] at hd
  simp only [Finset.mem_filter, Finset.mem_product, Finset.mem_range] at hd
  obtain ⟨⟨hnum, hu, hx⟩, s, e', a1, a2⟩ := hd
  obtain ⟨s', g', b1, b2⟩ := hstep num hnum u hu x hx
  replace b1 := b1 []
  rw [b1] at a1
  simp only [Res.ok.injEq, Prod.mk.injEq] at a1
  obtain ⟨_, rfl⟩ := a1
  simp only at a2
  rcases b2 with ⟨_, rfl⟩ | ⟨c1, c2, c3⟩
  · exact absurd a2 hne
  · exact ⟨_, _, _, _, h.mem_rooted.mpr c3.old_mem, c1, c2, c3.hk, Ne.symm c3.ik, a2.symm.trans (c3.rooted h)⟩

/-- If moving one edge leads from the first to the second network, moving it back leads from the second to the first. -/
theorem SwValid.move_back {g g' : SwGraph T} (h : SwValid g) (h' : SwValid g') {i o j k : ℕ} (ha : (i, o, j) ∈ SwGraph.rooted g)
    (hkj : k ≠ j) (hk : k ∉ g.nbrs i) (hS : SwGraph.rooted g' = insert (i, o, k) ((SwGraph.rooted g).erase (i, o, j))) :
    (i, o, k) ∈ SwGraph.rooted g' ∧ j ∉ g'.nbrs i ∧
      SwGraph.rooted g = insert (i, o, j) ((SwGraph.rooted g').erase (i, o, k)) := by
  have hkE : (i, o, k) ∉ SwGraph.rooted g := fun hc => hk (h.nbrs_iff.mpr ⟨o, .inl hc⟩)
  refine ⟨by rw [hS]; exact Finset.mem_insert_self _ _, ?_, ?_⟩
  · rw [h'.nbrs_iff, hS]
    have he := h.mem_rooted.mp ha
    rintro ⟨o', h1 | h1⟩
    · rw [Finset.mem_insert, Finset.mem_erase] at h1
      rcases h1 with h1 | ⟨h1, h2⟩
      · simp only [Prod.mk.injEq] at h1; exact hkj h1.2.2.symm
      · have := sw_raw_inj h.wf (h.mem_rooted.mp h2) he rfl
        simp only [SwEdge.mk.injEq, Option.some.injEq, true_and] at this
        exact h1 (by rw [this])
    · rw [Finset.mem_insert, Finset.mem_erase] at h1
      rcases h1 with h1 | ⟨_, h2⟩
      · simp only [Prod.mk.injEq] at h1
        exact h.wf.ne (sw_mem_nbrs.mpr ⟨_, he, rfl⟩) h1.1.symm
      · have := sw_raw_inj h.wf (h.mem_rooted.mp h2) (h.loose he) rfl
        simp at this
  · rw [hS, Finset.erase_insert (by rw [Finset.mem_erase]; exact fun hc => hkE hc.2), Finset.insert_erase ha]

/-- **Detailed balance** of `SwEnsemble`: the weight of a network is the number of outcomes of independent rewirings of all its
edges that give this network.  The weight of the first network times the number of draws that lead to the second equals the weight
of the second times the number of draws that lead back.  Hence the distribution "rewire all edges independently, given that no two
edges join the same vertices" is stationary. -/
theorem C55_sw_detailed_balance {e e' : SwEns T Script} (h : SwValid e.graph) (h' : SwValid e'.graph)
    (hn : e'.graph.vertexCount = e.graph.vertexCount) (hp : e'.rProb = e.rProb) :
    swWeight e.graph.vertexCount e.rProb (SwGraph.rooted e.graph) * (SwEns.ways e (SwGraph.rooted e'.graph)).card =
      swWeight e.graph.vertexCount e.rProb (SwGraph.rooted e'.graph) * (SwEns.ways e' (SwGraph.rooted e.graph)).card := by
  have hvc : ∀ g : SwGraph T, g.vertexCount = g.nextId := fun _ => rfl
  rw [hvc, hvc] at hn
  rw [hvc]
  by_cases hS : SwGraph.rooted e.graph = SwGraph.rooted e'.graph
  · have hdraw : (SwEns.ways e (SwGraph.rooted e.graph)).card = (SwEns.ways e' (SwGraph.rooted e.graph)).card := by
      have h2 := SwEns.ways_stay h'
      rw [← hS, hn, hp] at h2
      rw [SwEns.ways_stay h, h2]
    rw [← hS, hdraw]
  have key : ∀ {a b : SwEns T Script}, SwValid a.graph → SwValid b.graph → b.graph.nextId = a.graph.nextId → b.rProb = a.rProb →
      SwGraph.rooted a.graph ≠ SwGraph.rooted b.graph → (SwEns.ways a (SwGraph.rooted b.graph)).card ≠ 0 →
      swWeight a.graph.nextId a.rProb (SwGraph.rooted a.graph) * (SwEns.ways a (SwGraph.rooted b.graph)).card =
      swWeight a.graph.nextId a.rProb (SwGraph.rooted b.graph) * (SwEns.ways b (SwGraph.rooted a.graph)).card := by
    intro a b ha hb hab hpab hne hc
    obtain ⟨i, o, j, k, c1, c2, c3, _, _, c6⟩ := SwEns.ways_ne ha hne hc
    obtain ⟨d1, d2, d3⟩ := ha.move_back hb c1 c2 c3 c6
    have w1 := SwEns.ways_move ha c1 c2 c3
    have w2 := SwEns.ways_move hb d1 (Ne.symm c2) d2
    rw [← c6] at w1
    rw [← d3, hab, hpab] at w2
    rw [w1, w2]
    unfold swWeight
    have hkE : (i, o, k) ∉ (SwGraph.rooted a.graph).erase (i, o, j) := by
      intro hc'
      exact c3 (ha.nbrs_iff.mpr ⟨o, .inl (Finset.mem_of_mem_erase hc')⟩)
    rw [c6, Finset.prod_insert hkE, ← Finset.mul_prod_erase _ _ c1]
    ring
  by_cases hc : (SwEns.ways e (SwGraph.rooted e'.graph)).card = 0
  · by_cases hc' : (SwEns.ways e' (SwGraph.rooted e.graph)).card = 0
    · rw [hc, hc']; simp
    · have := key h' h hn.symm hp.symm (Ne.symm hS) hc'
      rw [hn, hp] at this
      exact this.symm
  · exact key h h' hn hp hS hc

/-- The draws of all possible outcomes together are all draws. -/
theorem C55_sw_total_weight {e : SwEns T Script} (h : SwValid e.graph) {A : Finset (Finset (ℕ × ℕ × ℕ))}
    (hA : ∀ rng s e', ({ e with rng := rng } : SwEns T Script).mStep = .ok (s, e') → SwGraph.rooted e'.graph ∈ A) :
    ∑ S ∈ A, (SwEns.ways e S).card = e.graph.edgeCount * (2 ^ 53 * (e.graph.vertexCount - 1)) := by
  classical
  obtain ⟨f, _, hstep⟩ := SwEns.mStep_script h
  let res : ℕ × ℕ × ℕ → Finset (ℕ × ℕ × ℕ) := fun d =>
    match ({ e with rng := ⟨[d.1, d.2.1, d.2.2]⟩ } : SwEns T Script).mStep with
    | .ok (_, e') => SwGraph.rooted e'.graph
    | _ => ∅
  have hres : ∀ d ∈ Finset.range e.graph.edgeCount ×ˢ Finset.range (2 ^ 53) ×ˢ Finset.range (e.graph.nextId - 1),
      ∃ s e', ({ e with rng := ⟨[d.1, d.2.1, d.2.2]⟩ } : SwEns T Script).mStep = .ok (s, e') ∧
        res d = SwGraph.rooted e'.graph := by
    rintro ⟨num, u, x⟩ hd
    rw [h.count] at hd
    simp only [Finset.mem_product, Finset.mem_range] at hd
    obtain ⟨s', g', b1, _⟩ := hstep num hd.1 u hd.2.1 x hd.2.2
    replace b1 := b1 []
    exact ⟨s', _, b1, by simp only [res, b1]⟩
  have hfib := Finset.card_eq_sum_card_fiberwise
    (s := Finset.range e.graph.edgeCount ×ˢ Finset.range (2 ^ 53) ×ˢ Finset.range (e.graph.nextId - 1)) (t := A) (f := res) (by
      intro d hd
      obtain ⟨s, e', a1, a2⟩ := hres d (Finset.mem_coe.mp hd)
      rw [a2]
      exact hA _ _ _ a1)
  rw [Finset.card_product, Finset.card_product, Finset.card_range, Finset.card_range, Finset.card_range] at hfib
  have hvc : e.graph.vertexCount = e.graph.nextId := rfl
  rw [hvc, hfib]
  apply Finset.sum_congr rfl
  intro S _
  congr 1
  unfold SwEns.ways
  apply Finset.filter_congr
  intro d hd
  obtain ⟨s, e', a1, a2⟩ := hres d hd
  rw [a2]
  constructor
  · rintro ⟨s', e'', b1, b2⟩
    rw [a1] at b1
    simp only [Res.ok.injEq, Prod.mk.injEq] at b1
    rw [b1.2]; exact b2
  · intro hc
    exact ⟨s, e', a1, hc⟩

theorem proposal_count (U : Finset ℕ) (Q : ℕ → Prop) [DecidablePred Q] {n i o j : ℕ} (hi : i < n) (hj : j < n) (hij : j ≠ i) :
    ((U ×ˢ Finset.range (n - 1)).filter (fun d => (if Q d.1 then (if d.2 < i then d.2 else d.2 + 1) else o) = j)).card =
      (U.filter Q).card + if j = o then (U.card - (U.filter Q).card) * (n - 1) else 0 := by
  classical
  have hL : (U.filter (fun u => ¬ Q u)).card = U.card - (U.filter Q).card := by
    have := Finset.card_filter_add_card_filter_not (s := U) Q
    omega
  have hset : (U ×ˢ Finset.range (n - 1)).filter (fun d => (if Q d.1 then (if d.2 < i then d.2 else d.2 + 1) else o) = j) =
      (U.filter Q ×ˢ {if j < i then j else j - 1}) ∪ (U.filter (fun u => ¬ Q u) ×ˢ if j = o then Finset.range (n - 1) else ∅) := by
    ext ⟨u, x⟩
    simp only [Finset.mem_filter, Finset.mem_product, Finset.mem_range, Finset.mem_union, Finset.mem_singleton]
    by_cases hc : Q u
    · simp only [hc, if_true, and_true, not_true_eq_false, and_false, false_and, or_false]
      constructor
      · rintro ⟨⟨h1, h2⟩, h3⟩
        refine ⟨h1, ?_⟩
        split at h3 <;> split <;> omega
      · rintro ⟨h1, h2⟩
        refine ⟨⟨h1, ?_⟩, ?_⟩
        · rw [h2]; split <;> omega
        · split at h2 <;> split <;> omega
    · simp only [hc, if_false, and_false, false_and, not_false_eq_true, and_true, false_or]
      by_cases ho : j = o
      · simp [ho]
      · simp [ho, Ne.symm ho]
  rw [hset, Finset.card_union_of_disjoint, Finset.card_product, Finset.card_product, Finset.card_singleton, mul_one, hL]
  · split
    · rw [Finset.card_range]
    · simp
  · rw [Finset.disjoint_left]
    rintro ⟨u, x⟩ h1 h2
    rw [Finset.mem_product, Finset.mem_filter] at h1 h2
    exact h2.1.2 h1.1.2

theorem placings_eq {n : ℕ} (p : ℚ) {i o j : ℕ} (hi : i < n) (hj : j < n) (hij : j ≠ i) :
    placings n p (i, o, j) = heads p + if j = o then (2 ^ 53 - heads p) * (n - 1) else 0 := by
  have := proposal_count (Finset.range (2 ^ 53)) (fun u : ℕ => (u : ℚ) / 2 ^ 53 ≤ p) (o := o) hi hj hij
  rw [Finset.card_range] at this
  exact this

theorem SwValid.long_card {g : SwGraph T} (h : SwValid g) :
    SwGraph.countLongRangingEdges g = ((SwGraph.rooted g).filter (fun t => t.2.2 ≠ t.2.1)).card ∧
      (SwGraph.rooted g).card = 2 * g.nextId := by
  classical
  have hn := h.size
  have hmod : ∀ x < g.nextId, (x + 1) % g.nextId ≠ (x + 2) % g.nextId := by
    intro x hx
    rcases add_mod_cases hx (show 1 < g.nextId by omega) with h4 | h4 <;>
      rcases add_mod_cases hx (show 2 < g.nextId by omega) with h5 | h5 <;> omega
  have hfind : ∀ p ∈ Finset.range g.nextId ×ˢ ({1, 2} : Finset ℕ), ∃ d,
      (⟨d, some ((p.1 + p.2) % g.nextId)⟩ : SwEdge) ∈ SwGraph.raw g p.1 := by
    rintro ⟨x, d⟩ hp
    simp only [Finset.mem_product, Finset.mem_range, Finset.mem_insert, Finset.mem_singleton] at hp
    obtain ⟨d', _, h2⟩ := h.find (o := (x + d) % g.nextId) hp.1 (by rcases hp.2 with rfl | rfl <;> simp)
    exact ⟨d', h2⟩
  choose! w hw using hfind
  -- the origin determines the target
  have huniq : ∀ {i o j j' : ℕ}, (⟨j, some o⟩ : SwEdge) ∈ SwGraph.raw g i → (⟨j', some o⟩ : SwEdge) ∈ SwGraph.raw g i → j = j' := by
    intro i o j j' h1 h2
    have hi := (h.orig_mem h1).1
    obtain ⟨d1, o1, d2, o2, r1, r2, r3⟩ := h.rootPair hi
    have m1 : (⟨j, some o⟩ : SwEdge) ∈ (SwGraph.raw g i).filter SwEdge.isRoot := List.mem_filter.mpr ⟨h1, rfl⟩
    have m2 : (⟨j', some o⟩ : SwEdge) ∈ (SwGraph.raw g i).filter SwEdge.isRoot := List.mem_filter.mpr ⟨h2, rfl⟩
    have hoo : o1 ≠ o2 := by
      intro hc
      subst hc
      have := r2.nodup_iff.mpr (by simp [hmod i hi])
      simp at this
    rw [r1] at m1 m2
    simp only [List.mem_cons, SwEdge.mk.injEq, Option.some.injEq, List.not_mem_nil, or_false] at m1 m2
    rcases m1 with ⟨rfl, rfl⟩ | ⟨rfl, rfl⟩ <;> rcases m2 with ⟨rfl, h4⟩ | ⟨rfl, h4⟩
    · rfl
    · exact absurd h4 hoo
    · exact absurd h4.symm hoo
    · rfl
  have himg : SwGraph.rooted g = (Finset.range g.nextId ×ˢ ({1, 2} : Finset ℕ)).image
      (fun p => (p.1, (p.1 + p.2) % g.nextId, w p)) := by
    ext ⟨i, o, j⟩
    rw [h.mem_rooted, Finset.mem_image]
    constructor
    · intro he
      obtain ⟨hi, ho⟩ := h.orig_mem he
      have : ∃ d, (d = 1 ∨ d = 2) ∧ o = (i + d) % g.nextId := by
        rcases ho with ho | ho
        · exact ⟨1, .inl rfl, ho⟩
        · exact ⟨2, .inr rfl, ho⟩
      obtain ⟨d, hd, rfl⟩ := this
      have hp : (i, d) ∈ Finset.range g.nextId ×ˢ ({1, 2} : Finset ℕ) := by simp [hi, hd]
      exact ⟨(i, d), hp, by rw [huniq (hw _ hp) he]⟩
    · rintro ⟨⟨x, d⟩, hp, hx⟩
      simp only [Prod.mk.injEq] at hx
      obtain ⟨rfl, rfl, rfl⟩ := hx
      exact hw _ hp
  have hinj : Set.InjOn (fun p : ℕ × ℕ => (p.1, (p.1 + p.2) % g.nextId, w p))
      (Finset.range g.nextId ×ˢ ({1, 2} : Finset ℕ) : Finset (ℕ × ℕ)) := by
    rintro ⟨x, d⟩ hp ⟨x', d'⟩ hp' hx
    simp only [Finset.coe_product, Set.mem_prod, Finset.mem_coe, Finset.mem_range, Finset.mem_insert, Finset.mem_singleton] at hp hp'
    simp only [Prod.mk.injEq] at hx ⊢
    obtain ⟨rfl, h2, _⟩ := hx
    refine ⟨rfl, ?_⟩
    have := hmod x hp.1
    rcases hp.2 with rfl | rfl <;> rcases hp'.2 with rfl | rfl
    · rfl
    · exact absurd h2 this
    · exact absurd h2.symm this
    · rfl
  constructor
  · rw [countLong_away h, himg, Finset.filter_image, Finset.card_image_of_injOn (hinj.mono (by
      intro p hp; exact (Finset.mem_filter.mp hp).1))]
    unfold SwGraph.away
    congr 1
    apply Finset.filter_congr
    intro p hp
    simp only [ne_eq, not_iff_not]
    constructor
    · intro h1; exact huniq (hw p hp) h1
    · intro h1
      have := hw p hp
      rwa [h1] at this
  · rw [himg, Finset.card_image_of_injOn hinj, Finset.card_product, Finset.card_range]
    simp [mul_comm]

/-- The stationary weight in closed form: it depends on the number of long ranging edges only. -/
theorem C55_sw_weight {g : SwGraph T} (h : SwValid g) (p : ℚ) :
    swWeight g.vertexCount p (SwGraph.rooted g) = heads p ^ SwGraph.countLongRangingEdges g *
      (heads p + (2 ^ 53 - heads p) * (g.vertexCount - 1)) ^ (2 * g.vertexCount - SwGraph.countLongRangingEdges g) := by
  classical
  obtain ⟨h1, h2⟩ := h.long_card
  have hvc : g.vertexCount = g.nextId := rfl
  have hsplit := Finset.card_filter_add_card_filter_not (s := SwGraph.rooted g) (fun t => t.2.2 ≠ t.2.1)
  rw [hvc]
  unfold swWeight
  have hval : ∀ t ∈ SwGraph.rooted g, placings g.nextId p t =
      if t.2.2 ≠ t.2.1 then heads p else heads p + (2 ^ 53 - heads p) * (g.nextId - 1) := by
    rintro ⟨i, o, j⟩ ht
    have he := h.mem_rooted.mp ht
    have hjn : j ∈ g.nbrs i := sw_mem_nbrs.mpr ⟨_, he, rfl⟩
    rw [placings_eq p (h.wf.lt_left hjn) (h.wf.lt _ _ hjn) (Ne.symm (h.wf.ne hjn))]
    by_cases hjo : j = o <;> simp [hjo]
  rw [Finset.prod_congr rfl hval, Finset.prod_ite, Finset.prod_const, Finset.prod_const, ← h1]
  congr 2
  rw [← h1] at hsplit
  omega

/-! ## Irreducibility -/

/-- The placement of the rooted edges: edge `d` of vertex `i` leads to `τ (i, d)`. -/
def SwGraph.Placed (g : SwGraph T) (n : ℕ) (τ : Fin n × Fin 2 → ℕ) : Prop :=
  ∀ s : Fin n × Fin 2, (⟨τ s, some ((s.1.val + s.2.val + 1) % n)⟩ : SwEdge) ∈ SwGraph.raw g s.1.val

theorem SwValid.origin_inj {g : SwGraph T} (h : SwValid g) {i j j' o : ℕ} (h1 : (⟨j, some o⟩ : SwEdge) ∈ SwGraph.raw g i)
    (h2 : (⟨j', some o⟩ : SwEdge) ∈ SwGraph.raw g i) : j = j' := by
  have hn := h.size
  have hi := (h.orig_mem h1).1
  obtain ⟨d1, o1, d2, o2, r1, r2, r3⟩ := h.rootPair hi
  have m1 : (⟨j, some o⟩ : SwEdge) ∈ (SwGraph.raw g i).filter SwEdge.isRoot := List.mem_filter.mpr ⟨h1, rfl⟩
  have m2 : (⟨j', some o⟩ : SwEdge) ∈ (SwGraph.raw g i).filter SwEdge.isRoot := List.mem_filter.mpr ⟨h2, rfl⟩
  have hoo : o1 ≠ o2 := by
    intro hc
    subst hc
    have := r2.nodup_iff.mpr (by
      simp only [List.nodup_cons, List.mem_singleton, List.not_mem_nil, not_false_eq_true, List.nodup_nil, and_true]
      rcases add_mod_cases hi (show 1 < g.nextId by omega) with h4 | h4 <;>
        rcases add_mod_cases hi (show 2 < g.nextId by omega) with h5 | h5 <;> omega)
    simp at this
  rw [r1] at m1 m2
  simp only [List.mem_cons, SwEdge.mk.injEq, Option.some.injEq, List.not_mem_nil, or_false] at m1 m2
  rcases m1 with ⟨rfl, rfl⟩ | ⟨rfl, rfl⟩ <;> rcases m2 with ⟨rfl, h4⟩ | ⟨rfl, h4⟩
  · rfl
  · exact absurd h4 hoo
  · exact absurd h4.symm hoo
  · rfl

theorem SwValid.exists_placed {g : SwGraph T} (h : SwValid g) {n : ℕ} (hn : g.nextId = n) : ∃ τ, SwGraph.Placed g n τ := by
  subst hn
  have : ∀ s : Fin g.nextId × Fin 2, ∃ d, (⟨d, some ((s.1.val + s.2.val + 1) % g.nextId)⟩ : SwEdge) ∈ SwGraph.raw g s.1.val := by
    rintro ⟨i, d⟩
    obtain ⟨d', _, h2⟩ := h.find (o := (i.val + d.val + 1) % g.nextId) i.isLt (by
      have := d.isLt
      interval_cases hd : d.val
      · exact .inl (by simp)
      · exact .inr (by simp))
    exact ⟨d', h2⟩
  choose τ hτ using this
  exact ⟨τ, hτ⟩

/-- The rooted edges in terms of the placement. -/
theorem SwValid.mem_rooted_placed {g : SwGraph T} (h : SwValid g) {n : ℕ} (hn : g.nextId = n) {τ : Fin n × Fin 2 → ℕ}
    (hp : SwGraph.Placed g n τ) {i o j : ℕ} :
    (i, o, j) ∈ SwGraph.rooted g ↔ ∃ s : Fin n × Fin 2, i = s.1.val ∧ o = (s.1.val + s.2.val + 1) % n ∧ j = τ s := by
  subst hn
  rw [h.mem_rooted]
  constructor
  · intro he
    obtain ⟨hi, ho⟩ := h.orig_mem he
    rcases ho with rfl | rfl
    · have := hp (⟨i, hi⟩, 0)
      exact ⟨(⟨i, hi⟩, 0), rfl, by simp, h.origin_inj he (by simpa using this)⟩
    · have := hp (⟨i, hi⟩, 1)
      exact ⟨(⟨i, hi⟩, 1), rfl, by simp, h.origin_inj he (by simpa using this)⟩
  · rintro ⟨s, rfl, rfl, rfl⟩
    exact hp s

theorem SwValid.placed_good {g : SwGraph T} (h : SwValid g) {n : ℕ} (hn : g.nextId = n) {τ : Fin n × Fin 2 → ℕ}
    (hp : SwGraph.Placed g n τ) : SwReach.Good n (fun s : Fin n × Fin 2 => s.1.val) τ := by
  have hmem : ∀ s, τ s ∈ g.nbrs s.1.val := fun s => sw_mem_nbrs.mpr ⟨_, hp s, rfl⟩
  refine ⟨?_, fun s => by rw [← hn]; exact h.wf.lt _ _ (hmem s), fun s => Ne.symm (h.wf.ne (hmem s))⟩
  rintro ⟨i, d⟩ ⟨i', d'⟩ hs
  simp only [SwReach.pr, Sym2.eq_iff] at hs
  have h1 := hp (i, d)
  have h2 := hp (i', d')
  simp only at h1 h2
  rcases hs with ⟨h3, h4⟩ | ⟨h3, h4⟩
  · have hii : i = i' := Fin.ext h3
    subst hii
    rw [h4] at h1
    have := sw_raw_inj h.wf h1 h2 rfl
    simp only [SwEdge.mk.injEq, Option.some.injEq, true_and] at this
    have hdd : d = d' := by
      have hs := h.size
      have hi := i.isLt
      have b1 := d.isLt
      have b2 := d'.isLt
      apply Fin.ext
      rcases add_mod_cases hi (show d.val + 1 < n by omega) with h5 | h5 <;>
        rcases add_mod_cases hi (show d'.val + 1 < n by omega) with h6 | h6 <;>
        rw [← Nat.add_assoc] at h5 h6 <;> omega
    rw [hdd]
  · have h5 := h.loose h1
    rw [h4] at h5
    rw [← h3] at h2
    have := sw_raw_inj h.wf h2 h5 rfl
    simp at this

/-- One abstract move is one step for suitable draws. -/
theorem SwEns.mStep_of_move {e : SwEns T Script} (h : SwValid e.graph) (hp0 : 0 ≤ e.rProb) {n : ℕ} (hn : e.graph.nextId = n)
    {τ τ' : Fin n × Fin 2 → ℕ} (hp : SwGraph.Placed e.graph n τ) (m : SwReach.Mv n (fun s : Fin n × Fin 2 => s.1.val) τ τ') :
    ∃ (num x : ℕ) (s : SwChange) (g' : SwGraph T), num < 2 * n ∧ x < n - 1 ∧
      (∀ l, ({ e with rng := ⟨num :: 0 :: x :: l⟩ } : SwEns T Script).mStep = .ok (s, { e with graph := g', rng := ⟨l⟩ })) ∧
      SwValid g' ∧ g'.nextId = n ∧ SwGraph.Placed g' n τ' := by
  classical
  obtain ⟨s, k, hk1, hk2, hk3, rfl⟩ := m
  obtain ⟨f, hf, hstep⟩ := SwEns.mStep_script h
  have hmem : (s.1.val, (s.1.val + s.2.val + 1) % n, τ s) ∈ SwGraph.rooted e.graph :=
    (h.mem_rooted_placed hn hp).mpr ⟨s, rfl, rfl, rfl⟩
  obtain ⟨num, hnum, hfn⟩ := hf.surjOn (Finset.mem_coe.mpr hmem)
  have hsl := s.1.isLt
  have hk2 : k ≠ s.1.val := hk2
  have hx : (if k < s.1.val then k else k - 1) < e.graph.nextId - 1 := by rw [hn]; split <;> omega
  have hu0 : (0 : ℕ) < 2 ^ 53 := Nat.pow_pos (by decide)
  have hprop : proposal e.rProb s.1.val ((s.1.val + s.2.val + 1) % n) 0 (if k < s.1.val then k else k - 1) = k := by
    unfold proposal
    rw [if_pos (by simpa using hp0)]
    by_cases hc : k < s.1.val
    · simp [hc]
    · simp only [hc, if_false]
      rw [if_neg (by omega)]; omega
  have hfree : k ∉ e.graph.nbrs s.1.val := by
    rw [h.nbrs_iff]
    rintro ⟨o, h1 | h1⟩
    · obtain ⟨t, h2, _, h4⟩ := (h.mem_rooted_placed hn hp).mp h1
      exact hk3 t (by simp only [SwReach.pr]; rw [← h2, ← h4])
    · obtain ⟨t, h2, _, h4⟩ := (h.mem_rooted_placed hn hp).mp h1
      exact hk3 t (by simp only [SwReach.pr]; rw [← h2, ← h4]; exact Sym2.eq_swap)
  have hkj : k ≠ τ s := by
    intro hc
    exact hk3 s (by simp only [SwReach.pr]; rw [hc])
  obtain ⟨s', g', b1, b2⟩ := hstep num hnum 0 hu0 _ hx
  rw [hfn] at b2
  simp only [hprop] at b2
  have hcoin : ((0 : ℕ) : ℚ) / 2 ^ 53 ≤ e.rProb := by simpa using hp0
  simp only [hcoin, if_true] at b1
  rcases b2 with ⟨c1 | c1, _⟩ | ⟨_, _, m⟩
  · exact absurd c1 hkj
  · exact absurd c1 hfree
  have hv := m.valid h
  have hn' : g'.nextId = n := m.n.trans hn
  refine ⟨num, if k < s.1.val then k else k - 1, s', g', hn ▸ hnum, hn ▸ hx, b1, hv, hn', ?_⟩
  intro t
  rw [← hv.mem_rooted, m.rooted h, Finset.mem_insert, Finset.mem_erase, h.mem_rooted]
  by_cases ht : t = s
  · subst ht
    exact .inl (by simp)
  · refine .inr ⟨?_, by simpa [ht] using hp t⟩
    intro hc
    rw [Function.update_of_ne ht] at hc
    simp only [Prod.mk.injEq] at hc
    have := (h.placed_good hn hp).inj (a₁ := t) (a₂ := s) (by simp only [SwReach.pr]; rw [hc.1, hc.2.2])
    exact ht this

/-- Any two placements are connected by moves. -/
theorem SwValid.placed_reach {g g' : SwGraph T} (h : SwValid g) (hg : SwValid g') {n : ℕ} (h6 : 6 ≤ n) (hN : g.nextId = n)
    (hn : g'.nextId = n) {τ η : Fin n × Fin 2 → ℕ} (hτ : SwGraph.Placed g n τ) (hη : SwGraph.Placed g' n η) :
    SwReach.Reach n (fun s : Fin n × Fin 2 => s.1.val) τ η := by
  apply SwReach.connected (h.placed_good hN hτ) (hg.placed_good hn hη)
  · intro i
    by_cases hi : i < n
    · refine ⟨(⟨i, hi⟩, 0), (⟨i, hi⟩, 1), ?_⟩
      rintro ⟨a, b⟩ hs
      have ha : a = ⟨i, hi⟩ := Fin.ext hs
      subst ha
      have : b = 0 ∨ b = 1 := by omega
      rcases this with rfl | rfl
      · exact .inl rfl
      · exact .inr rfl
    · refine ⟨(⟨0, by omega⟩, 0), (⟨0, by omega⟩, 0), ?_⟩
      rintro ⟨a, b⟩ hs
      have hs : a.val = i := hs
      exact absurd (hs ▸ a.isLt) hi
  · rw [Fintype.card_prod, Fintype.card_fin, Fintype.card_fin, Nat.choose_two_right]
    obtain ⟨m, rfl⟩ : ∃ m, n = m + 6 := ⟨n - 6, by omega⟩
    rw [Nat.lt_div_iff_mul_lt (by decide)]
    have : (m + 6) * (m + 6 - 1) = m * m + 11 * m + 30 := by
      rw [show m + 6 - 1 = m + 5 by omega]; ring
    rw [this]
    have : 0 ≤ m * m := Nat.zero_le _
    omega

/-- **The chain of the small-world ensemble is irreducible** for at least six vertices and a probability that is not negative: from
every valid state every valid network on the same vertices is reached by some number of steps for suitable draws. -/
theorem C55_sw_irreducible {e : SwEns T Script} (h : SwValid e.graph) (h6 : 6 ≤ e.graph.vertexCount) (hp0 : 0 ≤ e.rProb)
    {g : SwGraph T} (hg : SwValid g) (hn : g.vertexCount = e.graph.vertexCount) :
    ∃ k draws steps e', mSteps SwEns.mStep k ({ e with rng := ⟨draws⟩ } : SwEns T Script) = .ok (steps, e') ∧
      SwValid e'.graph ∧ e'.rProb = e.rProb ∧ SwGraph.rooted e'.graph = SwGraph.rooted g ∧ e'.graph.edges = g.edges := by
  replace h6 : 6 ≤ e.graph.nextId := h6
  replace hn : g.nextId = e.graph.nextId := hn
  generalize hN : e.graph.nextId = n at h6 hn
  obtain ⟨τ, hτ⟩ := h.exists_placed hN
  obtain ⟨η, hη⟩ := hg.exists_placed hn
  have hreach := h.placed_reach hg h6 hN hn hτ hη
  induction hreach using Relation.ReflTransGen.head_induction_on generalizing e with
  | refl =>
    have hr : SwGraph.rooted e.graph = SwGraph.rooted g := by
      ext ⟨i, o, j⟩
      rw [h.mem_rooted_placed hN hτ, hg.mem_rooted_placed hn hη]
    exact ⟨0, [], [], _, rfl, h, rfl, hr, hg.edges_of_rooted h hr⟩
  | head h1 _ ih =>
    obtain ⟨num, x, s, g1, _, _, a1, a2, a3, a4⟩ := SwEns.mStep_of_move h hp0 hN hτ h1
    obtain ⟨m, draws, steps, e', b1, b2, b3, b4, b5⟩ := ih (e := ({ e with graph := g1 } : SwEns T Script)) a2 hp0 a3 a4
    refine ⟨m + 1, num :: 0 :: x :: draws, s :: steps, e', ?_, b2, b3, b4, b5⟩
    unfold mSteps
    rw [a1 draws]
    simp only [Res.ok_bind]
    have b1' : mSteps SwEns.mStep m ({ e with graph := g1, rng := ⟨draws⟩ } : SwEns T Script) = .ok (steps, e') := b1
    rw [b1']
    rfl

/-- The hypotheses are met by the rewired network `exSw` and the ring on seven vertices, which differ. -/
example : ∃ e e' : SwEns Nat Script, SwValid e.graph ∧ SwValid e'.graph ∧ e'.graph.vertexCount = e.graph.vertexCount ∧
    e'.rProb = e.rProb ∧ 6 ≤ e.graph.vertexCount ∧ 0 ≤ e.rProb ∧ SwGraph.rooted e'.graph ≠ SwGraph.rooted e.graph := by
  obtain ⟨g, _, a2, a3, _, a5⟩ := SwGraph.initRing2_spec (T := Nat) (n := 7) (by decide)
  refine ⟨⟨exSw, 1 / 2, ⟨[]⟩⟩, ⟨g, 1 / 2, ⟨[]⟩⟩, exSw_valid, a2, a3, rfl, by decide, by norm_num, ?_⟩
  intro hc
  have h1 : (0, 1, 4) ∈ SwGraph.rooted exSw := exSw_valid.mem_rooted.mpr (by decide)
  have h2 : (0, 1, 4) ∈ SwGraph.rooted g := by rw [show SwGraph.rooted g = SwGraph.rooted exSw from hc]; exact h1
  have := a5.home 0 _ (a2.mem_rooted.mp h2) 1 rfl
  simp at this

end Verif
