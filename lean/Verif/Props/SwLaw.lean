import Verif.Props.SwBalance

/-!
# C63: `randomize` of the small-world ensemble proposes every edge exactly once
-/

set_option linter.unusedSectionVars false
set_option linter.unusedSimpArgs false

namespace Verif
open AdjContainer GenericGraph

variable {T : Type}

/-! ## Specification -/

/-- The edge rooted at `i`, originally to `o`, is asked to lead to `k`: nothing happens if `i` and `k` are adjacent already
(in particular if it leads there), else it is moved. -/
def Propose (S : Finset (ℕ × ℕ × ℕ)) (i o k : ℕ) (S' : Finset (ℕ × ℕ × ℕ)) : Prop :=
  ∃ j, (i, o, j) ∈ S ∧
    ((∃ o', (i, o', k) ∈ S ∨ (k, o', i) ∈ S) ∧ S' = S ∨
      (¬ ∃ o', (i, o', k) ∈ S ∨ (k, o', i) ∈ S) ∧ S' = insert (i, o, k) (S.erase (i, o, j)))

/-- A sequence of proposals. -/
inductive Proposals : Finset (ℕ × ℕ × ℕ) → List (ℕ × ℕ × ℕ) → Finset (ℕ × ℕ × ℕ) → Prop
  | nil (S : Finset (ℕ × ℕ × ℕ)) : Proposals S [] S
  | cons {S S' S'' : Finset (ℕ × ℕ × ℕ)} {i o k : ℕ} {l : List (ℕ × ℕ × ℕ)} :
      Propose S i o k S' → Proposals S' l S'' → Proposals S ((i, o, k) :: l) S''

theorem Proposals.append {S S' S'' : Finset (ℕ × ℕ × ℕ)} {l l' : List (ℕ × ℕ × ℕ)} (h : Proposals S l S')
    (h' : Proposals S' l' S'') : Proposals S (l ++ l') S'' := by
  induction h with
  | nil => exact h'
  | cons h1 _ ih => exact .cons h1 (ih h')

/-- The edges of the ring of next and next but one neighbours: (root, original target). -/
def ringSlots (n : ℕ) : List (ℕ × ℕ) := (List.range n).flatMap (fun i => [(i, (i + 1) % n), (i, (i + 2) % n)])

/-- The numbers taken from the generator for one edge: the uniform number, and the vertex number if it is needed. -/
def usedDraws (p : ℚ) (d : ℕ × ℕ) : List ℕ := if (d.1 : ℚ) / 2 ^ 53 ≤ p then [d.1, d.2] else [d.1]

/-- The proposals that draws make for a list of edges. -/
def proposalsOf (p : ℚ) (sl : List (ℕ × ℕ)) (d : List (ℕ × ℕ)) : List (ℕ × ℕ × ℕ) :=
  (sl.zip d).map (fun x => (x.1.1, x.1.2, proposal p x.1.1 x.1.2 x.2.1 x.2.2))

/-! ## Proof -/

theorem SwEns.randomizeEdge_draw {e : SwEns T Script} (h : SwValid e.graph) {i j o : ℕ} {d : ℕ × ℕ}
    (he : (⟨j, some o⟩ : SwEdge) ∈ SwGraph.raw e.graph i) (hu : d.1 < 2 ^ 53) (hx : d.2 < e.graph.nextId - 1) :
    ∃ s g', (∀ rest, ({ e with rng := ⟨usedDraws e.rProb d ++ rest⟩ } : SwEns T Script).randomizeEdge i j =
        .ok (s, { e with graph := g', rng := ⟨rest⟩ })) ∧ SwStep e.graph s g' ∧
      (∀ a b c, s = .rewire a b c ∨ s = .reset a b c → a = i ∧ b = j) ∧
      Propose (SwGraph.rooted e.graph) i o (proposal e.rProb i o d.1 d.2) (SwGraph.rooted g') := by
  obtain ⟨u, x⟩ := d
  simp only at hu hx
  obtain ⟨s, g', a1, a2⟩ := SwEns.randomizeEdge_script h he hu hx
  obtain ⟨s', e', b1, b2, _, b4, _⟩ := SwEns.randomizeEdge_spec (e := ({ e with rng := ⟨u :: x :: []⟩ } : SwEns T Script)) h he
  have hse := (a1 []).symm.trans b1
  simp only [Res.ok.injEq, Prod.mk.injEq] at hse
  obtain ⟨rfl, he'⟩ := hse
  have hg' : e'.graph = g' := by rw [← he']
  rw [hg'] at b2
  refine ⟨s, g', ?_, b2, b4, ?_⟩
  · intro rest
    by_cases hc : (u : ℚ) / 2 ^ 53 ≤ e.rProb
    · have := a1 rest
      rw [if_pos hc] at this
      have hud : usedDraws e.rProb (u, x) ++ rest = u :: x :: rest := by unfold usedDraws; rw [if_pos hc]; rfl
      rw [hud]
      exact this
    · have hud : usedDraws e.rProb (u, x) ++ rest = u :: rest := by unfold usedDraws; rw [if_neg hc]; rfl
      rw [hud]
      have := a1 []
      unfold SwEns.randomizeEdge at this ⊢
      simp only [coin_script u _ e.rProb hu, hc, decide_false, if_false, Bool.false_eq_true] at this ⊢
      rcases resetEdge_spec h he with ⟨_, h4⟩ | ⟨_, _, h4⟩ | ⟨_, _, g2, h4, _⟩ <;>
        · simp only [h4, Res.ok_bind] at this ⊢
          simp only [Res.pure_eq, Res.ok.injEq, Prod.mk.injEq, SwEns.mk.injEq] at this ⊢
          exact ⟨this.1, this.2.1, trivial, trivial⟩
  · refine ⟨j, h.mem_rooted.mpr he, ?_⟩
    rcases a2 with ⟨hb, rfl⟩ | ⟨_, hb, m⟩
    · left
      refine ⟨?_, rfl⟩
      rcases hb with hb | hb
      · exact ⟨o, .inl (by rw [hb]; exact h.mem_rooted.mpr he)⟩
      · exact h.nbrs_iff.mp hb
    · right
      exact ⟨fun hc => hb (h.nbrs_iff.mpr hc), m.rooted h⟩

theorem SwEns.randomizeVertex_draw {e : SwEns T Script} (h : SwValid e.graph) {i : ℕ} (hi : i < e.graph.nextId) {d1 d2 : ℕ × ℕ}
    (hu1 : d1.1 < 2 ^ 53) (hx1 : d1.2 < e.graph.nextId - 1) (hu2 : d2.1 < 2 ^ 53) (hx2 : d2.2 < e.graph.nextId - 1) :
    ∃ o1 o2 g', [o1, o2].Perm [(i + 1) % e.graph.nextId, (i + 2) % e.graph.nextId] ∧
      (∀ rest, ({ e with rng := ⟨usedDraws e.rProb d1 ++ (usedDraws e.rProb d2 ++ rest)⟩ } : SwEns T Script).randomizeVertex i =
        .ok { e with graph := g', rng := ⟨rest⟩ }) ∧ SwValid g' ∧ g'.nextId = e.graph.nextId ∧ g'.data = e.graph.data ∧
      Proposals (SwGraph.rooted e.graph) [(i, o1, proposal e.rProb i o1 d1.1 d1.2), (i, o2, proposal e.rProb i o2 d2.1 d2.2)]
        (SwGraph.rooted g') := by
  obtain ⟨t1, o1, t2, o2, h1, h2, h3⟩ := h.rootPair hi
  obtain ⟨c, c1, c2, c3, _⟩ := sw_container h.wf hi
  have m1 : (⟨t1, some o1⟩ : SwEdge) ∈ SwGraph.raw e.graph i := by
    have : (⟨t1, some o1⟩ : SwEdge) ∈ (SwGraph.raw e.graph i).filter SwEdge.isRoot := by rw [h1]; simp
    exact (List.mem_filter.mp this).1
  have m2 : (⟨t2, some o2⟩ : SwEdge) ∈ SwGraph.raw e.graph i := by
    have : (⟨t2, some o2⟩ : SwEdge) ∈ (SwGraph.raw e.graph i).filter SwEdge.isRoot := by rw [h1]; simp
    exact (List.mem_filter.mp this).1
  obtain ⟨s1, g1, a1, a2, a3, a4⟩ := SwEns.randomizeEdge_draw h m1 hu1 hx1
  have m2' := a2.keep h a3 m2 (Ne.symm h3)
  have v1 := a2.valid h
  obtain ⟨s2, g2, b1, b2, b3, b4⟩ := SwEns.randomizeEdge_draw (e := { e with graph := g1 }) v1 m2' hu2
    (by show d2.2 < g1.nextId - 1; rw [a2.n.1]; exact hx2)
  refine ⟨o1, o2, g2, h2, ?_, b2.valid v1, b2.n.1.trans a2.n.1, b2.n.2.trans a2.n.2, .cons a4 (.cons b4 (.nil _))⟩
  intro rest
  unfold SwEns.randomizeVertex
  rw [c3] at h1
  simp only at b1
  simp [-Res.bind_eq_ok, Vec.idx_of_some c1, SwContainer.iterRawEdges, h1, a1, b1, a2.isValid.2, b2.isValid.2]

theorem SwEns.randomize_draws (p : ℚ) : ∀ (L : List ℕ) (e : SwEns T Script) (d : List (ℕ × ℕ)), SwValid e.graph → e.rProb = p →
    (∀ i ∈ L, i < e.graph.nextId) → d.length = 2 * L.length → (∀ x ∈ d, x.1 < 2 ^ 53 ∧ x.2 < e.graph.nextId - 1) →
    ∃ sl g', sl.Perm (L.flatMap (fun i => [(i, (i + 1) % e.graph.nextId), (i, (i + 2) % e.graph.nextId)])) ∧
      sl.map (·.1) = L.flatMap (fun i => [i, i]) ∧
      (∀ rest, L.foldlM SwEns.randomizeVertex ({ e with rng := ⟨d.flatMap (usedDraws p) ++ rest⟩ } : SwEns T Script) =
        .ok { e with graph := g', rng := ⟨rest⟩ }) ∧ SwValid g' ∧ g'.nextId = e.graph.nextId ∧ g'.data = e.graph.data ∧
      Proposals (SwGraph.rooted e.graph) (proposalsOf p sl d) (SwGraph.rooted g') := by
  intro L
  induction L with
  | nil =>
    intro e d h _ _ hd _
    have : d = [] := List.length_eq_zero_iff.mp (by simpa using hd)
    subst this
    exact ⟨[], e.graph, by simp, rfl, fun rest => rfl, h, rfl, rfl, .nil _⟩
  | cons i L ih =>
    intro e d h hp hL hd hb
    subst hp
    obtain ⟨d1, d2, d, rfl⟩ : ∃ d1 d2 d', d = d1 :: d2 :: d' := by
      rcases d with _ | ⟨d1, _ | ⟨d2, d'⟩⟩
      · simp at hd
      · simp at hd; omega
      · exact ⟨d1, d2, d', rfl⟩
    have hd1 := hb d1 (by simp)
    have hd2 := hb d2 (by simp)
    obtain ⟨o1, o2, g1, a1, a2, a3, a4, a5, a6⟩ := SwEns.randomizeVertex_draw h (hL i (by simp)) hd1.1 hd1.2 hd2.1 hd2.2
    obtain ⟨sl, g', b1, b2, b3, b4, b5, b6, b7⟩ := ih { e with graph := g1 } d a3 rfl
      (fun j hj => by rw [show ({ e with graph := g1 } : SwEns T Script).graph.nextId = g1.nextId from rfl, a4]; exact hL j (by simp [hj]))
      (by simp at hd; omega)
      (fun x hx => by
        rw [show ({ e with graph := g1 } : SwEns T Script).graph.nextId = g1.nextId from rfl, a4]; exact hb x (by simp [hx]))
    replace b1 : sl.Perm (L.flatMap (fun i => [(i, (i + 1) % g1.nextId), (i, (i + 2) % g1.nextId)])) := b1
    rw [a4] at b1
    refine ⟨(i, o1) :: (i, o2) :: sl, g', ?_, ?_, ?_, b4, b5.trans a4, b6.trans a5, ?_⟩
    · rw [List.flatMap_cons]
      have : ((i, o1) :: (i, o2) :: sl) = [o1, o2].map (fun o => (i, o)) ++ sl := rfl
      rw [this]
      exact (a1.map (fun o => (i, o))).append b1
    · rw [List.flatMap_cons, List.map_cons, List.map_cons, b2]; rfl
    · intro rest
      rw [List.foldlM_cons]
      have := a2 (d.flatMap (usedDraws e.rProb) ++ rest)
      rw [List.flatMap_cons, List.flatMap_cons, List.append_assoc, List.append_assoc, this]
      exact b3 rest
    · have : proposalsOf e.rProb ((i, o1) :: (i, o2) :: sl) (d1 :: d2 :: d) =
        [(i, o1, proposal e.rProb i o1 d1.1 d1.2), (i, o2, proposal e.rProb i o2 d2.1 d2.2)] ++ proposalsOf e.rProb sl d := rfl
      rw [this]
      exact a6.append b7

/-- `randomize` goes once through the vertices and makes exactly one proposal for each of the `2n` edges, whatever the network
was before: one uniform number decides whether the edge is asked to lead to a uniformly drawn other vertex or to its original
target, and it consumes nothing else from the generator. -/
theorem C63_sw_randomize_proposes_every_edge_once {e : SwEns T Script} (h : SwValid e.graph) {d : List (ℕ × ℕ)}
    (hd : d.length = 2 * e.graph.vertexCount) (hb : ∀ x ∈ d, x.1 < 2 ^ 53 ∧ x.2 < e.graph.vertexCount - 1) :
    ∃ sl g', sl.Perm (ringSlots e.graph.vertexCount) ∧
      sl.map (·.1) = (List.range e.graph.vertexCount).flatMap (fun i => [i, i]) ∧
      (∀ rest, ({ e with rng := ⟨d.flatMap (usedDraws e.rProb) ++ rest⟩ } : SwEns T Script).randomize =
        .ok { e with graph := g', rng := ⟨rest⟩ }) ∧ SwValid g' ∧ g'.vertexCount = e.graph.vertexCount ∧ g'.data = e.graph.data ∧
      Proposals (SwGraph.rooted e.graph) (proposalsOf e.rProb sl d) (SwGraph.rooted g') :=
  SwEns.randomize_draws e.rProb (List.range e.graph.nextId) e d h rfl (fun i hi => List.mem_range.mp hi)
    (by rw [List.length_range]; exact hd) hb

/-- The hypotheses are met by a rewired network and draws that differ from edge to edge. -/
example : SwValid exSw ∧ (List.map (fun k => (k * k, k % 5)) (List.range 14)).length = 2 * exSw.vertexCount ∧
    ∀ x ∈ List.map (fun k => (k * k, k % 5)) (List.range 14), x.1 < 2 ^ 53 ∧ x.2 < exSw.vertexCount - 1 := by
  refine ⟨exSw_valid, by decide, ?_⟩
  intro x hx
  have h1 : ∀ x ∈ List.map (fun k => (k * k, k % 5)) (List.range 14), x.1 < 200 ∧ x.2 < exSw.vertexCount - 1 := by decide
  exact ⟨lt_trans (h1 x hx).1 (by norm_num), (h1 x hx).2⟩

theorem Proposals.mem {S S' : Finset (ℕ × ℕ × ℕ)} {l : List (ℕ × ℕ × ℕ)} (h : Proposals S l S') {t : ℕ × ℕ × ℕ} (ht : t ∈ S') :
    t ∈ S ∨ t ∈ l := by
  induction h with
  | nil => exact .inl ht
  | cons h1 _ ih =>
    rcases ih ht with h2 | h2
    · obtain ⟨j, _, ⟨_, rfl⟩ | ⟨_, rfl⟩⟩ := h1
      · exact .inl h2
      · rcases Finset.mem_insert.mp h2 with rfl | h2
        · exact .inr (by simp)
        · exact .inl (Finset.mem_of_mem_erase h2)
    · exact .inr (by simp [h2])

theorem mem_ringSlots {n i o : ℕ} : (i, o) ∈ ringSlots n ↔ i < n ∧ (o = (i + 1) % n ∨ o = (i + 2) % n) := by
  unfold ringSlots
  simp only [List.mem_flatMap, List.mem_range, List.mem_cons, Prod.mk.injEq, List.not_mem_nil, or_false]
  constructor
  · rintro ⟨a, h1, ⟨rfl, rfl⟩ | ⟨rfl, rfl⟩⟩
    · exact ⟨h1, .inl rfl⟩
    · exact ⟨h1, .inr rfl⟩
  · rintro ⟨h1, rfl | rfl⟩
    · exact ⟨i, h1, .inl ⟨rfl, rfl⟩⟩
    · exact ⟨i, h1, .inr ⟨rfl, rfl⟩⟩

/-- The constructor as a function of the draws: it starts from the ring with all edges at their original targets and makes one
proposal per edge.  So an edge whose uniform number exceeds the probability stays at its original target, and there are at most
as many long-ranging edges as uniform numbers not above the probability. -/
theorem C63_sw_new_law [Node T] {n : ℕ} (hn : 5 ≤ n) (p : ℚ) {d : List (ℕ × ℕ)} (hd : d.length = 2 * n)
    (hb : ∀ x ∈ d, x.1 < 2 ^ 53 ∧ x.2 < n - 1) :
    ∃ sl, ∃ g' : SwGraph T, sl.Perm (ringSlots n) ∧ sl.map (·.1) = (List.range n).flatMap (fun i => [i, i]) ∧
      (∀ rest, SwEns.new n p (⟨d.flatMap (usedDraws p) ++ rest⟩ : Script) = .ok ⟨g', p, ⟨rest⟩⟩) ∧ SwValid g' ∧
      Proposals ((ringSlots n).map (fun s => (s.1, s.2, s.2))).toFinset (proposalsOf p sl d) (SwGraph.rooted g') ∧
      (∀ i o j, (i, o, j) ∈ SwGraph.rooted g' → j = o ∨
        ∃ x, ((i, o), x) ∈ sl.zip d ∧ (x.1 : ℚ) / 2 ^ 53 ≤ p ∧ j = if x.2 < i then x.2 else x.2 + 1) ∧
      SwGraph.countLongRangingEdges g' ≤ d.countP (fun x => (x.1 : ℚ) / 2 ^ 53 ≤ p) := by
  obtain ⟨g, a1, a2, a3, a4, a5⟩ := SwGraph.initRing2_spec (T := T) hn
  have hvc : g.vertexCount = n := a3
  obtain ⟨sl, g', b1, b2, b3, b4, b5, b6, b7⟩ := C63_sw_randomize_proposes_every_edge_once (e := ⟨g, p, ⟨[]⟩⟩) a2 (d := d)
    (by rw [hd]; show 2 * n = 2 * g.vertexCount; rw [hvc]) (by
      intro x hx
      show _ ∧ x.2 < g.vertexCount - 1
      rw [hvc]; exact hb x hx)
  replace b1 : sl.Perm (ringSlots g.vertexCount) := b1
  replace b2 : sl.map (·.1) = (List.range g.vertexCount).flatMap (fun i => [i, i]) := b2
  replace b5 : g'.vertexCount = g.vertexCount := b5
  replace b7 : Proposals (SwGraph.rooted g) (proposalsOf p sl d) (SwGraph.rooted g') := b7
  rw [hvc] at b1 b2 b5
  have hring : SwGraph.rooted g = ((ringSlots n).map (fun s => (s.1, s.2, s.2))).toFinset := by
    ext ⟨i, o, j⟩
    rw [a2.mem_rooted, List.mem_toFinset, List.mem_map]
    constructor
    · intro he
      have := a5.home i _ he o rfl
      simp only at this
      subst this
      refine ⟨(i, j), ?_, rfl⟩
      have h1 := a2.orig_mem he
      rw [mem_ringSlots]
      have hr : j ∈ (SwGraph.raw g i).filterMap (·.originallyTo) := List.mem_filterMap.mpr ⟨_, he, rfl⟩
      have h2 := (a2.roots i h1.1).mem_iff.mp hr
      rw [a3] at h2 h1
      simpa using And.intro h1.1 h2
    · rintro ⟨⟨x, y⟩, h1, h2⟩
      simp only [Prod.mk.injEq] at h2
      obtain ⟨rfl, rfl, rfl⟩ := h2
      rw [mem_ringSlots] at h1
      have hr : y ∈ (SwGraph.raw g x).filterMap (·.originallyTo) := by
        rw [(a2.roots x (by rw [a3]; exact h1.1)).mem_iff, a3]
        simpa using h1.2
      obtain ⟨⟨dd, oo⟩, h3, h4⟩ := List.mem_filterMap.mp hr
      simp only at h4
      subst h4
      have := a5.home x _ h3 y rfl
      simp only at this
      rw [this] at h3
      exact h3
  have hmem : ∀ i o j, (i, o, j) ∈ SwGraph.rooted g' → j = o ∨
        ∃ x, ((i, o), x) ∈ sl.zip d ∧ (x.1 : ℚ) / 2 ^ 53 ≤ p ∧ j = if x.2 < i then x.2 else x.2 + 1 := by
    intro i o j hm
    rcases b7.mem hm with h1 | h1
    · left
      rw [hring, List.mem_toFinset, List.mem_map] at h1
      obtain ⟨⟨x, y⟩, _, h2⟩ := h1
      simp only [Prod.mk.injEq] at h2
      rw [← h2.2.1, ← h2.2.2]
    · unfold proposalsOf at h1
      obtain ⟨⟨⟨x, y⟩, u, v⟩, h2, h3⟩ := List.mem_map.mp h1
      simp only [Prod.mk.injEq] at h3
      obtain ⟨rfl, rfl, h3⟩ := h3
      by_cases hc : (u : ℚ) / 2 ^ 53 ≤ p
      · right
        refine ⟨(u, v), h2, hc, ?_⟩
        rw [← h3, proposal, if_pos hc]
      · left
        rw [← h3, proposal, if_neg hc]
  refine ⟨sl, g', b1, b2, ?_, b4, by rw [← hring]; exact b7, hmem, ?_⟩
  · intro rest
    have := b3 rest
    unfold SwEns.new
    simp only [a1, Res.ok_bind]
    exact this
  · rw [b4.long_card.1]
    have hlen : sl.length = 2 * n := by
      have := congrArg List.length b2
      rw [List.length_map, List.length_flatMap] at this
      rw [this]
      simp [mul_comm]
    have hsub : (SwGraph.rooted g').filter (fun t => t.2.2 ≠ t.2.1) ⊆
        (((sl.zip d).filter (fun y => decide ((y.2.1 : ℚ) / 2 ^ 53 ≤ p))).map
          (fun y => (y.1.1, y.1.2, if y.2.2 < y.1.1 then y.2.2 else y.2.2 + 1))).toFinset := by
      rintro ⟨i, o, j⟩ ht
      obtain ⟨h1, h2⟩ := Finset.mem_filter.mp ht
      rcases hmem i o j h1 with h3 | ⟨x, h3, h4, h5⟩
      · exact absurd h3 h2
      · rw [List.mem_toFinset, List.mem_map]
        exact ⟨((i, o), x), List.mem_filter.mpr ⟨h3, decide_eq_true h4⟩, by rw [h5]⟩
    refine le_trans (Finset.card_le_card hsub) (le_trans (List.toFinset_card_le _) ?_)
    rw [List.length_map, ← List.countP_eq_length_filter]
    have hz : (sl.zip d).map Prod.snd = d := List.map_snd_zip (by rw [hd, hlen])
    conv => rhs; rw [← hz, List.countP_map]
    exact le_refl _

end Verif
