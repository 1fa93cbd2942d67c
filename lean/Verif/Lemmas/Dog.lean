import Verif.Lemmas.Spacial
import Verif.Lemmas.Ba

/-!
# Lemmas about `DogEnsemble`
-/

set_option linter.unusedSectionVars false
set_option linter.unusedSimpArgs false

namespace Verif
open AdjContainer GenericGraph

variable {T R : Type} [Rng R]

/-- All pairs `(i, j)` with `j < i < n`, in the order of the loops of `DogEnsemble::randomize`. -/
def lowPairs (n : Nat) : List (Nat × Nat) := (List.range n).flatMap (fun i => (List.range i).map (fun j => (i, j)))

theorem mem_lowPairs {n : Nat} {q : Nat × Nat} : q ∈ lowPairs n ↔ q.2 < q.1 ∧ q.1 < n := by
  unfold lowPairs
  simp only [List.mem_flatMap, List.mem_range, List.mem_map]
  constructor
  · rintro ⟨i, h1, j, h2, rfl⟩; exact ⟨h2, h1⟩
  · rintro ⟨h1, h2⟩; exact ⟨q.1, h2, q.2, h1, rfl⟩

theorem lowPairs_nodup (n : Nat) : ((lowPairs n).map toEdge).Nodup := by
  have h1 : (lowPairs n).Nodup := by
    unfold lowPairs
    rw [List.nodup_flatMap]
    refine ⟨fun i _ => ?_, ?_⟩
    · exact List.Nodup.map (fun a b h => by simpa using h) List.nodup_range
    · refine (List.nodup_range : (List.range n).Nodup).imp (fun {a b} hab => ?_)
      intro q h2 h3
      obtain ⟨_, _, rfl⟩ := List.mem_map.mp h2
      obtain ⟨_, _, h4⟩ := List.mem_map.mp h3
      simp only [Prod.mk.injEq] at h4
      exact hab h4.1.symm
  apply List.Nodup.map_on _ h1
  intro p hp q hq hpq
  have a1 := mem_lowPairs.mp hp
  have a2 := mem_lowPairs.mp hq
  unfold toEdge at hpq
  rcases Sym2.eq_iff.mp hpq with ⟨h2, h3⟩ | ⟨h2, h3⟩
  · exact Prod.ext h2 h3
  · omega

theorem foldlM_lowPairs {σ : Type} (f : Nat → σ → Nat → Res σ) (n : Nat) (s : σ) :
    (List.range n).foldlM (fun s i => (List.range i).foldlM (f i) s) s =
      (lowPairs n).foldlM (fun s p => f p.1 s p.2) s := by
  unfold lowPairs
  generalize List.range n = l
  induction l generalizing s with
  | nil => rfl
  | cons a l ih =>
    rw [List.foldlM_cons, List.flatMap_cons, List.foldlM_append, List.foldlM_map]
    congr 1
    funext s'
    exact ih s'

/-- One throw for each pair, in order; success means that the number is smaller than the probability of the pair. -/
def throwsLt (p : Nat × Nat → ℚ) : List (Nat × Nat) → R → List Bool × R
  | [], r => ([], r)
  | q :: l, r => ((coinLt r (p q)).1 :: (throwsLt p l (coinLt r (p q)).2).1, (throwsLt p l (coinLt r (p q)).2).2)

namespace Dog

/-- The push of `randomize` is `add_edge` of a new edge. -/
theorem nearBody_eq {g : SpacialGraph T} (h : g.WF) {i j : Nat} (hi : i < g.nextId) (hj : j < g.nextId) (hij : i ≠ j)
    (hnew : s(i, j) ∉ g.edges) (law : Pos → Pos → ℚ) (r : R) {p : ℚ}
    (hp : law (posAt (coords g) i) (posAt (coords g) j) = p) :
    ∃ g', nearBody law i (g, r) j = .ok (if (coinLt r p).1 then g' else g, (coinLt r p).2) ∧ g'.WF ∧
      g'.nextId = g.nextId ∧ g'.data = g.data ∧ coords g' = coords g ∧ g'.edges = insert s(i, j) g.edges := by
  obtain ⟨g', a1, a2, a3, a4, a5, a6⟩ := addEdge_edges h hi hj hij hnew
  refine ⟨g', ?_, a2, a3, a6, coords_addEdge a1, a5⟩
  obtain ⟨a, b, ha, hb', hg⟩ := get2_of_lt h.len hi hj hij
  unfold nearBody
  simp only [hg, Res.ok_bind]
  rw [pos_of_idx ha, pos_of_idx hb', hp]
  by_cases hb : (coinLt r p).1 = true
  · simp only [hb, if_true]
    rw [GenericGraph.addEdge, hg] at a1
    simp only [Res.ok_bind, Res.bind_eq_ok, Prod.exists] at a1
    obtain ⟨res, x, y, h1, h2⟩ := a1
    rw [h1]
    cases res with
    | error => simp at h2
    | ok =>
      simp only [Res.pure_eq, Res.ok.injEq, Prod.mk.injEq, true_and] at h2
      rw [← h2]
      rfl
  · simp [hb]

theorem near_loop (law : Pos → Pos → ℚ) (cs : List Pos) : ∀ (l : List (Nat × Nat)) {g : SpacialGraph T} (r : R), g.WF →
    coords g = cs →
    (∀ p ∈ l, p.1 < g.nextId ∧ p.2 < g.nextId ∧ p.1 ≠ p.2) → (l.map toEdge).Nodup → (∀ p ∈ l, toEdge p ∉ g.edges) →
    ∃ g', l.foldlM (fun s p => nearBody law p.1 s p.2) (g, r) =
        .ok (g', (throwsLt (fun p => law (posAt cs p.1) (posAt cs p.2)) l r).2) ∧ g'.WF ∧
      g'.nextId = g.nextId ∧ g'.data = g.data ∧ coords g' = cs ∧
      g'.edges = g.edges ∪ chosen l (throwsLt (fun p => law (posAt cs p.1) (posAt cs p.2)) l r).1 := by
  intro l
  induction l with
  | nil => intro g r h hc _ _ _; exact ⟨g, rfl, h, rfl, rfl, hc, by simp [chosen]⟩
  | cons p l ih =>
    intro g r h hcs hlt hnd hnew
    obtain ⟨a1, a2, a3⟩ := hlt p (by simp)
    obtain ⟨g1, b1, b2, b3, b4, b6, b5⟩ := nearBody_eq h a1 a2 a3 (hnew p (by simp)) law r (by rw [hcs])
    simp only [List.map_cons, List.nodup_cons] at hnd
    by_cases hb : (coinLt r (law (posAt cs p.1) (posAt cs p.2))).1 = true
    · simp only [hb, if_true] at b1
      obtain ⟨g', c1, c2, c3, c4, c6, c5⟩ := ih (coinLt r (law (posAt cs p.1) (posAt cs p.2))).2 b2 (b6.trans hcs)
        (fun q hq => by rw [b3]; exact hlt q (by simp [hq])) hnd.2 (by
        intro q hq hc
        rw [b5, Finset.mem_insert] at hc
        rcases hc with hc | hc
        · exact hnd.1 (List.mem_map.mpr ⟨q, hq, hc⟩)
        · exact hnew q (by simp [hq]) hc)
      refine ⟨g', ?_, c2, c3.trans b3, c4.trans b4, c6, ?_⟩
      · rw [List.foldlM_cons, b1]; exact c1
      · rw [c5, b5]
        ext x
        simp only [chosen, throwsLt, hb, List.zip_cons_cons, List.filter_cons_of_pos, List.map_cons,
          List.toFinset_cons, Finset.mem_union, Finset.mem_insert, toEdge]
        tauto
    · simp only [hb] at b1
      obtain ⟨g', c1, c2, c3, c4, c6, c5⟩ := ih (coinLt r (law (posAt cs p.1) (posAt cs p.2))).2 h hcs
        (fun q hq => hlt q (by simp [hq])) hnd.2 (fun q hq => hnew q (by simp [hq]))
      refine ⟨g', ?_, c2, c3, c4, c6, ?_⟩
      · rw [List.foldlM_cons, b1]; exact c1
      · rw [c5]
        simp [chosen, throwsLt, hb]

/-- The short edges created by the first part of `randomize`, and the state of the generator after it. -/
def near (e : Dog T R) : Finset (Sym2 ℕ) × R :=
  let t := throwsLt (fun p => e.law (posAt (coords e.graph) p.1) (posAt (coords e.graph) p.2)) (lowPairs e.graph.vertexCount) e.rng
  (chosen (lowPairs e.graph.vertexCount) t.1, t.2)

theorem near_spec {e : Dog T R} (h : e.graph.WF) :
    ∃ g', (List.range e.graph.nextId).foldlM (fun s i => (List.range i).foldlM (nearBody e.law i) s)
        (GenericGraph.clearEdges e.graph, e.rng) = .ok (g', e.near.2) ∧ g'.WF ∧ g'.nextId = e.graph.nextId ∧
      g'.data = e.graph.data ∧ coords g' = coords e.graph ∧ g'.edges = e.near.1 := by
  obtain ⟨g', c1, c2, c3, c4, c6, c5⟩ := near_loop e.law (coords e.graph) (lowPairs e.graph.nextId) e.rng (clearEdges_wf h)
      (coords_clearEdges _) (by
      intro p hpp
      have := mem_lowPairs.mp hpp
      rw [clearEdges_nextId]; omega) (lowPairs_nodup _) (by simp [clearEdges_edges h])
  rw [clearEdges_nextId] at c3
  rw [clearEdges_data] at c4
  rw [clearEdges_edges h, Finset.empty_union] at c5
  refine ⟨g', ?_, c2, c3, c4, c6, c5⟩
  rw [foldlM_lowPairs, c1]
  rfl

/-! ### Long-range edges -/

/-- Long-range edges: each link `(node, v)` of the list adds a new edge between `node` and a vertex `v` that already has an
edge. -/
inductive FarLinks (E0 : Finset (Sym2 ℕ)) : List (ℕ × ℕ) → Finset (Sym2 ℕ) → Prop
  | start : FarLinks E0 [] E0
  | link {l : List (ℕ × ℕ)} {E : Finset (Sym2 ℕ)} {node v : ℕ} : FarLinks E0 l E → v ≠ node → s(node, v) ∉ E →
      (∃ e ∈ E, v ∈ e) → FarLinks E0 (l ++ [(node, v)]) (insert s(node, v) E)

namespace FarLinks
variable {E0 E : Finset (Sym2 ℕ)} {l : List (ℕ × ℕ)}

theorem card (h : FarLinks E0 l E) : E.card = E0.card + l.length := by
  induction h with
  | start => simp
  | link _ _ hnew _ ih => rw [Finset.card_insert_of_notMem hnew, ih]; simp; omega

theorem subset (h : FarLinks E0 l E) : E0 ⊆ E := by
  induction h with
  | start => exact subset_rfl
  | link _ _ _ _ ih => exact ih.trans (Finset.subset_insert _ _)

theorem degree (h : FarLinks E0 l E) (v : ℕ) : degOf E0 v + (l.map Prod.fst).count v ≤ degOf E v := by
  induction h with
  | start => simp
  | @link l E node w hl hne hnew _ ih =>
    rw [degOf_insert (Ne.symm hne) hnew, List.map_append, List.count_append]
    simp only [List.map_cons, List.map_nil, List.count_singleton, inc]
    by_cases e1 : node = v
    · subst e1; simp; omega
    · simp [e1]; omega

theorem nonempty (h : FarLinks E0 l E) (hl : l ≠ []) : E0.Nonempty := by
  by_contra hc
  rw [Finset.not_nonempty_iff_eq_empty] at hc
  have : ∀ {l : List (ℕ × ℕ)} {E : Finset (Sym2 ℕ)}, FarLinks E0 l E → E = ∅ ∧ l = [] := by
    intro l E h
    induction h with
    | start => exact ⟨hc, rfl⟩
    | link _ _ _ hex ih =>
      obtain ⟨e, he, _⟩ := hex
      rw [ih.1] at he; simp at he
  exact hl (this h).2

end FarLinks

theorem coinLt_pos {r : R} {p : ℚ} (h : (coinLt r p).1 = true) : 0 < p := by
  unfold coinLt uniformQ at h
  simp only [decide_eq_true_eq] at h
  refine lt_of_le_of_lt ?_ h
  exact div_nonneg (by exact_mod_cast Nat.zero_le _) (by exact_mod_cast Nat.zero_le _)

theorem degree_some {g : SpacialGraph T} (h : g.WF) {i : Nat} (hi : i < g.nextId) :
    Res.unwrap (g.degree i) = .ok (g.nbrs i).length := by
  have hl := h.lt_length hi
  unfold GenericGraph.degree
  rw [List.getElem?_eq_getElem hl, nbrs_getElem hl]
  simp only [Option.map_some, Res.unwrap, LawfulAdj.degree_eq]

/-- The vertices the loop can choose as partner of `node`. -/
def Partner (g : SpacialGraph T) (node v : Nat) : Prop :=
  v < g.nextId ∧ v ≠ node ∧ s(node, v) ∉ g.edges ∧ g.nbrs v ≠ []

/-- What the search for a partner gives when it returns. -/
structure Linked (g : SpacialGraph T) (node : Nat) (g' : SpacialGraph T) (v : Nat) : Prop where
  partner : Partner g node v
  wf : g'.WF
  n : g'.nextId = g.nextId
  data : g'.data = g.data
  coords : coords g' = coords g
  edges : g'.edges = insert s(node, v) g.edges

theorem findPartner_spec {g : SpacialGraph T} (h : g.WF) {node : Nat} (hnode : node < g.nextId) (D : Nat) :
    ∀ (fuel : Nat) (r : R), (findPartner node D fuel g r).wp (fun p => ∃ v, Linked g node p.1 v) True := by
  intro fuel
  induction fuel with
  | zero => intro r; trivial
  | succ fuel ih =>
    intro r
    unfold findPartner
    obtain ⟨i, r1, i1, i2⟩ := genRange_ok r (show 0 < g.vertexCount by show 0 < g.nextId; omega)
    have i2 : i < g.nextId := i2
    rw [i1]
    simp only [Res.ok_bind, degree_some h i2]
    by_cases hne : i ≠ node
    · rw [if_pos hne]
      generalize hq : (((g.nbrs i).length : ℚ) * (1 / (D : ℚ))) = q
      by_cases hb : (coinLt r1 q).1 = true
      · simp only [hb, if_true]
        rcases addEdge_any h hnode i2 (Ne.symm hne) with ⟨h1, h2⟩ | ⟨h1, g', h2, h3, h4, h5, h6⟩
        · rw [h2]
          simp only [Res.ok_bind]
          exact ih _
        · rw [h2]
          refine ⟨i, ⟨i2, hne, h1, ?_⟩, h3, h4, h6, coords_addEdge h2, h5⟩
          intro hnil
          have := coinLt_pos hb
          rw [← hq, hnil] at this
          simp at this
      · simp only [hb]
        exact ih _
    · rw [if_neg hne]
      exact ih _

/-- Without a possible partner the loop never ends. -/
theorem findPartner_stuck {g : SpacialGraph T} (h : g.WF) {node : Nat} (hnode : node < g.nextId) (D : Nat)
    (hno : ∀ v, ¬ Partner g node v) (fuel : Nat) (r : R) : findPartner node D fuel g r = .diverge := by
  have := findPartner_spec h hnode D fuel r
  cases hr : findPartner node D fuel g r with
  | diverge => rfl
  | panic => rw [hr] at this; exact this.elim
  | ok p => rw [hr] at this; obtain ⟨v, hv⟩ := this; exact (hno v hv.partner).elim

/-- With a possible partner, the first round may succeed. -/
theorem findPartner_graph {g g' : SpacialGraph T} (h : g.WF) {node v D : Nat} (hp : Partner g node v)
    (hD : 0 < D) (fuel : Nat) (rest : List Nat) (a1 : g.addEdge node v = .ok (.ok (), g')) :
    findPartner node D (fuel + 1) g (⟨v :: 0 :: rest⟩ : Script) = .ok (g', ⟨rest⟩) := by
  obtain ⟨p1, p2, p3, p4⟩ := hp
  unfold findPartner
  rw [show genRange (⟨v :: 0 :: rest⟩ : Script) g.vertexCount = .ok (v, ⟨0 :: rest⟩) from script_genRange p1]
  simp only [Res.ok_bind, degree_some h p1, if_pos p2]
  have hc : coinLt (⟨0 :: rest⟩ : Script) (((g.nbrs v).length : ℚ) * (1 / (D : ℚ))) = (true, ⟨rest⟩) := by
    have hg : Rng.genUnit (⟨0 :: rest⟩ : Script) = (0, ⟨rest⟩) := by
      show (0 % 2 ^ 53, _) = _
      rw [Nat.zero_mod]; rfl
    unfold coinLt uniformQ
    rw [hg]
    simp only [Prod.mk.injEq, and_true, decide_eq_true_eq, Nat.zero_div, Nat.cast_zero, zero_div]
    apply mul_pos
    · exact_mod_cast List.length_pos_iff.mpr p4
    · exact one_div_pos.mpr (by exact_mod_cast hD)
  rw [hc]
  simp only [if_true, a1, Res.ok_bind, Res.pure_eq]

/-- State after a part of the long-range links. -/
structure Far (g0 : SpacialGraph T) (l : List (ℕ × ℕ)) (st : (SpacialGraph T × Nat) × R) : Prop where
  wf : st.1.1.WF
  n : st.1.1.nextId = g0.nextId
  data : st.1.1.data = g0.data
  coords : Verif.coords st.1.1 = Verif.coords g0
  sum : st.1.2 = 2 * st.1.1.edgeCount
  links : FarLinks g0.edges l st.1.1.edges

theorem Far.step {g0 : SpacialGraph T} {l : List (ℕ × ℕ)} {g g' : SpacialGraph T} {D v node : Nat} {r r' : R}
    (h : Far g0 l ((g, D), r)) (hl : Linked g node g' v) : Far g0 (l ++ [(node, v)]) ((g', D + 2), r') := by
  have hw : g.WF := h.wf
  refine ⟨hl.wf, hl.n.trans h.n, hl.data.trans h.data, hl.coords.trans h.coords, ?_, ?_⟩
  · have hs : D = 2 * g.edgeCount := h.sum
    show D + 2 = 2 * g'.edgeCount
    have : g'.edgeCount = g.edgeCount + 1 := by
      rw [hl.wf.edgeCount_eq_card, hl.edges, Finset.card_insert_of_notMem hl.partner.2.2.1, hw.edgeCount_eq_card]
    omega
  · show FarLinks g0.edges _ g'.edges
    rw [hl.edges]
    refine .link h.links hl.partner.2.1 hl.partner.2.2.1 ?_
    obtain ⟨w, hw'⟩ := List.exists_mem_of_ne_nil _ hl.partner.2.2.2
    exact ⟨s(v, w), hw.mem_edges.mpr hw', by simp⟩

theorem farBody_spec {g0 : SpacialGraph T} (poisson : R → Nat × R) (fuel : Nat) {l : List (ℕ × ℕ)}
    {st : (SpacialGraph T × Nat) × R} (h : Far g0 l st) {node : Nat} (hnode : node < g0.nextId) :
    (farBody poisson fuel st node).wp (fun st' => ∃ l', l'.map Prod.fst = List.replicate (poisson st.2).1 node ∧
      Far g0 (l ++ l') st') True := by
  obtain ⟨⟨g, D⟩, r⟩ := st
  unfold farBody
  have := foldlM_wp (f := fun (s : (SpacialGraph T × Nat) × R) (_ : Nat) => do
      let (g, rng) ← findPartner node s.1.2 fuel s.1.1 s.2
      return ((g, s.1.2 + 2), rng)) (List.range (poisson r).1)
    (fun pre s => ∃ l', l'.map Prod.fst = List.replicate pre.length node ∧ Far g0 (l ++ l') s) (by
      rintro pre x post ⟨⟨g1, D1⟩, r1⟩ _ ⟨l', h1, h2⟩
      have hw : g1.WF := h2.wf
      have hn : g1.nextId = g0.nextId := h2.n
      refine Res.wp_bind (Res.wp_mono (findPartner_spec hw (by omega) D1 fuel r1) ?_ id)
      rintro ⟨g2, r2⟩ ⟨v, hv⟩
      refine ⟨l' ++ [(node, v)], ?_, ?_⟩
      · rw [List.map_append, h1, List.length_append]
        simp [List.replicate_succ']
      · rw [← List.append_assoc]
        exact h2.step hv) (s := ((g, D), (poisson r).2)) ⟨[], by simp, by
          simp only [List.append_nil]
          exact ⟨h.wf, h.n, h.data, h.coords, h.sum, h.links⟩⟩
  rw [List.length_range] at this
  exact this

theorem far_loop {g0 : SpacialGraph T} (poisson : R → Nat × R) (fuel : Nat) {special : List Nat}
    (hsp : ∀ v ∈ special, v < g0.nextId) {st : (SpacialGraph T × Nat) × R} (h : Far g0 [] st) :
    (special.foldlM (farBody poisson fuel) st).wp (fun st' => ∃ (ms : List Nat) (l : List (ℕ × ℕ)),
      ms.length = special.length ∧ (∀ m ∈ ms, ∃ r, m = (poisson r).1) ∧
      l.map Prod.fst = (special.zip ms).flatMap (fun p => List.replicate p.2 p.1) ∧ Far g0 l st') True := by
  refine foldlM_wp special (fun pre st' => ∃ (ms : List Nat) (l : List (ℕ × ℕ)), ms.length = pre.length ∧
      (∀ m ∈ ms, ∃ r, m = (poisson r).1) ∧
      l.map Prod.fst = (pre.zip ms).flatMap (fun p => List.replicate p.2 p.1) ∧ Far g0 l st') ?_
      ⟨[], [], rfl, by simp, by simp, h⟩
  rintro pre x post st hl ⟨ms, l, h1, h2, h3, h4⟩
  refine Res.wp_mono (farBody_spec poisson fuel h4 (hsp x (by rw [hl]; simp))) ?_ id
  rintro st' ⟨l', h5, h6⟩
  refine ⟨ms ++ [(poisson st.2).1], l ++ l', by simp [h1], ?_, ?_, h6⟩
  · intro m hm
    rcases List.mem_append.mp hm with hm | hm
    · exact h2 m hm
    · simp only [List.mem_singleton] at hm
      exact ⟨_, hm⟩
  · rw [List.map_append, h3, h5, List.zip_append h1.symm]
    simp

theorem degree_sum {g : SpacialGraph T} (h : g.WF) : (g.vertices.map AdjContainer.degree).sum = 2 * g.edgeCount := by
  exact (C26_degrees h).2.2.1

end Dog

end Verif
