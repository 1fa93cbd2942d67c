import Verif.Lemmas.Config
import Verif.Spec.Pairs

/-!
# C40 - C43, C54: the configuration model
-/

set_option linter.unusedSectionVars false
set_option linter.unusedSimpArgs false

namespace Verif
open AdjContainer GenericGraph

variable {T R : Type} [Rng R]

/-- A graph realises a degree vector: right number of vertices, and vertex `v` has exactly `d[v]` adjacent vertices. -/
def Realises (g : Graph T) (d : List Nat) : Prop :=
  g.WF ∧ g.vertexCount = d.length ∧ ∀ v, v < d.length → {w | g.toSimple.Adj v w}.ncard = d.getD v 0

theorem realises_iff {g : Graph T} {d : List Nat} : Realises g d ↔ g.WF ∧ g.degreeVec = d := by
  constructor
  · rintro ⟨h1, h2, h3⟩
    refine ⟨h1, ?_⟩
    rw [degreeVec_eq_iff h1]
    refine ⟨h2, fun i hi => ?_⟩
    rw [nbrs_ncard h1, h3 i (by rw [← h2]; exact hi)]
  · rintro ⟨h1, h2⟩
    have h3 := (degreeVec_eq_iff h1 d).mp h2
    refine ⟨h1, h3.1, fun v hv => ?_⟩
    rw [← nbrs_ncard h1, h3.2 v (by rw [h3.1]; exact hv)]

/-! ### C40: prescribed degrees -/

/-- `randomize` of a model with an even degree sum, whatever graph it holds: it never panics, and whenever it returns, the graph
is simple, has the prescribed degrees and the old vertex data. -/
theorem C40_config_randomize {e : Config T R} (h : e.Base) (hev : e.degreeVec.sum % 2 = 0) (fuel : Nat) :
    e.randomize fuel ≠ .panic ∧
    ∀ e', e.randomize fuel = .ok e' → e'.Inv ∧ Realises e'.graph e.degreeVec ∧ e'.degreeVec = e.degreeVec ∧
      e'.graph.data = e.graph.data := by
  unfold Config.randomize
  rcases hs : Rng.shuffle e.rng e.backup with ⟨backup, rng⟩
  have := Config.randLoop_spec fuel _ (Config.restart h hs) hev
  refine ⟨this.ne_panic, fun e' he => ?_⟩
  obtain ⟨q1, q2, q3, _⟩ := this.post he
  refine ⟨q1, ?_, q2, by rw [q3]; exact clearEdges_data _⟩
  rw [realises_iff]
  exact ⟨q1.wf, by rw [q1.deg]; exact q2⟩

/-- With an odd degree sum `randomize` never returns (it panics or runs forever). -/
theorem C40_config_odd_sum {e : Config T R} (h : e.Base) (hodd : e.degreeVec.sum % 2 = 1) (fuel : Nat) (e' : Config T R) :
    e.randomize fuel ≠ .ok e' := by
  unfold Config.randomize
  rcases hs : Rng.shuffle e.rng e.backup with ⟨backup, rng⟩
  exact Config.randLoop_odd fuel _ (Config.restart h hs) hodd e'

theorem Config.base_new [Node T] (d : List Nat) (rng : R) :
    (Config.initEdgeHalfs { graph := GenericGraph.new d.length, degreeVec := d, rng := rng, halfs := [], backup := [] } :
      Config T R).Base :=
  ⟨new_wf _, rfl, halves_init d⟩

/-- The constructor `from_vec_unchecked`. -/
theorem C40_config_new [Node T] (d : List Nat) (rng : R) (fuel : Nat) :
    (d.sum % 2 = 0 → (Config.fromVecUnchecked fuel d rng : Res (Config T R)) ≠ .panic) ∧
    ∀ e : Config T R, Config.fromVecUnchecked fuel d rng = .ok e →
      d.sum % 2 = 0 ∧ e.Inv ∧ Realises e.graph d ∧ e.degreeVec = d ∧
      e.graph.data = (List.range d.length).map Node.newFromIndex := by
  have hb := Config.base_new (T := T) d rng
  refine ⟨fun hev => (C40_config_randomize hb hev fuel).1, fun e he => ?_⟩
  rcases Nat.mod_two_eq_zero_or_one d.sum with hev | hodd
  · obtain ⟨q1, q2, q3, q4⟩ := (C40_config_randomize hb hev fuel).2 e he
    refine ⟨hev, q1, q2, q3, ?_⟩
    rw [q4]
    show (GenericGraph.new d.length : Graph T).data = _
    rw [new_eq_fromVec, fromVec_data]
  · exact absurd he (C40_config_odd_sum hb hodd fuel e)

/-- `clone_from_generic_graph`: same topology and data, valid state. -/
theorem C40_config_clone {A : Type} [AdjContainer T A] [LawfulAdj T A] {g : GenericGraph T A} (h : g.WF) (rng : R) :
    (Config.cloneFromGenericGraph g rng).Inv ∧ (Config.cloneFromGenericGraph g rng).graph.data = g.data ∧
    (∀ i j, (Config.cloneFromGenericGraph g rng).graph.toSimple.Adj i j ↔ g.toSimple.Adj i j) ∧
    (Config.cloneFromGenericGraph g rng).degreeVec = g.degreeVec := by
  have hw := toGraph_wf h
  refine ⟨⟨⟨hw, ?_, halves_init _⟩, ?_⟩, toGraph_data g, ?_, rfl⟩
  · show g.nextId = g.degreeVec.length
    simp [GenericGraph.degreeVec, h.len]
  · show g.toGraph.degreeVec = g.degreeVec
    rw [degreeVec_eq hw, degreeVec_eq h]
    simp only [toGraph_nbrs]
    rfl
  · intro i j
    show g.toGraph.toSimple.Adj i j ↔ _
    rw [hw.adj_iff, h.adj_iff, toGraph_nbrs]

/-- `swap_degree_vec`: whenever it returns, the graph realises the new vector and the old one is handed back; the new vector was
valid and of the same length. -/
theorem C40_config_swap_degree_vec {e : Config T R} (h : e.Base) (d : List Nat) (fuel : Nat) {old : List Nat} {e' : Config T R}
    (he : e.swapDegreeVec fuel d = .ok (old, e')) :
    old = e.degreeVec ∧ Config.degreeVecIsValid d = true ∧ d.length = e.degreeVec.length ∧ e'.Inv ∧ Realises e'.graph d ∧
      e'.degreeVec = d ∧ e'.graph.data = e.graph.data := by
  simp only [Config.swapDegreeVec, Config.swapDegreeVecUnchecked, Config.assertDegreeVecValid, Res.bind_eq_ok, Res.pure_eq,
    Res.ok.injEq, Prod.mk.injEq] at he
  obtain ⟨⟨⟩, ⟨⟨⟩, a1, ⟨⟩, a2, a3⟩, ⟨⟩, b1, e1, b2, b3, b4⟩ := he
  rw [Res.assert_eq_ok] at a1 a2 a3 b1
  simp only [decide_eq_true_eq] at a1
  simp only [beq_iff_eq] at b1 a3
  subst b4
  have hb : (Config.initEdgeHalfs { e with degreeVec := d }).Base := ⟨h.wf, h.n.trans b1, halves_init d⟩
  obtain ⟨q1, q2, q3, q4⟩ := (C40_config_randomize hb a3 fuel).2 e1 b2
  refine ⟨b3.symm, ?_, b1.symm, q1, q2, q3, q4⟩
  unfold Config.degreeVecIsValid
  rw [if_neg (by omega), a2]
  simp [a3]

theorem degreeVec_even {T1 A1 : Type} [AdjContainer T1 A1] [LawfulAdj T1 A1] {g : GenericGraph T1 A1} (h : g.WF) :
    g.degreeVec.sum % 2 = 0 := by
  rw [degreeVec_eq h, list_sum_range, h.count]; omega

theorem degreeVec_getD {T1 A1 : Type} [AdjContainer T1 A1] [LawfulAdj T1 A1] {g : GenericGraph T1 A1} (h : g.WF) {v : Nat}
    (hv : v < g.nextId) : g.degreeVec.getD v 0 = {w | g.toSimple.Adj v w}.ncard := by
  rw [degreeVec_eq h, ← nbrs_ncard h]
  simp [List.getD, hv]

theorem degreeVec_length {T1 A1 : Type} [AdjContainer T1 A1] [LawfulAdj T1 A1] {g : GenericGraph T1 A1} (h : g.WF) :
    g.degreeVec.length = g.nextId := by
  simp [GenericGraph.degreeVec, h.len]

/-- `from_generic_graph` never panics for a graph of the crate; a returned model realises the degrees of that graph. -/
theorem C40_config_from_graph [Node T] {T1 A1 : Type} [AdjContainer T1 A1] [LawfulAdj T1 A1] {g : GenericGraph T1 A1} (h : g.WF)
    (rng : R) (fuel : Nat) :
    (Config.fromGenericGraph fuel g rng : Res (Config T R)) ≠ .panic ∧
    ∀ e : Config T R, Config.fromGenericGraph fuel g rng = .ok e → e.Inv ∧ e.graph.vertexCount = g.vertexCount ∧
      ∀ v < g.vertexCount, {w | e.graph.toSimple.Adj v w}.ncard = {w | g.toSimple.Adj v w}.ncard := by
  obtain ⟨h1, h2⟩ := C40_config_new (T := T) g.degreeVec rng fuel
  refine ⟨h1 (degreeVec_even h), fun e he => ?_⟩
  obtain ⟨_, q2, q3, _, _⟩ := h2 e he
  refine ⟨q2, q3.2.1.trans (degreeVec_length h), fun v hv => ?_⟩
  rw [q3.2.2 v (by rw [degreeVec_length h]; exact hv), degreeVec_getD h hv]

/-- `degree_vec_from_generic_graph` panics exactly if the numbers of vertices differ; whenever it returns, the graph has the degrees
of the given one and the old data. -/
theorem C40_config_degrees_of_graph {e : Config T R} (he : e.Base) {T1 A1 : Type} [AdjContainer T1 A1] [LawfulAdj T1 A1]
    {g : GenericGraph T1 A1} (h : g.WF) (fuel : Nat) :
    (e.degreeVecFromGenericGraph fuel g = .panic ↔ e.graph.vertexCount ≠ g.vertexCount) ∧
    ∀ e', e.degreeVecFromGenericGraph fuel g = .ok e' → e'.Inv ∧ e'.graph.data = e.graph.data ∧
      e'.degreeVec = g.degreeVec ∧
      ∀ v < g.vertexCount, {w | e'.graph.toSimple.Adj v w}.ncard = {w | g.toSimple.Adj v w}.ncard := by
  have hn : e.graph.vertexCount = e.degreeVec.length := he.n
  unfold Config.degreeVecFromGenericGraph
  by_cases hl : e.degreeVec.length = g.vertices.length
  · have hb : (Config.initEdgeHalfs { e with degreeVec := g.degreeVec }).Base :=
      ⟨he.wf, by show e.graph.nextId = g.degreeVec.length; rw [degreeVec_length h, ← h.len, ← hl]; exact he.n, halves_init _⟩
    obtain ⟨h1, h2⟩ := C40_config_randomize hb (degreeVec_even h) fuel
    simp only [hl, beq_self_eq_true, Res.assert_true, Res.ok_bind]
    refine ⟨⟨fun hc => absurd hc h1, fun hc => absurd ?_ hc⟩, fun e' h' => ?_⟩
    · rw [hn, hl]; exact h.len
    · obtain ⟨q1, q2, q3, q4⟩ := h2 e' h'
      refine ⟨q1, q4, q3, fun v hv => ?_⟩
      have := q2.2.2 v (by show v < g.degreeVec.length; rw [degreeVec_length h]; exact hv)
      rw [this]
      exact degreeVec_getD h hv
  · have hf : (e.degreeVec.length == g.vertices.length) = false := by simpa using hl
    simp only [hf]
    have hne : e.graph.vertexCount ≠ g.vertexCount := by
      rw [hn]; intro hc; apply hl; rw [hc]; exact h.len.symm
    refine ⟨⟨fun _ => hne, fun _ => rfl⟩, fun e' h' => ?_⟩
    simp [Res.assert] at h'

/-- `swap_degree_vec_unchecked` panics for an even sum exactly if the lengths differ; it hands back the old vector. -/
theorem C40_config_swap_unchecked {e : Config T R} (he : e.Base) (d : List Nat) (hev : d.sum % 2 = 0) (fuel : Nat) :
    (e.swapDegreeVecUnchecked fuel d = .panic ↔ d.length ≠ e.degreeVec.length) ∧
    ∀ old e', e.swapDegreeVecUnchecked fuel d = .ok (old, e') → old = e.degreeVec ∧ e'.Inv ∧ Realises e'.graph d ∧
      e'.degreeVec = d ∧ e'.graph.data = e.graph.data := by
  unfold Config.swapDegreeVecUnchecked
  by_cases hl : e.degreeVec.length = d.length
  · have hb : (Config.initEdgeHalfs { e with degreeVec := d }).Base := ⟨he.wf, he.n.trans hl, halves_init _⟩
    obtain ⟨h1, h2⟩ := C40_config_randomize hb hev fuel
    simp only [hl, beq_self_eq_true, Res.assert_true, Res.ok_bind]
    cases hr : Config.randomize fuel (Config.initEdgeHalfs { e with degreeVec := d }) with
    | panic => exact absurd hr h1
    | diverge =>
      refine ⟨by simp [-Res.bind_eq_ok], fun old e' h' => ?_⟩
      simp [-Res.bind_eq_ok] at h'
    | ok x =>
      refine ⟨by simp [-Res.bind_eq_ok], fun old e' h' => ?_⟩
      simp only [Res.ok_bind, Res.pure_eq, Res.ok.injEq, Prod.mk.injEq] at h'
      obtain ⟨rfl, rfl⟩ := h'
      obtain ⟨q1, q2, q3, q4⟩ := h2 x hr
      exact ⟨rfl, q1, q2, q3, q4⟩
  · have hf : (e.degreeVec.length == d.length) = false := by simpa using hl
    simp only [hf]
    refine ⟨⟨fun _ => fun hc => hl hc.symm, fun _ => rfl⟩, fun old e' h' => ?_⟩
    simp [Res.assert] at h'

/-! A model holding the triangle with a tail. -/

/-- Example state. -/
def exConfig (draws : List Nat) : Config Nat Script :=
  { graph := exTail, degreeVec := [2, 2, 3, 1, 0], rng := ⟨draws⟩, halfs := [], backup := [0, 0, 1, 1, 2, 2, 2, 3] }

theorem exConfig_inv (draws : List Nat) : (exConfig draws).Inv := by
  have hh : IsHalves [2, 2, 3, 1, 0] [0, 0, 1, 1, 2, 2, 2, 3] := halves_init [2, 2, 3, 1, 0]
  exact ⟨⟨exTail_wf, rfl, hh⟩, show exTail.degreeVec = [2, 2, 3, 1, 0] by decide⟩

example : (exConfig []).Base ∧ (exConfig []).degreeVec.sum % 2 = 0 := ⟨(exConfig_inv []).toBase, by decide⟩

example : ((Config.fromVecUnchecked 2 [1, 0, 1] (⟨[]⟩ : Script) : Res (Config Nat Script)).bind (fun e => .ok e.graph.degreeVec))
    = .ok [1, 0, 1] := by decide

/-! ### Every realisation can be drawn -/

theorem filterMap_range {α : Type} (l : List α) : (List.range l.length).filterMap (fun i => l[i]?) = l := by
  induction l with
  | nil => rfl
  | cons a l ih =>
    rw [List.length_cons, List.range_succ_eq_map, List.filterMap_cons]
    simp only [List.getElem?_cons_zero, List.filterMap_map]
    congr 1

/-- A generator whose shuffle applies a prescribed permutation of the positions. -/
structure PermRng where
  perm : List Nat
deriving DecidableEq

instance : Rng PermRng where
  genRange r _ := (0, r)
  genRange_lt _ _ h := h
  genUnit r := (0, r)
  genUnit_lt _ := Nat.two_pow_pos 53
  shuffle r l := (if r.perm.Perm (List.range l.length) then r.perm.filterMap (fun i => l[i]?) else l, r)
  shuffle_perm r l := by
    dsimp only
    split
    · rename_i h
      have h1 := h.filterMap (fun i => l[i]?)
      rwa [filterMap_range] at h1
    · exact List.Perm.refl _

/-- Every order of a list is the outcome of a shuffle. -/
theorem exists_shuffle {l t : List Nat} (h : t.Perm l) : ∃ r : PermRng, Rng.shuffle r l = (t, r) := by
  have h1 : Relation.Comp (List.Forall₂ (fun i x => l[i]? = some x)) List.Perm (List.range l.length) t := by
    refine ⟨l, ?_, h.symm⟩
    rw [List.forall₂_iff_get]
    refine ⟨by simp, fun i h1 h2 => by simp⟩
  rw [List.forall₂_comp_perm_eq_perm_comp_forall₂] at h1
  obtain ⟨p, h2, h3⟩ := h1
  refine ⟨⟨p⟩, ?_⟩
  have h4 : p.filterMap (fun i => l[i]?) = t := by
    clear h2 h
    induction h3 with
    | nil => rfl
    | cons hab _ ih => rw [List.filterMap_cons, hab]; simp [ih]
  show ((if p.Perm (List.range l.length) then p.filterMap (fun i => l[i]?) else l), _) = _
  rw [if_pos h2.symm, h4]

/-- The edge halves of a list of edges. -/
def flat (L : List (Nat × Nat)) : List Nat := L.flatMap (fun p => [p.1, p.2])

theorem length_flat (L : List (Nat × Nat)) : (flat L).length = 2 * L.length := by
  induction L with
  | nil => rfl
  | cons a L ih => simp only [flat, List.flatMap_cons, List.length_append, List.length_cons, List.length_nil] at *; omega

/-- Halves that come in the order of the edges are connected to exactly these edges. -/
theorem addMultiple_flat : ∀ (L : List (Nat × Nat)) (fuel : Nat) (g : Graph T), L ≠ [] → L.length < fuel → g.WF →
    (∀ p ∈ L, p.1 < g.nextId ∧ p.2 < g.nextId ∧ p.1 ≠ p.2 ∧ toEdge p ∉ g.edges) → (L.map toEdge).Nodup →
    ∃ g', Config.addMultiple fuel g (flat L) = .ok (true, g', []) ∧ g'.WF ∧ g'.nextId = g.nextId ∧
      ∀ x, x ∈ g'.edges ↔ x ∈ g.edges ∨ x ∈ L.map toEdge := by
  intro L
  induction L using List.reverseRecOn with
  | nil => intro _ _ h; exact absurd rfl h
  | append_singleton L p ih =>
    intro fuel g _ hf hwf hp hnd
    obtain ⟨a, b⟩ := p
    obtain ⟨p1, p2, p3, p4⟩ := hp (a, b) (by simp)
    simp only at p1 p2 p3
    obtain ⟨fuel, rfl⟩ : ∃ k, fuel = k + 1 := ⟨fuel - 1, by omega⟩
    have hflat : flat (L ++ [(a, b)]) = (flat L ++ [a]) ++ [b] := by simp [flat]
    rw [hflat]
    unfold Config.addMultiple
    simp only [List.getLast?_append, List.getLast?_singleton, Option.some_or, Res.unwrap_some, Res.ok_bind,
      List.dropLast_concat, List.length_append, List.length_singleton]
    rw [Res.sub_of_le (by omega), Res.ok_bind, Nat.add_sub_cancel]
    have hfp : Config.findPartner (flat L ++ [a]) b (flat L).length = .ok (some (flat L).length) := by
      have hidx : Vec.idx (flat L ++ [a]) (flat L).length = .ok a := Vec.idx_of_some (by simp)
      cases hlen : (flat L).length with
      | zero => rw [hlen] at hidx; simp [-Res.bind_eq_ok, Config.findPartner, hidx, Ne.symm p3]
      | succ n => rw [hlen] at hidx; simp [-Res.bind_eq_ok, Config.findPartner, hidx, Ne.symm p3]
    have hsr : Vec.swapRemove (flat L ++ [a]) (flat L).length = .ok (a, flat L) := by
      simp [Vec.swapRemove]
    rw [hfp]
    simp only [Res.ok_bind, hsr]
    obtain ⟨g1, c1, c2, c3, _, c5, _⟩ := addEdge_edges hwf p2 p1 (Ne.symm p3) (by rw [Sym2.eq_swap]; exact p4)
    simp only [c1, Res.ok_bind]
    have hc5 : ∀ x, x ∈ g1.edges ↔ x = toEdge (a, b) ∨ x ∈ g.edges := by
      intro x; rw [c5, Finset.mem_insert, toEdge, Sym2.eq_swap]
    rw [List.map_append, List.nodup_append] at hnd
    obtain ⟨nd1, _, nd2⟩ := hnd
    rw [length_flat]
    by_cases hL : L = []
    · subst hL
      refine ⟨g1, by simp [flat], c2, c3, fun x => ?_⟩
      rw [hc5]; simp [or_comm]
    · have : 0 < L.length := List.length_pos_of_ne_nil hL
      rw [if_pos (by omega)]
      obtain ⟨g2, d1, d2, d3, d4⟩ := ih fuel g1 hL (by simp at hf; omega) c2 (by
        intro q hq
        obtain ⟨q1, q2, q3, q4⟩ := hp q (by simp [hq])
        refine ⟨by rw [c3]; exact q1, by rw [c3]; exact q2, q3, ?_⟩
        rw [hc5, not_or]
        exact ⟨nd2 _ (List.mem_map_of_mem hq) _ (by simp), q4⟩) nd1
      refine ⟨g2, d1, d2, by rw [d3, c3], fun x => ?_⟩
      rw [d4, hc5]
      simp only [List.map_append, List.mem_append, List.map_cons, List.map_nil, List.mem_singleton]
      tauto

theorem count_flat {L : List (Nat × Nat)} (h : ∀ p ∈ L, p.1 ≠ p.2) (v : Nat) :
    (flat L).count v = L.countP (fun p => decide (v ∈ toEdge p)) := by
  induction L with
  | nil => rfl
  | cons p L ih =>
    have h1 := ih (fun q hq => h q (by simp [hq]))
    have h2 := h p (by simp)
    have h3 : flat (p :: L) = p.1 :: p.2 :: flat L := by simp [flat]
    rw [h3, List.count_cons, List.count_cons, h1, List.countP_cons]
    simp only [toEdge, Sym2.mem_iff, beq_iff_eq, decide_eq_true_eq]
    by_cases a1 : v = p.1
    · subst a1; simp [Ne.symm h2]
    · by_cases a2 : v = p.2
      · subst a2; simp [h2]
      · simp [a1, a2, Ne.symm a1, Ne.symm a2]

/-- For every simple graph with the prescribed degrees there is an order of the halves that leads to this graph. -/
theorem good_order {g : Graph T} {d : List Nat} (hd : Realises g d) : ∃ t : List Nat, IsHalves d t ∧
    ∀ h : Graph T, h.WF → h.nextId = d.length →
      (t = [] ∧ g.edges = ∅) ∨
      (t ≠ [] ∧ ∃ g', Config.addMultiple (t.length + 1) h.clearEdges t = .ok (true, g', []) ∧ g'.edges = g.edges) := by
  obtain ⟨hw, hdeg⟩ := realises_iff.mp hd
  obtain ⟨hlen, hnb⟩ := (degreeVec_eq_iff hw d).mp hdeg
  let L := (allPairs d.length).filter (fun p => decide (toEdge p ∈ g.edges))
  have hmem : ∀ p, p ∈ L ↔ (p.1 < p.2 ∧ p.2 < d.length) ∧ toEdge p ∈ g.edges := by
    intro p; simp [L, mem_allPairs]
  have hL1 : ∀ p ∈ L, p.1 ≠ p.2 := fun p hp => by have := (hmem p).mp hp; omega
  have hnd : (L.map toEdge).Nodup := by
    apply List.Nodup.map_on
    · intro p hp q hq hpq
      exact toEdge_injOn (List.mem_of_mem_filter hp) (List.mem_of_mem_filter hq) hpq
    · exact (nodup_allPairs _).filter _
  have hset : ∀ x, x ∈ L.map toEdge ↔ x ∈ g.edges := by
    intro x
    rw [List.mem_map]
    constructor
    · rintro ⟨p, hp, rfl⟩; exact ((hmem p).mp hp).2
    · intro hx
      induction x with
      | _ i j =>
        obtain ⟨h1, h2, h3⟩ := hw.mem_lt hx
        rcases Nat.lt_or_gt_of_ne h3 with hlt | hgt
        · exact ⟨(i, j), (hmem _).mpr ⟨⟨hlt, by rw [← hlen]; exact h2⟩, hx⟩, rfl⟩
        · exact ⟨(j, i), (hmem _).mpr ⟨⟨hgt, by rw [← hlen]; exact h1⟩, by rw [toEdge, Sym2.eq_swap]; exact hx⟩,
            by rw [toEdge, Sym2.eq_swap]⟩
  have hfin : (L.map toEdge).toFinset = g.edges := by ext x; rw [List.mem_toFinset, hset]
  have hperm : IsHalves d (flat L) := by
    intro v
    rw [count_flat hL1]
    have h1 : (g.nbrs v).length = (L.map toEdge).countP (fun x => decide (v ∈ x)) := by
      rw [hw.degree_eq_card, ← hfin, List.countP_eq_length_filter, ← List.toFinset_card_of_nodup (hnd.filter _),
        List.toFinset_filter]
      simp
    rw [List.countP_map] at h1
    by_cases hv : v < d.length
    · rw [← hnb v (by rw [hlen]; exact hv), h1]; rfl
    · have h2 : g.nbrs v = [] := nbrs_of_ge (by rw [hw.len, hlen]; omega)
      rw [getD_ge (by omega), ← List.length_nil (α := Nat), ← h2, h1]; rfl
  refine ⟨flat L, hperm, fun h hh hn => ?_⟩
  by_cases hL : L = []
  · have hf : flat L = [] := by rw [hL]; rfl
    exact .inl ⟨hf, by rw [← hfin, hL]; rfl⟩
  · have hpos : 0 < L.length := List.length_pos_of_ne_nil hL
    obtain ⟨g', c1, c2, c3, c4⟩ := addMultiple_flat L ((flat L).length + 1) (GenericGraph.clearEdges h) hL
      (by rw [length_flat]; omega) (clearEdges_wf hh) (by
        intro p hp
        have := (hmem p).mp hp
        rw [clearEdges_nextId, hn, clearEdges_edges hh]
        exact ⟨by omega, by omega, by omega, by simp⟩) hnd
    have hne : flat L ≠ [] := by
      rw [← List.length_pos_iff, length_flat]; omega
    refine .inr ⟨hne, g', c1, ?_⟩
    ext x
    rw [c4, clearEdges_edges hh, hset]
    simp

/-- Every simple graph with the prescribed degrees is the outcome of `randomize` for some generator. -/
theorem C40_config_every_realisation {g : Graph T} {d : List Nat} (hd : Realises g d) {h : Graph T} (hh : h.WF)
    (hn : h.nextId = d.length) {backup : List Nat} (hb : IsHalves d backup) :
    ∃ (r : PermRng) (e' : Config T PermRng),
      Config.randomize 2 { graph := h, degreeVec := d, rng := r, halfs := [], backup := backup } = .ok e' ∧
      e'.graph.edges = g.edges := by
  obtain ⟨t, ht, hgood⟩ := good_order hd
  have hperm : t.Perm backup := by
    rw [List.perm_iff_count]
    intro v
    rw [hb v, ht v]
  obtain ⟨r, hr⟩ := exists_shuffle hperm
  refine ⟨r, ?_⟩
  unfold Config.randomize
  simp only [hr]
  rcases hgood h hh hn with ⟨rfl, h2⟩ | ⟨h1, g', c1, c2⟩
  · refine ⟨_, by simp [Config.randLoop]; rfl, ?_⟩
    show (GenericGraph.clearEdges h).edges = _
    rw [clearEdges_edges hh, h2]
  · have hne : t.isEmpty = false := by rwa [List.isEmpty_eq_false_iff]
    refine ⟨⟨g', d, r, [], t⟩, ?_, c2⟩
    rw [Config.randLoop]
    simp only [hne, Bool.false_eq_true, if_false, c1, Res.ok_bind, if_true]
    rfl

example : Realises exTail [2, 2, 3, 1, 0] ∧ IsHalves [2, 2, 3, 1, 0] [0, 0, 1, 1, 2, 2, 2, 3] :=
  ⟨realises_iff.mpr ⟨exTail_wf, by decide⟩, (exConfig_inv []).halves⟩

/-! ### C41: validation of the degree vector -/

/-- `degree_vec_is_valid`: at least two vertices, every degree at most `len - 2`, even sum. -/
theorem C41_valid_iff (d : List Nat) :
    Config.degreeVecIsValid d = true ↔ 2 ≤ d.length ∧ (∀ x ∈ d, x + 2 ≤ d.length) ∧ d.sum % 2 = 0 := by
  unfold Config.degreeVecIsValid
  split
  · rename_i h; simp; omega
  · rename_i h
    split
    · rename_i h2
      simp only [Bool.not_eq_true', List.all_eq_false, decide_eq_true_eq] at h2
      obtain ⟨x, hx, hlt⟩ := h2
      simp only [Bool.false_eq_true, false_iff]
      rintro ⟨_, h3, _⟩
      have := h3 x hx; omega
    · rename_i h2
      simp only [Bool.not_eq_true', Bool.not_eq_false, List.all_eq_true, decide_eq_true_eq] at h2
      simp only [beq_iff_eq]
      constructor
      · exact fun hs => ⟨by omega, fun x hx => by have := h2 x hx; omega, hs⟩
      · exact fun hs => hs.2.2

/-- `assert_degree_vec_valid` panics exactly on the vectors `degree_vec_is_valid` rejects. -/
theorem C41_assert_iff (d : List Nat) :
    (Config.assertDegreeVecValid d = .ok () ↔ Config.degreeVecIsValid d = true) ∧
    (Config.assertDegreeVecValid d = .panic ↔ Config.degreeVecIsValid d = false) := by
  unfold Config.assertDegreeVecValid Config.degreeVecIsValid
  by_cases h1 : d.length ≤ 1
  · have : ¬ d.length > 1 := by omega
    simp [-Res.bind_eq_ok, h1, this]
  · have h1' : d.length > 1 := by omega
    by_cases h2 : (d.all (fun degree => degree < d.length - 1)) = true
    · by_cases h3 : d.sum % 2 = 0
      · simp [-Res.bind_eq_ok, -List.all_eq_true, h1, h1', h2, h3]
      · have h3' : (d.sum % 2 == 0) = false := by simpa using h3
        simp [-Res.bind_eq_ok, -List.all_eq_true, h1, h1', h2, h3']
    · rw [Bool.not_eq_true] at h2
      simp [-Res.bind_eq_ok, -List.all_eq_true, -List.all_eq_false, h1, h1', h2]

/-- `from_vec` answers `None` exactly for an invalid vector; for a valid one it never panics and every returned model realises
the vector. -/
theorem C41_from_vec [Node T] (d : List Nat) (rng : R) (fuel : Nat) :
    ((Config.fromVec fuel d rng : Res (Option (Config T R))) = .ok none ↔ Config.degreeVecIsValid d = false) ∧
    (Config.fromVec fuel d rng : Res (Option (Config T R))) ≠ .panic ∧
    ∀ e : Config T R, Config.fromVec fuel d rng = .ok (some e) → e.Inv ∧ Realises e.graph d := by
  unfold Config.fromVec
  cases hv : Config.degreeVecIsValid d with
  | false => simp
  | true =>
    have hev := ((C41_valid_iff d).mp hv).2.2
    obtain ⟨h1, h2⟩ := C40_config_new (T := T) d rng fuel
    refine ⟨by simp, ?_, ?_⟩
    · simp only [if_true]
      rw [Ne, Res.bind_eq_panic]
      rintro (h3 | ⟨_, _, h3⟩)
      · exact h1 hev h3
      · simp at h3
    · intro e he
      simp only [if_true, Res.bind_eq_ok, Res.pure_eq, Res.ok.injEq, Option.some.injEq] at he
      obtain ⟨e1, he1, rfl⟩ := he
      exact ⟨(h2 e1 he1).2.1, (h2 e1 he1).2.2.1⟩

/-- `from_const(c, n)` panics exactly for `n = 0`; it returns `None` exactly if the constant vector is invalid, i.e. if `n` is one,
`c ≥ n - 1` or the sum is odd; and a returned model has `n` vertices of degree `c` each. -/
theorem C41_from_const [Node T] (c n : Nat) (rng : R) (fuel : Nat) :
    ((Config.fromConst fuel c n rng : Res (Option (Config T R))) = .panic ↔ n = 0) ∧
    ((Config.fromConst fuel c n rng : Res (Option (Config T R))) = .ok none ↔
      1 ≤ n ∧ Config.degreeVecIsValid (List.replicate n c) = false) ∧
    ∀ e : Config T R, Config.fromConst fuel c n rng = .ok (some e) →
      e.Inv ∧ e.graph.vertexCount = n ∧ ∀ v < n, {w | e.graph.toSimple.Adj v w}.ncard = c := by
  have hval : Config.degreeVecIsValid (List.replicate n c) = true ↔ 2 ≤ n ∧ c + 2 ≤ n ∧ n * c % 2 = 0 := by
    rw [C41_valid_iff]
    simp only [List.length_replicate, List.mem_replicate, List.sum_replicate, smul_eq_mul]
    constructor
    · rintro ⟨h1, h2, h3⟩; exact ⟨h1, h2 c ⟨by omega, rfl⟩, h3⟩
    · rintro ⟨h1, h2, h3⟩; exact ⟨h1, by rintro x ⟨_, rfl⟩; exact h2, h3⟩
  rcases Nat.eq_zero_or_pos n with rfl | hn
  · simp [Config.fromConst, Res.sub]
  have hb : Config.degreeVecIsValid (List.replicate n c) = false ↔ (c ≥ n - 1 ∨ n * c % 2 ≠ 0) := by
    rw [← Bool.not_eq_true, hval]
    constructor
    · intro h
      by_contra hc
      apply h
      omega
    · rintro h ⟨h1, h2, h3⟩
      omega
  unfold Config.fromConst
  rw [Res.sub_of_le hn, Res.ok_bind]
  by_cases hc : c ≥ n - 1 ∨ n * c % 2 ≠ 0
  · rw [if_pos hc]
    simp [-Res.bind_eq_ok, hb.mpr hc]
    omega
  · rw [if_neg hc]
    have hv : Config.degreeVecIsValid (List.replicate n c) = true := by
      cases hx : Config.degreeVecIsValid (List.replicate n c)
      · exact absurd (hb.mp hx) hc
      · rfl
    have hev : (List.replicate n c).sum % 2 = 0 := ((C41_valid_iff _).mp hv).2.2
    obtain ⟨h1, h2⟩ := C40_config_new (T := T) (List.replicate n c) rng fuel
    rw [hv]
    cases hr : (Config.fromVecUnchecked fuel (List.replicate n c) rng : Res (Config T R)) with
    | panic => exact absurd hr (h1 hev)
    | diverge =>
      refine ⟨?_, ?_, ?_⟩
      · simp [-Res.bind_eq_ok]; omega
      · simp [-Res.bind_eq_ok]
      · intro e he; simp [-Res.bind_eq_ok] at he
    | ok e0 =>
      refine ⟨?_, ?_, ?_⟩
      · simp [-Res.bind_eq_ok]; omega
      · simp [-Res.bind_eq_ok]
      · intro e he
        simp only [Res.ok_bind, Res.pure_eq, Res.ok.injEq, Option.some.injEq] at he
        subst he
        obtain ⟨_, q2, q3, _, _⟩ := h2 e0 hr
        refine ⟨q2, by simpa using q3.2.1, fun v hv => ?_⟩
        rw [q3.2.2 v (by simpa using hv)]
        simp [List.getD, hv]

example : (Config.fromConst 5 2 4 (⟨[]⟩ : Script) : Res (Option (Config Nat Script))) ≠ .ok none ∧
    (Config.fromConst 5 3 4 (⟨[]⟩ : Script) : Res (Option (Config Nat Script))) = .ok none := by
  constructor
  · rw [Ne, (C41_from_const 2 4 _ 5).2.1]; decide
  · rw [(C41_from_const 3 4 _ 5).2.1]; decide

/-- A vector that no simple graph realises makes `from_vec_unchecked` run forever (even sum), whatever the generator does. -/
theorem C41_unrealisable_diverges [Node T] {d : List Nat} (hev : d.sum % 2 = 0) (hno : ∀ g : Graph T, ¬ Realises g d)
    (rng : R) (fuel : Nat) : (Config.fromVecUnchecked fuel d rng : Res (Config T R)) = .diverge := by
  obtain ⟨h1, h2⟩ := C40_config_new (T := T) d rng fuel
  cases hr : (Config.fromVecUnchecked fuel d rng : Res (Config T R)) with
  | ok e => exact absurd (h2 e hr).2.2.1 (hno _)
  | panic => exact absurd hr (h1 hev)
  | diverge => rfl

/-- Two vertices that want two neighbours each among vertices that want none. -/
theorem not_realises_2200 (g : Graph T) : ¬ Realises g [2, 2, 0, 0] := by
  intro h
  obtain ⟨hw, hd⟩ := realises_iff.mp h
  obtain ⟨h1, h2⟩ := (degreeVec_eq_iff hw _).mp hd
  simp at h1
  have a0 := h2 0 (by omega)
  have a2 := h2 2 (by omega)
  have a3 := h2 3 (by omega)
  simp at a0 a2 a3
  have hsub : g.nbrs 0 ⊆ [1] := by
    intro j hj
    have hlt := hw.lt _ _ hj
    have hne := hw.ne hj
    have hs := hw.symm _ _ hj
    have : j ≠ 2 := by rintro rfl; rw [a2] at hs; simp at hs
    have : j ≠ 3 := by rintro rfl; rw [a3] at hs; simp at hs
    simp; omega
  have := (List.subperm_of_subset (hw.nodup 0) hsub).length_le
  simp [a0] at this

/-- **Deviation.** `degree_vec_is_valid` accepts `[2, 2, 0, 0]`, which no simple graph realises: `from_vec` then never returns,
whatever the generator does. -/
theorem C41_accepted_but_never_returns [Node T] (rng : R) (fuel : Nat) :
    Config.degreeVecIsValid [2, 2, 0, 0] = true ∧
    (Config.fromVec fuel [2, 2, 0, 0] rng : Res (Option (Config T R))) = .diverge := by
  refine ⟨by decide, ?_⟩
  unfold Config.fromVec
  rw [if_pos (by decide), C41_unrealisable_diverges (by decide) not_realises_2200]
  rfl

/-- Conversely a realisable vector is drawn for some generator: `from_vec_unchecked` returns iff the vector is realisable. -/
theorem C41_returns_iff_realisable [Node T] (d : List Nat) :
    (∃ (r : PermRng) (fuel : Nat) (e : Config T PermRng), Config.fromVecUnchecked fuel d r = .ok e) ↔
      ∃ g : Graph T, Realises g d := by
  constructor
  · rintro ⟨r, fuel, e, he⟩
    exact ⟨e.graph, ((C40_config_new d r fuel).2 e he).2.2.1⟩
  · rintro ⟨g, hg⟩
    obtain ⟨r, e', h1, _⟩ := C40_config_every_realisation hg (h := GenericGraph.new d.length) (new_wf _) rfl (halves_init d)
    exact ⟨r, 2, e', h1⟩

/-! ### C42: steps -/

/-- A step never panics if there is an edge.  Whenever it returns, the graph is simple with the same degrees and data, and either
the step is `Error` and the edge set is unchanged, or two edges `n-j`, `k-l` on four different vertices were replaced by `n-k`,
`j-l`, which were not edges before. -/
theorem C42_config_step {e : Config T R} (h : e.Inv) (hE : 1 ≤ e.graph.edgeCount) (fuel : Nat) :
    e.mStep fuel ≠ .panic ∧
    ∀ s e', e.mStep fuel = .ok (s, e') → e'.Inv ∧ Realises e'.graph e.degreeVec ∧ e'.graph.data = e.graph.data ∧
      e'.graph.edgeCount = e.graph.edgeCount ∧
      ((s = .error ∧ e'.graph.edges = e.graph.edges) ∨
       ∃ n j k l, s = .added (n, j) (k, l) ∧ [n, j, k, l].Nodup ∧
        s(n, j) ∈ e.graph.edges ∧ s(k, l) ∈ e.graph.edges ∧ s(n, k) ∉ e.graph.edges ∧ s(j, l) ∉ e.graph.edges ∧
        e'.graph.edges = (e.graph.edges \ {s(n, j), s(k, l)}) ∪ {s(n, k), s(j, l)}) := by
  have hs := Config.mStep_spec h hE fuel
  refine ⟨hs.ne_panic, fun s e' he => ?_⟩
  obtain ⟨q1, q2, q3, q4⟩ := hs.post he
  have hr : Realises e'.graph e.degreeVec := realises_iff.mpr ⟨q1.wf, by rw [q1.deg]; exact q2⟩
  have hec : e'.graph.edgeCount = e.graph.edgeCount := by
    have h1 := (C26_degrees q1.wf).2.2.1
    have h2 := (C26_degrees h.wf).2.2.1
    have q2' : e'.degreeVec = e.degreeVec := q2
    have q1' : e'.graph.degreeVec = e'.degreeVec := q1.deg
    have h1' : e'.graph.degreeVec.sum = 2 * e'.graph.edgeCount := h1
    rw [q1', q2', ← h.deg, h2] at h1'
    omega
  refine ⟨q1, hr, q3, hec, ?_⟩
  rcases q4 with ⟨q4, q5⟩ | ⟨n, j, k, l, q4, q5⟩
  · exact .inl ⟨q4, q5⟩
  · right
    obtain ⟨d1, d2, d3, d4, d5, d6⟩ := q5.distinct h.wf
    refine ⟨n, j, k, l, q4, by simp [d1, d2, d3, d4, d5, d6], q5.nj, q5.kl, q5.nk, q5.jl, ?_⟩
    rw [q5.edges]
    ext x
    simp only [Finset.mem_erase, Finset.mem_insert, Finset.mem_union, Finset.mem_sdiff, Finset.mem_singleton, not_or]
    constructor
    · rintro ⟨x1, x2, x3 | x3 | x3⟩
      · exact .inr (.inr x3)
      · exact .inr (.inl x3)
      · exact .inl ⟨x3, x2, x1⟩
    · rintro (⟨x1, x2, x3⟩ | rfl | rfl)
      · exact ⟨x3, x2, .inr (.inr x1)⟩
      · refine ⟨?_, ?_, .inr (.inl rfl)⟩ <;> rw [Ne, Sym2.eq_iff] <;> omega
      · refine ⟨?_, ?_, .inl rfl⟩ <;> rw [Ne, Sym2.eq_iff] <;> omega

/-- Without edges a step panics. -/
theorem C42_config_step_no_edges {e : Config T R} (h : e.Inv) (hE : e.graph.edgeCount = 0) (fuel : Nat) :
    e.mStep (fuel + 1) = .panic := Config.mStep_no_edges h hE fuel

/-- The path `0-1-2-3` as a configuration model. -/
def exConfigPath (draws : List Nat) : Config Nat Script :=
  { graph := exPath, degreeVec := [1, 2, 2, 1], rng := ⟨draws⟩, halfs := [], backup := [0, 1, 1, 2, 2, 3] }

theorem exConfigPath_inv (draws : List Nat) : (exConfigPath draws).Inv := by
  have hh : IsHalves [1, 2, 2, 1] [0, 1, 1, 2, 2, 3] := halves_init [1, 2, 2, 1]
  exact ⟨⟨exPath_wf, rfl, hh⟩, show exPath.degreeVec = [1, 2, 2, 1] by decide⟩

/-- A successful exchange: `0-1`, `2-3` become `0-2`, `1-3`. -/
example : (exConfigPath [0, 2, 0, 1]).Inv ∧ 1 ≤ (exConfigPath [0, 2, 0, 1]).graph.edgeCount ∧
    ((exConfigPath [0, 2, 0, 1]).mStep 1).bind (fun p => .ok (p.1, p.2.graph.degreeVec)) =
      .ok (.added (0, 1) (2, 3), [1, 2, 2, 1]) := by
  refine ⟨exConfigPath_inv _, by decide, by decide⟩

/-! ### C43: undo -/

/-- `undo_step` of any step whose four pairs join different existing vertices never panics and returns either `Ok` after the
exchange or an error with an unchanged edge set. -/
theorem C43_config_undo_any {e : Config T R} (h : e.Inv) {a b c d : Nat} (ha : a < e.graph.vertexCount)
    (hb : b < e.graph.vertexCount) (hc : c < e.graph.vertexCount) (hd : d < e.graph.vertexCount)
    (hab : a ≠ b) (hcd : c ≠ d) (hbd : b ≠ d) (hac : a ≠ c) :
    ∃ r e', e.undoStep (.added (a, b) (c, d)) = .ok (r, e') ∧ e'.graph.WF ∧ e'.graph.vertexCount = e.graph.vertexCount ∧
      e'.graph.data = e.graph.data ∧ e'.degreeVec = e.degreeVec ∧
      (r = .ok () ∧ e'.graph.edges = (e.graph.edges ∪ {s(a, b), s(c, d)}) \ {s(b, d), s(a, c)} ∨
       (∃ err, r = .error err) ∧ e'.graph.edges = e.graph.edges) := by
  obtain ⟨r, g, h1, h2, h3, h4, h5⟩ := Config.undoStep_spec h ha hb hc hd hab hcd hbd hac
  refine ⟨r, _, h1, h2, h3, h4, rfl, ?_⟩
  split at h5
  · exact .inr ⟨⟨_, h5.1⟩, h5.2⟩
  split at h5
  · exact .inr ⟨⟨_, h5.1⟩, h5.2⟩
  split at h5
  · exact .inr ⟨⟨_, h5.1⟩, h5.2⟩
  split at h5
  · exact .inr ⟨⟨_, h5.1⟩, h5.2⟩
  refine .inl ⟨h5.1, ?_⟩
  show g.edges = _
  rw [h5.2]
  ext x
  simp only [Finset.mem_erase, Finset.mem_insert, Finset.mem_union, Finset.mem_sdiff, Finset.mem_singleton, not_or]
  constructor
  · rintro ⟨x1, x2, x3 | x3 | x3⟩
    · exact ⟨.inr (.inl x3), x2, x1⟩
    · exact ⟨.inr (.inr x3), x2, x1⟩
    · exact ⟨.inl x3, x2, x1⟩
  · rintro ⟨x1 | x1 | x1, x2, x3⟩
    · exact ⟨x3, x2, .inr (.inr x1)⟩
    · exact ⟨x3, x2, .inl x1⟩
    · exact ⟨x3, x2, .inr (.inl x1)⟩

/-- The exchange is made exactly when the two edges to be restored are missing and distinct and the two edges to be removed are
there (counting the restored ones). -/
theorem C43_config_undo_ok_iff {e : Config T R} (h : e.Inv) {a b c d : Nat} (ha : a < e.graph.vertexCount)
    (hb : b < e.graph.vertexCount) (hc : c < e.graph.vertexCount) (hd : d < e.graph.vertexCount)
    (hab : a ≠ b) (hcd : c ≠ d) (hbd : b ≠ d) (hac : a ≠ c) :
    (∃ e', e.undoStep (.added (a, b) (c, d)) = .ok (.ok (), e')) ↔
      s(a, b) ∉ e.graph.edges ∧ s(c, d) ∉ e.graph.edges ∧ s(a, b) ≠ s(c, d) ∧
      s(b, d) ∈ e.graph.edges ∪ {s(a, b), s(c, d)} ∧ s(a, c) ∈ e.graph.edges ∪ {s(a, b), s(c, d)} := by
  obtain ⟨r, g, h1, h2, h3, h4, h5⟩ := Config.undoStep_spec h ha hb hc hd hab hcd hbd hac
  have hl : (∃ e', e.undoStep (.added (a, b) (c, d)) = .ok (.ok (), e')) ↔ r = .ok () := by
    rw [h1]; simp
  rw [hl]
  have hu : ∀ x, x ∈ insert s(a, b) (insert s(c, d) e.graph.edges) ↔ x ∈ e.graph.edges ∪ {s(a, b), s(c, d)} := by
    intro x; simp only [Finset.mem_insert, Finset.mem_union, Finset.mem_singleton]; tauto
  simp only [hu] at h5
  split at h5
  · rename_i hx; rw [h5.1]; simp [hx]
  rename_i x1
  split at h5
  · rename_i hx; rw [h5.1]
    rw [Finset.mem_insert] at hx
    constructor
    · intro hc; simp at hc
    · rintro ⟨y1, _, y2, _⟩
      rcases hx with hx | hx
      · exact absurd hx y2
      · exact absurd hx y1
  rename_i x2
  rw [Finset.mem_insert, not_or] at x2
  split at h5
  · rename_i hx; rw [h5.1]; simp only [reduceCtorEq, false_iff]; exact fun hc => hx hc.2.2.2.1
  rename_i x3
  split at h5
  · rename_i hx; rw [h5.1]; simp only [reduceCtorEq, false_iff]; exact fun hc => hx hc.2.2.2.2
  rename_i x4
  rw [h5.1]
  simp only [true_iff]
  exact ⟨x2.2, x1, x2.1, not_not.mp x3, not_not.mp x4⟩

/-- What two states have in common when undoing: edges, vertices, data, degree vector. -/
structure Config.Sim (e x : Config T R) : Prop where
  n : x.graph.vertexCount = e.graph.vertexCount
  edges : x.graph.edges = e.graph.edges
  data : x.graph.data = e.graph.data
  deg : x.degreeVec = e.degreeVec

theorem Config.back {e e' x : Config T R} {fuel : Nat} {s : ConfigStep} (h : e.Inv) (hE : 1 ≤ e.graph.edgeCount)
    (hs : e.mStep fuel = .ok (s, e')) (hx : x.Inv) (hsim : Config.Sim e' x) :
    ∃ x', x.undoStep s = .ok (.ok (), x') ∧ x.undoStepQuiet s = .ok x' ∧ x'.Inv ∧ Config.Sim e x' := by
  obtain ⟨q1, q2, q3, q4⟩ := (Config.mStep_spec h hE fuel).post hs
  simp only at q1 q2 q3 q4
  have hn : e'.graph.vertexCount = e.graph.vertexCount := by
    show e'.graph.nextId = e.graph.nextId
    rw [q1.n, q2, h.n]
  rcases q4 with ⟨rfl, q5⟩ | ⟨n, j, k, l, rfl, q5⟩
  · exact ⟨x, rfl, rfl, hx, ⟨by rw [hsim.n, hn], by rw [hsim.edges, q5], by rw [hsim.data, q3], by rw [hsim.deg, q2]⟩⟩
  · obtain ⟨d1, d2, d3, d4, d5, d6⟩ := q5.distinct h.wf
    have l1 := h.wf.mem_lt q5.nj
    have l2 := h.wf.mem_lt q5.kl
    obtain ⟨m1, m2, m3, m4⟩ := q5.mem h.wf
    have hxn : x.graph.nextId = e.graph.nextId := hsim.n.trans hn
    obtain ⟨r, g, h1, h2, h3, h4, h5⟩ := Config.undoStep_spec hx (a := n) (b := j) (c := k) (d := l)
      (by rw [hxn]; exact l1.1) (by rw [hxn]; exact l1.2.1) (by rw [hxn]; exact l2.1) (by rw [hxn]; exact l2.2.1)
      d1 d6 d5 d2
    rw [hsim.edges] at h5
    rw [if_neg m4] at h5
    have hne : s(n, j) ≠ s(k, l) := by rw [Ne, Sym2.eq_iff]; omega
    rw [if_neg (by rw [Finset.mem_insert, not_or]; exact ⟨hne, m3⟩)] at h5
    rw [if_neg (not_not.mpr (Finset.mem_insert_of_mem (Finset.mem_insert_of_mem m2)))] at h5
    rw [if_neg (not_not.mpr (Finset.mem_insert_of_mem (Finset.mem_insert_of_mem m1)))] at h5
    obtain ⟨rfl, h6⟩ := h5
    have hge : g.edges = e.graph.edges := by
      rw [h6, q5.edges]
      ext y
      simp only [Finset.mem_erase, Finset.mem_insert]
      constructor
      · rintro ⟨y1, y2, y3 | y3 | ⟨_, _, y3 | y3 | y3⟩⟩
        · rw [y3]; exact q5.nj
        · rw [y3]; exact q5.kl
        · exact absurd y3 y2
        · exact absurd y3 y1
        · exact y3
      · intro hy
        refine ⟨fun hc => q5.nk (hc ▸ hy), fun hc => q5.jl (hc ▸ hy), ?_⟩
        by_cases y1 : y = s(n, j)
        · exact .inl y1
        · by_cases y2 : y = s(k, l)
          · exact .inr (.inl y2)
          · exact .inr (.inr ⟨y2, y1, .inr (.inr hy)⟩)
    refine ⟨_, h1, Config.undoStepQuiet_eq _ _ _ h1, ?_, ⟨h3.trans hxn, hge, by rw [← q3, ← hsim.data]; exact h4,
      by rw [← q2, ← hsim.deg]⟩⟩
    have hd : ∀ v, (g.nbrs v).length = (x.graph.nbrs v).length := by
      intro v
      have a1 := q5.deg h.wf q1.wf v
      rw [h2.deg_eq, hge, hx.wf.deg_eq, hsim.edges, ← h.wf.deg_eq, ← q1.wf.deg_eq, a1]
    exact hx.of_graph (rng := x.rng) h2 h3 hd

/-- `undo_step` and `undo_step_quiet` after `m_step` restore edges, data and validity. -/
theorem C43_config_undo {e e' : Config T R} {fuel : Nat} {s : ConfigStep} (h : e.Inv) (hE : 1 ≤ e.graph.edgeCount)
    (hs : e.mStep fuel = .ok (s, e')) :
    ∃ x, e'.undoStep s = .ok (.ok (), x) ∧ e'.undoStepQuiet s = .ok x ∧ x.Inv ∧ x.graph.edges = e.graph.edges ∧
      x.graph.data = e.graph.data ∧ x.graph.vertexCount = e.graph.vertexCount := by
  obtain ⟨x, h1, h2, h3, h4⟩ := Config.back h hE hs ((C42_config_step h hE fuel).2 s e' hs).1 ⟨rfl, rfl, rfl, rfl⟩
  exact ⟨x, h1, h2, h3, h4.edges, h4.data, h4.n⟩

/-- For every step value and state: if `undo_step` returns `Ok`, the quiet variant gives the same state. -/
theorem C43_config_quiet (e e' : Config T R) (s : ConfigStep) (h : e.undoStep s = .ok (.ok (), e')) :
    e.undoStepQuiet s = .ok e' := Config.undoStepQuiet_eq e s e' h

/-- The failing undo of the documentation: the edges to restore are already there. -/
example : ((exConfig []).undoStep (.added (0, 1) (2, 3))).bind (fun p => .ok (p.1, p.2.graph.degreeVec)) =
    .ok (.error (.unableToAddEdge (2, 3) .edgeExists), [2, 2, 3, 1, 0]) := by decide

example : ((exConfig []).undoStep (.added (0, 3) (1, 4))).bind (fun p => .ok (p.1, p.2.graph.edgeCount)) =
    .ok (.error (.unableToRemoveEdge (3, 4) .edgeDoesNotExist), 4) := by decide

/-! ### C54: chains -/

/-- A chain of steps of the configuration model can be undone whenever it returns. -/
theorem C54_config_chain {e e' : Config T R} (h : e.Inv) (hE : 1 ≤ e.graph.edgeCount) (fuel k : Nat)
    {steps : List ConfigStep} (hs : mSteps (Config.mStep fuel) k e = .ok (steps, e')) :
    steps.length = k ∧ e'.Inv ∧ ∃ us x, undoSteps Config.undoStep steps e' = .ok (us, x) ∧
      undoStepsQuiet Config.undoStepQuiet steps e' = .ok x ∧ us.length = k ∧ x.Inv ∧
      x.graph.edges = e.graph.edges ∧ x.graph.data = e.graph.data ∧ x.degreeVec = e.degreeVec := by
  have hcount : ∀ {x : Config T R}, x.graph.WF → x.graph.edges.card = x.graph.edgeCount :=
    fun hw => hw.edgeCount_eq_card.symm
  obtain ⟨h1, h2, h3⟩ := chain_of_ok (mStep := Config.mStep (T := T) (R := R) fuel) (undo := Config.undoStep)
    (quiet := Config.undoStepQuiet) (Inv := fun x => x.Inv ∧ 1 ≤ x.graph.edgeCount) (Sim := Config.Sim)
    (fun x s x' hx hx' => by
      have := (C42_config_step hx.1 hx.2 fuel).2 s x' hx'
      exact ⟨this.1, by rw [this.2.2.2.1]; exact hx.2⟩)
    (fun x s x' y hx hx' hy hsim => by
      obtain ⟨y', a1, a2, a3, a4⟩ := Config.back hx.1 hx.2 hx' hy.1 hsim
      refine ⟨_, y', a1, a2, ⟨a3, ?_⟩, a4⟩
      rw [← hcount a3.wf, a4.edges, hcount hx.1.wf]; exact hx.2)
    k e steps e' ⟨h, hE⟩ hs
  obtain ⟨us, x, a1, a2, a3, a4, a5⟩ := h3 e' h2 ⟨rfl, rfl, rfl, rfl⟩
  exact ⟨h1, h2.1, us, x, a1, a2, a3, a4.1, a5.edges, a5.data, a5.deg⟩

example : (mSteps (Config.mStep 1) 2 (exConfigPath [0, 2, 0, 1, 0, 2, 0, 0])).bind (fun p => .ok p.1) =
    .ok [.added (0, 1) (2, 3), .error] := by decide

end Verif
