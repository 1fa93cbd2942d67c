import Verif.Lemmas.Serde
import Verif.Model.Chain
import Verif.Props.Api

/-!
# C92: saving a graph, an ensemble or a step and loading it again

`load (ser x)` is what comes back from a format which keeps all numbers, `load (ser x).json` what comes back from JSON, the format of
the examples in the documentation of the crate.  For the types chosen by the user (`T`, `R`) it is assumed that they come back
themselves (`LawfulSerde`, `NoNan`).
-/

set_option linter.unusedSectionVars false
set_option linter.unusedSimpArgs false

namespace Verif

open Serde LawfulSerde NoNan

variable {T R : Type} [Serde T] [Serde R] [LawfulSerde T] [LawfulSerde R]

/-- **A saved ensemble comes back unchanged**: graph with the order of the adjacency lists, node data, parameters, working lists and the
state of the generator. -/
theorem C92_ensembles :
    (∀ e : ErC T R, de (ser e) = some e) ∧ (∀ e : ErM T R, de (ser e) = some e) ∧ (∀ e : SwEns T R, de (ser e) = some e) ∧
    (∀ e : Config T R, de (ser e) = some e) ∧ (∀ e : Ba T R, de (ser e) = some e) ∧
    (∀ e : Ws T R, e.neighborDistance ≠ 0 → de (ser e) = some e) ∧ (∀ e : SpacialFields T R, de (ser e) = some e) :=
  ⟨de_ser, de_ser, de_ser, de_ser, de_ser, fun e h => by rw [Ws.de_ser, if_neg h], de_ser⟩

/-- **So does a graph**, a dual graph and the value returned by a step or by undoing it. -/
theorem C92_graphs_and_steps {J T1 A1 T2 A2 A : Type} [Serde J] [Serde A1] [Serde A2] [Serde A] [LawfulSerde J] [LawfulSerde A1]
    [LawfulSerde A2] [LawfulSerde A] :
    (∀ g : GenericGraph T A, de (ser g) = some g) ∧ (∀ d : DualGraph J T1 A1 T2 A2, de (ser d) = some d) ∧
    (∀ s : ErStepC, de (ser s) = some s) ∧ (∀ s : ErStepM, de (ser s) = some s) ∧ (∀ s : SwChange, de (ser s) = some s) ∧
    (∀ s : SpacialStep, de (ser s) = some s) ∧ (∀ s : ConfigStep, de (ser s) = some s) ∧ (∀ s : UndoErrCM, de (ser s) = some s) ∧
    (∀ s : GraphErr, de (ser s) = some s) ∧ (∀ w : WhichGraph A, de (ser w) = some w) ∧ (∀ a : AdjSingle, de (ser a) = some a) ∧
    (∀ a : Adj, de (ser a) = some a) :=
  ⟨de_ser, de_ser, de_ser, de_ser, de_ser, de_ser, de_ser, de_ser, de_ser, de_ser, de_ser, de_ser⟩

theorem load_json {α : Type} [Serde α] [LawfulSerde α] [NoNan α] (x : α) : de (ser x).json = some x := by
  rw [json_ser, de_ser]

/-- **The same holds in JSON** for everything but positions in the plane. -/
theorem C92_json [NoNan T] [NoNan R] {A : Type} [Serde A] [LawfulSerde A] [NoNan A] :
    (∀ e : ErC T R, de (ser e).json = some e) ∧ (∀ e : ErM T R, de (ser e).json = some e) ∧
    (∀ e : SwEns T R, de (ser e).json = some e) ∧ (∀ e : Config T R, de (ser e).json = some e) ∧
    (∀ e : Ba T R, de (ser e).json = some e) ∧ (∀ e : Ws T R, e.neighborDistance ≠ 0 → de (ser e).json = some e) ∧
    (∀ g : GenericGraph T A, de (ser g).json = some g) ∧ (∀ c : NodeContainer T, de (ser c).json = some c) ∧
    (∀ c : SwContainer T, de (ser c).json = some c) ∧ (∀ c : WSContainer T, de (ser c).json = some c) :=
  ⟨load_json, load_json, load_json, load_json, load_json, fun e h => by rw [json_ser, Ws.de_ser, if_neg h], load_json, load_json,
    load_json, load_json⟩

/-! ## Positions in the plane -/

/-- Both coordinates are numbers. -/
def IsPlaced (c : SpacialNodeContainer T) : Prop := c.x ≠ none ∧ c.y ≠ none

instance (c : SpacialNodeContainer T) : Decidable (IsPlaced c) := inferInstanceAs (Decidable (_ ∧ _))

theorem deFloat_json (q : Option ℚ) : deFloat (serFloat q).json = q.map some := by
  cases q <;> simp [serFloat, Value.json, deFloat]

theorem de_container_json [NoNan T] (c : SpacialNodeContainer T) : de (ser c).json = if IsPlaced c then some c else none := by
  have h : (ser c).json = Value.map [("adj", ser c.adj), ("id", ser c.id), ("x", (serFloat c.x).json), ("y", (serFloat c.y).json),
      ("node", ser c.node)] := by
    show (Value.map [("adj", ser c.adj), ("id", ser c.id), ("x", serFloat c.x), ("y", serFloat c.y), ("node", ser c.node)]).json = _
    simp only [Value.json, Value.jsonMap, json_ser]
  rw [h]
  show (do
    let adj ← de (ser c.adj)
    let id ← de (ser c.id)
    let x ← deFloat (serFloat c.x).json
    let y ← deFloat (serFloat c.y).json
    let node ← de (ser c.node)
    return ({ adj, id, x, y, node } : SpacialNodeContainer T)) = _
  simp only [de_ser, deFloat_json]
  obtain ⟨adj, id, x, y, node⟩ := c
  cases x <;> cases y <;> simp [IsPlaced]

theorem mapM_json [NoNan T] (l : List (SpacialNodeContainer T)) :
    (Value.jsonSeq (l.map ser)).mapM (de (α := SpacialNodeContainer T)) = if ∀ c ∈ l, IsPlaced c then some l else none := by
  induction l with
  | nil => simp [Value.jsonSeq]
  | cons a l ih =>
    rw [List.map_cons, Value.jsonSeq, List.mapM_cons, ih, de_container_json]
    by_cases ha : IsPlaced a
    · by_cases hl : ∀ c ∈ l, IsPlaced c
      · rw [if_pos ha, if_pos hl, if_pos (by simpa using ⟨ha, hl⟩)]; rfl
      · rw [if_pos ha, if_neg hl, if_neg fun h : ∀ c ∈ a :: l, IsPlaced c => hl fun c hc => h c (List.mem_cons_of_mem a hc)]; rfl
    · rw [if_neg ha, if_neg fun h : ∀ c ∈ a :: l, IsPlaced c => ha (h a List.mem_cons_self)]; rfl

/-- **A graph with positions saved as JSON** comes back unchanged when all coordinates are numbers; otherwise loading fails. -/
theorem C92_spacial_graph_json [NoNan T] (g : SpacialGraph T) :
    de (ser g).json = if ∀ c ∈ g.vertices, IsPlaced c then some g else none := by
  have h : (ser g).json = Value.map [("next_id", ser g.nextId), ("edge_count", ser g.edgeCount),
      ("vertices", .seq (Value.jsonSeq (g.vertices.map ser))), ("phantom", .null)] := by
    show (Value.map [("next_id", ser g.nextId), ("edge_count", ser g.edgeCount), ("vertices", .seq (g.vertices.map ser)),
      ("phantom", .null)]).json = _
    simp only [Value.json, Value.jsonMap, json_ser]
  rw [h]
  show (do
    let nextId ← de (ser g.nextId)
    let edgeCount ← de (ser g.edgeCount)
    let vertices ← (Value.jsonSeq (g.vertices.map ser)).mapM (de (α := SpacialNodeContainer T))
    return ({ nextId, edgeCount, vertices } : SpacialGraph T)) = _
  simp only [de_ser, mapM_json]
  split <;> rfl

/-- A new `SpacialGraph` has no positions yet: saved as JSON it cannot be loaded. -/
theorem C92_new_spacial_graph_json [NoNan T] [Node T] {n : Nat} (hn : 0 < n) :
    de (ser (GenericGraph.new n : SpacialGraph T)).json = (none : Option (SpacialGraph T)) := by
  rw [C92_spacial_graph_json, if_neg]
  intro h
  obtain ⟨c, hc⟩ : ∃ c, (GenericGraph.new n : SpacialGraph T).vertices[0]? = some c :=
    ⟨_, List.getElem?_eq_getElem (by rw [(GenericGraph.new_wf n : (GenericGraph.new n : SpacialGraph T).WF).len]; exact hn)⟩
  have hx := (h c (List.mem_of_getElem? hc)).1
  rw [GenericGraph.new, List.getElem?_map, List.getElem?_range hn] at hc
  cases hc
  exact hx rfl

theorem SpacialFields.load_json [NoNan T] [NoNan R] (s : SpacialFields T R) :
    de (ser s).json = if ∀ c ∈ s.graph.vertices, IsPlaced c then some s else none := by
  have h : (ser s).json = Value.map [("graph", (ser s.graph).json), ("rng", ser s.rng), ("f", ser s.f), ("alpha", ser s.alpha),
      ("sqrt_n_pi", ser s.sqrtNPi)] := by
    show (Value.map [("graph", ser s.graph), ("rng", ser s.rng), ("f", ser s.f), ("alpha", ser s.alpha),
      ("sqrt_n_pi", ser s.sqrtNPi)]).json = _
    simp only [Value.json, Value.jsonMap, json_ser]
  rw [h]
  show (do
    let graph ← de (ser s.graph).json
    let rng ← de (ser s.rng)
    let f ← de (ser s.f)
    let alpha ← de (ser s.alpha)
    let sqrtNPi ← de (ser s.sqrtNPi)
    return ({ graph, rng, f, alpha, sqrtNPi } : SpacialFields T R)) = _
  simp only [de_ser, C92_spacial_graph_json]
  split <;> rfl

/-- **A `SpacialEnsemble` saved as JSON** comes back unchanged, whatever was done to it since its construction: the constructor places all
vertices and no call removes a position. -/
theorem C92_spacial_ensemble_json [NoNan T] [NoNan R] [Node T] [Rng R] (law : ℚ → ℚ → ℚ → Pos → Pos → ℚ) (n : Nat) (r : R) (f α c : ℚ) :
    ∃ e₀ : Spacial T R, Spacial.new n r (law f α c) = .ok e₀ ∧
      ∀ s : SpacialFields T R, Relation.ReflTransGen Spacial.Call e₀ (s.toEnsemble law) → de (ser s).json = some s := by
  obtain ⟨e₀, h1, h2⟩ := C75_spacial (T := T) n r (law f α c)
  refine ⟨e₀, h1, fun s hs => ?_⟩
  obtain ⟨a1, a2, _, a4, _⟩ := h2 _ hs
  obtain ⟨e', _, b1, _, _, _, _, b6, _⟩ := C47_spacial_new (T := T) n r (law f α c)
  obtain rfl : e' = e₀ := by rw [h1] at b1; cases b1; rfl
  rw [SpacialFields.load_json, if_pos]
  intro v hv
  obtain ⟨i, hi, rfl⟩ := List.getElem_of_mem hv
  have hin : i < n := by
    rw [← a2]; exact lt_of_lt_of_eq hi a1.len
  obtain ⟨x, y, hxy, _⟩ := b6 i hin
  rw [← a4, ← pos_of_idx (g := (s.toEnsemble law).graph) (c := s.graph.vertices[i]) (List.getElem?_eq_getElem hi)] at hxy
  have hx : s.graph.vertices[i].x = some x := congrArg Prod.fst hxy
  have hy : s.graph.vertices[i].y = some y := congrArg Prod.snd hxy
  exact ⟨by rw [hx]; exact Option.some_ne_none x, by rw [hy]; exact Option.some_ne_none y⟩

/-- A `SmallWorldWS` comes back unchanged, whatever was done to it since its construction (`d` is a `NonZeroUsize` in the code). -/
theorem C92_ws_json [NoNan T] [NoNan R] [Node T] [Rng R] {n d : Nat} (hn : n < 2 ^ 32) (hd : d ≠ 0) (p : ℚ) (r : R) {fuel : Nat}
    {e₀ : Ws T R} (h₀ : Ws.new fuel n d p r = .ok (.ok e₀)) {ws : List (Nat × T)} {e : Ws T R} (he : Hist Ws.Call Ws.setAt e₀ ws e) :
    de (ser e).json = some e := by
  have h := (C75_ws hn p r h₀ he).2.2.2.2.1
  rw [json_ser, Ws.de_ser, if_neg (by rw [h]; exact hd)]

/-! ## Resuming a simulation -/

theorem mSteps_add {E S : Type} (step : E → Res (S × E)) (k l : Nat) (e : E) :
    mSteps step (k + l) e = (do
      let (s₁, e) ← mSteps step k e
      let (s₂, e) ← mSteps step l e
      return (s₁ ++ s₂, e)) := by
  induction k generalizing e with
  | zero =>
    rw [Nat.zero_add]
    simp only [mSteps, Res.ok_bind, List.nil_append]
    cases mSteps step l e <;> rfl
  | succ k ih =>
    rw [Nat.succ_add]
    simp only [mSteps]
    cases step e with
    | ok p =>
      simp only [Res.ok_bind, ih]
      cases mSteps step k p.2 with
      | ok q =>
        simp only [Res.ok_bind, Res.pure_eq]
        cases mSteps step l q.2 <;> rfl
      | panic => rfl
      | diverge => rfl
    | panic => rfl
    | diverge => rfl

/-- Steps, saving as JSON and loading, further steps; a failure to load is a panic (`unwrap` in the examples of the documentation). -/
def interrupted {E S : Type} [Serde E] (step : E → Res (S × E)) (k l : Nat) (e : E) : Res (List S × E) := do
  let (s₁, e) ← mSteps step k e
  let e ← Res.unwrap (de (ser e).json)
  let (s₂, e) ← mSteps step l e
  return (s₁ ++ s₂, e)

theorem interrupted_eq {E S : Type} [Serde E] (step : E → Res (S × E)) (h : ∀ e : E, de (ser e).json = some e) (k l : Nat) (e : E) :
    interrupted step k l e = mSteps step (k + l) e := by
  rw [mSteps_add, interrupted]
  simp only [h, Res.unwrap, Res.ok_bind]

/-- **A simulation interrupted by saving and loading continues as if nothing had happened**: same steps, same ensemble, same state of
the generator, for every number of steps before and after. -/
theorem C92_resume [NoNan T] [NoNan R] [Rng R] (k l fuel : Nat) :
    (∀ e : ErC T R, interrupted ErC.mStep k l e = mSteps ErC.mStep (k + l) e) ∧
    (∀ e : ErM T R, interrupted ErM.mStep k l e = mSteps ErM.mStep (k + l) e) ∧
    (∀ e : SwEns T R, interrupted SwEns.mStep k l e = mSteps SwEns.mStep (k + l) e) ∧
    (∀ e : Config T R, interrupted (Config.mStep fuel) k l e = mSteps (Config.mStep fuel) (k + l) e) :=
  ⟨interrupted_eq _ load_json k l, interrupted_eq _ load_json k l, interrupted_eq _ load_json k l, interrupted_eq _ load_json k l⟩

/-! ## The file may list the fields in any order and contain further ones -/

theorem field_perm {l l' : List (String × Value)} (h : l.Perm l') (k : String) : Value.field l k = Value.field l' k := by
  have hp := h.filter (fun p => p.1 == k)
  unfold Value.field
  generalize l.filter (fun p => p.1 == k) = a at hp ⊢
  generalize l'.filter (fun p => p.1 == k) = b at hp ⊢
  match a, b, hp with
  | [], b, hp => rw [List.nil_perm.mp hp]
  | [x], b, hp => rw [List.singleton_perm.mp hp]
  | x :: y :: l, [], hp => exact absurd hp.length_eq (by simp)
  | x :: y :: l, [z], hp => exact absurd hp.length_eq (by simp)
  | x :: y :: l, z :: w :: l', hp => rfl

theorem field_append {l extra : List (String × Value)} {k : String} (h : ∀ p ∈ extra, p.1 ≠ k) :
    Value.field (l ++ extra) k = Value.field l k := by
  unfold Value.field
  rw [List.filter_append, show extra.filter (fun p => p.1 == k) = [] from
    List.filter_eq_nil_iff.mpr fun p hp => by simpa using h p hp, List.append_nil]

/-- Loading does not depend on the order of the fields, for every content of the fields (also one that is not the result of saving). -/
theorem C92_field_order {l l' : List (String × Value)} (h : l.Perm l') :
    (de (.map l) : Option (ErC T R)) = de (.map l') ∧ (de (.map l) : Option (ErM T R)) = de (.map l') ∧
    (de (.map l) : Option (SwEns T R)) = de (.map l') ∧ (de (.map l) : Option (Config T R)) = de (.map l') ∧
    (de (.map l) : Option (Ba T R)) = de (.map l') ∧ (de (.map l) : Option (Ws T R)) = de (.map l') ∧
    (de (.map l) : Option (SpacialFields T R)) = de (.map l') ∧ (de (.map l) : Option (GenericGraph T (NodeContainer T))) = de (.map l') := by
  refine ⟨?_, ?_, ?_, ?_, ?_, ?_, ?_, ?_⟩ <;> simp only [de, Value.asMap, Option.bind_eq_bind, Option.bind_some, field_perm h]

/-- Loading a saved ensemble to whose file entries with other names were added gives the saved ensemble. -/
theorem C92_unknown_fields (e : ErC T R) {l extra : List (String × Value)} (hl : ser e = .map l)
    (h : ∀ p ∈ extra, p.1 ∉ ["graph", "prob", "c_target", "rng"]) {l' : List (String × Value)} (hp : l'.Perm (l ++ extra)) :
    de (.map l') = some e := by
  rw [(C92_field_order (T := T) (R := R) hp).1]
  have hs := de_ser e
  rw [hl] at hs
  rw [← hs]
  have f : ∀ k ∈ ["graph", "prob", "c_target", "rng"], Value.field (l ++ extra) k = Value.field l k := fun k hk =>
    field_append fun p hp' he => h p hp' (he ▸ hk)
  simp only [de, Value.asMap, Option.bind_eq_bind, Option.bind_some, f "graph" (by simp), f "prob" (by simp), f "c_target" (by simp),
    f "rng" (by simp)]

/-- An edge of a `SwGraph` in whose entry `originally_to` is missing is loaded as an edge without a root; any other missing or repeated
entry is an error. -/
theorem C92_missing_root {l : List (String × Value)} {k : Nat} (hto : l.filter (fun p => p.1 == "to") = [("to", ser k)]) :
    ((∀ p ∈ l, p.1 ≠ "originally_to") → de (.map l) = some ({ dst := k, originallyTo := none } : SwEdge)) ∧
    (∀ v w, l.filter (fun p => p.1 == "originally_to") = [v, w] → (de (.map l) : Option SwEdge) = none) ∧
    ((de (.map (l.filter (fun p => !(p.1 == "to")))) : Option SwEdge) = none) := by
  have hk : (Value.field l "to").bind de = some k := by
    unfold Value.field
    rw [hto]
    exact de_ser k
  refine ⟨fun h => ?_, fun v w h => ?_, ?_⟩
  · have h0 : l.filter (fun p => p.1 == "originally_to") = [] := List.filter_eq_nil_iff.mpr fun p hp => by simpa using h p hp
    show (do
      let dst ← (Value.field l "to").bind de
      let originallyTo ← (Value.fieldOpt l "originally_to").bind de
      return ({ dst, originallyTo } : SwEdge)) = _
    rw [hk]
    unfold Value.fieldOpt
    rw [h0]
    rfl
  · show (do
      let dst ← (Value.field l "to").bind de
      let originallyTo ← (Value.fieldOpt l "originally_to").bind de
      return ({ dst, originallyTo } : SwEdge)) = _
    rw [hk]
    unfold Value.fieldOpt
    rw [h]
    rfl
  · have h0 : (l.filter (fun p => !(p.1 == "to"))).filter (fun p => p.1 == "to") = [] := by
      rw [List.filter_filter]
      exact List.filter_eq_nil_iff.mpr fun p _ => by simp
    show (do
      let dst ← (Value.field (l.filter (fun p => !(p.1 == "to"))) "to").bind de
      let originallyTo ← (Value.fieldOpt (l.filter (fun p => !(p.1 == "to"))) "originally_to").bind de
      return ({ dst, originallyTo } : SwEdge)) = _
    unfold Value.field
    rw [h0]
    rfl

example : [("to", ser 3), ("colour", Value.null)].filter (fun p => p.1 == "to") = [("to", ser 3)] := rfl

/-- **Loading checks nothing, and the code relies on what is not checked.**  A file for a `SpacialEnsemble` with a count of vertices but
without vertices is accepted, and the next `m_step` accesses a vertex which does not exist; in Rust this access is a `get_unchecked`
(src/spacial/spacial_ensemble.rs:101-112), undefined behaviour reached from safe code. -/
theorem C92_load_checks_nothing [Rng R] (law : ℚ → ℚ → ℚ → Pos → Pos → ℚ) (r : R) :
    ∃ (v : Value) (s : SpacialFields T R), de v = some s ∧ s.graph.vertexCount = 2 ∧ s.graph.vertices = [] ∧
      (s.toEnsemble law).mStep = .panic := by
  let s : SpacialFields T R := ⟨⟨2, 0, []⟩, r, 1, 1, 1⟩
  refine ⟨ser s, s, de_ser s, rfl, rfl, ?_⟩
  have hi : ∀ i, Vec.idx ([] : List (SpacialNodeContainer T)) i = .panic := fun i => rfl
  have hp : ∀ f i j, Spacial.probUnchecked f (⟨2, 0, []⟩ : SpacialGraph T) i j = .panic := fun f i j => by
    simp only [Spacial.probUnchecked, hi]; rfl
  obtain ⟨d, r', hd⟩ : ∃ d r', drawTwoFromRange r 2 = .ok (d, r') := by
    simp only [drawTwoFromRange, genRange, Res.sub, show 0 < 2 by decide, show 1 ≤ 2 by decide, show 0 < 2 - 1 by decide, if_true,
      Res.ok_bind, Res.pure_eq]
    split <;> exact ⟨_, _, rfl⟩
  show (drawTwoFromRange r 2 >>= _) = _
  rw [hd, Res.ok_bind]
  show (Spacial.probUnchecked _ (⟨2, 0, []⟩ : SpacialGraph T) d.1 d.2 >>= _) = _
  rw [hp]; rfl

/-! ## Concrete cases -/

/-- An interrupted run of `ErEnsembleC` on a `Pcg64`. -/
example : ∃ e : ErC Unit Pcg64, interrupted ErC.mStep 3 4 e = mSteps ErC.mStep 7 e ∧ e.graph.vertices ≠ [] :=
  ⟨⟨⟨2, 1, [⟨0, [1], ()⟩, ⟨1, [0], ()⟩]⟩, 1 / 2, 1, ⟨5, 7⟩⟩, (C92_resume (T := Unit) (R := Pcg64) 3 4 0).1 _, by simp⟩

/-- A placed vertex and one without a position. -/
example : IsPlaced (⟨[], 0, some (1 / 2), some 0, ()⟩ : SpacialNodeContainer Unit) ∧
    ¬ IsPlaced (⟨[], 0, none, none, ()⟩ : SpacialNodeContainer Unit) := by decide

/-- Nothing is checked when a graph is loaded: a file with an edge to a vertex that does not exist is accepted. -/
example : ∃ (v : Value) (g : GenericGraph Unit (NodeContainer Unit)), de v = some g ∧ ¬ g.WF :=
  ⟨ser (⟨1, 1, [⟨0, [5], ()⟩]⟩ : GenericGraph Unit (NodeContainer Unit)), ⟨1, 1, [⟨0, [5], ()⟩]⟩, de_ser _,
    fun h => absurd (h.lt 0 5 (by simp [GenericGraph.nbrs, AdjContainer.neighbors])) (by simp)⟩

end Verif
