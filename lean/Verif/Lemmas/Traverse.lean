import Verif.Lemmas.Search
import Verif.Lemmas.Check
import Verif.Spec.Traverse

/-!
# The traversal iterators satisfy the abstract search invariants
-/

set_option linter.unusedSectionVars false
set_option linter.unusedSimpArgs false

namespace Verif
open AdjContainer GenericGraph

variable {T A : Type} [AdjContainer T A] [LawfulAdj T A]

theorem GenericGraph.WF.reachable_iff {g : GenericGraph T A} (h : g.WF) (a b : Nat) :
    g.toSimple.Reachable a b ↔ Relation.ReflTransGen (fun v w => w ∈ g.nbrs v) a b := by
  rw [reachable_iff_rtg]
  have : g.toSimple.Adj = fun v w => w ∈ g.nbrs v := by
    funext v w; exact propext h.adj_iff
  rw [this]

theorem getContained_eq (g : GenericGraph T A) (i : Nat) : g.getContained i = g.data[i]? := by
  simp [GenericGraph.getContained, GenericGraph.data]

/-! ### DFS -/

/-- Invariant of the three depth first searches. -/
structure DfsI (g : GenericGraph T A) (v0 : Nat) (handled : List Bool) (stack D : List Nat) : Prop where
  inv : SearchInv (fun v w => w ∈ g.nbrs v) v0 (fun k => handled[k]? = some true) stack D
  len : handled.length = g.nextId

theorem DfsI.lt {g : GenericGraph T A} {v0 handled stack D} (h : DfsI g v0 handled stack D) {v : Nat}
    (hv : v ∈ stack ∨ v ∈ D) : v < g.nextId := by
  have := (h.inv.handled v).mpr hv
  rw [← h.len]
  exact (List.getElem?_eq_some_iff.mp this).1

theorem DfsI.length_le {g : GenericGraph T A} {v0 handled stack D} (h : DfsI g v0 handled stack D) :
    D.length ≤ g.nextId := by
  have h1 := h.inv.nodup_done
  have h2 : D ⊆ List.range g.nextId := by
    intro x hx; simpa using h.lt (Or.inr hx)
  simpa using (h1.subperm h2).length_le

theorem DfsI.init (g : GenericGraph T A) {v0 : Nat} (hv : v0 < g.nextId) :
    DfsI g v0 ((List.replicate g.nextId false).set v0 true) [v0] [] := by
  refine ⟨SearchInv.init ?_, by simp⟩
  intro k
  rw [List.getElem?_set]
  by_cases hk : v0 = k
  · subst hk; simp [hv]
  · simp [hk, List.getElem?_replicate, Ne.symm hk]

/-- A neighbour loop over the neighbours of `v` as a search step. -/
theorem visited_step {g : GenericGraph T A} (h : g.WF) {v : Nat} {handled handled' : List Bool} {new : List Nat}
    (hl : handled.length = g.nextId) (hv : Visited (g.nbrs v) handled handled' new) :
    (∀ w, w ∈ new ↔ w ∈ g.nbrs v ∧ ¬ handled[w]? = some true) ∧
    (∀ w, handled'[w]? = some true ↔ handled[w]? = some true ∨ w ∈ new) := by
  have hb : ∀ w, w ∈ g.nbrs v → (handled[w]? = some false ↔ ¬ handled[w]? = some true) := by
    intro w hw
    have hlt : w < handled.length := by rw [hl]; exact h.lt _ _ hw
    rw [List.getElem?_eq_getElem hlt]
    cases handled[w] <;> simp
  constructor
  · intro w
    rw [hv.mem]
    constructor
    · rintro ⟨h1, h2⟩; exact ⟨h1, (hb w h1).mp h2⟩
    · rintro ⟨h1, h2⟩; exact ⟨h1, (hb w h1).mpr h2⟩
  · intro w
    rw [hv.get, hv.mem]
    by_cases hw : w ∈ g.nbrs v
    · simp only [hw, if_true, true_and, true_iff]
      rw [hb w hw]; tauto
    · simp [hw]

theorem DfsI.step {g : GenericGraph T A} (h : g.WF) {v0 index handled stack D}
    (hI : DfsI g v0 handled (index :: stack) D) :
    ∃ handled' stack', visitStack (g.nbrs index) handled stack = .ok (handled', stack') ∧
      DfsI g v0 handled' stack' (D ++ [index]) := by
  have hlt : ∀ i ∈ g.nbrs index, i < handled.length := fun i hi => by rw [hI.len]; exact h.lt _ _ hi
  obtain ⟨handled', new, h1, h2⟩ := visitStack_spec _ handled stack hlt
  obtain ⟨s1, s2⟩ := visited_step h hI.len h2
  refine ⟨handled', new.reverse ++ stack, h1, ?_, by rw [h2.len, hI.len]⟩
  exact hI.inv.step s1 h2.nodup s2 ((List.reverse_perm new).append_right stack)

theorem DfsI.order {g : GenericGraph T A} (h : g.WF) {v0 handled D} (hI : DfsI g v0 handled [] D) : DfsOrder g v0 D where
  nodup := hI.inv.nodup_done
  mem w := by rw [hI.inv.done, h.reachable_iff]
  head := by
    rcases hI.inv.first with ⟨_, h2⟩ | h2
    · simp at h2
    · exact h2
  chain L1 x L2 hD hne := by
    have hx : x ≠ v0 := by
      rintro rfl
      have hnd := hI.inv.nodup_done
      have hh : D.head? = some x := by
        rcases hI.inv.first with ⟨_, h2⟩ | h2
        · simp at h2
        · exact h2
      cases L1 with
      | nil => exact hne rfl
      | cons y L1 =>
        subst hD
        simp at hh; subst hh
        simp at hnd
    obtain ⟨y, hy, ha⟩ := hI.inv.chain L1 x L2 hD hx
    exact ⟨y, hy, h.adj_iff.mpr ha⟩

theorem idx_nbrs {g : GenericGraph T A} {i : Nat} (hi : i < g.vertices.length) :
    Vec.idx g.vertices i = .ok g.vertices[i] ∧ neighbors g.vertices[i] = g.nbrs i :=
  ⟨Vec.idx_of_lt hi, (nbrs_getElem hi).symm⟩

theorem DfsState.new_of_lt {g : GenericGraph T A} {v : Nat} (hv : v < g.nextId) :
    DfsState.new g v = ⟨(List.replicate g.nextId false).set v true, [v]⟩ := by
  simp [DfsState.new, GenericGraph.vertexCount, hv]

theorem DfsState.new_of_ge {g : GenericGraph T A} {v : Nat} (hv : ¬ v < g.nextId) :
    DfsState.new g v = ⟨List.replicate g.nextId false, []⟩ := by
  simp [DfsState.new, GenericGraph.vertexCount, hv]

theorem dfsWithIndex_spec {g : GenericGraph T A} (h : g.WF) {v : Nat} (hv : v < g.nextId) {fuel : Nat}
    (hf : g.nextId < fuel) :
    ∃ items, g.dfsWithIndex v fuel = .ok items ∧ DfsOrder g v (items.map (·.1)) ∧
      ∀ p ∈ items, g.getContained p.1 = some p.2 := by
  obtain ⟨L', s', h1, h2⟩ := collect_spec (next := dfsIndexNext g.vertices)
    (fun s L => DfsI g v s.handled s.stack (L.map (·.1)) ∧ ∀ p ∈ L, g.getContained p.1 = some p.2)
    (fun s L => DfsI g v s.handled [] (L.map (·.1)) ∧ ∀ p ∈ L, g.getContained p.1 = some p.2)
    g.nextId
    (by
      rintro ⟨handled, stack⟩ L ⟨hI, hL⟩
      cases stack with
      | nil => exact Or.inl ⟨⟨handled, []⟩, rfl, hI, hL⟩
      | cons index stack =>
        right
        have hlt := h.lt_length (hI.lt (Or.inl List.mem_cons_self))
        obtain ⟨e1, e2⟩ := idx_nbrs hlt
        obtain ⟨handled', stack', e3, e4⟩ := DfsI.step h hI
        refine ⟨(index, contained g.vertices[index]), ⟨handled', stack'⟩, ?_, ?_, ?_⟩
        · simp [dfsIndexNext, e1, e2, e3]
        · simpa using e4
        · intro p hp
          rcases List.mem_append.mp hp with hp | hp
          · exact hL p hp
          · simp at hp; subst hp; simp [GenericGraph.getContained, hlt])
    (by rintro s L ⟨hI, _⟩; simpa using hI.length_le)
    fuel (DfsState.new g v) []
    (by rw [DfsState.new_of_lt hv]; exact ⟨DfsI.init g hv, by simp⟩) (by simpa using hf)
  refine ⟨L', by simp [GenericGraph.dfsWithIndex, h1], ?_, ?_⟩
  · simpa using h2.1.order h
  · simpa using h2.2

/-- `Dfs` and `DfsWithIndex` run in lock step. -/
theorem dfs_eq_dfsWithIndex (g : GenericGraph T A) (v fuel : Nat) :
    g.dfs v fuel = (do let l ← g.dfsWithIndex v fuel; return l.map (·.2)) := by
  have key : ∀ (fuel : Nat) (s : DfsState), collect (dfsNext g.vertices) fuel s =
      (do let (l, s) ← collect (dfsIndexNext g.vertices) fuel s; return (l.map (·.2), s)) := by
    intro fuel
    induction fuel with
    | zero => intro s; rfl
    | succ fuel ih =>
      rintro ⟨handled, stack⟩
      cases stack with
      | nil => rfl
      | cons index stack =>
        simp only [collect, dfsNext, dfsIndexNext]
        cases Vec.idx g.vertices index with
        | panic => rfl
        | diverge => rfl
        | ok c =>
          simp only [Res.ok_bind]
          cases visitStack (neighbors c) handled stack with
          | panic => rfl
          | diverge => rfl
          | ok p =>
            simp only [Res.ok_bind, Res.pure_eq, ih]
            cases collect (dfsIndexNext g.vertices) fuel ⟨p.1, p.2⟩ <;> rfl
  unfold GenericGraph.dfs GenericGraph.dfsWithIndex
  rw [key]
  cases collect (dfsIndexNext g.vertices) fuel (DfsState.new g v) <;> rfl

theorem dfsWithIndex_out {g : GenericGraph T A} {v : Nat} (hv : ¬ v < g.nextId) {fuel : Nat} (hf : 0 < fuel) :
    g.dfsWithIndex v fuel = .ok [] := by
  obtain ⟨f, rfl⟩ : ∃ f, fuel = f + 1 := ⟨fuel - 1, by omega⟩
  simp [GenericGraph.dfsWithIndex, DfsState.new_of_ge hv, collect, dfsIndexNext]

/-! ### DfsMut -/

/-- A vertex list with the same neighbours and ids as `g` (only data differs). -/
structure SameAdj (g : GenericGraph T A) (vs : List A) : Prop where
  len : vs.length = g.vertices.length
  get : ∀ (i : Nat) (a b : A), vs[i]? = some a → g.vertices[i]? = some b → neighbors a = neighbors b ∧ AdjContainer.id a = AdjContainer.id b
    ∧ (LawfulAdj.inv b → LawfulAdj.inv a)

theorem SameAdj.refl (g : GenericGraph T A) : SameAdj g g.vertices :=
  ⟨rfl, fun i a b h1 h2 => by rw [h1] at h2; simp at h2; subst h2; exact ⟨rfl, rfl, id⟩⟩

theorem SameAdj.set {g : GenericGraph T A} {vs : List A} (h : SameAdj g vs) {i : Nat} {c : A} (hc : vs[i]? = some c) (t : T) :
    SameAdj g (vs.set i (setContained c t)) := by
  refine ⟨by simp [h.len], ?_⟩
  intro k a b ha hb
  rw [List.getElem?_set] at ha
  by_cases hk : i = k
  · subst hk
    have hl := (List.getElem?_eq_some_iff.mp hc).1
    simp [hl] at ha
    obtain ⟨h1, h2, h3⟩ := h.get i c b hc hb
    subst ha
    exact ⟨by rw [LawfulAdj.neighbors_set]; exact h1, by rw [LawfulAdj.id_set]; exact h2,
      fun hi => LawfulAdj.inv_set _ _ (h3 hi)⟩
  · simp [hk] at ha; exact h.get k a b ha hb

theorem SameAdj.nbrs {g : GenericGraph T A} {vs : List A} (h : SameAdj g vs) (i : Nat) :
    GenericGraph.nbrs { g with vertices := vs } i = g.nbrs i := by
  unfold GenericGraph.nbrs
  cases h1 : vs[i]? with
  | none =>
    have : g.vertices[i]? = none := by
      rw [List.getElem?_eq_none_iff] at h1 ⊢; rw [← h.len]; exact h1
    simp [h1, this]
  | some a =>
    have hl : i < g.vertices.length := by rw [← h.len]; exact (List.getElem?_eq_some_iff.mp h1).1
    have h2 : g.vertices[i]? = some g.vertices[i] := List.getElem?_eq_getElem hl
    simp only [h1, h2]
    exact (h.get i _ _ h1 h2).1

theorem SameAdj.wf {g : GenericGraph T A} (hg : g.WF) {vs : List A} (h : SameAdj g vs) :
    GenericGraph.WF { g with vertices := vs } := by
  refine wf_transfer hg rfl rfl h.len ?_ h.nbrs
  intro i a ha
  have hl : i < g.vertices.length := by rw [← h.len]; exact (List.getElem?_eq_some_iff.mp ha).1
  have h2 : g.vertices[i]? = some g.vertices[i] := List.getElem?_eq_getElem hl
  obtain ⟨_, e2, e3⟩ := h.get i a _ ha h2
  exact ⟨by rw [e2]; exact hg.ids _ _ h2, e3 (hg.inv _ (List.getElem_mem hl))⟩

theorem Written.step {upd : Nat → T → T} {old new : List T} {D : List Nat} (h : Written upd old new D) {i : Nat}
    (hi : i ∉ D) {t : T} (ht : new[i]? = some t) : Written upd old (new.set i (upd D.length t)) (D ++ [i]) := by
  have hl : i < new.length := (List.getElem?_eq_some_iff.mp ht).1
  refine ⟨by simp [h.1], ?_, ?_⟩
  · intro k j hk
    rw [List.getElem?_append] at hk
    split at hk
    · have hne : i ≠ j := by rintro rfl; exact hi (List.mem_of_getElem? hk)
      rw [List.getElem?_set_ne hne]; exact h.2.1 k j hk
    · rename_i hkl
      rw [List.getElem?_singleton] at hk
      split at hk
      · simp at hk; subst hk
        have : k = D.length := by omega
        subst this
        rw [List.getElem?_set_self hl, ← h.2.2 i hi, ht]; rfl
      · simp at hk
  · intro j hj
    simp at hj
    rw [List.getElem?_set_ne (Ne.symm hj.2)]; exact h.2.2 j hj.1

theorem DfsI.congr {g g' : GenericGraph T A} (hn : g'.nextId = g.nextId) (hnb : ∀ i, g'.nbrs i = g.nbrs i)
    {v0 handled stack D} (h : DfsI g v0 handled stack D) : DfsI g' v0 handled stack D := by
  refine ⟨?_, by rw [h.len, hn]⟩
  have : (fun v w => w ∈ g'.nbrs v) = (fun v w => w ∈ g.nbrs v) := by funext v w; rw [hnb]
  rw [this]; exact h.inv

/-- `DfsMut` visits the vertices in the order of `DfsWithIndex`, hands out the data and writes each visited vertex
exactly once. -/
theorem dfsMut_spec {g : GenericGraph T A} (h : g.WF) (upd : Nat → T → T) {v : Nat} (hv : v < g.nextId) {fuel : Nat}
    (hf : g.nextId < fuel) :
    ∃ items g' order, g.dfsMut upd v fuel = .ok (items, g') ∧ g.dfsWithIndex v fuel = .ok order ∧
      items = order.map (·.2) ∧ g'.WF ∧ g'.nextId = g.nextId ∧ g'.edgeCount = g.edgeCount ∧
      (∀ i, g'.nbrs i = g.nbrs i) ∧ Written upd g.data g'.data (order.map (·.1)) := by
  have key : ∀ (fuel : Nat) (vs : List A) (handled : List Bool) (stack D : List Nat), SameAdj g vs →
      DfsI g v handled stack D → Written upd g.data (vs.map contained) D → g.nextId < fuel + D.length →
      ∃ (items : List T) (sm : DfsMutState A) (order : List (Nat × T)) (s : DfsState),
        collect (dfsMutNext upd) fuel ⟨vs, handled, stack, D.length⟩ = .ok (items, sm) ∧
        collect (dfsIndexNext g.vertices) fuel ⟨handled, stack⟩ = .ok (order, s) ∧
        items = order.map (·.2) ∧ SameAdj g sm.vertices ∧
        Written upd g.data (sm.vertices.map contained) (D ++ order.map (·.1)) := by
    intro fuel
    induction fuel with
    | zero => intro vs handled stack D _ hI _ hf; have := hI.length_le; omega
    | succ fuel ih =>
      intro vs handled stack D hs hI hw hf
      cases stack with
      | nil =>
        exact ⟨[], ⟨vs, handled, [], D.length⟩, [], ⟨handled, []⟩, by simp [collect, dfsMutNext],
          by simp [collect, dfsIndexNext], rfl, hs, by simpa using hw⟩
      | cons index stack =>
        have hlt := h.lt_length (hI.lt (Or.inl List.mem_cons_self))
        have hlt' : index < vs.length := by rw [hs.len]; exact hlt
        have e0 := List.getElem?_eq_getElem hlt
        have e0' := List.getElem?_eq_getElem hlt'
        have hnb' : neighbors vs[index] = g.nbrs index := by
          rw [(hs.get index _ _ e0' e0).1, nbrs_getElem hlt]
        obtain ⟨e1, e2⟩ := idx_nbrs hlt
        obtain ⟨handled', stack', e3, e4⟩ := DfsI.step h hI
        have hnD : index ∉ D := by
          have hnd := hI.inv.nodup
          simp only [List.cons_append, List.nodup_cons, List.mem_append, not_or] at hnd
          exact hnd.1.2
        have hold : contained vs[index] = contained g.vertices[index] := by
          have := hw.2.2 index hnD
          simpa [GenericGraph.data, hlt, hlt'] using this
        obtain ⟨items, sm, order, s, i1, i2, i3, i4, i5⟩ := ih
          (vs.set index (setContained vs[index] (upd D.length (contained vs[index])))) handled' stack' (D ++ [index])
          (hs.set e0' _) e4
          (by
            have := hw.step hnD (t := contained vs[index]) (by simp [hlt'])
            simpa [List.map_set, LawfulAdj.contained_set] using this)
          (by simp; omega)
        refine ⟨contained vs[index] :: items, sm, (index, contained g.vertices[index]) :: order, s, ?_, ?_, ?_, i4, ?_⟩
        · simp only [List.length_append, List.length_singleton] at i1
          simp [collect, dfsMutNext, Vec.idx_of_lt hlt', hnb', e3, i1]
        · simp [collect, dfsIndexNext, e1, e2, e3, i2]
        · simp [i3, hold]
        · simpa using i5
  obtain ⟨items, sm, order, s, i1, i2, i3, i4, i5⟩ := key fuel g.vertices _ _ [] (SameAdj.refl g) (DfsI.init g hv)
    ⟨rfl, by simp, by simp [GenericGraph.data]⟩ (by simpa using hf)
  have hnew : DfsMutState.new g v = ⟨g.vertices, (List.replicate g.nextId false).set v true, [v], 0⟩ := by
    simp [DfsMutState.new, GenericGraph.vertexCount, hv]
  have i1' : collect (dfsMutNext upd) fuel (DfsMutState.new g v) = .ok (items, sm) := by rw [hnew]; exact i1
  have i2' : collect (dfsIndexNext g.vertices) fuel (DfsState.new g v) = .ok (order, s) := by
    rw [DfsState.new_of_lt hv]; exact i2
  refine ⟨items, { g with vertices := sm.vertices }, order, ?_, ?_, i3, i4.wf h, rfl, rfl, i4.nbrs, ?_⟩
  · simp [GenericGraph.dfsMut, i1']
  · simp [GenericGraph.dfsWithIndex, i2']
  · simpa [GenericGraph.data] using i5

/-! ### BFS -/

/-- Invariant of the breadth first searches over the vertices accepted by `ok`. -/
structure BfsI (g : GenericGraph T A) (G : SimpleGraph ℕ) (ok : Nat → Prop) (v0 : Nat) (s : BfsState)
    (L : List (Nat × T × Nat)) : Prop where
  inv : BfsInv G v0 (fun k => s.handled[k]? = some true ∧ ok k) s.queue0 s.queue1 s.depth (L.map (·.1))
  len : s.handled.length = g.nextId
  rej : ∀ k < g.nextId, ¬ ok k → s.handled[k]? = some true
  items : ∀ p ∈ L, g.getContained p.1 = some p.2.1 ∧ p.2.2 = G.dist v0 p.1 ∧ p.2.2 ≤ s.depth
  sorted : (L.map (·.2.2)).Pairwise (· ≤ ·)

theorem BfsI.lt {g : GenericGraph T A} {G ok v0 s} {L : List (Nat × T × Nat)} (h : BfsI g G ok v0 s L) {v : Nat}
    (hv : v ∈ s.queue0 ∨ v ∈ s.queue1 ∨ v ∈ L.map (·.1)) : v < g.nextId ∧ ok v := by
  have := (h.inv.base.handled v).mpr (by simp only [List.mem_append]; tauto)
  rw [← h.len]
  exact ⟨(List.getElem?_eq_some_iff.mp this.1).1, this.2⟩

theorem BfsI.length_le {g : GenericGraph T A} {G ok v0 s} {L : List (Nat × T × Nat)} (h : BfsI g G ok v0 s L) :
    L.length ≤ g.nextId := by
  have h1 := h.inv.base.nodup_done
  have h2 : L.map (·.1) ⊆ List.range g.nextId := by
    intro x hx; simpa using (h.lt (Or.inr (Or.inr hx))).1
  simpa using (h1.subperm h2).length_le

theorem BfsI.visit {g : GenericGraph T A} (h : g.WF) {G : SimpleGraph ℕ} {ok : Nat → Prop}
    (hG : ∀ v w, G.Adj v w ↔ w ∈ g.nbrs v ∧ ok v ∧ ok w) {v0 index : Nat} {q0 q1 : List Nat} {handled : List Bool} {d : Nat}
    {L : List (Nat × T × Nat)} (hI : BfsI g G ok v0 ⟨handled, index :: q0, q1, d⟩ L) :
    ∃ handled' q1' t, visitQueue (g.nbrs index) handled q1 = .ok (handled', q1') ∧ g.getContained index = some t ∧
      BfsI g G ok v0 ⟨handled', q0, q1', d⟩ (L ++ [(index, t, d)]) := by
  obtain ⟨hil, hio⟩ := hI.lt (v := index) (Or.inl List.mem_cons_self)
  have hlen : handled.length = g.nextId := hI.len
  have hrej : ∀ k < g.nextId, ¬ ok k → handled[k]? = some true := hI.rej
  have hlt : ∀ i ∈ g.nbrs index, i < handled.length := fun i hi => by rw [hlen]; exact h.lt _ _ hi
  obtain ⟨handled', new, h1, h2⟩ := visitQueue_spec _ handled q1 hlt
  obtain ⟨s1, s2⟩ := visited_step h hlen h2
  have hl := h.lt_length hil
  refine ⟨handled', q1 ++ new, contained g.vertices[index], h1, by simp [GenericGraph.getContained, hl], ?_, ?_, ?_, ?_, ?_⟩
  · have hb := hI.inv.pop (new := new) (H' := fun k => handled'[k]? = some true ∧ ok k) (q1' := q1 ++ new) ?_ h2.nodup ?_ rfl
    · simpa using hb
    · intro w
      rw [s1, hG]
      constructor
      · rintro ⟨a, b⟩
        have hwo : ok w := by
          by_contra hc; exact b (hrej w (h.lt _ _ a) hc)
        exact ⟨⟨a, hio, hwo⟩, fun hc => b hc.1⟩
      · rintro ⟨⟨a, _, b⟩, c⟩
        exact ⟨a, fun hc => c ⟨hc, b⟩⟩
    · intro w
      show (handled'[w]? = some true ∧ ok w) ↔ (handled[w]? = some true ∧ ok w) ∨ w ∈ new
      rw [s2]
      constructor
      · rintro ⟨a | a, b⟩
        · exact Or.inl ⟨a, b⟩
        · exact Or.inr a
      · rintro (⟨a, b⟩ | a)
        · exact ⟨Or.inl a, b⟩
        · refine ⟨Or.inr a, ?_⟩
          obtain ⟨a1, a2⟩ := (s1 w).mp a
          by_contra hc; exact a2 (hrej w (h.lt _ _ a1) hc)
  · show handled'.length = _
    rw [h2.len, hlen]
  · intro k hk hok
    exact (s2 k).mpr (Or.inl (hrej k hk hok))
  · intro p hp
    rcases List.mem_append.mp hp with hp | hp
    · exact hI.items p hp
    · simp at hp; subst hp
      refine ⟨by simp [GenericGraph.getContained, hl], ?_, le_refl _⟩
      exact (hI.inv.d0 index List.mem_cons_self).symm
  · rw [List.map_append, List.pairwise_append]
    refine ⟨hI.sorted, by simp, ?_⟩
    intro a ha b hb
    simp at hb; subst hb
    obtain ⟨p, hp, rfl⟩ := List.mem_map.mp ha
    exact (hI.items p hp).2.2

theorem BfsI.swapQueues {g : GenericGraph T A} {G : SimpleGraph ℕ} {ok : Nat → Prop} {v0 : Nat} {q1 : List Nat}
    {handled : List Bool} {d : Nat} {L : List (Nat × T × Nat)} (hI : BfsI g G ok v0 ⟨handled, [], q1, d⟩ L) :
    BfsI g G ok v0 ⟨handled, q1, [], d + 1⟩ L :=
  ⟨hI.inv.swap, hI.len, hI.rej, fun p hp => by
    obtain ⟨a, b, c⟩ := hI.items p hp
    exact ⟨a, b, by simp only at c ⊢; omega⟩, hI.sorted⟩

/-- One call of `next`: either the end is reached, or an item comes out and the invariant goes on. -/
theorem bfsNext_step {g : GenericGraph T A} (h : g.WF) {G : SimpleGraph ℕ} {ok : Nat → Prop}
    (hG : ∀ v w, G.Adj v w ↔ w ∈ g.nbrs v ∧ ok v ∧ ok w) {v0 : Nat} {s : BfsState}
    {L : List (Nat × T × Nat)} (hI : BfsI g G ok v0 s L) :
    (bfsNext g.vertices s = .ok (none, s) ∧ bfsFilteredNext g.vertices s = .ok (none, s) ∧ s.queue0 = [] ∧ s.queue1 = []) ∨
    (∃ x s', bfsNext g.vertices s = .ok (some x, s') ∧ bfsFilteredNext g.vertices s = .ok (some x, s') ∧
      BfsI g G ok v0 s' (L ++ [x])) := by
  obtain ⟨handled, q0, q1, d⟩ := s
  have main : ∀ index q0 q1 d, BfsI g G ok v0 ⟨handled, index :: q0, q1, d⟩ L →
      ∃ x s', (∀ qq, bfsVisit g.vertices ⟨handled, qq, q1, d⟩ index q0 = .ok (some x, s')) ∧
        (∀ qq, bfsFilteredVisit g.vertices ⟨handled, qq, q1, d⟩ index q0 = .ok (some x, s')) ∧
        BfsI g G ok v0 s' (L ++ [x]) := by
    intro index q0 q1 d hI
    obtain ⟨handled', q1', t, e1, e2, e3⟩ := BfsI.visit h hG hI
    have hlt := h.lt_length (hI.lt (v := index) (Or.inl List.mem_cons_self)).1
    obtain ⟨f1, f2⟩ := idx_nbrs hlt
    have ht : contained g.vertices[index] = t := by
      simpa [GenericGraph.getContained, hlt] using e2
    refine ⟨_, _, ?_, ?_, e3⟩
    · intro qq; simp [bfsVisit, f1, f2, e1, ht]
    · intro qq; simp [bfsFilteredVisit, List.getElem?_eq_getElem hlt, f2, e1, ht]
  cases q0 with
  | cons index q0 =>
    right
    obtain ⟨x, s', e1, e2, e3⟩ := main index q0 q1 d hI
    exact ⟨x, s', e1 _, e2 _, e3⟩
  | nil =>
    cases q1 with
    | nil => exact Or.inl ⟨rfl, rfl, rfl, rfl⟩
    | cons index q1 =>
      right
      obtain ⟨x, s', e1, e2, e3⟩ := main index q1 [] (d + 1) hI.swapQueues
      exact ⟨x, s', e1 _, e2 _, e3⟩

theorem BfsI.order {g : GenericGraph T A} {G ok v0} {s : BfsState} {L : List (Nat × T × Nat)}
    (h : BfsI g G ok v0 s L) (h0 : s.queue0 = []) (h1 : s.queue1 = []) : BfsOrder g G v0 L := by
  have hb := h.inv.base
  rw [h0, h1] at hb
  refine ⟨hb.nodup_done, ?_, ?_, fun p hp => (h.items p hp).1, fun p hp => (h.items p hp).2.1, h.sorted⟩
  · intro w; rw [hb.done, reachable_iff_rtg]
  · rcases hb.first with ⟨_, h2⟩ | h2
    · simp at h2
    · exact h2

theorem BfsState.new_of_lt {g : GenericGraph T A} {v : Nat} (hv : v < g.nextId) :
    BfsState.new g v = ⟨(List.replicate g.nextId false).set v true, [v], [], 0⟩ := by
  simp [BfsState.new, GenericGraph.vertexCount, hv]

theorem BfsState.new_of_ge {g : GenericGraph T A} {v : Nat} (hv : ¬ v < g.nextId) :
    BfsState.new g v = ⟨List.replicate g.nextId false, [], [], 0⟩ := by
  simp [BfsState.new, GenericGraph.vertexCount, hv]

theorem BfsI.init {g : GenericGraph T A} {v : Nat} (hv : v < g.nextId) (G : SimpleGraph ℕ) :
    BfsI g G (fun _ => True) v (BfsState.new g v) [] := by
  rw [BfsState.new_of_lt hv]
  refine ⟨BfsInv.init ?_, by simp, by simp, by simp, by simp⟩
  intro k
  show ((List.replicate g.nextId false).set v true)[k]? = some true ∧ True ↔ _
  rw [List.getElem?_set]
  by_cases hk : v = k
  · subst hk; simp [hv]
  · simp [hk, List.getElem?_replicate, Ne.symm hk]

theorem hG_true {g : GenericGraph T A} (h : g.WF) : ∀ v w, g.toSimple.Adj v w ↔ w ∈ g.nbrs v ∧ True ∧ True := by
  intro v w; rw [h.adj_iff]; simp

/-- Running `Bfs` from any state satisfying the invariant. -/
theorem collect_bfs {g : GenericGraph T A} (h : g.WF) {G : SimpleGraph ℕ} {ok : Nat → Prop}
    (hG : ∀ v w, G.Adj v w ↔ w ∈ g.nbrs v ∧ ok v ∧ ok w) {v : Nat} {s : BfsState} (hI : BfsI g G ok v s [])
    {fuel : Nat} (hf : g.nextId < fuel) :
    ∃ L s', collect (bfsNext g.vertices) fuel s = .ok (L, s') ∧ BfsOrder g G v L ∧ s'.handled.length = g.nextId := by
  obtain ⟨L', s', h1, h2⟩ := collect_spec (next := bfsNext g.vertices)
    (fun s L => BfsI g G ok v s L) (fun s L => BfsOrder g G v L ∧ s.handled.length = g.nextId) g.nextId
    (by
      intro s L hI
      rcases bfsNext_step h hG hI with ⟨e1, _, e3, e4⟩ | ⟨x, s', e1, _, e3⟩
      · exact Or.inl ⟨s, e1, hI.order e3 e4, hI.len⟩
      · exact Or.inr ⟨x, s', e1, e3⟩)
    (fun s L hI => hI.length_le) fuel s [] hI (by simpa using hf)
  exact ⟨L', s', h1, by simpa using h2⟩

theorem collect_bfsFiltered {g : GenericGraph T A} (h : g.WF) {G : SimpleGraph ℕ} {ok : Nat → Prop}
    (hG : ∀ v w, G.Adj v w ↔ w ∈ g.nbrs v ∧ ok v ∧ ok w) {v : Nat} {s : BfsState} (hI : BfsI g G ok v s [])
    {fuel : Nat} (hf : g.nextId < fuel) :
    ∃ L s', collect (bfsFilteredNext g.vertices) fuel s = .ok (L, s') ∧ BfsOrder g G v L := by
  obtain ⟨L', s', h1, h2⟩ := collect_spec (next := bfsFilteredNext g.vertices)
    (fun s L => BfsI g G ok v s L) (fun s L => BfsOrder g G v L) g.nextId
    (by
      intro s L hI
      rcases bfsNext_step h hG hI with ⟨_, e1, e3, e4⟩ | ⟨x, s', _, e1, e3⟩
      · exact Or.inl ⟨s, e1, hI.order e3 e4⟩
      · exact Or.inr ⟨x, s', e1, e3⟩)
    (fun s L hI => hI.length_le) fuel s [] hI (by simpa using hf)
  exact ⟨L', s', h1, by simpa using h2⟩

theorem bfs_spec {g : GenericGraph T A} (h : g.WF) {v : Nat} (hv : v < g.nextId) {fuel : Nat} (hf : g.nextId < fuel) :
    ∃ L, g.bfs v fuel = .ok L ∧ BfsOrder g g.toSimple v L := by
  obtain ⟨L, s', h1, h2, _⟩ := collect_bfs h (hG_true h) (BfsI.init hv _) hf
  exact ⟨L, by simp [GenericGraph.bfs, h1], h2⟩

theorem bfs_out {g : GenericGraph T A} {v : Nat} (hv : ¬ v < g.nextId) {fuel : Nat} (hf : 0 < fuel) :
    g.bfs v fuel = .ok [] := by
  obtain ⟨f, rfl⟩ : ∃ f, fuel = f + 1 := ⟨fuel - 1, by omega⟩
  simp [GenericGraph.bfs, BfsState.new_of_ge hv, collect, bfsNext]

end Verif
