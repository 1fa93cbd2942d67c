import Verif.Lemmas.Traverse2

/-!
# C10 - C14: the traversal iterators

`fuel` bounds the number of `next` calls in the model; the statements hold for every `fuel` above the number of
vertices, so the iterators end after at most that many items.
-/

set_option linter.unusedSectionVars false
set_option linter.unusedSimpArgs false

namespace Verif
open AdjContainer GenericGraph

variable {T A : Type} [AdjContainer T A] [LawfulAdj T A]

/-! ### C10 -/

/-- `dfs_with_index`: every reachable vertex exactly once together with its data. -/
theorem C10_dfs_with_index {g : GenericGraph T A} (h : g.WF) {v : Nat} (hv : v < g.vertexCount) {fuel : Nat}
    (hf : g.vertexCount < fuel) :
    ∃ items, g.dfsWithIndex v fuel = .ok items ∧ DfsOrder g v (items.map (·.1)) ∧
      ∀ p ∈ items, g.getContained p.1 = some p.2 :=
  dfsWithIndex_spec h hv hf

/-- `dfs` yields the data of the vertices in the order of `dfs_with_index`. -/
theorem C10_dfs {g : GenericGraph T A} (h : g.WF) {v : Nat} (hv : v < g.vertexCount) {fuel : Nat}
    (hf : g.vertexCount < fuel) :
    ∃ order items, g.dfsWithIndex v fuel = .ok order ∧ g.dfs v fuel = .ok items ∧ items = order.map (·.2) ∧
      DfsOrder g v (order.map (·.1)) ∧ items.map some = (order.map (·.1)).map g.getContained := by
  obtain ⟨items, h1, h2, h3⟩ := dfsWithIndex_spec h hv hf
  refine ⟨items, items.map (·.2), h1, by simp [dfs_eq_dfsWithIndex, h1], rfl, h2, ?_⟩
  rw [List.map_map, List.map_map]
  exact List.map_congr_left fun p hp => (h3 p hp).symm

/-- `dfs_mut` with any writes yields the same items as `dfs` in the same order, changes exactly the visited vertices,
each once, and leaves the topology alone. -/
theorem C10_dfs_mut {g : GenericGraph T A} (h : g.WF) (upd : Nat → T → T) {v : Nat} (hv : v < g.vertexCount) {fuel : Nat}
    (hf : g.vertexCount < fuel) :
    ∃ order items g', g.dfsWithIndex v fuel = .ok order ∧ g.dfs v fuel = .ok items ∧
      g.dfsMut upd v fuel = .ok (items, g') ∧ g'.WF ∧ g'.vertexCount = g.vertexCount ∧ g'.edgeCount = g.edgeCount ∧
      (∀ i, g'.nbrs i = g.nbrs i) ∧ Written upd g.data g'.data (order.map (·.1)) := by
  obtain ⟨items, g', order, h1, h2, h3, h4, h5, h6, h7, h8⟩ := dfsMut_spec h upd hv hf
  exact ⟨order, items, g', h2, by simp [dfs_eq_dfsWithIndex, h2, h3], h1, h4, h5, h6, h7, h8⟩

/-- An index out of range yields nothing. -/
theorem C10_out_of_range {g : GenericGraph T A} {v : Nat} (hv : g.vertexCount ≤ v) {fuel : Nat} (hf : 0 < fuel)
    (upd : Nat → T → T) :
    g.dfsWithIndex v fuel = .ok [] ∧ g.dfs v fuel = .ok [] ∧ g.dfsMut upd v fuel = .ok ([], g) := by
  have hv' : ¬ v < g.nextId := by have : g.nextId ≤ v := hv; omega
  have h1 := dfsWithIndex_out (g := g) hv' hf
  refine ⟨h1, by simp [dfs_eq_dfsWithIndex, h1], ?_⟩
  obtain ⟨f, rfl⟩ : ∃ f, fuel = f + 1 := ⟨fuel - 1, by omega⟩
  simp [GenericGraph.dfsMut, DfsMutState.new, GenericGraph.vertexCount, hv', collect, dfsMutNext]

example : exTail.WF ∧ 1 < exTail.vertexCount ∧ exTail.dfsWithIndex 1 6 = .ok [(1, 10), (2, 20), (3, 30), (0, 0)] ∧
    exTail.dfs 1 6 = .ok [10, 20, 30, 0] ∧
    exTail.dfsMut (fun k t => 100 * k + t) 1 6 =
      .ok ([10, 20, 30, 0], ⟨5, 4, [⟨0, [1, 2], 300⟩, ⟨1, [0, 2], 10⟩, ⟨2, [1, 0, 3], 120⟩, ⟨3, [2], 230⟩, ⟨4, [], 40⟩]⟩) :=
  ⟨exTail_wf, by decide, by decide, by decide, by decide⟩

/-! ### C11 -/

/-- `bfs_index_depth`: every reachable vertex exactly once with its exact distance, in order of distance. -/
theorem C11_bfs {g : GenericGraph T A} (h : g.WF) {v : Nat} (hv : v < g.vertexCount) {fuel : Nat}
    (hf : g.vertexCount < fuel) : ∃ L, g.bfs v fuel = .ok L ∧ BfsOrder g g.toSimple v L :=
  bfs_spec h hv hf

/-- `bfs_index_depth_mut` with any writes yields the same items, writes each visited vertex once and leaves the
topology alone. -/
theorem C11_bfs_mut {g : GenericGraph T A} (h : g.WF) (upd : Nat → T → T) {v : Nat} (hv : v < g.vertexCount) {fuel : Nat}
    (hf : g.vertexCount < fuel) :
    ∃ items g', g.bfsMut upd v fuel = .ok (items, g') ∧ g.bfs v fuel = .ok items ∧ BfsOrder g g.toSimple v items ∧
      g'.WF ∧ g'.vertexCount = g.vertexCount ∧ g'.edgeCount = g.edgeCount ∧
      (∀ i, g'.nbrs i = g.nbrs i) ∧ Written upd g.data g'.data (items.map (·.1)) := by
  obtain ⟨items, g', h1, h2, h3, h4, h5, h6, h7⟩ := bfsMut_spec h upd hv hf
  obtain ⟨L, e1, e2⟩ := bfs_spec h hv hf
  rw [h2] at e1
  cases e1
  exact ⟨items, g', h1, h2, e2, h3, h4, h5, h6, h7⟩

theorem C11_out_of_range {g : GenericGraph T A} {v : Nat} (hv : g.vertexCount ≤ v) {fuel : Nat} (hf : 0 < fuel)
    (upd : Nat → T → T) : g.bfs v fuel = .ok [] ∧ g.bfsMut upd v fuel = .ok ([], g) := by
  have hv' : ¬ v < g.nextId := by have : g.nextId ≤ v := hv; omega
  refine ⟨bfs_out hv' hf, ?_⟩
  obtain ⟨f, rfl⟩ : ∃ f, fuel = f + 1 := ⟨fuel - 1, by omega⟩
  simp [GenericGraph.bfsMut, BfsMutState.new, BfsState.new_of_ge hv', collect, bfsMutNext, bfsNext]

example : exTail.WF ∧ 3 < exTail.vertexCount ∧ exTail.bfs 3 6 = .ok [(3, 30, 0), (2, 20, 1), (1, 10, 2), (0, 0, 2)] ∧
    exTail.bfs 4 6 = .ok [(4, 40, 0)] ∧ exTail.bfs 5 6 = .ok [] :=
  ⟨exTail_wf, by decide, by decide, by decide, by decide⟩

/-! ### C12 -/

/-- After any number `k` of `next` calls on a `Bfs` started at `i`, `reuse(j)` gives an iterator that yields exactly
what a fresh one started at `j` yields. -/
theorem C12_reuse {g : GenericGraph T A} (h : g.WF) (i j k : Nat) :
    ∃ s s', advance (bfsNext g.vertices) k (BfsState.new g i) = .ok s ∧ BfsState.reuse g.vertices s j = .ok s' ∧
      ∀ fuel, (do let (l, _) ← collect (bfsNext g.vertices) fuel s'; return l : Res _) = g.bfs j fuel := by
  have hadv : ∃ s, advance (bfsNext g.vertices) k (BfsState.new g i) = .ok s := by
    by_cases hi : i < g.nextId
    · obtain ⟨s, h1, _⟩ := advance_inv (next := bfsNext g.vertices)
        (fun s => ∃ L, BfsI g g.toSimple (fun _ => True) i s L)
        (by
          rintro s ⟨L, hI⟩
          rcases bfsNext_step h (hG_true h) hI with ⟨e1, _⟩ | ⟨x, s', e1, _, e3⟩
          · exact ⟨none, s, e1, L, hI⟩
          · exact ⟨some x, s', e1, _, e3⟩) k (BfsState.new g i) ⟨[], BfsI.init hi _⟩
      exact ⟨s, h1⟩
    · obtain ⟨s, h1, _⟩ := advance_inv (next := bfsNext g.vertices) (fun s => s = BfsState.new g i)
        (by rintro s rfl; exact ⟨none, _, by rw [BfsState.new_of_ge hi]; rfl, rfl⟩) k _ rfl
      exact ⟨s, h1⟩
  obtain ⟨s, hs⟩ := hadv
  have hl : s.handled.length = g.nextId := by
    rw [advance_bfs_length k _ _ hs, BfsState.new_handled_length]
  exact ⟨s, BfsState.new g j, hs, BfsState.reuse_eq_new h.len s hl j, fun fuel => rfl⟩

example : exTail.WF ∧ advance (bfsNext exTail.vertices) 2 (BfsState.new exTail 0) = .ok ⟨[true, true, true, false, false], [2], [], 1⟩ ∧
    BfsState.reuse exTail.vertices ⟨[true, true, true, false, false], [2], [], 1⟩ 3 =
      .ok ⟨[false, false, false, true, false], [3], [], 0⟩ := ⟨exTail_wf, by decide, by decide⟩

/-! ### C13 -/

/-- `bfs_filtered` is `None` exactly if the start is out of range or rejected, and explores the component of the start
in the subgraph induced by the accepted vertices, with the distances of that subgraph. -/
theorem C13_bfs_filtered {g : GenericGraph T A} (h : g.WF) (f : T → Nat → Bool) (v : Nat) {fuel : Nat}
    (hf : g.vertexCount < fuel) :
    (¬ Accepted g f v → g.bfsFiltered v f fuel = .ok none) ∧
    (Accepted g f v → ∃ L, g.bfsFiltered v f fuel = .ok (some L) ∧ BfsOrder g (filteredGraph g f) v L) := by
  refine ⟨fun hv => ?_, fun hv => bfsFiltered_spec h hv hf⟩
  simp [GenericGraph.bfsFiltered, newFiltered_none h hv]

/-- Out of range starts are not accepted, in range the filter decides. -/
theorem C13_accepted_iff {g : GenericGraph T A} (h : g.WF) (f : T → Nat → Bool) (v : Nat) :
    Accepted g f v ↔ v < g.vertexCount ∧ ∃ t, g.data[v]? = some t ∧ f t v = true := by
  unfold Accepted
  rw [getContained_eq]
  constructor
  · rintro ⟨t, h1, h2⟩
    refine ⟨?_, t, h1, h2⟩
    have := (List.getElem?_eq_some_iff.mp h1).1
    simpa [GenericGraph.data, h.len, GenericGraph.vertexCount] using this
  · rintro ⟨_, t, h1, h2⟩; exact ⟨t, h1, h2⟩

example : exTail.WF ∧ Accepted exTail (fun _ i => i != 2) 0 ∧ ¬ Accepted exTail (fun _ i => i != 2) 2 ∧
    exTail.bfsFiltered 0 (fun _ i => i != 2) 6 = .ok (some [(0, 0, 0), (1, 10, 1)]) ∧
    exTail.bfsFiltered 2 (fun _ i => i != 2) 6 = .ok none :=
  ⟨exTail_wf, ⟨0, by decide, by decide⟩, by rintro ⟨t, _, h⟩; simp at h, by decide, by decide⟩

/-- Partly consuming a filtered search: the items taken are a prefix of the whole run. -/
theorem advance_filtered {g : GenericGraph T A} (h : g.WF) {f : T → Nat → Bool} {i : Nat} :
    ∀ (k : Nat) (s : BfsState) (L : List (Nat × T × Nat)), BfsI g (filteredGraph g f) (Accepted g f) i s L →
      ∃ s' L', advance (bfsFilteredNext g.vertices) k s = .ok s' ∧
        BfsI g (filteredGraph g f) (Accepted g f) i s' (L ++ L') ∧
        ∀ fuel all send, collect (bfsFilteredNext g.vertices) fuel s = .ok (all, send) → all.take k = L' := by
  intro k
  induction k with
  | zero => intro s L hI; exact ⟨s, [], rfl, by simpa using hI, by simp⟩
  | succ k ih =>
    intro s L hI
    rcases bfsNext_step h (G := filteredGraph g f) (ok := Accepted g f)
      (fun v w => by simp [filteredGraph, h.adj_iff]) hI with ⟨_, e1, _⟩ | ⟨x, s', _, e1, e3⟩
    · refine ⟨s, [], ?_, by simpa using hI, ?_⟩
      · have : ∀ j, advance (bfsFilteredNext (T := T) g.vertices) j s = .ok s := by
          intro j
          induction j with
          | zero => rfl
          | succ j ih => simp [advance, e1, ih]
        exact this _
      · intro fuel all send hc
        cases fuel with
        | zero => simp [collect] at hc
        | succ fuel => simp [collect, e1] at hc; rw [hc.1]; simp
    · obtain ⟨s2, L2, i1, i2, i3⟩ := ih s' (L ++ [x]) e3
      refine ⟨s2, x :: L2, by simp [advance, e1, i1], by simpa using i2, ?_⟩
      intro fuel all send hc
      cases fuel with
      | zero => simp [collect] at hc
      | succ fuel =>
        rw [collect, e1, Res.ok_bind] at hc
        cases hc' : collect (bfsFilteredNext (T := T) g.vertices) fuel s' with
        | panic => simp [hc'] at hc
        | diverge => simp [hc'] at hc
        | ok p =>
          simp [hc'] at hc
          rw [← hc.1]
          simp [i3 fuel p.1 p.2 hc']

open Classical in
/-- `is_handled(j)` after any number `k` of `next` calls: for vertices accepted by the filter it says whether the vertex has been
met, i.e. is the start or was yielded or is adjacent to a yielded vertex; rejected vertices count as handled from the
beginning; it panics exactly out of range. -/
theorem C13_is_handled {g : GenericGraph T A} (h : g.WF) (f : T → Nat → Bool) {i : Nat} (hi : Accepted g f i) (k : Nat)
    {fuel : Nat} (hf : g.vertexCount < fuel) :
    ∃ s0 s items, BfsState.newFiltered g i f = .ok (some s0) ∧ advance (bfsFilteredNext g.vertices) k s0 = .ok s ∧
      g.bfsFiltered i f fuel = .ok (some items) ∧ ∀ j,
        (j < g.vertexCount → s.isHandled j = .ok (decide (¬ Accepted g f j ∨ j = i ∨
          ∃ p ∈ items.take k, j = p.1 ∨ (Accepted g f j ∧ g.toSimple.Adj p.1 j)))) ∧
        (g.vertexCount ≤ j → s.isHandled j = .panic) := by
  have hI0 := BfsI.initFiltered h hi
  obtain ⟨items, send, e1, -⟩ := collect_bfsFiltered h (G := filteredGraph g f) (ok := Accepted g f)
    (fun v w => by simp [filteredGraph, h.adj_iff]) hI0 hf
  obtain ⟨s, L, a1, a2, a3⟩ := advance_filtered h k _ [] hI0
  have hL := a3 _ _ _ e1
  refine ⟨_, s, items, newFiltered_some h hi, a1, by simp [GenericGraph.bfsFiltered, newFiltered_some h hi, e1], ?_⟩
  rw [List.nil_append] at a2
  intro j
  have hlen := a2.len
  refine ⟨fun hj => ?_, fun hj => ?_⟩
  · have hj' : j < s.handled.length := by rw [hlen]; exact hj
    unfold BfsState.isHandled
    rw [Vec.idx_of_lt hj']
    congr 1
    have hget : s.handled[j]? = some s.handled[j] := List.getElem?_eq_getElem hj'
    suffices hs : s.handled[j] = true ↔ (¬ Accepted g f j ∨ j = i ∨
          ∃ p ∈ items.take k, j = p.1 ∨ (Accepted g f j ∧ g.toSimple.Adj p.1 j)) by
      rw [Bool.eq_iff_iff, hs, decide_eq_true_iff]
    rw [hL]
    by_cases hacc : Accepted g f j
    · have hb := a2.inv.base
      have hH := hb.handled j
      simp only [hget, Option.some.injEq, hacc, and_true] at hH
      constructor
      · intro ht
        right
        rcases hH.mp ht with hq | hD
        · by_cases hji : j = i
          · exact Or.inl hji
          · obtain ⟨y, hy, hadj⟩ := hb.par j hq hji
            obtain ⟨p, hp, rfl⟩ := List.mem_map.mp hy
            exact Or.inr ⟨p, hp, Or.inr ⟨hacc, hadj.1⟩⟩
        · obtain ⟨p, hp, rfl⟩ := List.mem_map.mp hD
          exact Or.inr ⟨p, hp, Or.inl rfl⟩
      · rintro (hn | rfl | ⟨p, hp, rfl | ⟨_, hadj⟩⟩)
        · exact absurd hacc hn
        · have := hb.start
          simpa [hget] using this.1
        · exact hH.mpr (Or.inr (List.mem_map_of_mem hp))
        · have hpD : p.1 ∈ L.map (·.1) := List.mem_map_of_mem hp
          have hpa := (a2.lt (Or.inr (Or.inr hpD))).2
          have := hb.closed p.1 hpD j ⟨hadj, hpa, hacc⟩
          simpa [hget] using this.1
    · have := a2.rej j hj hacc
      rw [hget] at this
      simp at this
      simp [this, hacc]
  · unfold BfsState.isHandled Vec.idx
    have : s.handled.length ≤ j := by rw [hlen]; exact hj
    rw [List.getElem?_eq_none this]

/-- A vertex that the filter rejects is reported as handled although no search from 3 can meet it. -/
example : exTail.WF ∧ Accepted exTail (fun _ i => i != 4) 3 ∧
    BfsState.newFiltered exTail 3 (fun _ i => i != 4) = .ok (some ⟨[false, false, false, true, true], [3], [], 0⟩) ∧
    BfsState.isHandled ⟨[false, false, false, true, true], [3], [], 0⟩ 4 = .ok true ∧
    BfsState.isHandled ⟨[false, false, false, true, true], [3], [], 0⟩ 2 = .ok false ∧ ¬ exTail.toSimple.Adj 3 4 :=
  ⟨exTail_wf, ⟨30, by decide, by decide⟩, by decide, by decide, by decide,
    fun hc => by rw [exTail_wf.adj_iff] at hc; revert hc; decide⟩

/-! ### C14 -/

/-- What `reuse` of a filtered BFS followed by running it to the end yields: `error` if `reuse` gives the iterator
back unchanged. -/
def reuseFilteredRun (g : GenericGraph T A) (s : BfsState) (j : Nat) (f : T → Nat → Bool) (fuel : Nat) :
    Res (Option (List (Nat × T × Nat))) := do
  match ← BfsState.reuseFiltered g.vertices s j f with
  | .error _ => return none
  | .ok s => do
    let (l, _) ← collect (bfsFilteredNext g.vertices) fuel s
    return some l

/-- The claim of C14: `reuse(j, f)` is as good as a fresh filtered search. -/
def C14Claim : Prop :=
  ∀ (g : Graph Nat) (_ : g.WF) (i : Nat) (f : Nat → Nat → Bool) (s0 s : BfsState) (k : Nat),
    BfsState.newFiltered g i f = .ok (some s0) → advance (bfsFilteredNext g.vertices) k s0 = .ok s →
    ∀ j fuel, g.vertexCount < fuel → reuseFilteredRun g s j f fuel = g.bfsFiltered j f fuel

/-- The code violates C14: on the path `0-1-2-3` with vertex 1 rejected the reused iterator walks through vertex 1. -/
theorem C14_reuse_ignores_filter_violation : ¬ C14Claim := by
  intro h
  have := h exPath exPath_wf 0 (fun _ i => i != 1) ⟨[true, true, false, false], [0], [], 0⟩
    ⟨[true, true, false, false], [0], [], 0⟩ 0 (by decide) rfl 0 5 (by decide)
  revert this
  decide

/-- The code violates C14 also at `j = vertex_count`: instead of giving an error it panics, for every graph, filter and
state of the iterator. -/
theorem C14_reuse_at_vertex_count_panics_violation {g : GenericGraph T A} (h : g.WF) (s : BfsState) (f : T → Nat → Bool) :
    BfsState.reuseFiltered g.vertices s g.vertexCount f = .panic := by
  have hl : g.vertices.length = g.vertexCount := h.len
  have hx : Vec.idx g.vertices g.vertexCount = .panic := by
    unfold Vec.idx
    rw [List.getElem?_eq_none (by omega)]
  simp [BfsState.reuseFiltered, hl, hx]

/-- What is true for all graphs, filters, starts and interruption points.  Rejected and (strictly) out of range `j` are
refused and the iterator is unchanged; an accepted `j` is searched *without* the filter, so the reused iterator equals
a fresh unfiltered BFS; it equals the fresh filtered one if the filter accepts all vertices.  Missing: respecting the
filter and `j = vertex_count`, both false (see the two `violation` theorems). -/
theorem C14_reuse_partial {g : GenericGraph T A} (h : g.WF) (i : Nat) (f f' : T → Nat → Bool) {s0 s : BfsState} {k : Nat}
    (h0 : BfsState.newFiltered g i f = .ok (some s0)) (hk : advance (bfsFilteredNext g.vertices) k s0 = .ok s)
    (j : Nat) (hj : j ≠ g.vertexCount) {fuel : Nat} (hf : g.vertexCount < fuel) :
    (¬ Accepted g f' j → BfsState.reuseFiltered g.vertices s j f' = .ok (.error s)) ∧
    (Accepted g f' j → ∃ L, reuseFilteredRun g s j f' fuel = .ok (some L) ∧ BfsOrder g g.toSimple j L) ∧
    ((∀ k < g.vertexCount, Accepted g f' k) → reuseFilteredRun g s j f' fuel = g.bfsFiltered j f' fuel) := by
  have hl : g.vertices.length = g.nextId := h.len
  have hi : Accepted g f i := by
    by_contra hc
    rw [newFiltered_none h hc] at h0; simp at h0
  have hs : s.handled.length = g.nextId := by
    rw [newFiltered_some h hi] at h0
    simp at h0
    have hI := BfsI.initFiltered h hi
    rw [h0] at hI
    obtain ⟨s', e1, L, e2⟩ := advance_inv (next := bfsFilteredNext g.vertices)
        (fun s => ∃ L, BfsI g (filteredGraph g f) (Accepted g f) i s L)
        (by
          rintro s ⟨L, hI⟩
          rcases bfsNext_step h (G := filteredGraph g f) (ok := Accepted g f)
            (fun v w => by simp [filteredGraph, h.adj_iff]) hI with ⟨_, e1, _⟩ | ⟨x, s', _, e1, e3⟩
          · exact ⟨none, s, e1, L, hI⟩
          · exact ⟨some x, s', e1, _, e3⟩) k s0 ⟨[], hI⟩
    rw [e1] at hk
    simp at hk
    subst hk; exact e2.len
  have hacc : ∀ {j}, Accepted g f' j → BfsState.reuseFiltered g.vertices s j f' = .ok (.ok (BfsState.new g j)) := by
    intro j hv
    obtain ⟨t, h1, h2⟩ := hv
    have hlt : j < g.vertices.length := by
      by_contra hc
      simp [GenericGraph.getContained, List.getElem?_eq_none (by omega : g.vertices.length ≤ j)] at h1
    have hn : j < g.nextId := by omega
    have ht : contained g.vertices[j] = t := by simpa [GenericGraph.getContained, hlt] using h1
    have hm : ((filterHandled g.vertices f').take s.handled.length ++ s.handled.drop g.vertices.length).map (fun _ => false)
        = List.replicate g.nextId false := by
      rw [List.map_const']
      congr 1
      simp [filterHandled_length, hs, hl]
    have hng : ¬ g.vertices.length < j := by omega
    rw [BfsState.new_of_lt hn]
    simp only [BfsState.reuseFiltered, gt_iff_lt, hng, if_false, Vec.idx_of_lt hlt, Res.ok_bind, ht, h2, hm]
    simp [Vec.put, hn]
  have hrun : Accepted g f' j → ∃ L, reuseFilteredRun g s j f' fuel = .ok (some L) ∧ BfsOrder g g.toSimple j L := by
    intro hv
    have hn : j < g.nextId := by
      have := ((C13_accepted_iff h f' j).mp hv).1; exact this
    obtain ⟨L, s', e1, e2⟩ := collect_bfsFiltered h (hG_true h) (BfsI.init hn g.toSimple) hf
    exact ⟨L, by simp [reuseFilteredRun, hacc hv, e1], e2⟩
  have hrej : ¬ Accepted g f' j → BfsState.reuseFiltered g.vertices s j f' = .ok (.error s) := by
    intro hv
    by_cases hlt : j < g.vertices.length
    · have : f' (contained g.vertices[j]) j = false := by
        by_contra hc
        exact hv ⟨contained g.vertices[j], by simp [GenericGraph.getContained, hlt], by simpa using hc⟩
      have hng : ¬ g.vertices.length < j := by omega
      simp [BfsState.reuseFiltered, hng, Vec.idx_of_lt hlt, this]
    · have : g.vertices.length < j := by
        have : j ≠ g.nextId := hj
        omega
      simp [BfsState.reuseFiltered, this]
  refine ⟨hrej, hrun, ?_⟩
  intro hall
  by_cases hv : Accepted g f' j
  · have hn : j < g.nextId := ((C13_accepted_iff h f' j).mp hv).1
    have he : BfsState.newFiltered g j f' = .ok (some (BfsState.new g j)) := by
      rw [newFiltered_some h hv, BfsState.new_of_lt hn]
      have : filterHandled g.vertices f' = List.replicate g.nextId false := by
        apply List.ext_getElem?
        intro k
        rw [filterHandled_getElem?, List.getElem?_replicate]
        split
        · rename_i hk
          have hk' : k < g.vertices.length := by omega
          obtain ⟨t, e1, e2⟩ := hall k hk
          have ht : contained g.vertices[k] = t := by simpa [GenericGraph.getContained, hk'] using e1
          simp [hk', ht, e2]
        · rename_i hk
          simp; omega
      rw [this]
    simp [reuseFilteredRun, hacc hv, GenericGraph.bfsFiltered, he]
  · simp [reuseFilteredRun, hrej hv, GenericGraph.bfsFiltered, newFiltered_none h hv]

example : exPath.WF ∧ BfsState.newFiltered exPath 0 (fun _ i => i != 1) = .ok (some ⟨[true, true, false, false], [0], [], 0⟩) ∧
    advance (bfsFilteredNext exPath.vertices) 1 ⟨[true, true, false, false], [0], [], 0⟩ = .ok ⟨[true, true, false, false], [], [], 0⟩ ∧
    reuseFilteredRun exPath ⟨[true, true, false, false], [], [], 0⟩ 2 (fun _ i => i != 1) 5 =
      .ok (some [(2, 20, 0), (1, 10, 1), (3, 30, 1), (0, 0, 2)]) := ⟨exPath_wf, by decide, by decide, by decide⟩

end Verif
