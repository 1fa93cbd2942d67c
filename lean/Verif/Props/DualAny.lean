import Verif.Lemmas.DualAny
import Verif.Props.Dual

/-!
# C107: dual graphs after a member graph was exchanged
-/

set_option linter.unusedSectionVars false
set_option linter.unusedSimpArgs false

namespace Verif
open AdjContainer GenericGraph

section
variable {J T1 A1 T2 A2 : Type} [AdjTrait J] [AdjContainer T1 A1] [AdjContainer T2 A2] [LawfulAdj T1 A1] [LawfulAdj T2 A2]
variable {d : DualGraph J T1 A1 T2 A2}

/-- What exchanging the second member for an arbitrary valid graph `g` does to a dual graph: `new(..)`, `add_edge` only look at
the lists, so every vertex of the first graph keeps its partners.  It stays sound exactly if all of them exist in `g`; a vertex of
`g` is sound exactly if the old graph had this index. -/
theorem C107_exchange (h : d.WF) {g : GenericGraph T2 A2} (hg : g.WF) :
    (∀ i, i < d.graph1.vertexCount → (DualGraph.Sound { d with graph2 := g } (.graph1 i) ↔
      ∀ j, (i, j) ∈ d.cross → j < g.vertexCount)) ∧
    (∀ j, j < g.vertexCount → (DualGraph.Sound { d with graph2 := g } (.graph2 j) ↔ j < d.graph2.vertexCount)) := by
  constructor
  · intro i hi
    constructor
    · intro hs j hj
      exact hs.2 (.graph2 j) hj
    · intro hs
      refine ⟨by show i < d.adj1.length; rw [h.len1]; exact hi, ?_⟩
      rintro (j | j) hj
      · exact h.wf1.lt _ _ (h.wf1.adj_iff.mp hj)
      · exact hs j hj
  · intro j hj
    constructor
    · intro hs
      have : j < d.adj2.length := hs.1
      rwa [h.len2] at this
    · intro hs
      refine ⟨by show j < d.adj2.length; rw [h.len2]; exact hs, ?_⟩
      rintro (i | i) hi
      · have hl : i ∈ d.list2 j := hi
        exact (h.lt ((h.inv i j).mpr hl)).1
      · exact hg.lt _ _ (hg.adj_iff.mp hi)

/-- The same for the first member. -/
theorem C107_exchange_first (h : d.WF) {g : GenericGraph T1 A1} (hg : g.WF) :
    (∀ j, j < d.graph2.vertexCount → (DualGraph.Sound { d with graph1 := g } (.graph2 j) ↔
      ∀ i, (i, j) ∈ d.cross → i < g.vertexCount)) ∧
    (∀ i, i < g.vertexCount → (DualGraph.Sound { d with graph1 := g } (.graph1 i) ↔ i < d.graph1.vertexCount)) := by
  constructor
  · intro j hj
    constructor
    · intro hs i hi
      exact hs.2 (.graph1 i) ((h.inv i j).mp hi)
    · intro hs
      refine ⟨by show j < d.adj2.length; rw [h.len2]; exact hj, ?_⟩
      rintro (i | i) hi
      · exact hs i ((h.inv i j).mpr hi)
      · exact h.wf2.lt _ _ (h.wf2.adj_iff.mp hi)
  · intro i hi
    constructor
    · intro hs
      have : i < d.adj1.length := hs.1
      rwa [h.len1] at this
    · intro hs
      refine ⟨by show i < d.adj1.length; rw [h.len1]; exact hs, ?_⟩
      rintro (j | j) hj
      · exact hg.lt _ _ (hg.adj_iff.mp hj)
      · have hl : j ∈ d.list1 i := hj
        exact (h.lt hl).2

/-- `add_edge` looks only at the lists of cross edges: it refuses a new vertex of the exchanged graph and accepts a partner that
no longer exists. -/
theorem C107_add_edge (h : d.WF) (g : GenericGraph T2 A2) (i j : Nat) :
    (d.graph2.vertexCount ≤ j →
      DualGraph.addEdge { d with graph2 := g } i j = .ok (.error .indexOutOfBounds, { d with graph2 := g })) ∧
    (∀ r d', d.addEdge i j = .ok (r, d') →
      DualGraph.addEdge { d with graph2 := g } i j = .ok (r, { d' with graph2 := g })) := by
  constructor
  · intro hj
    have : d.adj2.length ≤ j := by rw [h.len2]; exact hj
    simp [DualGraph.addEdge, this]
  · intro r d' hd
    unfold DualGraph.addEdge at hd ⊢
    by_cases hc : d.adj1.length ≤ i ∨ d.adj2.length ≤ j
    · simp only [hc, if_true] at hd ⊢
      cases hd; rfl
    · simp only [hc, if_false] at hd ⊢
      obtain ⟨a, e1, hd⟩ := Res.bind_eq_ok.mp hd
      simp only [e1, Res.ok_bind]
      obtain ⟨adj1, e2, hd⟩ := Res.bind_eq_ok.mp hd
      simp only [e2, Res.ok_bind]
      split at hd
      · rename_i hk
        rw [if_pos hk]
        cases hd; rfl
      · rename_i hk
        rw [if_neg hk]
        obtain ⟨b, e3, hd⟩ := Res.bind_eq_ok.mp hd
        simp only [e3, Res.ok_bind]
        split at hd
        · exact absurd hd (by simp)
        · rename_i hk'
          rw [if_neg hk']
          obtain ⟨adj2, e4, hd⟩ := Res.bind_eq_ok.mp hd
          simp only [e4, Res.ok_bind]
          cases hd; rfl

theorem rtg_sound_vertex {v w : DualIndex} (hv : d.IsVertex v) (hs : ∀ w, Relation.ReflTransGen d.Succ v w → d.Sound w)
    (hr : Relation.ReflTransGen d.Succ v w) : d.IsVertex w := by
  cases hr with
  | refl => exact hv
  | tail h1 h2 => exact (hs _ h1).2 _ h2

/-- `dfs_index` on valid members with arbitrary cross lists: it panics exactly if a vertex without list or with a partner that
does not exist is reachable; otherwise it yields exactly the reachable vertices, each once. -/
theorem C107_dfs (w1 : d.graph1.WF) (w2 : d.graph2.WF) (v : DualIndex) {fuel : Nat} (hf : d.totalVertices < fuel) :
    (d.IsVertex v → (∀ w, Relation.ReflTransGen d.Succ v w → d.Sound w) →
      ∃ L, d.dfsIndex v fuel = .ok L ∧ L.Nodup ∧ L.head? = some v ∧ ∀ w, w ∈ L ↔ Relation.ReflTransGen d.Succ v w) ∧
    (d.IsVertex v → (∃ w, Relation.ReflTransGen d.Succ v w ∧ ¬ d.Sound w) → d.dfsIndex v fuel = .panic) ∧
    (¬ d.IsVertex v → d.dfsIndex v fuel = .ok []) := by
  refine ⟨fun hv hs => ?_, fun hv hs => ?_, fun hv => ?_⟩
  · rcases DualGraph.dfsIndex_or w1 w2 hv hf with ⟨L, h1, h2, h3, h4, _⟩ | ⟨_, w, h2, h3⟩
    · exact ⟨L, h1, h2, h3, h4⟩
    · exact absurd (hs w h2) h3
  · rcases DualGraph.dfsIndex_or w1 w2 hv hf with ⟨L, _, _, _, h4, h5⟩ | ⟨h1, _⟩
    · obtain ⟨w, h2, h3⟩ := hs
      exact absurd (h5 w ((h4 w).mpr h2)).2 h3
    · exact h1
  · obtain ⟨f, rfl⟩ : ∃ f, fuel = f + 1 := ⟨fuel - 1, by omega⟩
    have L1 := w1.len
    have L2 := w2.len
    have : (DfsDual.new d v).stack = [] := by
      rcases v with i | i
      · have hi : ¬ i < d.graph1.nextId := hv
        simp [DfsDual.new, L1, L2, hi]
      · have hi : ¬ i < d.graph2.nextId := hv
        simp [DfsDual.new, L1, L2, hi]
    simp [DualGraph.dfsIndex, collect, dfsDualNext, this]

/-- `bfs_index` likewise; the depth of an item is the least number of steps from the start along the stored lists, and the items
come in that order. -/
theorem C107_bfs (w1 : d.graph1.WF) (w2 : d.graph2.WF) (v : DualIndex) {fuel : Nat} (hf : d.totalVertices < fuel) :
    (d.IsVertex v → (∀ w, Relation.ReflTransGen d.Succ v w → d.Sound w) →
      ∃ L, d.bfsIndex v fuel = .ok L ∧ d.Layers v L) ∧
    (d.IsVertex v → (∃ w, Relation.ReflTransGen d.Succ v w ∧ ¬ d.Sound w) → d.bfsIndex v fuel = .panic) ∧
    (¬ d.IsVertex v → d.bfsIndex v fuel = .ok []) := by
  refine ⟨fun hv hs => ?_, fun hv hs => ?_, fun hv => ?_⟩
  · rcases DualGraph.collect_bfs_or w1 w2 (DualGraph.BfsA.init w1 w2 hv) hf with ⟨L, s', h1, h2, _⟩ | ⟨_, w, h2, h3⟩
    · exact ⟨L, by simp [DualGraph.bfsIndex, h1], h2⟩
    · exact absurd (hs w h2) h3
  · rcases DualGraph.collect_bfs_or w1 w2 (DualGraph.BfsA.init w1 w2 hv) hf with ⟨L, s', h1, h2, h5, _⟩ | ⟨h1, _⟩
    · obtain ⟨w, h6, h3⟩ := hs
      obtain ⟨p, hp, rfl⟩ := List.mem_map.mp ((h2.mem w).mpr h6)
      exact absurd (h5 p hp).2 h3
    · simp [DualGraph.bfsIndex, h1]
  · obtain ⟨f, rfl⟩ : ∃ f, fuel = f + 1 := ⟨fuel - 1, by omega⟩
    have L1 := w1.len
    have L2 := w2.len
    have : (BfsDual.new d v).queue0 = [] ∧ (BfsDual.new d v).queue1 = [] := by
      rcases v with i | i
      · have hi : ¬ i < d.graph1.nextId := hv
        simp [BfsDual.new, L1, L2, hi]
      · have hi : ¬ i < d.graph2.nextId := hv
        simp [BfsDual.new, L1, L2, hi]
    simp [DualGraph.bfsIndex, collect, bfsDualNext, this.1, this.2]

/-- `is_connected`: if both members have vertices, it panics exactly if something unsound is reachable from vertex 0 of the first
graph, and otherwise says whether everything is reachable from there.  If one member is empty, the cross lists are not looked at. -/
theorem C107_is_connected (w1 : d.graph1.WF) (w2 : d.graph2.WF) :
    (0 < d.graph1.vertexCount → 0 < d.graph2.vertexCount →
      ((∃ w, Relation.ReflTransGen d.Succ (.graph1 0) w ∧ ¬ d.Sound w) → d.isConnected = .panic) ∧
      ((∀ w, Relation.ReflTransGen d.Succ (.graph1 0) w → d.Sound w) →
        ∃ b, d.isConnected = .ok b ∧ (b = true ↔ ∀ w, d.IsVertex w → Relation.ReflTransGen d.Succ (.graph1 0) w))) ∧
    (d.graph1.vertexCount = 0 → 0 < d.graph2.vertexCount → ∃ b, d.isConnected = .ok b ∧
      (b = true ↔ ∀ v w, v < d.graph2.vertexCount → w < d.graph2.vertexCount → d.graph2.toSimple.Reachable v w)) ∧
    (0 < d.graph1.vertexCount → d.graph2.vertexCount = 0 → ∃ b, d.isConnected = .ok b ∧
      (b = true ↔ ∀ v w, v < d.graph1.vertexCount → w < d.graph1.vertexCount → d.graph1.toSimple.Reachable v w)) ∧
    (d.graph1.vertexCount = 0 → d.graph2.vertexCount = 0 → d.isConnected = .ok true) := by
  refine ⟨fun n1 n2 => ?_, fun n1 n2 => ?_, fun n1 n2 => ?_, fun n1 n2 => by simp [DualGraph.isConnected, n1, n2]⟩
  · have hd : d.isConnected = (do let l ← d.dfsIndex (.graph1 0) (d.totalVertices + 1); return l.length == d.totalVertices) := by
      simp [DualGraph.isConnected, show d.graph1.vertexCount ≠ 0 by omega, show d.graph2.vertexCount ≠ 0 by omega]
    obtain ⟨c1, c2, _⟩ := C107_dfs w1 w2 (.graph1 0) (Nat.lt_succ_self d.totalVertices)
    have hv : d.IsVertex (.graph1 0) := n1
    constructor
    · intro hs
      rw [hd, c2 hv hs]; rfl
    · intro hs
      obtain ⟨L, h1, h2, _, h4⟩ := c1 hv hs
      refine ⟨L.length == d.totalVertices, by rw [hd, h1]; rfl, ?_⟩
      have hsub : ∀ w ∈ L, w ∈ d.all := fun w hw => DualGraph.mem_all.mpr (rtg_sound_vertex hv hs ((h4 w).mp hw))
      have hp := h2.subperm hsub
      rw [beq_iff_eq, ← DualGraph.totalVertices_eq w1 w2]
      constructor
      · intro hl w hw
        exact (h4 w).mp ((hp.perm_of_length_le (by omega)).mem_iff.mpr (DualGraph.mem_all.mpr hw))
      · intro hall
        have hq := DualGraph.all_nodup.subperm (l₂ := L) (fun w hw => (h4 w).mpr (hall w (DualGraph.mem_all.mp hw)))
        exact Nat.le_antisymm hp.length_le hq.length_le
  · obtain ⟨b, h1, h2⟩ := isConnected_spec w2 n2
    exact ⟨b, by simp [DualGraph.isConnected, n1, show d.graph2.vertexCount ≠ 0 by omega, h1, Res.unwrap], h2⟩
  · obtain ⟨b, h1, h2⟩ := isConnected_spec w1 n1
    exact ⟨b, by simp [DualGraph.isConnected, n2, show d.graph1.vertexCount ≠ 0 by omega, h1, Res.unwrap], h2⟩

/-! ### The diameter -/

theorem far_unique {v w : DualIndex} {m n : Nat} (h1 : d.Far v w m) (h2 : d.Far v w n) : m = n := by
  rcases Nat.lt_trichotomy m n with h | h | h
  · exact absurd h1.1 (h2.2 m h)
  · exact h
  · exact absurd h2.1 (h1.2 n h)

/-- One turn of the loop. -/
theorem diamBody_or (w1 : d.graph1.WF) (w2 : d.graph2.WF) {mk : Nat → DualIndex} {i : Nat} (hv : d.IsVertex (mk i)) {s : BfsDual × Nat}
    (h1 : s.1.notHandled1.length = d.graph1.nextId) (h2 : s.1.notHandled2.length = d.graph2.nextId) :
    (∃ s' e, d.diamBody mk s i = .ok (s', Nat.max s.2 e) ∧ s'.notHandled1.length = d.graph1.nextId ∧
      s'.notHandled2.length = d.graph2.nextId ∧ (∃ w, d.Far (mk i) w e) ∧ (∀ w n, d.Far (mk i) w n → n ≤ e) ∧
      ∀ w, Relation.ReflTransGen d.Succ (mk i) w → d.Sound w) ∨
    (d.diamBody mk s i = .panic ∧ ∃ w, Relation.ReflTransGen d.Succ (mk i) w ∧ ¬ d.Sound w) := by
  obtain ⟨s0, e0, hI⟩ := DualGraph.BfsA.reuse w1 w2 hv h1 h2
  rcases DualGraph.collect_bfs_or w1 w2 hI (Nat.lt_succ_self d.totalVertices) with ⟨L, s', c1, c2, c3, c4, c5⟩ | ⟨c1, c2⟩
  · left
    have hmem : mk i ∈ L.map (·.1) := (c2.mem _).mpr .refl
    have hne : L ≠ [] := by rintro rfl; simp at hmem
    have hlast : L.getLast? = some (L.getLast hne) := List.getLast?_eq_some_getLast hne
    refine ⟨s', (L.getLast hne).2, ?_, c4, c5, ⟨_, c2.far _ (List.getLast_mem hne)⟩, ?_, ?_⟩
    · simp [DualGraph.diamBody, e0, c1, hlast, Res.unwrap]
    · intro w n hn
      obtain ⟨p, hp, rfl⟩ := List.mem_map.mp ((c2.mem w).mpr hn.1.reach)
      rw [far_unique hn (c2.far p hp)]
      have hs := c2.sorted
      rw [← List.dropLast_append_getLast hne] at hs hp
      rw [List.map_append, List.pairwise_append] at hs
      rcases List.mem_append.mp hp with hp | hp
      · exact hs.2.2 _ (List.mem_map_of_mem hp) _ (by simp)
      · simp at hp; rw [hp]
    · intro w hw
      obtain ⟨p, hp, rfl⟩ := List.mem_map.mp ((c2.mem w).mpr hw)
      exact (c3 p hp).2
  · exact Or.inr ⟨by simp [DualGraph.diamBody, e0, c1], c2⟩

/-- The loop over a list of starts, all of whose searches return. -/
theorem diamLoop (w1 : d.graph1.WF) (w2 : d.graph2.WF) {mk : Nat → DualIndex} : ∀ (l : List Nat) (s : BfsDual × Nat),
    (∀ i ∈ l, d.IsVertex (mk i)) → (∀ i ∈ l, ∀ w, Relation.ReflTransGen d.Succ (mk i) w → d.Sound w) →
    s.1.notHandled1.length = d.graph1.nextId → s.1.notHandled2.length = d.graph2.nextId →
    ∃ s', l.foldlM (d.diamBody mk) s = .ok s' ∧ s'.1.notHandled1.length = d.graph1.nextId ∧
      s'.1.notHandled2.length = d.graph2.nextId ∧ s.2 ≤ s'.2 ∧ (∀ i ∈ l, ∀ w n, d.Far (mk i) w n → n ≤ s'.2) ∧
      (s'.2 = s.2 ∨ ∃ i ∈ l, ∃ w, d.Far (mk i) w s'.2) := by
  intro l
  induction l with
  | nil => intro s _ _ h1 h2; exact ⟨s, rfl, h1, h2, le_refl _, by simp, Or.inl rfl⟩
  | cons i l ih =>
    intro s hv hs h1 h2
    rcases diamBody_or w1 w2 (hv i List.mem_cons_self) h1 h2 with ⟨s1, e, c1, c2, c3, ⟨w, c4⟩, c5, _⟩ | ⟨_, w, c2, c3⟩
    · obtain ⟨s', k1, k2, k3, k4, k5, k6⟩ := ih (s1, Nat.max s.2 e) (fun j hj => hv j (List.mem_cons_of_mem _ hj))
        (fun j hj => hs j (List.mem_cons_of_mem _ hj)) c2 c3
      have k4' : Nat.max s.2 e ≤ s'.2 := k4
      have hm1 : s.2 ≤ Nat.max s.2 e := Nat.le_max_left _ _
      have hm2 : e ≤ Nat.max s.2 e := Nat.le_max_right _ _
      refine ⟨s', by rw [List.foldlM_cons, c1]; exact k1, k2, k3, le_trans hm1 k4', ?_, ?_⟩
      · intro j hj w n hn
        rcases List.mem_cons.mp hj with rfl | hj
        · exact le_trans (c5 w n hn) (le_trans hm2 k4')
        · exact k5 j hj w n hn
      · rcases k6 with k6 | ⟨j, hj, x, hx⟩
        · have k6' : s'.2 = Nat.max s.2 e := k6
          rcases Nat.le_total s.2 e with hle | hle
          · have he : s'.2 = e := k6'.trans (Nat.max_eq_right hle)
            exact Or.inr ⟨i, List.mem_cons_self, w, by rw [he]; exact c4⟩
          · exact Or.inl (k6'.trans (Nat.max_eq_left hle))
        · exact Or.inr ⟨j, List.mem_cons_of_mem _ hj, x, hx⟩
    · exact absurd (hs i List.mem_cons_self w c2) c3

theorem new_lens (w1 : d.graph1.WF) (w2 : d.graph2.WF) (v : DualIndex) :
    (BfsDual.new d v).notHandled1.length = d.graph1.nextId ∧ (BfsDual.new d v).notHandled2.length = d.graph2.nextId := by
  have L1 := w1.len
  have L2 := w2.len
  rcases v with i | i
  · simp only [BfsDual.new]; split <;> simp [L1, L2]
  · simp only [BfsDual.new]; split <;> simp [L1, L2]

/-- `m` is the largest number of steps needed from one of the vertices in `S`. -/
def IsLargest (d : DualGraph J T1 A1 T2 A2) (S : DualIndex → Prop) (m : Nat) : Prop :=
  (∀ v w n, S v → d.Far v w n → n ≤ m) ∧ ((∃ v w, S v ∧ d.Far v w m) ∨ (m = 0 ∧ ∀ v, ¬ S v))

/-- `diameter` of members that both have vertices: panics exactly when `is_connected` does, `None` if not everything is reachable from
vertex 0 of the first graph, otherwise the largest number of steps from any vertex, vertex 0 of the second graph excepted. -/
theorem C107_diameter (w1 : d.graph1.WF) (w2 : d.graph2.WF) (n1 : 0 < d.graph1.vertexCount) (n2 : 0 < d.graph2.vertexCount) :
    (d.diameter = .panic ↔ ∃ w, Relation.ReflTransGen d.Succ (.graph1 0) w ∧ ¬ d.Sound w) ∧
    ((∀ w, Relation.ReflTransGen d.Succ (.graph1 0) w → d.Sound w) →
      (¬ (∀ w, d.IsVertex w → Relation.ReflTransGen d.Succ (.graph1 0) w) → d.diameter = .ok none) ∧
      ((∀ w, d.IsVertex w → Relation.ReflTransGen d.Succ (.graph1 0) w) →
        ∃ m, d.diameter = .ok (some m) ∧ IsLargest d (fun v => d.IsVertex v ∧ v ≠ .graph2 0) m)) := by
  obtain ⟨c1, c2⟩ := (C107_is_connected w1 w2).1 n1 n2
  have ht : d.totalVertices ≠ 0 := by
    have := w1.len
    have : 0 < d.graph1.nextId := n1
    unfold DualGraph.totalVertices; omega
  have key : (∀ w, Relation.ReflTransGen d.Succ (.graph1 0) w → d.Sound w) →
      (¬ (∀ w, d.IsVertex w → Relation.ReflTransGen d.Succ (.graph1 0) w) → d.diameter = .ok none) ∧
      ((∀ w, d.IsVertex w → Relation.ReflTransGen d.Succ (.graph1 0) w) →
        ∃ m, d.diameter = .ok (some m) ∧ IsLargest d (fun v => d.IsVertex v ∧ v ≠ .graph2 0) m) := by
    intro hs
    obtain ⟨b, e1, e2⟩ := c2 hs
    constructor
    · intro hn
      have : b = false := by
        cases b with
        | false => rfl
        | true => exact absurd (e2.mp rfl) hn
      subst this
      simp [DualGraph.diameter, ht, e1]
    · intro hall
      obtain rfl : b = true := e2.mpr hall
      have hsall : ∀ v, d.IsVertex v → ∀ w, Relation.ReflTransGen d.Succ v w → d.Sound w :=
        fun v hv w hw => hs w ((hall v hv).trans hw)
      have hr1 : ∀ i ∈ List.range d.graph1.vertexCount, d.IsVertex (.graph1 i) := fun i hi => List.mem_range.mp hi
      have hr2 : ∀ i ∈ List.range' 1 (d.graph2.vertexCount - 1), d.IsVertex (.graph2 i) := fun i hi => by
        have := List.mem_range'_1.mp hi
        show i < d.graph2.vertexCount
        omega
      obtain ⟨l1, l2⟩ := new_lens w1 w2 (d := d) (.graph1 0)
      obtain ⟨s1, a1, a2, a3, a4, a5, a6⟩ := diamLoop w1 w2 (mk := WhichGraph.graph1) _ (BfsDual.new d (.graph1 0), 0) hr1
        (fun i hi => hsall _ (hr1 i hi)) l1 l2
      obtain ⟨s2, b1, b2, b3, b4, b5, b6⟩ := diamLoop w1 w2 (mk := WhichGraph.graph2) _ s1 hr2
        (fun i hi => hsall _ (hr2 i hi)) a2 a3
      refine ⟨s2.2, by simp [DualGraph.diameter, ht, e1, a1, b1], ?_, Or.inl ?_⟩
      · rintro (i | i) w n ⟨hv, hne⟩ hn
        · exact le_trans (a5 i (List.mem_range.mpr hv) w n hn) b4
        · have hv' : i < d.graph2.vertexCount := hv
          have : i ≠ 0 := by rintro rfl; exact hne rfl
          exact b5 i (List.mem_range'_1.mpr (by omega)) w n hn
      · rcases b6 with h | ⟨i, hi, w, hw⟩
        · rcases a6 with h' | ⟨i, hi, w, hw⟩
          · refine ⟨.graph1 0, .graph1 0, ⟨n1, by simp⟩, ?_⟩
            rw [h, h']
            exact ⟨rfl, fun m hm => absurd hm (Nat.not_lt_zero m)⟩
          · exact ⟨.graph1 i, w, ⟨hr1 i hi, by simp⟩, by rw [h]; exact hw⟩
        · have := List.mem_range'_1.mp hi
          exact ⟨.graph2 i, w, ⟨hr2 i hi, by simp; omega⟩, hw⟩
  refine ⟨⟨fun hp => ?_, fun hs => ?_⟩, key⟩
  · by_contra hc
    have hs : ∀ w, Relation.ReflTransGen d.Succ (.graph1 0) w → d.Sound w := fun w hw => by
      by_contra hn; exact hc ⟨w, hw, hn⟩
    by_cases hall : ∀ w, d.IsVertex w → Relation.ReflTransGen d.Succ (.graph1 0) w
    · obtain ⟨m, hm, _⟩ := (key hs).2 hall
      rw [hm] at hp; exact absurd hp (by simp)
    · rw [(key hs).1 hall] at hp; exact absurd hp (by simp)
  · simp [DualGraph.diameter, ht, c1 hs]

theorem rtg_of_reachable2 {v w : Nat} (h : d.graph2.toSimple.Reachable v w) : Relation.ReflTransGen d.Succ (.graph2 v) (.graph2 w) := by
  rw [reachable_iff_rtg] at h
  induction h with
  | refl => exact .refl
  | tail _ ha ih => exact ih.tail (show d.Succ (.graph2 _) (.graph2 _) from ha)

theorem rtg_of_reachable1 {v w : Nat} (h : d.graph1.toSimple.Reachable v w) : Relation.ReflTransGen d.Succ (.graph1 v) (.graph1 w) := by
  rw [reachable_iff_rtg] at h
  induction h with
  | refl => exact .refl
  | tail _ ha ih => exact ih.tail (show d.Succ (.graph1 _) (.graph1 _) from ha)

/-- One member exchanged for an empty graph: `is_connected` answers for the other one alone, but if the answer is yes, `diameter`
panics exactly if this one has an unsound vertex, e.g. one that still has a partner, and a search is started at all: from every vertex
of the first graph, but from the vertices 1, 2, … of the second. -/
theorem C107_diameter_empty (w1 : d.graph1.WF) (w2 : d.graph2.WF) :
    (d.graph1.vertexCount = 0 → 0 < d.graph2.vertexCount → d.isConnected = .ok true →
      (d.diameter = .panic ↔ 2 ≤ d.graph2.vertexCount ∧ ∃ w, d.IsVertex w ∧ ¬ d.Sound w) ∧
      (d.diameter ≠ .panic → ∃ m, d.diameter = .ok (some m) ∧ IsLargest d (fun v => d.IsVertex v ∧ v ≠ .graph2 0) m)) ∧
    (0 < d.graph1.vertexCount → d.graph2.vertexCount = 0 → d.isConnected = .ok true →
      (d.diameter = .panic ↔ ∃ w, d.IsVertex w ∧ ¬ d.Sound w) ∧
      (d.diameter ≠ .panic → ∃ m, d.diameter = .ok (some m) ∧ IsLargest d d.IsVertex m)) := by
  obtain ⟨_, k2, k3, _⟩ := C107_is_connected w1 w2
  have L1 := w1.len
  have L2 := w2.len
  obtain ⟨l1, l2⟩ := new_lens w1 w2 (d := d) (.graph1 0)
  constructor
  · intro n1 n2 hc
    have n1' : d.graph1.nextId = 0 := n1
    have n2' : 0 < d.graph2.nextId := n2
    have ht : d.totalVertices ≠ 0 := by unfold DualGraph.totalVertices; omega
    obtain ⟨b, e1, e2⟩ := k2 n1 n2
    obtain rfl : b = true := by rw [e1] at hc; exact Res.ok.inj hc
    have hreach := e2.mp rfl
    have hd : d.diameter = (do
        let s ← (List.range' 1 (d.graph2.vertexCount - 1)).foldlM (d.diamBody .graph2) (BfsDual.new d (.graph1 0), 0)
        return some s.2) := by
      simp [DualGraph.diameter, ht, e1, n1]
    have hr2 : ∀ i ∈ List.range' 1 (d.graph2.vertexCount - 1), d.IsVertex (.graph2 i) := fun i hi => by
      have := List.mem_range'_1.mp hi
      show i < d.graph2.vertexCount
      omega
    by_cases hb : 2 ≤ d.graph2.vertexCount ∧ ∃ w, d.IsVertex w ∧ ¬ d.Sound w
    · have hp : d.diameter = .panic := by
        obtain ⟨h2, w, hw, hns⟩ := hb
        rcases w with j | j
        · have : j < d.graph1.vertexCount := hw
          omega
        · have hv : d.IsVertex (.graph2 1) := by show 1 < d.graph2.vertexCount; omega
          rw [hd, show d.graph2.vertexCount - 1 = (d.graph2.vertexCount - 2) + 1 by omega, List.range'_succ, List.foldlM_cons]
          rcases diamBody_or w1 w2 (mk := WhichGraph.graph2) (i := 1) hv (s := (BfsDual.new d (.graph1 0), 0)) l1 l2 with
            ⟨_, _, _, _, _, _, _, hs⟩ | ⟨hp, _⟩
          · exact absurd (hs _ (rtg_of_reachable2 (hreach 1 j hv hw))) hns
          · rw [hp]; rfl
      exact ⟨⟨fun _ => hb, fun _ => hp⟩, fun h => absurd hp h⟩
    · have hs : ∀ i ∈ List.range' 1 (d.graph2.vertexCount - 1), ∀ w, Relation.ReflTransGen d.Succ (.graph2 i) w → d.Sound w := by
        intro i hi
        have hi' := List.mem_range'_1.mp hi
        have hall : ∀ w, d.IsVertex w → d.Sound w := by
          intro w hw
          by_contra hn
          exact hb ⟨by omega, w, hw, hn⟩
        intro w hw
        refine hall w ?_
        induction hw with
        | refl => exact hr2 i hi
        | tail _ ha ih => exact (hall _ ih).2 _ ha
      obtain ⟨s', a1, a2, a3, a4, a5, a6⟩ := diamLoop w1 w2 (mk := WhichGraph.graph2) _ (BfsDual.new d (.graph1 0), 0) hr2 hs l1 l2
      have hok : d.diameter = .ok (some s'.2) := by rw [hd, a1]; rfl
      refine ⟨⟨fun h => by rw [hok] at h; exact absurd h (by simp), fun h => absurd h hb⟩, fun _ => ⟨s'.2, hok, ?_, ?_⟩⟩
      · rintro (i | i) w n ⟨hv, hne⟩ hn
        · have : i < d.graph1.vertexCount := hv
          omega
        · have hv' : i < d.graph2.vertexCount := hv
          have : i ≠ 0 := by rintro rfl; exact hne rfl
          exact a5 i (List.mem_range'_1.mpr (by omega)) w n hn
      · rcases a6 with h | ⟨i, hi, w, hw⟩
        · by_cases h2 : 2 ≤ d.graph2.vertexCount
          · left
            refine ⟨.graph2 1, .graph2 1, ⟨by show 1 < d.graph2.vertexCount; omega, by simp⟩, ?_⟩
            rw [h]
            exact ⟨rfl, fun m hm => absurd hm (Nat.not_lt_zero m)⟩
          · right
            refine ⟨h, ?_⟩
            rintro (i | i) ⟨hv, hne⟩
            · have : i < d.graph1.vertexCount := hv
              omega
            · have hv' : i < d.graph2.vertexCount := hv
              have : i = 0 := by omega
              subst this; exact hne rfl
        · have := List.mem_range'_1.mp hi
          exact Or.inl ⟨.graph2 i, w, ⟨hr2 i hi, by simp; omega⟩, hw⟩
  · intro n1 n2 hc
    have n1' : 0 < d.graph1.nextId := n1
    have n2' : d.graph2.nextId = 0 := n2
    have ht : d.totalVertices ≠ 0 := by unfold DualGraph.totalVertices; omega
    obtain ⟨b, e1, e2⟩ := k3 n1 n2
    obtain rfl : b = true := by rw [e1] at hc; exact Res.ok.inj hc
    have hreach := e2.mp rfl
    have hd : d.diameter = (do
        let s ← (List.range d.graph1.vertexCount).foldlM (d.diamBody .graph1) (BfsDual.new d (.graph1 0), 0)
        return some s.2) := by
      simp [DualGraph.diameter, ht, e1, n2]
    have hr1 : ∀ i ∈ List.range d.graph1.vertexCount, d.IsVertex (.graph1 i) := fun i hi => List.mem_range.mp hi
    by_cases hb : ∃ w, d.IsVertex w ∧ ¬ d.Sound w
    · have hp : d.diameter = .panic := by
        obtain ⟨w, hw, hns⟩ := hb
        rcases w with j | j
        · have hv : d.IsVertex (.graph1 0) := n1
          rw [hd, show d.graph1.vertexCount = (d.graph1.vertexCount - 1) + 1 by omega, List.range_succ_eq_map, List.foldlM_cons]
          rcases diamBody_or w1 w2 (mk := WhichGraph.graph1) (i := 0) hv (s := (BfsDual.new d (.graph1 0), 0)) l1 l2 with
            ⟨_, _, _, _, _, _, _, hs⟩ | ⟨hp, _⟩
          · exact absurd (hs _ (rtg_of_reachable1 (hreach 0 j hv hw))) hns
          · rw [hp]; rfl
        · have : j < d.graph2.vertexCount := hw
          omega
      exact ⟨⟨fun _ => hb, fun _ => hp⟩, fun h => absurd hp h⟩
    · have hall : ∀ w, d.IsVertex w → d.Sound w := by
        intro w hw
        by_contra hn
        exact hb ⟨w, hw, hn⟩
      have hs : ∀ i ∈ List.range d.graph1.vertexCount, ∀ w, Relation.ReflTransGen d.Succ (.graph1 i) w → d.Sound w := by
        intro i hi w hw
        refine hall w ?_
        induction hw with
        | refl => exact hr1 i hi
        | tail _ ha ih => exact (hall _ ih).2 _ ha
      obtain ⟨s', a1, a2, a3, a4, a5, a6⟩ := diamLoop w1 w2 (mk := WhichGraph.graph1) _ (BfsDual.new d (.graph1 0), 0) hr1 hs l1 l2
      have hok : d.diameter = .ok (some s'.2) := by rw [hd, a1]; rfl
      refine ⟨⟨fun h => by rw [hok] at h; exact absurd h (by simp), fun h => absurd h hb⟩, fun _ => ⟨s'.2, hok, ?_, Or.inl ?_⟩⟩
      · rintro (i | i) w n hv hn
        · exact a5 i (List.mem_range.mpr hv) w n hn
        · have : i < d.graph2.vertexCount := hv
          omega
      · rcases a6 with h | ⟨i, hi, w, hw⟩
        · refine ⟨.graph1 0, .graph1 0, n1, ?_⟩
          rw [h]
          exact ⟨rfl, fun m hm => absurd hm (Nat.not_lt_zero m)⟩
        · exact ⟨.graph1 i, w, hr1 i hi, hw⟩

end

/-- `exSingle`, whose second member was exchanged for a longer, a shorter and an empty graph. -/
def exLonger : DualGraph AdjSingle Nat (NodeContainer Nat) Nat (NodeContainer Nat) := { exSingle with graph2 := exTail }
def exShorter : DualGraph AdjSingle Nat (NodeContainer Nat) Nat (NodeContainer Nat) := { exSingle with graph2 := exGraph 0 [[]] }
def exEmptied : DualGraph AdjSingle Nat (NodeContainer Nat) Nat (NodeContainer Nat) := { exSingle with graph2 := exGraph 0 [] }

-- the new vertex 4 is not reached from graph 1, but a search from it panics
example : exLonger.graph1.WF ∧ exLonger.graph2.WF ∧ ¬ exLonger.Sound (.graph2 4) ∧ exLonger.IsVertex (.graph2 4) ∧
    exLonger.dfsIndex (.graph2 4) 10 = .panic ∧ exLonger.isConnected = .ok false ∧
    exLonger.bfsIndex (.graph1 1) 10 = .ok [(.graph1 1, 0), (.graph1 0, 1), (.graph1 2, 1), (.graph2 0, 2), (.graph1 3, 2),
      (.graph2 1, 3), (.graph2 2, 3), (.graph2 3, 4)] ∧
    exLonger.addEdge 1 4 = .ok (.error .indexOutOfBounds, exLonger) :=
  ⟨exPath_wf, exTail_wf, fun h => absurd (((C107_exchange exSingle_wf exTail_wf).2 4 (by decide)).mp h) (by decide),
    by show 4 < 5; omega, by decide, by decide, by decide, rfl⟩
-- the partner 1 of vertex 3 is gone
example : exShorter.graph1.WF ∧ exShorter.graph2.WF ∧ exShorter.isConnected = .panic ∧ exShorter.diameter = .panic ∧
    exShorter.bfsIndex (.graph1 1) 10 = .panic :=
  ⟨exPath_wf, GenericGraph.wf_of_check _ (fun _ _ => trivial) (by decide), by decide, by decide, by decide⟩
-- connected, but without a diameter
example : exEmptied.graph2.vertexCount = 0 ∧ exEmptied.isConnected = .ok true ∧ exEmptied.diameter = .panic := by decide

end Verif
