import Verif.Lemmas.Traverse2
import Verif.Model.Measures
import Mathlib.Combinatorics.SimpleGraph.Connectivity.Connected
import Mathlib.Data.Set.Card

/-!
# Connectivity and distances
-/

set_option linter.unusedSectionVars false
set_option linter.unusedSimpArgs false

namespace Verif
open AdjContainer GenericGraph

/-! ### Loops -/

/-- Invariant rule for `for x in l`. -/
theorem foldlM_inv {α σ : Type} {f : σ → α → Res σ} (l : List α) (I : List α → σ → Prop)
    (hstep : ∀ pre x post s, l = pre ++ x :: post → I pre s → ∃ s', f s x = .ok s' ∧ I (pre ++ [x]) s')
    {s : σ} (h0 : I [] s) : ∃ s', l.foldlM f s = .ok s' ∧ I l s' := by
  have key : ∀ (post pre : List α) (s : σ), l = pre ++ post → I pre s → ∃ s', post.foldlM f s = .ok s' ∧ I l s' := by
    intro post
    induction post with
    | nil => intro pre s hl hI; simp at hl; subst hl; exact ⟨s, rfl, hI⟩
    | cons x post ih =>
      intro pre s hl hI
      obtain ⟨s', h1, h2⟩ := hstep pre x post s hl hI
      obtain ⟨s'', h3, h4⟩ := ih (pre ++ [x]) s' (by simpa using hl) h2
      exact ⟨s'', by simp [List.foldlM_cons, h1, h3], h4⟩
  exact key l [] s rfl h0

/-- Invariant rule for `for i in a..a+n`. -/
theorem foldlM_range' {σ : Type} {f : σ → Nat → Res σ} (a n : Nat) (I : Nat → σ → Prop)
    (hstep : ∀ i s, a ≤ i → i < a + n → I i s → ∃ s', f s i = .ok s' ∧ I (i + 1) s') {s : σ} (h0 : I a s) :
    ∃ s', (List.range' a n).foldlM f s = .ok s' ∧ I (a + n) s' := by
  induction n generalizing a s with
  | zero => exact ⟨s, rfl, h0⟩
  | succ n ih =>
    obtain ⟨s', h1, h2⟩ := hstep a s (le_refl _) (by omega) h0
    obtain ⟨s'', h3, h4⟩ := ih (a + 1) (fun i s hi hi' => hstep i s (by omega) (by omega)) h2
    exact ⟨s'', by simp [List.range'_succ, List.foldlM_cons, h1, h3], by rwa [show a + (n + 1) = a + 1 + n by omega]⟩

/-- Invariant rule for `for i in 0..n`. -/
theorem foldlM_range {σ : Type} {f : σ → Nat → Res σ} (n : Nat) (I : Nat → σ → Prop)
    (hstep : ∀ i s, i < n → I i s → ∃ s', f s i = .ok s' ∧ I (i + 1) s') {s : σ} (h0 : I 0 s) :
    ∃ s', (List.range n).foldlM f s = .ok s' ∧ I n s' := by
  rw [List.range_eq_range']
  simpa using foldlM_range' 0 n I (fun i s _ h => hstep i s (by omega)) h0

variable {T A : Type} [AdjContainer T A] [LawfulAdj T A]

/-! ### Reachability stays within the vertices -/

theorem GenericGraph.WF.reachable_lt {g : GenericGraph T A} (h : g.WF) {v w : Nat} (hr : g.toSimple.Reachable v w)
    (hv : v < g.nextId) : w < g.nextId := by
  rw [h.reachable_iff] at hr
  induction hr with
  | refl => exact hv
  | tail _ hc _ => exact h.lt _ _ hc

theorem nodup_length_eq_iff {n : Nat} {L : List Nat} (hnd : L.Nodup) (hlt : ∀ x ∈ L, x < n) :
    L.length = n ↔ ∀ x < n, x ∈ L := by
  have hsub : L ⊆ List.range n := fun x hx => by simpa using hlt x hx
  constructor
  · intro hl x hx
    have hp := (hnd.subperm hsub).perm_of_length_le (by simp [hl])
    exact hp.mem_iff.mpr (by simpa using hx)
  · intro hall
    have h2 : (List.range n).Subperm L := List.nodup_range.subperm (fun x hx => hall x (by simpa using hx))
    have h3 := (hnd.subperm hsub).length_le
    have h4 := h2.length_le
    simp at h3 h4; omega

theorem isConnected_spec {g : GenericGraph T A} (h : g.WF) (hn : 0 < g.nextId) :
    ∃ b, g.isConnected = .ok (some b) ∧ (b = true ↔ ∀ v w, v < g.nextId → w < g.nextId → g.toSimple.Reachable v w) := by
  obtain ⟨items, h1, h2, _⟩ := dfsWithIndex_spec h hn (fuel := g.nextId + 1) (by omega)
  have hd : g.dfs 0 (g.nextId + 1) = .ok (items.map (·.2)) := by simp [dfs_eq_dfsWithIndex, h1]
  refine ⟨items.length == g.nextId, by simp [GenericGraph.isConnected, GenericGraph.vertexCount, show g.nextId ≠ 0 by omega, hd], ?_⟩
  have hlen := nodup_length_eq_iff (n := g.nextId) h2.nodup
    (fun x hx => h.reachable_lt ((h2.mem x).mp hx) hn)
  simp only [List.length_map, beq_iff_eq] at hlen ⊢
  rw [hlen]
  constructor
  · intro hall v w hv hw
    exact ((h2.mem v).mp (hall v hv)).symm.trans ((h2.mem w).mp (hall w hw))
  · intro hall x hx
    exact (h2.mem x).mpr (hall 0 x hn hx)

/-! ### Component labels -/

theorem labelAll_spec (cur : Int) : ∀ (l : List (Nat × T)) (comp : List Int), (∀ p ∈ l, p.1 < comp.length) →
    ∃ comp', labelAll cur l comp = .ok comp' ∧ comp'.length = comp.length ∧
      ∀ v, comp'[v]? = if v ∈ l.map (·.1) then some cur else comp[v]? := by
  intro l
  induction l with
  | nil => intro comp _; exact ⟨comp, rfl, rfl, by simp⟩
  | cons p l ih =>
    intro comp hl
    have hp : p.1 < comp.length := hl p (by simp)
    obtain ⟨comp', h1, h2, h3⟩ := ih (comp.set p.1 cur) (fun q hq => by simpa using hl q (by simp [hq]))
    refine ⟨comp', ?_, by simpa using h2, ?_⟩
    · unfold labelAll at h1 ⊢
      rw [List.foldlM_cons, Vec.put_of_lt hp]; exact h1
    · intro v
      rw [h3]
      by_cases hv : v ∈ l.map (·.1)
      · rw [if_pos hv, if_pos (by simp at hv ⊢; exact Or.inr hv)]
      · rw [if_neg hv]
        by_cases hv' : v = p.1
        · subst hv'; simp [hp]
        · rw [List.getElem?_set_ne (Ne.symm hv'), if_neg]
          simp at hv ⊢; exact ⟨hv', hv⟩

/-- `v` is the smallest vertex of its component. -/
def IsFirst (G : SimpleGraph ℕ) (v : ℕ) : Prop := ∀ w, G.Reachable v w → v ≤ w

open Classical in
/-- Invariant of the component labelling: `k` labels used, the vertices below `i` are labelled, `reps` are the start
vertices: the smallest vertices of the components met so far. -/
structure CcInv (g : GenericGraph T A) (i k : Nat) (comp : List Int) (reps : List Nat) : Prop where
  len : comp.length = g.nextId
  val : ∀ v < g.nextId, comp[v]? = some (-1) ∨ ∃ c < k, comp[v]? = some (c : Int)
  done : ∀ v < i, v < g.nextId → comp[v]? ≠ some (-1)
  same : ∀ (v : Nat) (c : Nat), comp[v]? = some (c : Int) → ∀ w, comp[w]? = some (c : Int) ↔ g.toSimple.Reachable v w
  rlen : reps.length = k
  rep : ∀ (c r : Nat), reps[c]? = some r → r < g.nextId ∧ comp[r]? = some (c : Int)
  first : reps = (List.range i).filter (fun v => IsFirst g.toSimple v)

theorem CcInv.init (g : GenericGraph T A) : CcInv g 0 0 (List.replicate g.nextId (-1)) [] where
  len := by simp
  val v hv := by left; simp [List.getElem?_replicate, hv]
  done := by simp
  same v c hc := by
    rw [List.getElem?_replicate] at hc
    split at hc
    · simp at hc
    · simp at hc
  rlen := rfl
  rep := by simp
  first := by simp

theorem CcInv.skip {g : GenericGraph T A} {i k comp reps} (h : CcInv g i k comp reps) (hi : comp[i]? ≠ some (-1))
    (hin : i < g.nextId) : CcInv g (i + 1) k comp reps := by
  refine ⟨h.len, h.val, fun v hv hn => ?_, h.same, h.rlen, h.rep, ?_⟩
  · by_cases hvi : v = i
    · subst hvi; exact hi
    · exact h.done v (by omega) hn
  · obtain ⟨c, hck, hc⟩ := (h.val i hin).resolve_left hi
    have hcl : c < reps.length := by rw [h.rlen]; exact hck
    obtain ⟨_, h2⟩ := h.rep c _ (List.getElem?_eq_getElem hcl)
    have hr := (h.same _ c h2 i).mp hc
    have hm : ∀ r ∈ reps, r < i := fun r hr => by
      rw [h.first, List.mem_filter, List.mem_range] at hr
      exact hr.1
    have hm := hm _ (List.getElem_mem hcl)
    have hnf : ¬ IsFirst g.toSimple i := fun hf => by
      have := hf _ hr.symm
      omega
    rw [List.range_succ, List.filter_append, ← h.first]
    simp [hnf]

open Classical in
theorem CcInv.label {g : GenericGraph T A} {i k : Nat} {comp comp' reps} (h : CcInv g i k comp reps)
    (hi : comp[i]? = some (-1)) (hin : i < g.nextId) (hl : comp'.length = comp.length)
    (hc : ∀ v, comp'[v]? = if g.toSimple.Reachable i v then some (k : Int) else comp[v]?) :
    CcInv g (i + 1) (k + 1) comp' (reps ++ [i]) := by
  have hno : ∀ (v : Nat) (c : Nat), comp[v]? = some (c : Int) → ¬ g.toSimple.Reachable i v := by
    intro v c hv hr
    have := (h.same v c hv i).mpr hr.symm
    rw [hi] at this; simp at this
  have hlt : ∀ (v : Nat) (c : Nat), comp[v]? = some (c : Int) → c < k := by
    intro v c hv
    have hvn : v < g.nextId := by rw [← h.len]; exact (List.getElem?_eq_some_iff.mp hv).1
    rcases h.val v hvn with h1 | ⟨c', h1, h2⟩
    · rw [hv] at h1; simp at h1
    · rw [hv] at h2; simp at h2; omega
  have hf : IsFirst g.toSimple i := by
    intro w hw
    by_contra hlt'
    push Not at hlt'
    obtain ⟨c, _, hcw⟩ := (h.val w (by omega)).resolve_left (h.done w hlt' (by omega))
    exact hno w c hcw hw
  refine ⟨by rw [hl, h.len], ?_, ?_, ?_, by simp [h.rlen], ?_, by
    rw [List.range_succ, List.filter_append, ← h.first]
    simp [hf]⟩
  · intro v hv
    rw [hc]
    split
    · right; exact ⟨k, by omega, rfl⟩
    · rcases h.val v hv with h1 | ⟨c, h1, h2⟩
      · exact Or.inl h1
      · exact Or.inr ⟨c, by omega, h2⟩
  · intro v hv hn
    rw [hc]
    split
    · simp
    · rename_i hr
      by_cases hvi : v = i
      · subst hvi; exact absurd (SimpleGraph.Reachable.refl _) hr
      · exact h.done v (by omega) hn
  · intro v c hv w
    rw [hc] at hv
    split at hv
    · rename_i hr
      simp at hv
      have hv : k = c := by omega
      subst hv
      rw [hc]
      constructor
      · intro hw
        split at hw
        · rename_i hr2; exact hr.symm.trans hr2
        · exact absurd (hlt w k hw) (by omega)
      · intro hr2
        rw [if_pos (hr.trans hr2)]
    · rename_i hr
      have hck := hlt v c hv
      rw [hc]
      constructor
      · intro hw
        split at hw
        · simp at hw; omega
        · exact (h.same v c hv w).mp hw
      · intro hr2
        have := (h.same v c hv w).mpr hr2
        rw [if_neg (hno w c this)]; exact this
  · intro c r hr
    rw [List.getElem?_append] at hr
    split at hr
    · obtain ⟨h1, h2⟩ := h.rep c r hr
      refine ⟨h1, ?_⟩
      rw [hc, if_neg (hno r c h2)]; exact h2
    · rename_i hcl
      rw [List.getElem?_singleton] at hr
      split at hr
      · simp at hr; subst hr
        have : c = k := by rw [h.rlen] at *; omega
        subst this
        exact ⟨hin, by rw [hc, if_pos (SimpleGraph.Reachable.refl _)]⟩
      · simp at hr

/-- One step of the labelling loop, shared by `connected_components_ids` and `suggest_connections`. -/
theorem label_step {g : GenericGraph T A} (hg : g.WF) {i k : Nat} {comp : List Int} {reps : List Nat}
    (h : CcInv g i k comp reps) (hi : comp[i]? = some (-1)) (hin : i < g.nextId) :
    ∃ l comp', g.dfsWithIndex i (g.nextId + 1) = .ok l ∧ labelAll (k : Int) l comp = .ok comp' ∧
      CcInv g (i + 1) (k + 1) comp' (reps ++ [i]) := by
  obtain ⟨l, h1, h2, _⟩ := dfsWithIndex_spec hg hin (fuel := g.nextId + 1) (by omega)
  obtain ⟨comp', h3, h4, h5⟩ := labelAll_spec (k : Int) l comp (fun p hp => by
    rw [h.len]
    exact hg.reachable_lt ((h2.mem p.1).mp (List.mem_map_of_mem hp)) hin)
  refine ⟨l, comp', h1, h3, h.label hi hin h4 ?_⟩
  intro v
  rw [h5]
  by_cases hv : g.toSimple.Reachable i v
  · rw [if_pos hv, if_pos ((h2.mem v).mpr hv)]
  · rw [if_neg hv, if_neg (fun hc => hv ((h2.mem v).mp hc))]

theorem ccIds_spec {g : GenericGraph T A} (h : g.WF) :
    ∃ k comp reps, g.connectedComponentsIds = .ok (k, comp) ∧ CcInv g g.nextId k comp reps := by
  obtain ⟨s, h1, k, reps, h2, h3⟩ := foldlM_range (f := ccBody g) g.nextId
    (fun i s => ∃ (k : Nat) (reps : List Nat), s.2 = (k : Int) ∧ CcInv g i k s.1 reps)
    (by
      rintro i ⟨comp, cur⟩ hi ⟨k, reps, h1, h2⟩
      dsimp only at h1 h2
      subst h1
      have hil : i < comp.length := by rw [h2.len]; exact hi
      by_cases hc : comp[i]? = some (-1)
      · obtain ⟨l, comp', e1, e2, e3⟩ := label_step h h2 hc hi
        refine ⟨(comp', (k : Int) + 1), ?_, k + 1, reps ++ [i], by simp, e3⟩
        simp [ccBody, Vec.idx_of_some hc, GenericGraph.vertexCount, e1, e2]
      · refine ⟨(comp, (k : Int)), ?_, k, reps, rfl, h2.skip hc hi⟩
        have : comp[i] ≠ -1 := fun hh => hc (by rw [List.getElem?_eq_getElem hil, hh])
        simp [ccBody, Vec.idx_of_lt hil, this])
    (s := (List.replicate g.nextId (-1), 0)) ⟨0, [], rfl, CcInv.init g⟩
  refine ⟨k, s.1, reps, ?_, h3⟩
  have h1' : List.foldlM (ccBody g) (List.replicate g.nextId (-1), 0) (List.range g.nextId) = .ok (s.1, s.2) := h1
  unfold GenericGraph.connectedComponentsIds
  simp only [GenericGraph.vertexCount]
  rw [h1']
  simp [toUsize, h2]

theorem suggestConnections_spec {g : GenericGraph T A} (h : g.WF) :
    ∃ k comp reps, g.suggestConnections = .ok reps ∧ g.connectedComponentsIds = .ok (k, comp) ∧
      CcInv g g.nextId k comp reps := by
  -- both loops run in lock step
  have key : ∀ (l : List Nat) (comp : List Int) (cur : Int) (sugg : List Nat),
      ∀ s', l.foldlM (scBody g) (sugg, comp, cur) = .ok s' → l.foldlM (ccBody g) (comp, cur) = .ok (s'.2.1, s'.2.2) := by
    intro l
    induction l with
    | nil => intro comp cur sugg s' hs; simp at hs; subst hs; rfl
    | cons i l ih =>
      intro comp cur sugg s' hs
      rw [List.foldlM_cons] at hs ⊢
      rw [Res.bind_eq_ok] at hs
      obtain ⟨⟨sugg1, comp1, cur1⟩, h1, h2⟩ := hs
      have h3 : ccBody g (comp, cur) i = .ok (comp1, cur1) := by
        simp only [scBody] at h1
        simp only [ccBody]
        rw [Res.bind_eq_ok] at h1
        obtain ⟨c, hc, h1⟩ := h1
        rw [hc]
        simp only [Res.ok_bind]
        split at h1
        · rename_i hcne
          rw [if_pos hcne]; simp at h1 ⊢; exact ⟨h1.2.1, h1.2.2⟩
        · rename_i hcne
          rw [if_neg hcne]
          simp at h1
          obtain ⟨l', e1, e2, _, e4⟩ := h1
          simp [e1, e2, e4]
      rw [h3, Res.ok_bind]
      exact ih _ _ _ _ h2
  obtain ⟨s, h1, k, h2, h3⟩ := foldlM_range (f := scBody g) g.nextId
    (fun i s => ∃ (k : Nat), s.2.2 = (k : Int) ∧ CcInv g i k s.2.1 s.1)
    (by
      rintro i ⟨reps, comp, cur⟩ hi ⟨k, h1, h2⟩
      dsimp only at h1 h2
      subst h1
      have hil : i < comp.length := by rw [h2.len]; exact hi
      by_cases hc : comp[i]? = some (-1)
      · obtain ⟨l, comp', e1, e2, e3⟩ := label_step h h2 hc hi
        refine ⟨(reps ++ [i], comp', (k : Int) + 1), ?_, k + 1, by simp, e3⟩
        simp [scBody, Vec.idx_of_some hc, GenericGraph.vertexCount, e1, e2]
      · refine ⟨(reps, comp, (k : Int)), ?_, k, rfl, h2.skip hc hi⟩
        have : comp[i] ≠ -1 := fun hh => hc (by rw [List.getElem?_eq_getElem hil, hh])
        simp [scBody, Vec.idx_of_lt hil, this])
    (s := ([], List.replicate g.nextId (-1), 0)) ⟨0, rfl, CcInv.init g⟩
  have hcc := key _ _ _ _ _ h1
  refine ⟨k, s.2.1, s.1, ?_, ?_, h3⟩
  · unfold GenericGraph.suggestConnections
    simp only [GenericGraph.vertexCount]
    have h1' : List.foldlM (scBody g) ([], List.replicate g.nextId (-1), 0) (List.range g.nextId) = .ok (s.1, s.2.1, s.2.2) := h1
    rw [h1']; rfl
  · unfold GenericGraph.connectedComponentsIds
    simp only [GenericGraph.vertexCount]
    rw [hcc]
    simp [toUsize, h2]

/-! ### Distances -/

theorem foldl_last {α : Type} (f : α → Nat) : ∀ (l : List α) (d : Nat), l.foldl (fun _ x => f x) d = (l.getLast?.map f).getD d := by
  intro l
  induction l with
  | nil => intro d; rfl
  | cons x l ih =>
    intro d
    rw [List.foldl_cons, ih]
    cases l with
    | nil => rfl
    | cons y l => simp [List.getLast?_cons_cons]; cases h : (y :: l).getLast? <;> simp_all

/-- The depth of the last item is the maximum distance. -/
theorem BfsOrder.last {g : GenericGraph T A} {G : SimpleGraph ℕ} {v : Nat} {L : List (Nat × T × Nat)}
    (h : BfsOrder g G v L) : ∃ x, L.getLast? = some x ∧ G.Reachable v x.1 ∧ x.2.2 = G.dist v x.1 ∧
      ∀ w, G.Reachable v w → G.dist v w ≤ x.2.2 := by
  have hne : L ≠ [] := by
    rintro rfl; have := h.head; simp at this
  refine ⟨L.getLast hne, List.getLast?_eq_some_getLast hne, ?_, ?_, ?_⟩
  · exact (h.mem _).mp (List.mem_map_of_mem (List.getLast_mem hne))
  · exact h.dist _ (List.getLast_mem hne)
  · intro w hw
    obtain ⟨p, hp, hpw⟩ := List.mem_map.mp ((h.mem w).mpr hw)
    subst hpw
    rw [← h.dist p hp]
    have hs := h.sorted
    rw [← List.dropLast_append_getLast hne, List.map_append, List.pairwise_append] at hs
    rw [← List.dropLast_append_getLast hne] at hp
    rcases List.mem_append.mp hp with hp | hp
    · exact hs.2.2 _ (List.mem_map_of_mem hp) _ (by simp)
    · simp at hp; rw [hp]

theorem longest_spec {g : GenericGraph T A} (h : g.WF) {v : Nat} (hv : v < g.nextId) :
    ∃ d, g.longestShortestPathFromIndex v = .ok (some d) ∧
      (∃ w, g.toSimple.Reachable v w ∧ g.toSimple.dist v w = d) ∧
      ∀ w, g.toSimple.Reachable v w → g.toSimple.dist v w ≤ d := by
  obtain ⟨L, h1, h2⟩ := bfs_spec h hv (fuel := g.nextId + 1) (by omega)
  obtain ⟨x, e1, e2, e3, e4⟩ := h2.last
  exact ⟨x.2.2, by simp [GenericGraph.longestShortestPathFromIndex, GenericGraph.vertexCount, h1, e1],
    ⟨x.1, e2, e3.symm⟩, e4⟩

/-- Reusing the BFS and running it to its end. -/
theorem reuse_run {g : GenericGraph T A} (h : g.WF) {s : BfsState} (hs : s.handled.length = g.nextId) {v : Nat}
    (hv : v < g.nextId) :
    ∃ s1 L s2, BfsState.reuse g.vertices s v = .ok s1 ∧ collect (bfsNext g.vertices) (g.nextId + 1) s1 = .ok (L, s2) ∧
      BfsOrder g g.toSimple v L ∧ s2.handled.length = g.nextId := by
  obtain ⟨L, s', h1, h2, h3⟩ := collect_bfs h (hG_true h) (BfsI.init hv _) (fuel := g.nextId + 1) (by omega)
  exact ⟨BfsState.new g v, L, s', BfsState.reuse_eq_new h.len s hs v, h1, h2, h3⟩

theorem diameter_spec {g : GenericGraph T A} (h : g.WF) (hn : 0 < g.nextId)
    (hc : ∀ v w, v < g.nextId → w < g.nextId → g.toSimple.Reachable v w) :
    ∃ d, g.diameter = .ok (some d) ∧ (∀ v w, v < g.nextId → w < g.nextId → g.toSimple.dist v w ≤ d) ∧
      ∃ v w, v < g.nextId ∧ w < g.nextId ∧ g.toSimple.dist v w = d := by
  obtain ⟨b, hb, hb'⟩ := isConnected_spec h hn
  have hbt : b = true := hb'.mpr hc
  subst hbt
  obtain ⟨s, h1, h2, h3, h4⟩ := foldlM_range' (f := diamBody g) 1 (g.nextId - 1)
    (fun i s => s.1.handled.length = g.nextId ∧
      (∀ v w, 1 ≤ v → v < i → w < g.nextId → g.toSimple.dist v w ≤ s.2) ∧
      (∃ v w, v < g.nextId ∧ w < g.nextId ∧ g.toSimple.dist v w = s.2))
    (by
      rintro i ⟨bfs, m⟩ hi1 hi2 ⟨i1, i2, v0, w0, i3, i4, i5⟩
      have hin : i < g.nextId := by omega
      obtain ⟨s1, L, s2, e1, e2, e3, e4⟩ := reuse_run h i1 hin
      obtain ⟨x, f1, f2, f3, f4⟩ := e3.last
      refine ⟨(s2, Nat.max m x.2.2), ?_, e4, ?_, ?_⟩
      · simp only [diamBody, e1, Res.ok_bind, GenericGraph.vertexCount, e2, foldl_last, f1]
        rfl
      · intro v w hv1 hv2 hw
        by_cases hvi : v = i
        · subst hvi
          exact le_trans (f4 w (hc _ _ hin hw)) (Nat.le_max_right _ _)
        · exact le_trans (i2 v w hv1 (by omega) hw) (Nat.le_max_left _ _)
      · rcases Nat.le_total m x.2.2 with hle | hle
        · refine ⟨i, x.1, hin, h.reachable_lt f2 hin, ?_⟩
          rw [← f3]; exact (Nat.max_eq_right hle).symm
        · refine ⟨v0, w0, i3, i4, ?_⟩
          rw [i5]; exact (Nat.max_eq_left hle).symm)
    (s := (BfsState.new g 0, 0)) ⟨BfsState.new_handled_length g 0, by intro v w h1 h2; omega,
      0, 0, hn, hn, by simp⟩
  refine ⟨s.2, ?_, ?_, h4⟩
  · unfold GenericGraph.diameter
    rw [hb]
    simp only [Res.ok_bind, GenericGraph.vertexCount]
    have h1' : List.foldlM (diamBody g) (BfsState.new g 0, 0) (List.range' 1 (g.nextId - 1)) = .ok (s.1, s.2) := h1
    rw [h1']; rfl
  · intro v w hv hw
    by_cases hv0 : 1 ≤ v
    · exact h3 v w hv0 (by omega) hw
    · have : v = 0 := by omega
      subst this
      by_cases hw0 : 1 ≤ w
      · rw [SimpleGraph.dist_comm]; exact h3 w 0 hw0 (by omega) hv
      · have : w = 0 := by omega
        subst this; simp

/-! ### Closeness -/

theorem addDepths_spec : ∀ (l : List (Nat × T × Nat)) (count : List Nat), (l.map (·.1)).Nodup →
    (∀ p ∈ l, p.1 < count.length) →
    ∃ count', addDepths l count = .ok count' ∧ count'.length = count.length ∧
      (∀ p ∈ l, count'[p.1]? = (count[p.1]?).map (· + p.2.2)) ∧ (∀ v, v ∉ l.map (·.1) → count'[v]? = count[v]?) := by
  intro l
  induction l with
  | nil => intro count _ _; exact ⟨count, rfl, rfl, by simp, by simp⟩
  | cons p l ih =>
    intro count hnd hl
    have hp : p.1 < count.length := hl p (by simp)
    simp only [List.map_cons, List.nodup_cons] at hnd
    obtain ⟨count', h1, h2, h3, h4⟩ := ih (count.set p.1 (count[p.1] + p.2.2)) hnd.2
      (fun q hq => by simpa using hl q (by simp [hq]))
    refine ⟨count', ?_, by simpa using h2, ?_, ?_⟩
    · unfold addDepths at h1 ⊢
      rw [List.foldlM_cons]
      simp only [Vec.idx_of_lt hp, Res.ok_bind, Vec.put_of_lt hp]
      exact h1
    · intro q hq
      rcases List.mem_cons.mp hq with rfl | hq
      · rw [h4 _ hnd.1]; simp [hp]
      · rw [h3 q hq, List.getElem?_set_ne]
        intro hc
        exact hnd.1 (by rw [hc]; exact List.mem_map_of_mem hq)
    · intro v hv
      simp at hv
      rw [h4 v (by simpa using hv.2), List.getElem?_set_ne (Ne.symm hv.1)]

open Classical in
theorem closeness_spec {g : GenericGraph T A} (h : g.WF) (hn : 0 < g.nextId) :
    ∃ L, g.closenessCentrality = .ok L ∧ L.length = g.nextId ∧
      ∀ v < g.nextId, L[v]? = some (g.nextId - 1,
        ∑ w ∈ (Finset.range g.nextId).filter (fun w => g.toSimple.Reachable v w), g.toSimple.dist v w) := by
  obtain ⟨s, h1, h2, h3, h4⟩ := foldlM_range (f := closenessBody g) g.nextId
    (fun i s => s.1.handled.length = g.nextId ∧ s.2.length = g.nextId ∧
      ∀ v < g.nextId, s.2[v]? = some
        (∑ w ∈ (Finset.range i).filter (fun w => g.toSimple.Reachable v w), g.toSimple.dist v w))
    (by
      rintro i ⟨bfs, count⟩ hi ⟨i1, i2, i3⟩
      obtain ⟨s1, L, s2, e1, e2, e3, e4⟩ := reuse_run h i1 hi
      obtain ⟨count', f1, f2, f3, f4⟩ := addDepths_spec L count e3.nodup (fun p hp => by
        have : count.length = g.nextId := i2
        rw [this]
        exact h.reachable_lt ((e3.mem p.1).mp (List.mem_map_of_mem hp)) hi)
      refine ⟨(s2, count'), ?_, e4, by rw [f2]; exact i2, ?_⟩
      · simp [closenessBody, e1, GenericGraph.vertexCount, e2, f1]
      · intro v hv
        dsimp only
        rw [Finset.range_add_one, Finset.filter_insert]
        by_cases hr : g.toSimple.Reachable v i
        · obtain ⟨p, hp, hpv⟩ := List.mem_map.mp ((e3.mem v).mpr hr.symm)
          subst hpv
          rw [f3 p hp, i3 p.1 hv, if_pos hr, Finset.sum_insert (by simp), e3.dist p hp, SimpleGraph.dist_comm]
          simp [Nat.add_comm]
        · rw [f4 v (fun hc => hr ((e3.mem v).mp hc).symm), if_neg hr]
          exact i3 v hv)
    (s := (BfsState.new g 0, List.replicate g.nextId 0))
    ⟨BfsState.new_handled_length g 0, by simp, by intro v hv; simp [List.getElem?_replicate, hv]⟩
  refine ⟨s.2.map (fun c => (g.nextId - 1, c)), ?_, by simp [h3], ?_⟩
  · unfold GenericGraph.closenessCentrality
    simp only [GenericGraph.vertexCount]
    have h1' : List.foldlM (closenessBody g) (BfsState.new g 0, List.replicate g.nextId 0) (List.range g.nextId) = .ok (s.1, s.2) := h1
    rw [h1']
    simp [Res.sub_of_le (show 1 ≤ g.nextId by omega)]
  · intro v hv
    simp [h4 v hv]

end Verif
