import Verif.Spec.Load
import Verif.Model.Load
import Verif.Lemmas.Connect
import Mathlib.Algebra.BigOperators.Ring.Finset
import Mathlib.Algebra.BigOperators.Intervals
import Mathlib.Tactic.Linarith
import Mathlib.Tactic.FieldSimp
import Mathlib.Tactic.Ring

/-!
# vertex_load
-/

set_option linter.unusedSectionVars false
set_option linter.unusedSimpArgs false

namespace Verif
open AdjContainer GenericGraph

variable {T A : Type} [AdjContainer T A] [LawfulAdj T A]

theorem pushPred_ok {pr : List (List Nat)} {k : Nat} (hk : k < pr.length) (index : Nat) :
    pushPred pr k index = .ok (pr.set k (pr[k] ++ [index])) := by
  simp only [pushPred, Vec.idx_of_lt hk, Res.ok_bind, Vec.put_of_lt hk]

/-- What the loop over the neighbours does. -/
theorem loadVisit_spec (index depth : Nat) : ∀ (l : List Nat) (s : LoadBuf), l.Nodup →
    (∀ k ∈ l, k < s.distance.length) → s.predecessor.length = s.distance.length →
    ∃ s', loadVisit index depth l s = .ok s' ∧ s'.queue0 = s.queue0 ∧ s'.ordering = s.ordering ∧ s'.bk = s.bk ∧
      s'.queue1 = s.queue1 ++ l.filter (fun k => decide (s.distance[k]? = some none)) ∧
      s'.distance.length = s.distance.length ∧ s'.predecessor.length = s.distance.length ∧
      (∀ k, s'.distance[k]? = if k ∈ l ∧ s.distance[k]? = some none then some (some (depth + 1)) else s.distance[k]?) ∧
      (∀ k, s'.predecessor[k]? = if k ∈ l ∧ (s.distance[k]? = some none ∨ s.distance[k]? = some (some (depth + 1))) then
        (s.predecessor[k]?).map (· ++ [index]) else s.predecessor[k]?)
  | [], s, _, _, hp => ⟨s, rfl, rfl, rfl, rfl, by simp, rfl, hp, by simp, by simp⟩
  | x :: l, s, hn, hl, hp => by
    rw [List.nodup_cons] at hn
    have hx : x < s.distance.length := hl x List.mem_cons_self
    have hxp : x < s.predecessor.length := by omega
    have hl' : ∀ k ∈ l, k < s.distance.length := fun k hk => hl k (List.mem_cons_of_mem _ hk)
    have hne : ∀ k, k ∈ l → x ≠ k := fun k hk e => hn.1 (e ▸ hk)
    cases hd : s.distance[x] with
    | some d =>
      have hdx : s.distance[x]? = some (some d) := by rw [List.getElem?_eq_getElem hx, hd]
      by_cases hdd : d = depth + 1
      · obtain ⟨s', e, a1, a2, a3, a4, a5, a6, a7, a8⟩ := loadVisit_spec index depth l
          { s with predecessor := s.predecessor.set x (s.predecessor[x] ++ [index]) } hn.2 hl' (by simpa using hp)
        refine ⟨s', ?_, a1, a2, a3, ?_, a5, a6, ?_, ?_⟩
        · simp only [loadVisit, Vec.idx_of_lt hx, hd, Res.ok_bind, hdd, if_true, pushPred_ok hxp, e]
        · rw [a4, List.filter_cons_of_neg (by simp [hdx])]
        · intro k
          rw [a7]
          by_cases hk : k = x
          · subst hk; simp [hdx]
          · simp [hk]
        · intro k
          rw [a8]
          by_cases hk : k = x
          · subst hk
            simp [hn.1, hdx, hdd, hxp]
          · simp [hk, List.getElem?_set_ne (Ne.symm hk)]
      · obtain ⟨s', e, a1, a2, a3, a4, a5, a6, a7, a8⟩ := loadVisit_spec index depth l s hn.2 hl' hp
        refine ⟨s', ?_, a1, a2, a3, ?_, a5, a6, ?_, ?_⟩
        · simp only [loadVisit, Vec.idx_of_lt hx, hd, Res.ok_bind, hdd, if_false, e]
        · rw [a4, List.filter_cons_of_neg (by simp [hdx])]
        · intro k
          rw [a7]
          by_cases hk : k = x
          · subst hk; simp [hdx]
          · simp [hk]
        · intro k
          rw [a8]
          by_cases hk : k = x
          · subst hk
            simp [hn.1, hdx, hdd]
          · simp [hk]
    | none =>
      have hdx : s.distance[x]? = some none := by rw [List.getElem?_eq_getElem hx, hd]
      obtain ⟨s', e, a1, a2, a3, a4, a5, a6, a7, a8⟩ := loadVisit_spec index depth l
        { s with distance := s.distance.set x (some (depth + 1)), queue1 := s.queue1 ++ [x],
                 predecessor := s.predecessor.set x (s.predecessor[x] ++ [index]) } hn.2 (by simpa using hl') (by simpa using hp)
      have hset : ∀ k ∈ l, (s.distance.set x (some (depth + 1)))[k]? = s.distance[k]? := fun k hk =>
        List.getElem?_set_ne (hne k hk)
      refine ⟨s', ?_, a1, a2, a3, ?_, by simpa using a5, by simpa using a6, ?_, ?_⟩
      · simp only [loadVisit, Vec.idx_of_lt hx, hd, Res.ok_bind, pushPred_ok hxp, Vec.put_of_lt hx, e]
      · rw [a4, List.filter_cons_of_pos (by simp [hdx])]
        rw [List.append_assoc, List.singleton_append]
        congr 2
        apply List.filter_congr
        intro k hk
        simp only [hset k hk]
      · intro k
        rw [a7]
        by_cases hk : k = x
        · subst hk
          rw [if_neg (by simp [hn.1]), if_pos ⟨List.mem_cons_self, hdx⟩]
          simp [hx]
        · simp [hk, List.getElem?_set_ne (Ne.symm hk)]
      · intro k
        rw [a8]
        by_cases hk : k = x
        · subst hk
          simp [hn.1, hdx, hxp]
        · simp [hk, List.getElem?_set_ne (Ne.symm hk)]

/-- Invariant of the breadth first search of `vertex_load`. -/
structure LoadI (g : GenericGraph T A) (src depth : Nat) (s : LoadBuf) : Prop where
  inv : BfsInv g.toSimple src (fun k => ∃ d, s.distance[k]? = some (some d)) s.queue0 s.queue1 depth s.ordering.reverse
  lenD : s.distance.length = g.nextId
  lenP : s.predecessor.length = g.nextId
  dist : ∀ k d, s.distance[k]? = some (some d) → d = g.toSimple.dist src k
  pred : ∀ k p, s.predecessor[k]? = some p → p.Nodup ∧
    ∀ u, u ∈ p ↔ u ∈ s.ordering ∧ g.toSimple.Adj u k ∧ g.toSimple.dist src u + 1 = g.toSimple.dist src k
  sorted : s.ordering.Pairwise (fun a b => g.toSimple.dist src b ≤ g.toSimple.dist src a)
  empty : s.queue0 = [] → s.queue1 = []

theorem LoadI.lt {g : GenericGraph T A} {src depth : Nat} {s : LoadBuf} (h : LoadI g src depth s) {v : Nat}
    (hv : v ∈ s.queue0 ++ s.queue1 ∨ v ∈ s.ordering) : v < g.nextId := by
  obtain ⟨d, hd⟩ := (h.inv.base.handled v).mpr (by simpa using hv)
  rw [← h.lenD]
  exact (List.getElem?_eq_some_iff.mp hd).1

theorem LoadI.length_le {g : GenericGraph T A} {src depth : Nat} {s : LoadBuf} (h : LoadI g src depth s) :
    s.ordering.length ≤ g.nextId := by
  have h1 := h.inv.base.nodup_done
  have h2 : s.ordering.reverse ⊆ List.range g.nextId := by
    intro x hx; simpa using h.lt (Or.inr (by simpa using hx))
  simpa using (h1.subperm h2).length_le

/-- One vertex is taken from the queue. -/
theorem LoadI.visit {g : GenericGraph T A} (hg : g.WF) {src depth v : Nat} {q0 : List Nat} {s : LoadBuf}
    (h : LoadI g src depth s) (hq : s.queue0 = v :: q0) :
    ∃ s', loadVisit v depth (g.nbrs v) { s with queue0 := q0, ordering := v :: s.ordering } = .ok s' ∧ s'.queue0 = q0 ∧
      s'.ordering = v :: s.ordering ∧ s'.bk = s.bk ∧
      ((q0 = [] → s'.queue1 = []) → LoadI g src depth s') ∧
      (q0 = [] → LoadI g src (depth + 1) { s' with queue0 := s'.queue1, queue1 := [] }) := by
  have hlt : ∀ k ∈ g.nbrs v, k < s.distance.length := fun k hk => by rw [h.lenD]; exact hg.lt _ _ hk
  obtain ⟨s', e, a1, a2, a3, a4, a5, a6, a7, a8⟩ := loadVisit_spec v depth (g.nbrs v)
    { s with queue0 := q0, ordering := v :: s.ordering } (hg.nodup v) hlt (by rw [h.lenP, h.lenD])
  have hb := h.inv
  rw [hq] at hb
  have hnone : ∀ k, k < s.distance.length → (s.distance[k]? = some none ↔ ¬ ∃ d, s.distance[k]? = some (some d)) := by
    intro k hk
    rw [List.getElem?_eq_getElem hk]
    cases s.distance[k] <;> simp
  have hnew : ∀ w, w ∈ (g.nbrs v).filter (fun k => decide (s.distance[k]? = some none)) ↔
      g.toSimple.Adj v w ∧ ¬ ∃ d, s.distance[w]? = some (some d) := by
    intro w
    rw [List.mem_filter, hg.adj_iff]
    constructor
    · rintro ⟨h1, h2⟩; exact ⟨h1, (hnone w (hlt w h1)).mp (of_decide_eq_true h2)⟩
    · rintro ⟨h1, h2⟩; exact ⟨h1, decide_eq_true ((hnone w (hlt w h1)).mpr h2)⟩
  have hH' : ∀ w, (∃ d, s'.distance[w]? = some (some d)) ↔ (∃ d, s.distance[w]? = some (some d)) ∨
      w ∈ (g.nbrs v).filter (fun k => decide (s.distance[k]? = some none)) := by
    intro w
    rw [a7, List.mem_filter]
    by_cases hc : w ∈ g.nbrs v ∧ s.distance[w]? = some none
    · simp [hc]
    · rw [if_neg hc]
      simp only [decide_eq_true_eq]
      tauto
  have hb' := hb.pop hnew ((hg.nodup v).filter _) hH' a4
  have hvd : g.toSimple.dist src v = depth := hb.d0 v List.mem_cons_self
  have hvn : v ∉ s.ordering := by
    have := hb.base.nodup
    simp only [List.cons_append, List.nodup_cons, List.mem_append, List.mem_reverse, not_or] at this
    exact this.1.2
  have hdist : ∀ k d, s'.distance[k]? = some (some d) → d = g.toSimple.dist src k := by
    intro k d hk
    rw [a7] at hk
    split at hk
    · rename_i hc
      simp only [Option.some.injEq] at hk
      have := hb'.d1 k (by rw [a4]; exact List.mem_append_right _ (List.mem_filter.mpr ⟨hc.1, decide_eq_true hc.2⟩))
      omega
    · exact h.dist k d hk
  have hpred : ∀ k p, s'.predecessor[k]? = some p → p.Nodup ∧
      ∀ u, u ∈ p ↔ u ∈ s'.ordering ∧ g.toSimple.Adj u k ∧ g.toSimple.dist src u + 1 = g.toSimple.dist src k := by
    intro k p hk
    have hk0 := hk
    rw [a8] at hk
    rw [a2]
    split at hk
    · rename_i hc
      simp only [Option.map_eq_some_iff] at hk
      obtain ⟨p0, hp0, rfl⟩ := hk
      obtain ⟨b1, b2⟩ := h.pred k p0 hp0
      have hadj : g.toSimple.Adj v k := hg.adj_iff.mpr hc.1
      have hkd : g.toSimple.dist src k = depth + 1 := by
        rcases hc.2 with hc2 | hc2
        · exact hb'.d1 k (by rw [a4]; exact List.mem_append_right _ (List.mem_filter.mpr ⟨hc.1, decide_eq_true hc2⟩))
        · exact (h.dist k _ hc2).symm
      have hvp : v ∉ p0 := fun hv => hvn ((b2 v).mp hv).1
      refine ⟨?_, ?_⟩
      · rw [List.nodup_append]
        refine ⟨b1, by simp, ?_⟩
        intro a ha b hb hab
        simp at hb
        subst hb; subst hab
        exact hvp ha
      · intro u
        simp only [List.mem_append, b2 u, List.mem_cons, List.not_mem_nil, or_false]
        constructor
        · rintro (⟨h1, h2, h3⟩ | rfl)
          · exact ⟨Or.inr h1, h2, h3⟩
          · exact ⟨Or.inl rfl, hadj, by rw [hvd, hkd]⟩
        · rintro ⟨rfl | h1, h2, h3⟩
          · exact Or.inr rfl
          · exact Or.inl ⟨h1, h2, h3⟩
    · rename_i hc
      obtain ⟨b1, b2⟩ := h.pred k p hk
      refine ⟨b1, ?_⟩
      intro u
      rw [b2 u, List.mem_cons]
      constructor
      · rintro ⟨h1, h2, h3⟩; exact ⟨Or.inr h1, h2, h3⟩
      · rintro ⟨rfl | h1, h2, h3⟩
        · exfalso
          apply hc
          have hkn : k ∈ g.nbrs u := hg.adj_iff.mp h2
          refine ⟨hkn, ?_⟩
          by_cases hs : ∃ d, s.distance[k]? = some (some d)
          · obtain ⟨d, hd⟩ := hs
            have := h.dist k d hd
            right
            rw [show depth + 1 = d by omega]
            exact hd
          · exact Or.inl ((hnone k (hlt k hkn)).mpr hs)
        · exact ⟨h1, h2, h3⟩
  have hsorted : s'.ordering.Pairwise (fun a b => g.toSimple.dist src b ≤ g.toSimple.dist src a) := by
    rw [a2, List.pairwise_cons]
    refine ⟨?_, h.sorted⟩
    intro b hbm
    rw [hvd]
    exact hb.dD b (by simpa using hbm)
  have hrev : s'.ordering.reverse = s.ordering.reverse ++ [v] := by rw [a2]; simp
  refine ⟨s', e, a1, a2, a3, ?_, ?_⟩
  · intro hemp
    refine ⟨?_, by rw [a5]; exact h.lenD, by rw [a6]; exact h.lenD, hdist, hpred, hsorted, ?_⟩
    · rw [a1, hrev]
      exact hb'
    · rw [a1]; exact hemp
  · intro hq0
    refine ⟨?_, by rw [a5]; exact h.lenD, by rw [a6]; exact h.lenD, hdist, hpred, hsorted, fun _ => rfl⟩
    subst hq0
    show BfsInv g.toSimple src _ s'.queue1 [] (depth + 1) s'.ordering.reverse
    rw [hrev]
    exact hb'.swap

theorem loadBfs_spec {g : GenericGraph T A} (hg : g.WF) {src : Nat} : ∀ (fuel depth : Nat) (s : LoadBuf),
    LoadI g src depth s → g.nextId < fuel + s.ordering.length →
    ∃ s' depth', loadBfs g fuel depth s = .ok s' ∧ LoadI g src depth' s' ∧ s'.queue0 = [] ∧ s'.bk = s.bk
  | 0, depth, s, h, hf => by have := h.length_le; omega
  | fuel + 1, depth, s, h, hf => by
    cases hq : s.queue0 with
    | nil =>
      refine ⟨s, depth, ?_, h, hq, rfl⟩
      simp only [loadBfs, hq]
    | cons v q0 =>
      have hlt := hg.lt_length (h.lt (v := v) (Or.inl (by simp [hq])))
      obtain ⟨e1, e2⟩ := idx_nbrs hlt
      obtain ⟨s', e, a1, a2, a3, a4, a5⟩ := h.visit hg hq
      simp only [loadBfs, hq, GenericGraph.container, e1, e2, Res.ok_bind, e, a1]
      cases q0 with
      | nil =>
        obtain ⟨s'', d'', e', b1, b2, b3⟩ := loadBfs_spec hg fuel (depth + 1) { s' with queue0 := s'.queue1, queue1 := [] }
          (a5 rfl) (by simp only [a2, List.length_cons]; omega)
        refine ⟨s'', d'', ?_, b1, b2, by rw [b3, a3]⟩
        simpa using e'
      | cons w q0 =>
        obtain ⟨s'', d'', e', b1, b2, b3⟩ := loadBfs_spec hg fuel depth s' (a4 (by simp)) (by rw [a2, List.length_cons]; omega)
        refine ⟨s'', d'', ?_, b1, b2, by rw [b3, a3]⟩
        simpa using e'

/-! ## Closer and farther vertices -/

theorem closer_nonempty {g : GenericGraph T A} (hg : g.WF) {s v : Nat} (hr : g.toSimple.Reachable s v) (hne : v ≠ s) :
    (closer g s v).Nonempty := by
  classical
  obtain ⟨p, hp⟩ := hr.symm.exists_walk_length_eq_dist
  cases p with
  | nil => exact absurd rfl hne
  | @cons _ u _ hadj p' =>
    refine ⟨u, ?_⟩
    have hru : g.toSimple.Reachable s u := ⟨p'.reverse⟩
    rw [closer, Finset.mem_filter, Finset.mem_range]
    refine ⟨hg.lt _ _ (hg.adj_iff.mp hadj), hadj.symm, ?_⟩
    rw [SimpleGraph.dist_comm] at hp
    simp only [SimpleGraph.Walk.length_cons] at hp
    have h1 := SimpleGraph.dist_le p'.reverse
    rw [SimpleGraph.Walk.length_reverse] at h1
    have h2 : g.toSimple.dist s v ≤ g.toSimple.dist s u + 1 := by
      obtain ⟨q, hq⟩ := hru.exists_walk_length_eq_dist
      have h3 := SimpleGraph.dist_le (q.append (SimpleGraph.Walk.cons hadj.symm SimpleGraph.Walk.nil))
      rw [SimpleGraph.Walk.length_append] at h3
      simp at h3
      omega
    omega

theorem mem_closer_iff {g : GenericGraph T A} (hg : g.WF) {s u w : Nat} :
    u ∈ closer g s w ↔ g.toSimple.Adj u w ∧ g.toSimple.dist s u + 1 = g.toSimple.dist s w := by
  classical
  rw [closer, Finset.mem_filter, Finset.mem_range]
  exact ⟨fun h => h.2, fun h => ⟨hg.lt_left (hg.adj_iff.mp h.1), h⟩⟩

theorem mem_farther_iff {g : GenericGraph T A} (hg : g.WF) {s v w : Nat} :
    w ∈ farther g s v ↔ g.toSimple.Adj v w ∧ g.toSimple.dist s v + 1 = g.toSimple.dist s w := by
  classical
  rw [farther, Finset.mem_filter, Finset.mem_range]
  exact ⟨fun h => h.2, fun h => ⟨hg.lt _ _ (hg.adj_iff.mp h.1), h⟩⟩

theorem closer_iff_farther {g : GenericGraph T A} (hg : g.WF) {s u w : Nat} : u ∈ closer g s w ↔ w ∈ farther g s u := by
  rw [mem_closer_iff hg, mem_farther_iff hg]

/-! ## The way back -/

theorem loadAdd_ok (incl : Bool) {b : List ℚ} {v : Nat} (hv : v < b.length) (y : ℚ) :
    loadAdd incl b v y = .ok (b.set v (b[v] + (y - if incl then 0 else 1))) := by
  have hv' : v < (b.set v (b[v] + y)).length := by simpa using hv
  cases incl with
  | true =>
    simp only [loadAdd, Vec.idx_of_lt hv, Res.ok_bind, Vec.put_of_lt hv]
    simp
  | false =>
    simp only [loadAdd, Vec.idx_of_lt hv, Res.ok_bind, Vec.put_of_lt hv, Bool.not_false, if_true, Vec.idx_of_lt hv',
      Vec.put_of_lt hv']
    simp [add_sub_assoc]

theorem addFractions_spec (q : ℚ) : ∀ (p : List Nat) (bk : List ℚ), p.Nodup → (∀ u ∈ p, u < bk.length) →
    ∃ bk', p.foldlM (addFraction q) bk = .ok bk' ∧ bk'.length = bk.length ∧
      ∀ u, bk'[u]? = (bk[u]?).map (fun x => if u ∈ p then x + q else x)
  | [], bk, _, _ => ⟨bk, rfl, rfl, by simp⟩
  | x :: p, bk, hn, hl => by
    rw [List.nodup_cons] at hn
    have hx := hl x List.mem_cons_self
    obtain ⟨bk', e, h1, h2⟩ := addFractions_spec q p (bk.set x (bk[x] + q)) hn.2
      (fun u hu => by simpa using hl u (List.mem_cons_of_mem _ hu))
    refine ⟨bk', ?_, by rw [h1]; simp, ?_⟩
    · simp only [List.foldlM_cons, addFraction, Vec.idx_of_lt hx, Res.ok_bind, Vec.put_of_lt hx]
      exact e
    · intro u
      rw [h2]
      by_cases hu : u = x
      · subst hu
        simp [hn.1, hx]
      · simp [hu, List.getElem?_set_ne (Ne.symm hu)]

/-- The search is finished. -/
structure LoadDone (g : GenericGraph T A) (src : Nat) (ordering : List Nat) (pred : List (List Nat)) : Prop where
  nodup : ordering.Nodup
  mem : ∀ v, v ∈ ordering ↔ g.toSimple.Reachable src v
  last : ordering.getLast? = some src
  sorted : ordering.Pairwise (fun a b => g.toSimple.dist src b ≤ g.toSimple.dist src a)
  pred : ∀ k, k < g.nextId → ∃ p, pred[k]? = some p ∧ p.Nodup ∧ p.toFinset = closer g src k

theorem LoadI.done {g : GenericGraph T A} (hg : g.WF) {src depth : Nat} {s : LoadBuf}
    (h : LoadI g src depth s) (hq : s.queue0 = []) :
    LoadDone g src s.ordering s.predecessor := by
  have hinv := h.inv.base
  rw [hq, h.empty hq, List.append_nil] at hinv
  have hmem : ∀ v, v ∈ s.ordering ↔ g.toSimple.Reachable src v := by
    intro v
    have := hinv.done v
    rw [List.mem_reverse] at this
    rw [this, reachable_iff_rtg]
  refine ⟨?_, hmem, ?_, h.sorted, ?_⟩
  · simpa using hinv.nodup_done
  · rcases hinv.first with ⟨_, h2⟩ | h2
    · simp at h2
    · rw [List.head?_reverse] at h2; exact h2
  · intro k hk
    have hk' : k < s.predecessor.length := by rw [h.lenP]; exact hk
    obtain ⟨b1, b2⟩ := h.pred k s.predecessor[k] (List.getElem?_eq_getElem hk')
    refine ⟨_, List.getElem?_eq_getElem hk', b1, ?_⟩
    ext u
    rw [List.mem_toFinset, b2 u, mem_closer_iff hg]
    constructor
    · exact fun h => h.2
    · intro hu
      refine ⟨?_, hu⟩
      rw [hmem]
      have hk : g.toSimple.Reachable src k := by
        by_contra hc
        have := SimpleGraph.dist_eq_zero_of_not_reachable hc
        omega
      exact hk.trans hu.1.symm.reachable

theorem loadDown_spec {g : GenericGraph T A} (hg : g.WF) {src : Nat} {ordering : List Nat} {pred : List (List Nat)}
    (hd : LoadDone g src ordering pred) {F : ℕ → ℚ} (hF : IsFlow g src F) (incl : Bool) :
    ∀ (st P : List Nat) (b bk : List ℚ), ordering = P ++ st → st ≠ [] → b.length = g.nextId → bk.length = g.nextId →
      (∀ u, u < g.nextId → bk[u]? = some (1 + ∑ w ∈ (farther g src u).filter (· ∈ P), F w / ((closer g src w).card : ℚ))) →
      ∃ b' bk', loadDown incl pred st b bk = .ok ([], b', bk') ∧ b'.length = g.nextId ∧
        ∀ u, b'[u]? = (b[u]?).map (fun x => if u ∈ st ∧ u ≠ src then x + (F u - if incl then 0 else 1) else x)
  | [], _, _, _, _, hne, _, _, _ => absurd rfl hne
  | [v], P, b, bk, ho, _, hb, hbk, _ => by
    refine ⟨b, bk, by simp [loadDown], hb, ?_⟩
    intro u
    have hv : v = src := by
      have := hd.last
      rw [ho] at this
      simpa using this
    have : ¬ (u ∈ [v] ∧ u ≠ src) := by rw [hv]; simp
    simp only [if_neg this]
    simp
  | v :: w :: st, P, b, bk, ho, _, hb, hbk, hinv => by
    have hvo : v ∈ ordering := by rw [ho]; simp
    have hvr : g.toSimple.Reachable src v := (hd.mem v).mp hvo
    have hsrco : src ∈ w :: st := by
      have := hd.last
      rw [ho, List.getLast?_append] at this
      rw [List.getLast?_cons_cons] at this
      obtain ⟨x, hx⟩ : ∃ x, (w :: st).getLast? = some x := by
        rw [List.getLast?_eq_some_getLast (List.cons_ne_nil w st)]; exact ⟨_, rfl⟩
      rw [hx] at this
      simp at this
      subst this
      exact List.mem_of_getLast? hx
    have hnd := hd.nodup
    rw [ho, List.nodup_append, List.nodup_cons] at hnd
    have hvs : v ≠ src := fun e => hnd.2.1.1 (e ▸ hsrco)
    have hvP : v ∉ P := fun hv => hnd.2.2 v hv v List.mem_cons_self rfl
    obtain ⟨p, hp, hpn, hpf⟩ : ∃ p, pred[v]? = some p ∧ p.Nodup ∧ p.toFinset = closer g src v := by
      apply hd.pred
      obtain ⟨u, hu⟩ := closer_nonempty hg hvr hvs
      exact hg.lt _ _ (hg.adj_iff.mp ((mem_closer_iff hg).mp hu).1)
    have hpl : p.length = (closer g src v).card := by rw [← hpf, List.toFinset_card_of_nodup hpn]
    have hp0 : p.length ≠ 0 := by
      rw [hpl]; exact Finset.card_ne_zero.mpr (closer_nonempty hg hvr hvs)
    have hvn : v < g.nextId := by
      obtain ⟨u, hu⟩ := closer_nonempty hg hvr hvs
      exact hg.lt _ _ (hg.adj_iff.mp ((mem_closer_iff hg).mp hu).1)
    have hsub : (farther g src v).filter (· ∈ P) = farther g src v := by
      apply Finset.filter_true_of_mem
      intro x hx
      obtain ⟨hxa, hxd⟩ := (mem_farther_iff hg).mp hx
      have hxo : x ∈ ordering := (hd.mem x).mpr (hvr.trans hxa.reachable)
      rw [ho, List.mem_append] at hxo
      rcases hxo with hxo | hxo
      · exact hxo
      · exfalso
        have hs := hd.sorted
        rw [ho, List.pairwise_append, List.pairwise_cons] at hs
        rcases List.mem_cons.mp hxo with rfl | hxo
        · omega
        · have := hs.2.1.1 x hxo
          omega
    have hbv : bk[v]? = some (F v) := by rw [hinv v hvn, hsub, hF v hvr]
    have hvbk : v < bk.length := by omega
    have hvb : v < b.length := by omega
    have hbv' : bk[v] = F v := by rw [List.getElem?_eq_getElem hvbk] at hbv; simpa using hbv
    obtain ⟨bk', e1, l1, g1⟩ := addFractions_spec (F v / (p.length : ℚ)) p bk hpn (by
      intro u hu
      rw [hbk]
      have : u ∈ closer g src v := by rw [← hpf]; exact List.mem_toFinset.mpr hu
      exact hg.lt_left (hg.adj_iff.mp ((mem_closer_iff hg).mp this).1))
    have hinv' : ∀ u, u < g.nextId → bk'[u]? = some (1 + ∑ w ∈ (farther g src u).filter (· ∈ P ++ [v]),
        F w / ((closer g src w).card : ℚ)) := by
      intro u hu
      rw [g1, hinv u hu, Option.map_some]
      congr 1
      have hup : u ∈ p ↔ v ∈ farther g src u := by
        rw [← closer_iff_farther hg, ← hpf, List.mem_toFinset]
      by_cases hc : u ∈ p
      · rw [if_pos hc]
        have : (farther g src u).filter (· ∈ P ++ [v]) = insert v ((farther g src u).filter (· ∈ P)) := by
          ext x
          simp only [Finset.mem_filter, Finset.mem_insert, List.mem_append, List.mem_singleton]
          constructor
          · rintro ⟨h1, h2 | h2⟩
            · exact Or.inr ⟨h1, h2⟩
            · exact Or.inl h2
          · rintro (rfl | ⟨h1, h2⟩)
            · exact ⟨hup.mp hc, Or.inr rfl⟩
            · exact ⟨h1, Or.inl h2⟩
        rw [this, Finset.sum_insert (by simp [hvP]), hpl]
        ring
      · rw [if_neg hc]
        have : (farther g src u).filter (· ∈ P ++ [v]) = (farther g src u).filter (· ∈ P) := by
          apply Finset.filter_congr
          intro x hx
          simp only [List.mem_append, List.mem_singleton]
          constructor
          · rintro (h | rfl)
            · exact h
            · exact absurd (hup.mpr hx) hc
          · exact Or.inl
        rw [this]
    have eb := loadAdd_ok incl hvb (F v)
    generalize hb1 : b.set v (b[v] + (F v - if incl then 0 else 1)) = b1 at eb
    obtain ⟨b', bk'', e2, l2, g2⟩ := loadDown_spec hg hd hF incl (w :: st) (P ++ [v]) b1 bk' (by rw [ho]; simp) (by simp)
      (by rw [← hb1]; simpa using hb) (by rw [l1, hbk]) hinv'
    refine ⟨b', bk'', ?_, l2, ?_⟩
    · obtain ⟨hpv, hpe⟩ := List.getElem?_eq_some_iff.mp hp
      have hpi : Vec.idx pred v = .ok p := by rw [Vec.idx_of_lt hpv, hpe]
      have ha : Res.assert (decide (p.length ≠ 0)) = .ok () := by simp [Res.assert, hp0]
      rw [loadDown, if_neg (by simp), Vec.idx_of_lt hvbk, hbv']
      simp only [Res.ok_bind, eb, hpi, ha, e1, e2]
    · intro u
      rw [g2, ← hb1]
      by_cases hu : u = v
      · subst hu
        have : u ∉ w :: st := hnd.2.1.1
        simp [hvb, hvs, this]
      · rw [List.getElem?_set_ne (Ne.symm hu)]
        simp [hu]

end Verif
