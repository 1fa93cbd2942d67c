import Verif.Lemmas.Traverse

/-!
# `BfsMut`, `Bfs::reuse` and `BfsFiltered`
-/

set_option linter.unusedSectionVars false
set_option linter.unusedSimpArgs false

namespace Verif
open AdjContainer GenericGraph

variable {T A : Type} [AdjContainer T A] [LawfulAdj T A]

/-! ### BfsMut -/

/-- On a vertex list with the same neighbours, `Bfs::next` does the same; only the data may differ. -/
theorem bfsNext_same {g : GenericGraph T A} {vs : List A} (hs : SameAdj g vs) {s s' : BfsState} {index : Nat} {t : T}
    {d : Nat} (hx : bfsNext g.vertices s = .ok (some (index, t, d), s')) :
    ∃ (hl : index < vs.length), bfsNext vs s = .ok (some (index, contained vs[index], d), s') := by
  have main : ∀ (s : BfsState) i q, bfsVisit g.vertices s i q = .ok (some (index, t, d), s') →
      ∃ (hl : index < vs.length), bfsVisit vs s i q = .ok (some (index, contained vs[index], d), s') := by
    intro s i q hx
    by_cases hi : i < g.vertices.length
    · have hi' : i < vs.length := by rw [hs.len]; exact hi
      have hnb := (hs.get i _ _ (List.getElem?_eq_getElem hi') (List.getElem?_eq_getElem hi)).1
      simp only [bfsVisit, Vec.idx_of_lt hi, Res.ok_bind] at hx
      simp only [bfsVisit, Vec.idx_of_lt hi', Res.ok_bind, hnb]
      cases hv : visitQueue (neighbors g.vertices[i]) s.handled s.queue1 with
      | panic => rw [hv] at hx; simp at hx
      | diverge => rw [hv] at hx; simp at hx
      | ok p =>
        rw [hv] at hx
        simp at hx
        obtain ⟨⟨rfl, rfl, rfl⟩, rfl⟩ := hx
        exact ⟨hi', by simp⟩
    · simp [bfsVisit, List.getElem?_eq_none (Nat.le_of_not_lt hi), hi] at hx
  unfold bfsNext at hx ⊢
  split at hx
  · exact main _ _ _ hx
  · split at hx
    · simp at hx
    · exact main _ _ _ hx

theorem bfsMut_spec {g : GenericGraph T A} (h : g.WF) (upd : Nat → T → T) {v : Nat} (hv : v < g.nextId) {fuel : Nat}
    (hf : g.nextId < fuel) :
    ∃ items g', g.bfsMut upd v fuel = .ok (items, g') ∧ g.bfs v fuel = .ok items ∧
      g'.WF ∧ g'.nextId = g.nextId ∧ g'.edgeCount = g.edgeCount ∧
      (∀ i, g'.nbrs i = g.nbrs i) ∧ Written upd g.data g'.data (items.map (·.1)) := by
  have key : ∀ (fuel : Nat) (vs : List A) (s : BfsState) (D : List (Nat × T × Nat)), SameAdj g vs →
      BfsI g g.toSimple (fun _ => True) v s D → Written upd g.data (vs.map contained) (D.map (·.1)) →
      g.nextId < fuel + D.length →
      ∃ (items : List (Nat × T × Nat)) (sm : BfsMutState A) (s' : BfsState),
        collect (bfsMutNext upd) fuel ⟨vs, s, D.length⟩ = .ok (items, sm) ∧
        collect (bfsNext g.vertices) fuel s = .ok (items, s') ∧ SameAdj g sm.vertices ∧
        Written upd g.data (sm.vertices.map contained) ((D ++ items).map (·.1)) := by
    intro fuel
    induction fuel with
    | zero => intro vs s D _ hI _ hf; have := hI.length_le; omega
    | succ fuel ih =>
      intro vs s D hs hI hw hf
      rcases bfsNext_step h (hG_true h) hI with ⟨e1, _, e3, e4⟩ | ⟨⟨index, t, d⟩, s', e1, _, e3⟩
      · refine ⟨[], ⟨vs, s, D.length⟩, s, ?_, by simp [collect, e1], hs, by simpa using hw⟩
        have : bfsNext vs s = .ok (none, s) := by simp [bfsNext, e3, e4]
        simp [collect, bfsMutNext, this]
      · obtain ⟨hl, e2⟩ := bfsNext_same hs e1
        have hnD : index ∉ D.map (·.1) := by
          have := e3.inv.base.nodup_done
          rw [List.map_append, List.nodup_append] at this
          exact fun hc => this.2.2 index hc index (by simp) rfl
        have hlt : index < g.vertices.length := by rw [← hs.len]; exact hl
        have ht : contained g.vertices[index] = t := by
          have := (e3.items (index, t, d) (by simp)).1
          simpa [GenericGraph.getContained, hlt] using this
        have hold : contained vs[index] = t := by
          have := hw.2.2 index hnD
          simpa [GenericGraph.data, hlt, hl, ht] using this
        rw [hold] at e2
        obtain ⟨items, sm, s2, i1, i2, i3, i4⟩ := ih
          (vs.set index (setContained vs[index] (upd D.length t))) s' (D ++ [(index, t, d)])
          (hs.set (List.getElem?_eq_getElem hl) _) e3
          (by
            have := hw.step hnD (t := t) (by simp [hl, hold])
            simpa [List.map_set, LawfulAdj.contained_set] using this)
          (by simp; omega)
        refine ⟨(index, t, d) :: items, sm, s2, ?_, ?_, i3, ?_⟩
        · simp only [List.length_append, List.length_singleton] at i1
          simp [collect, bfsMutNext, e2, Vec.idx_of_lt hl, i1]
        · simp [collect, e1, i2]
        · simpa using i4
  obtain ⟨items, sm, s', i1, i2, i3, i4⟩ := key fuel g.vertices _ [] (SameAdj.refl g) (BfsI.init hv _)
    ⟨rfl, by simp, by simp [GenericGraph.data]⟩ (by simpa using hf)
  refine ⟨items, { g with vertices := sm.vertices }, ?_, ?_, i3.wf h, rfl, rfl, i3.nbrs, ?_⟩
  · simp only [List.length_nil] at i1
    simp [GenericGraph.bfsMut, BfsMutState.new, i1]
  · simp [GenericGraph.bfs, i2]
  · simpa [GenericGraph.data] using i4

/-! ### reuse -/

theorem visitQueue_length : ∀ (l : List Nat) (handled : List Bool) (q : List Nat) (r),
    visitQueue l handled q = .ok r → r.1.length = handled.length := by
  intro l
  induction l with
  | nil => intro handled q r hr; simp [visitQueue] at hr; rw [← hr]
  | cons i l ih =>
    intro handled q r hr
    by_cases hi : i < handled.length
    · simp only [visitQueue, Vec.idx_of_lt hi, Res.ok_bind] at hr
      split at hr
      · rw [Vec.put_of_lt hi] at hr
        simp only [Res.ok_bind] at hr
        simpa using ih _ _ _ hr
      · exact ih _ _ _ hr
    · simp [visitQueue, List.getElem?_eq_none (Nat.le_of_not_lt hi), hi] at hr

theorem bfsVisit_length {vs : List A} {s s' : BfsState} {i : Nat} {q : List Nat} {o : Option (Nat × T × Nat)}
    (hx : bfsVisit vs s i q = .ok (o, s')) : s'.handled.length = s.handled.length := by
  by_cases hi : i < vs.length
  · simp only [bfsVisit, Vec.idx_of_lt hi, Res.ok_bind] at hx
    cases hv : visitQueue (neighbors vs[i]) s.handled s.queue1 with
    | panic => rw [hv] at hx; simp at hx
    | diverge => rw [hv] at hx; simp at hx
    | ok p =>
      rw [hv] at hx
      simp at hx
      rw [← hx.2]; exact visitQueue_length _ _ _ _ hv
  · simp [bfsVisit, List.getElem?_eq_none (Nat.le_of_not_lt hi), hi] at hx

theorem bfsNext_length {vs : List A} {s s' : BfsState} {o : Option (Nat × T × Nat)}
    (hx : bfsNext vs s = .ok (o, s')) : s'.handled.length = s.handled.length := by
  unfold bfsNext at hx
  split at hx
  · exact bfsVisit_length hx
  · split at hx
    · simp at hx; rw [← hx.2]
    · have := bfsVisit_length hx; simpa using this

theorem advance_bfs_length {vs : List A} : ∀ (k : Nat) (s s' : BfsState), advance (bfsNext (T := T) vs) k s = .ok s' →
    s'.handled.length = s.handled.length := by
  intro k
  induction k with
  | zero => intro s s' h; simp [advance] at h; rw [h]
  | succ k ih =>
    intro s s' h
    simp only [advance] at h
    cases hn : bfsNext (T := T) vs s with
    | panic => rw [hn] at h; simp at h
    | diverge => rw [hn] at h; simp at h
    | ok p => rw [hn] at h; simp only [Res.ok_bind] at h; rw [ih _ _ h]; exact bfsNext_length (o := p.1) (s' := p.2) hn

theorem BfsState.new_handled_length (g : GenericGraph T A) (v : Nat) : (BfsState.new g v).handled.length = g.nextId := by
  by_cases hv : v < g.nextId
  · rw [BfsState.new_of_lt hv]; simp
  · rw [BfsState.new_of_ge hv]; simp

theorem BfsState.reuse_eq_new {g : GenericGraph T A} (hl : g.vertices.length = g.nextId) (s : BfsState)
    (hs : s.handled.length = g.nextId) (v : Nat) : BfsState.reuse g.vertices s v = .ok (BfsState.new g v) := by
  have hm : s.handled.map (fun _ => false) = List.replicate g.nextId false := by
    rw [← hs]; exact List.map_const' ..
  by_cases hv : v < g.nextId
  · rw [BfsState.new_of_lt hv]
    simp [BfsState.reuse, hl, hv, hm, Vec.put]
  · rw [BfsState.new_of_ge hv]
    simp [BfsState.reuse, hl, hv, hm]

/-! ### filtered BFS -/

theorem filterHandled_length (vs : List A) (f : T → Nat → Bool) : (filterHandled vs f).length = vs.length := by
  simp [filterHandled]

theorem filterHandled_getElem? (vs : List A) (f : T → Nat → Bool) (k : Nat) :
    (filterHandled vs f)[k]? = vs[k]?.map (fun c => !f (contained c) k) := by
  simp [filterHandled]
  cases vs[k]? <;> simp

theorem newFiltered_none {g : GenericGraph T A} (h : g.WF) {f : T → Nat → Bool} {v : Nat} (hv : ¬ Accepted g f v) :
    BfsState.newFiltered g v f = .ok none := by
  by_cases hlt : v < g.nextId
  · have hl := h.lt_length hlt
    have : f (contained g.vertices[v]) v = false := by
      by_contra hc
      exact hv ⟨contained g.vertices[v], by simp [GenericGraph.getContained, hl], by simpa using hc⟩
    have hn : ¬ g.nextId ≤ v := by omega
    simp [BfsState.newFiltered, GenericGraph.vertexCount, hlt, hn, GenericGraph.at_, GenericGraph.container, Vec.idx_of_lt hl, this]
  · simp [BfsState.newFiltered, GenericGraph.vertexCount]; intro hc; exact absurd hc (by omega)

theorem newFiltered_some {g : GenericGraph T A} (h : g.WF) {f : T → Nat → Bool} {v : Nat} (hv : Accepted g f v) :
    BfsState.newFiltered g v f = .ok (some ⟨(filterHandled g.vertices f).set v true, [v], [], 0⟩) := by
  obtain ⟨t, h1, h2⟩ := hv
  have hl : v < g.vertices.length := by
    by_contra hc
    simp [GenericGraph.getContained, List.getElem?_eq_none (by omega : g.vertices.length ≤ v)] at h1
  have hlt : v < g.nextId := by rw [← h.len]; exact hl
  have ht : contained g.vertices[v] = t := by simpa [GenericGraph.getContained, hl] using h1
  have hn : ¬ g.nextId ≤ v := by omega
  simp [BfsState.newFiltered, GenericGraph.vertexCount, hlt, hn, GenericGraph.at_, GenericGraph.container, Vec.idx_of_lt hl, ht, h2,
    Vec.put, filterHandled_length, hl]

theorem BfsI.initFiltered {g : GenericGraph T A} (h : g.WF) {f : T → Nat → Bool} {v : Nat} (hv : Accepted g f v) :
    BfsI g (filteredGraph g f) (Accepted g f) v ⟨(filterHandled g.vertices f).set v true, [v], [], 0⟩ [] := by
  have hl : v < (filterHandled g.vertices f).length := by
    obtain ⟨t, h1, h2⟩ := hv
    rw [filterHandled_length]
    by_contra hc
    simp [GenericGraph.getContained, List.getElem?_eq_none (by omega : g.vertices.length ≤ v)] at h1
  have hget : ∀ k, k ≠ v → (((filterHandled g.vertices f).set v true)[k]? = some true ↔ k < g.nextId ∧ ¬ Accepted g f k) := by
    intro k hk
    rw [List.getElem?_set_ne (Ne.symm hk), filterHandled_getElem?]
    unfold Accepted GenericGraph.getContained
    rw [← h.len]
    cases hc : g.vertices[k]? with
    | none => simpa using hc
    | some a => simp [(List.getElem?_eq_some_iff.mp hc).1]
  refine ⟨BfsInv.init ?_, by simp [filterHandled_length, h.len], ?_, by simp, by simp⟩
  · intro k
    by_cases hk : k = v
    · subst hk; simp [hl, hv]
    · constructor
      · rintro ⟨h1, h2⟩; exact absurd h2 ((hget k hk).mp h1).2
      · intro hc; exact absurd hc hk
  · intro k hk hok
    have : k ≠ v := by rintro rfl; exact hok hv
    exact (hget k this).mpr ⟨hk, hok⟩

theorem bfsFiltered_spec {g : GenericGraph T A} (h : g.WF) {f : T → Nat → Bool} {v : Nat} (hv : Accepted g f v) {fuel : Nat}
    (hf : g.nextId < fuel) :
    ∃ L, g.bfsFiltered v f fuel = .ok (some L) ∧ BfsOrder g (filteredGraph g f) v L := by
  obtain ⟨L, s', h1, h2⟩ := collect_bfsFiltered h (G := filteredGraph g f) (ok := Accepted g f)
    (fun v w => by simp [filteredGraph, h.adj_iff]) (BfsI.initFiltered h hv) hf
  exact ⟨L, by simp [GenericGraph.bfsFiltered, newFiltered_some h hv, h1], h2⟩

end Verif
