import Verif.Lemmas.Ws

/-!
# Lemmas about the Watts-Strogatz ensemble: removing and adding edges
-/

set_option linter.unusedSectionVars false
set_option linter.unusedSimpArgs false

namespace Verif
open AdjContainer GenericGraph

namespace Ws
variable {T R : Type} [Rng R]

theorem swapRemoveElem_Z (c : WSContainer T) (hinv : c.dst.length = c.original.length) (hnd : c.dst.Nodup) {x : Nat}
    (hx : x ∈ c.dst) :
    ∃ Z' : List (Nat × OriginalEdge), c.swapRemoveElem x = .ok { c with dst := Z'.map Prod.fst, original := Z'.map Prod.snd } ∧
      (∀ z ∈ Z', z ∈ c.dst.zip c.original) ∧ (Z'.map Prod.fst).Nodup ∧ ∀ v, v ∈ Z'.map Prod.fst ↔ v ∈ c.dst ∧ v ≠ x := by
  obtain ⟨l1, l2, i, h1, h2, e, hi, s1, s2, p1, p2⟩ := WSContainer.swapRemoveElem_mem c hinv hx
  obtain ⟨z1, z2⟩ := zip_split c hinv
  have hlt : i < (c.dst.zip c.original).length := by rw [List.length_zip]; omega
  obtain ⟨Z', s3, p3⟩ := Vec.swapRemove_of_lt hlt
  have t1 := Vec.swapRemove_map Prod.fst s3
  have t2 := Vec.swapRemove_map Prod.snd s3
  rw [← z1, s1] at t1
  rw [← z2, s2] at t2
  simp only [Res.ok.injEq, Prod.mk.injEq] at t1 t2
  refine ⟨Z', ?_, ?_, ?_, ?_⟩
  · rw [e, t1.2, t2.2]
  · intro z hz
    exact p3.subset (List.mem_cons_of_mem _ hz)
  · rw [← t1.2]
    exact (List.nodup_cons.mp (p1.nodup_iff.mpr hnd)).2
  · intro v
    rw [← t1.2]
    have hn := p1.nodup_iff.mpr hnd
    constructor
    · intro hv
      refine ⟨p1.subset (List.mem_cons_of_mem _ hv), ?_⟩
      rintro rfl
      exact (List.nodup_cons.mp hn).1 hv
    · rintro ⟨hv, hne⟩
      rcases List.mem_cons.mp (p1.symm.subset hv) with h | h
      · exact absurd h hne
      · exact h

/-- The neighbours while the other ends of the edges from `i` to `W` are being removed, those in `W1` being done. -/
def Half (E : Finset (Sym2 ℕ)) (i : Nat) (W W1 : List Nat) (u v : Nat) : Prop :=
  s(u, v) ∈ E ∧ ¬ (u = i ∧ v ∈ W) ∧ ¬ (v = i ∧ u ∈ W1)

theorem removeLoop_spec {n : Nat} {dat : List T} {ec : Nat} {E : Finset (Sym2 ℕ)} {org : Sym2 ℕ → Sym2 ℕ} {i : Nat} {W : List Nat}
    (hW : W.Nodup) (hWE : ∀ v ∈ W, s(i, v) ∈ E ∧ i ≠ v ∧ v < n) : ∀ (rest W1 : List Nat) (g : WSGraph T), W = W1 ++ rest →
    Raw n dat ec g (Half E i W W1) org →
    ∃ g', (rest.map (fun v => (⟨i, v, true⟩ : OriginalEdge))).foldlM removeOther g = .ok g' ∧ Raw n dat ec g' (Half E i W W) org := by
  intro rest
  induction rest with
  | nil =>
    intro W1 g hW1 h
    simp at hW1; subst hW1
    exact ⟨g, rfl, h⟩
  | cons v rest ih =>
    intro W1 g hW1 h
    have hvW : v ∈ W := by rw [hW1]; simp
    have hv1 : v ∉ W1 := by
      rw [hW1] at hW
      have := List.nodup_append.mp hW
      intro hc
      exact this.2.2 v hc v (by simp) rfl
    obtain ⟨e1, e2, e3⟩ := hWE v hvW
    obtain ⟨c, hc⟩ := h.get e3
    have hv := h.vert v c hc
    have hx : i ∈ c.dst := (hv.adj i).mpr ⟨by rw [Sym2.eq_swap]; exact e1, fun hh => e2 hh.1.symm, fun hh => hv1 hh.2⟩
    obtain ⟨Z', f1, f2, f3, f4⟩ := swapRemoveElem_Z c hv.inv hv.nodup hx
    have hr := h.set (P' := Half E i W (W1 ++ [v])) hc (c' := { c with dst := Z'.map Prod.fst, original := Z'.map Prod.snd }) rfl
      ⟨hv.id, by simp, f3, (by
        intro w
        show w ∈ Z'.map Prod.fst ↔ _
        rw [f4, hv.adj]
        unfold Half
        constructor
        · rintro ⟨⟨k1, k2, k3⟩, k4⟩
          exact ⟨k1, k2, fun hh => k4 hh.1⟩
        · rintro ⟨k1, k2, k3⟩
          refine ⟨⟨k1, k2, fun hh => k3 ⟨hh.1, by simp [hh.2]⟩⟩, fun hh => k3 ⟨hh, by simp⟩⟩), (by
        intro z hz
        simp only [zip_map] at hz
        exact hv.entry z (f2 z hz))⟩
      (by
        intro u w hu
        unfold Half
        constructor
        · rintro ⟨k1, k2, k3⟩
          exact ⟨k1, k2, fun hh => k3 ⟨hh.1, by simp [hh.2]⟩⟩
        · rintro ⟨k1, k2, k3⟩
          refine ⟨k1, k2, fun hh => k3 ⟨hh.1, ?_⟩⟩
          rcases List.mem_append.mp hh.2 with h' | h'
          · exact h'
          · exact absurd (List.mem_singleton.mp h') hu)
    obtain ⟨g', k1, k2⟩ := ih (W1 ++ [v]) _ (by rw [hW1]; simp) hr
    refine ⟨g', ?_, k2⟩
    rw [List.map_cons, List.foldlM_cons]
    have : removeOther g ⟨i, v, true⟩ =
        .ok { g with vertices := g.vertices.set v { c with dst := Z'.map Prod.fst, original := Z'.map Prod.snd } } := by
      unfold removeOther
      rw [Vec.idx_of_some hc]
      simp only [Res.ok_bind]
      rw [f1]
      rfl
    rw [this]
    exact k1

/-- The state between two vertices or two additions: `Pm` are the original places of the removed edges that were not yet
inserted again. -/
structure J (n d : Nat) (dat : List T) (g : WSGraph T) (E : Finset (Sym2 ℕ)) (org : Sym2 ℕ → Sym2 ℕ) (Pm : Multiset (Sym2 ℕ)) :
    Prop where
  raw : Raw n dat (n * d) g (fun u v => s(u, v) ∈ E) org
  lt : ∀ u v, s(u, v) ∈ E → u < n ∧ v < n ∧ u ≠ v
  ms : E.val.map org + Pm = (ringSet n d).val

theorem removeStage_spec {p : ℚ} {n d : Nat} {dat : List T} {g : WSGraph T} {E : Finset (Sym2 ℕ)} {org : Sym2 ℕ → Sym2 ℕ}
    (h : J n d dat g E org 0) {i : Nat} (hi : i < n) (rng : R) :
    ∃ g' rewire rng' D, removeStage p g rng i = .ok (g', rewire, rng') ∧ D ⊆ E ∧ (∀ e ∈ D, org e = e ∧ i ∈ e) ∧
      J n d dat g' (E \ D) org D.val ∧ ((rewire.map OriginalEdge.pair : List (Sym2 ℕ)) : Multiset (Sym2 ℕ)) = D.val ∧
      (AllHeads p → ∀ e ∈ E \ D, i ∈ e → org e ≠ e) ∧
      (rewire = [] → g' = g ∧ rng' = unitState (nfl (WSGraph.entries g i)) rng ∧
        ∀ k < nfl (WSGraph.entries g i), throwAt p rng k = false) ∧
      ((∀ k < nfl (WSGraph.entries g i), throwAt p rng k = false) → rewire = []) := by
  obtain ⟨c, hc⟩ := h.raw.get hi
  have hv := h.raw.vert i c hc
  have hent : WSGraph.entries g i = c.dst.zip c.original := by simp [WSGraph.entries, hc]
  rw [hent]
  obtain ⟨z1, z2⟩ := zip_split c hv.inv
  have hlen : (c.dst.zip c.original).length = c.original.length := by rw [List.length_zip]; have := hv.inv; omega
  obtain ⟨Z', A', del, rng', t1, t2, t3, t4, t5, t6, t7⟩ := testLoop_spec p _ (c.dst.zip c.original) [] [] rng hlen
  simp only [List.append_nil, List.nil_append] at t1 t2 t6
  rw [← z1, ← z2] at t1
  have hsub : ∀ z ∈ del, z ∈ c.dst.zip c.original := fun z hz => t3.subset (List.mem_append_right _ hz)
  have hhome : ∀ z ∈ del, z.2 = ⟨i, z.1, true⟩ := fun z hz => (hv.entry z (hsub z hz)).home (t4 z hz)
  have hrew : del.map Prod.snd = (del.map Prod.fst).map (fun v => (⟨i, v, true⟩ : OriginalEdge)) := by
    rw [List.map_map]
    apply List.map_congr_left
    intro z hz
    exact hhome z hz
  have hnd : ((A' ++ del).map Prod.fst).Nodup := by
    rw [(t3.map Prod.fst).nodup_iff, ← z1]; exact hv.nodup
  rw [List.map_append, List.nodup_append] at hnd
  have hWE : ∀ v ∈ del.map Prod.fst, s(i, v) ∈ E ∧ i ≠ v ∧ v < n := by
    intro v hvd
    obtain ⟨z, hz, rfl⟩ := List.mem_map.mp hvd
    have : z.1 ∈ c.dst := (List.of_mem_zip (hsub z hz)).1
    have := (hv.adj _).mp this
    exact ⟨this, (h.lt _ _ this).2.2, (h.lt _ _ this).2.1⟩
  have hmemZ : ∀ v, v ∈ Z'.map Prod.fst ↔ v ∈ A'.map Prod.fst := fun v => (t2.map Prod.fst).mem_iff
  have hr := h.raw.set (P' := Half E i (del.map Prod.fst) []) hc
    (c' := { c with dst := Z'.map Prod.fst, original := Z'.map Prod.snd }) rfl
    ⟨hv.id, by simp, by
        show (Z'.map Prod.fst).Nodup
        rw [(t2.map Prod.fst).nodup_iff]; exact hnd.1, (by
      intro v
      show v ∈ Z'.map Prod.fst ↔ _
      rw [hmemZ]
      have hin : v ∈ c.dst ↔ v ∈ A'.map Prod.fst ∨ v ∈ del.map Prod.fst := by
        rw [z1, ← (t3.map Prod.fst).mem_iff, List.map_append, List.mem_append]
      unfold Half
      rw [← hv.adj, hin]
      constructor
      · intro hA
        exact ⟨.inl hA, fun hh => hnd.2.2 v hA v hh.2 rfl, by simp⟩
      · rintro ⟨k1, k2, _⟩
        rcases k1 with k1 | k1
        · exact k1
        · exact absurd ⟨rfl, k1⟩ k2), (by
      intro z hz
      simp only [zip_map] at hz
      exact hv.entry z (t3.subset (List.mem_append_left _ (t2.subset hz))))⟩
    (by
      intro u w hu
      unfold Half
      simp [hu])
  obtain ⟨g', k1, k2⟩ := removeLoop_spec hnd.2.1 hWE (del.map Prod.fst) [] _ rfl hr
  have hD : ∀ u v, s(u, v) ∈ (del.map Prod.fst).toFinset.image (fun v => s(i, v)) ↔
      (u = i ∧ v ∈ del.map Prod.fst) ∨ (v = i ∧ u ∈ del.map Prod.fst) := by
    intro u v
    rw [Finset.mem_image]
    constructor
    · rintro ⟨w, hw, he⟩
      rw [List.mem_toFinset] at hw
      rcases Sym2.eq_iff.mp he with ⟨rfl, rfl⟩ | ⟨rfl, rfl⟩
      · exact .inl ⟨rfl, hw⟩
      · exact .inr ⟨rfl, hw⟩
    · rintro (⟨rfl, hw⟩ | ⟨rfl, hw⟩)
      · exact ⟨v, List.mem_toFinset.mpr hw, rfl⟩
      · exact ⟨u, List.mem_toFinset.mpr hw, Sym2.eq_swap⟩
  set D := (del.map Prod.fst).toFinset.image (fun v => s(i, v)) with hDdef
  have hDE : D ⊆ E := by
    intro e he
    rw [hDdef, Finset.mem_image] at he
    obtain ⟨w, hw, rfl⟩ := he
    exact (hWE w (List.mem_toFinset.mp hw)).1
  have hDo : ∀ e ∈ D, org e = e ∧ i ∈ e := by
    intro e he
    rw [hDdef, Finset.mem_image] at he
    obtain ⟨w, hw, rfl⟩ := he
    obtain ⟨z, hz, rfl⟩ := List.mem_map.mp (List.mem_toFinset.mp hw)
    exact ⟨(hv.entry z (hsub z hz)).flag.mp (t4 z hz), Sym2.mem_mk_left _ _⟩
  have hDv : (((del.map Prod.snd).map OriginalEdge.pair : List (Sym2 ℕ)) : Multiset (Sym2 ℕ)) = D.val := by
    rw [hrew, List.map_map, hDdef]
    rw [Finset.image_val, List.toFinset_val, List.dedup_eq_self.mpr hnd.2.1]
    rw [Multiset.map_coe]
    rw [Multiset.dedup_eq_self.mpr]
    · rfl
    · rw [Multiset.coe_nodup]
      apply List.Nodup.map _ hnd.2.1
      intro a b hab
      exact Sym2.congr_right.mp hab
  have hraw : Raw n dat (n * d) g' (fun u v => s(u, v) ∈ E \ D) org := by
    refine k2.congr ?_ (fun _ _ _ => rfl)
    intro u v
    rw [Finset.mem_sdiff, hD]
    unfold Half
    tauto
  have hms : (E \ D).val.map org + D.val = (ringSet n d).val := by
    have h1 := h.ms
    rw [add_zero] at h1
    rw [← h1]
    have h2 : D.val = D.val.map org := by
      conv_lhs => rw [← Multiset.map_id' D.val]
      apply Multiset.map_congr rfl
      intro e he
      exact ((hDo e he).1).symm
    rw [h2, ← Multiset.map_add]
    congr 1
    rw [Finset.sdiff_val, tsub_add_cancel_of_le (Finset.val_le_iff.mpr hDE)]
  refine ⟨g', del.map Prod.snd, rng', D, ?_, hDE, hDo,
    ⟨hraw, fun u v huv => h.lt u v (Finset.mem_sdiff.mp huv).1, hms⟩, hDv, ?_, ?_, ?_⟩
  · unfold removeStage
    rw [Vec.idx_of_some hc]
    simp only [Res.ok_bind]
    rw [show (c.original.length == c.dst.length) = true by simp [hv.inv]]
    simp only [Res.assert_true, Res.ok_bind]
    rw [t1]
    simp only [Res.ok_bind]
    rw [hrew, k1]
    rfl
  · intro hp e he hie
    obtain ⟨w, rfl⟩ := Sym2.mem_iff_exists.mp hie
    obtain ⟨he1, he2⟩ := Finset.mem_sdiff.mp he
    have hw : w ∈ c.dst := (hv.adj w).mpr he1
    rw [z1] at hw
    obtain ⟨z, hz, rfl⟩ := List.mem_map.mp hw
    rcases List.mem_append.mp (t3.symm.subset hz) with hz' | hz'
    · intro ho
      have := (hv.entry z hz).flag.mpr ho
      rw [t5 hp z hz'] at this
      cases this
    · exact absurd ((hD i z.1).mpr (.inl ⟨rfl, List.mem_map_of_mem hz'⟩)) he2
  · intro hd
    have hd : del = [] := List.map_eq_nil_iff.mp hd
    obtain ⟨a1, a2, a3⟩ := t6 hd
    refine ⟨?_, a2, a3⟩
    rw [hd] at k1
    simp only [List.map_nil, List.foldlM_nil, Res.pure_eq, Res.ok.injEq] at k1
    rw [← k1, a1, ← z1, ← z2]
    have hset : g.vertices.set i c = g.vertices := by
      apply List.ext_getElem?
      intro k
      rw [List.getElem?_set]
      by_cases hk : i = k
      · subst hk
        have hlt : i < g.vertices.length := (List.getElem?_eq_some_iff.mp hc).1
        rw [if_pos rfl, if_pos hlt, hc]
      · rw [if_neg hk]
    show ({ g with vertices := g.vertices.set i c } : WSGraph T) = g
    rw [hset]
  · intro ht
    rw [t7 ht]; rfl

end Ws
end Verif
