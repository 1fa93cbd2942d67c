import Verif.Lemmas.Draws
import Verif.Props.Ba

/-!
# Preferential attachment on a fair tape

Every vertex gets its neighbours.
-/

set_option linter.unusedSectionVars false
set_option linter.unusedSimpArgs false

namespace Verif
open AdjContainer

namespace Ba

variable {T : Type}

theorem attach_within {g0 : Graph T} (h0 : g0.WF) {weights : List Nat} {i m : Nat} (hi : i < g0.nextId)
    (hnil : g0.nbrs i = []) (hpos : 0 < weights.sum) (hw : ∀ v, 0 < weights.getD v 0 → v < g0.nextId ∧ v ≠ i)
    {P : Nat → Prop} (hP : ∀ v, 0 < weights.getD v 0 → P v) :
    ∀ (K : Nat) (g : Graph T) (r : Stream) (S : Finset ℕ), Att g0 i P g S → S.card ≤ m →
    m ≤ (S ∪ (Finset.range K).image (fun k => weightedPick weights (partOf (r.tape (r.pos + k)) weights.sum))).card →
    Eventually (fun fuel => attach weights i m fuel g r) (fun p => p.2.tape = r.tape ∧ ∃ S', Att g0 i P p.1 S' ∧ S'.card = m) := by
  have hdegree : ∀ {g : Graph T} {S : Finset ℕ}, Att g0 i P g S → ∃ c, g.container i = .ok c ∧ AdjContainer.degree c = S.card := by
    intro g S hA
    obtain ⟨c, c1, c2, _⟩ := container_degree hA.wf (i := i) (by rw [hA.n]; exact hi)
    refine ⟨c, c1, ?_⟩
    rw [c2, hA.deg, hnil]
    have : i ∉ S := by
      intro hc
      have hwf := hA.wf
      have : s(i, i) ∈ g.edges := by
        rw [hA.edges]; exact Finset.mem_union_right _ (Finset.mem_image.mpr ⟨i, hc, rfl⟩)
      exact (hwf.mem_lt this).2.2 rfl
    simp [this]
  have hdone : ∀ {g : Graph T} {S : Finset ℕ} (r : Stream), Att g0 i P g S → S.card = m →
      Eventually (fun fuel => attach weights i m fuel g r) (fun p => p.2.tape = r.tape ∧ ∃ S', Att g0 i P p.1 S' ∧ S'.card = m) := by
    intro g S r hA hS
    obtain ⟨c, c1, c2⟩ := hdegree hA
    refine ⟨1, (g, r), ⟨rfl, S, hA, hS⟩, ?_⟩
    intro fuel hf
    obtain ⟨fuel, rfl⟩ : ∃ k, fuel = k + 1 := ⟨fuel - 1, by omega⟩
    show attach weights i m (fuel + 1) g r = _
    rw [attach, c1, Res.ok_bind, if_neg (by omega)]
    rfl
  intro K
  induction K with
  | zero =>
    intro g r S hA hS hm
    simp only [Finset.range_zero, Finset.image_empty, Finset.union_empty] at hm
    exact hdone r hA (le_antisymm hS hm)
  | succ K ih =>
    intro g r S hA hS hm
    by_cases hlt : S.card < m
    · obtain ⟨c, c1, c2⟩ := hdegree hA
      obtain ⟨p1, p2⟩ := weightedPick_spec weights (partOf r.head weights.sum) (partOf_lt _ hpos)
      have hv := hw _ p2
      obtain ⟨x, g', a1, a2⟩ := hA.next hi hnil h0 hv.1 hv.2 (hP _ p2)
      have hset : S ∪ (Finset.range (K + 1)).image (fun k => weightedPick weights (partOf (r.tape (r.pos + k)) weights.sum)) =
          insert (weightedPick weights (partOf r.head weights.sum)) S ∪
            (Finset.range K).image (fun k => weightedPick weights (partOf ((r.skip 1).tape ((r.skip 1).pos + k)) weights.sum)) := by
        ext v
        simp only [Finset.mem_union, Finset.mem_image, Finset.mem_range, Finset.mem_insert, Stream.skip_tape, Stream.skip_pos]
        constructor
        · rintro (h | ⟨k, hk, rfl⟩)
          · exact .inl (.inr h)
          · cases k with
            | zero => exact .inl (.inl rfl)
            | succ k => exact .inr ⟨k, by omega, by congr 3; omega⟩
        · rintro ((rfl | h) | ⟨k, hk, rfl⟩)
          · exact .inr ⟨0, by omega, rfl⟩
          · exact .inl h
          · exact .inr ⟨k + 1, by omega, by congr 3; omega⟩
      rw [hset] at hm
      obtain ⟨F, y, k1, k2⟩ := ih g' (r.skip 1) _ a2 (by
        have := Finset.card_insert_le (weightedPick weights (partOf r.head weights.sum)) S
        omega) hm
      refine ⟨F + 1, y, k1, ?_⟩
      intro fuel hf
      obtain ⟨fuel, rfl⟩ : ∃ k, fuel = k + 1 := ⟨fuel - 1, by omega⟩
      show attach weights i m (fuel + 1) g r = _
      rw [attach, c1, Res.ok_bind, if_pos (by omega)]
      simp only [weightedSample, r.genRange_eq hpos, Res.ok_bind, Res.pure_eq, a1]
      exact k2 fuel (by omega)
    · exact hdone r hA (by omega)

theorem attach_fair {g0 : Graph T} (h0 : g0.WF) {weights : List Nat} {i m : Nat} (hi : i < g0.nextId)
    (hnil : g0.nbrs i = []) (hpos : 0 < weights.sum) (hw : ∀ v, 0 < weights.getD v 0 → v < g0.nextId ∧ v ≠ i)
    {P : Nat → Prop} (hP : ∀ v, 0 < weights.getD v 0 → P v) {L : Finset ℕ} (hL : L.card = m)
    (hLw : ∀ v ∈ L, 0 < weights.getD v 0) {r : Stream} (hω : Fair r.tape) :
    Eventually (fun fuel => attach weights i m fuel g0 r) (fun p => p.2.tape = r.tape ∧ ∃ S', Att g0 i P p.1 S' ∧ S'.card = m) := by
  classical
  by_cases hempty : L = ∅
  · subst hempty
    exact attach_within h0 hi hnil hpos hw hP 0 g0 r ∅ (Att.start h0 _ _) (by simp) (by simp [← hL])
  choose! f hf1 hf2 using fun v (hv : v ∈ L) => weightedPick_surj (hLw v hv)
  set l := L.toList.map (fun v => (weights.sum, f v)) with hl
  obtain ⟨j, hj⟩ := hω.draws (l := l) (by simpa [hl] using hempty) (by
    intro d hd
    rw [hl, List.mem_map] at hd
    obtain ⟨v, hv, rfl⟩ := hd
    exact hf1 v (Finset.mem_toList.mp hv)) r.pos
  refine attach_within h0 hi hnil hpos hw hP (j * l.length + l.length) g0 r ∅ (Att.start h0 _ _) (by simp) ?_
  rw [← hL]
  apply Finset.card_le_card
  intro v hv
  rw [Finset.empty_union, Finset.mem_image]
  obtain ⟨k, hk, hkv⟩ := List.mem_iff_getElem.mp (Finset.mem_toList.mpr hv)
  have hk' : k < l.length := by rw [hl, List.length_map]; exact hk
  refine ⟨j * l.length + k, by rw [Finset.mem_range]; omega, ?_⟩
  have := hj k hk'
  have e : l[k] = (weights.sum, f v) := by
    simp only [hl, List.getElem_map, hkv]
  rw [e] at this
  rw [← Nat.add_assoc, this]
  exact hf2 v hv

theorem loop_fair {g0 : Graph T} (h0 : g0.WF) (hE : 1 ≤ g0.edgeCount) {m : Nat} (hm : m ≤ (attachable g0).card)
    {ω : ℕ → ℝ} (hω : Fair ω) : ∀ (post pre : List Nat), (pre ++ post).Nodup → (∀ i ∈ pre ++ post, i < g0.nextId ∧ g0.nbrs i = []) →
    ∀ (g : Graph T) (r : Stream), r.tape = ω → Loop g0 m pre (g, g.degreeVec, r) →
    Eventually (fun fuel => post.foldlM (growBody m fuel) (g, g.degreeVec, r)) (fun st => Loop g0 m (pre ++ post) st ∧ st.2.2.tape = ω) := by
  intro post
  induction post with
  | nil => intro pre _ _ g r hr hI; exact Eventually.pure ⟨by simpa using hI, hr⟩
  | cons i post ih =>
    intro pre hnd hlt g r hr hI
    have hpre : i ∉ pre := by
      intro hc
      exact (List.nodup_append.mp hnd).2.2 _ hc i (by simp) rfl
    have hn : g.nextId = g0.nextId := hI.n
    have hnil : g.nbrs i = [] := hI.isolated h0 (hlt i (by simp)).2 hpre
    have hi : i < g.nextId := by rw [hn]; exact (hlt i (by simp)).1
    obtain ⟨hpos, hw⟩ := weight_pos hI.wf hnil
    obtain ⟨S0, hS0, hS0c⟩ := Finset.exists_subset_card_eq hm
    have hL : ∀ v ∈ S0, 0 < g.degreeVec.getD v 0 := by
      intro v hv
      have h1 := hS0 hv
      rw [mem_attachable h0, nbrs_ne_nil_iff h0] at h1
      obtain ⟨e, he, hve⟩ := h1
      have : g.nbrs v ≠ [] := (nbrs_ne_nil_iff hI.wf).mpr ⟨e, hI.grows.subset he, hve⟩
      rw [degreeVec_getD hI.wf]
      exact List.length_pos_iff.mpr this
    have hE' := hI.edge h0 hE
    obtain ⟨F, ⟨g', r'⟩, ⟨k1, S', k2, k3⟩, k4⟩ := attach_fair hI.wf hi hnil (degreeVec_sum_pos hI.wf hE') hw
      (P := fun v => g.nbrs v ≠ []) hpos hS0c hL (r := r) (by rw [hr]; exact hω)
    have hstep : Eventually (fun fuel => growBody m fuel (g, g.degreeVec, r) i)
        (fun st => st.2.1 = st.1.degreeVec ∧ Loop g0 m (pre ++ [i]) st ∧ st.2.2.tape = ω) :=
      ⟨F, (g', g'.degreeVec, r'), ⟨rfl, hI.next hnil k2 k3 rfl, k1.trans hr⟩,
        fun fuel hf => growBody_of_attach hI.wf hE' hi hnil (k4 fuel hf) k2⟩
    have := Eventually.bind (k := fun fuel x => post.foldlM (growBody m fuel) x) hstep
      (Q := fun st => Loop g0 m (pre ++ i :: post) st ∧ st.2.2.tape = ω) (by
        rintro ⟨g1, w1, r1⟩ ⟨h1, h2, h3⟩
        simp only at h1
        subst h1
        have := ih (pre ++ [i]) (by simpa using hnd) (by simpa using hlt) g1 r1 h3 h2
        rwa [List.append_assoc] at this)
    simpa only [List.foldlM_cons] using this

theorem randomize_fair {e : Ba T Stream} (hv : e.Valid) (hE : 1 ≤ e.source.edgeCount)
    (hm : e.m ≤ (attachable e.source).card) (hω : Fair e.rng.tape) :
    Eventually (fun fuel => e.randomize fuel) (fun e' => e'.rng.tape = e.rng.tape) := by
  obtain ⟨g0, h1, h2, h3, h4, h5, h6, h7, h8⟩ := prepare hv
  have hatt : attachable g0 = attachable e.source := by
    ext v
    rw [mem_attachable h2, mem_attachable hv.source, h7]
  unfold randomize
  simp only [h1, Res.ok_bind, h8]
  have hp := Rng.shuffle_perm e.rng (List.range' e.source.vertexCount (g0.vertexCount - e.source.vertexCount))
  have ht : (Rng.shuffle e.rng (List.range' e.source.vertexCount (g0.vertexCount - e.source.vertexCount))).2.tape = e.rng.tape := rfl
  obtain ⟨o1, o2⟩ := order_spec hv h3 h7 hp
  refine Eventually.bind (loop_fair h2 (by rw [h6]; exact hE) (m := e.m) (by rw [hatt]; exact hm) hω _ [] (by simpa using o1)
    (by simpa using o2) g0 _ ht ⟨h2, rfl, rfl, rfl, .start⟩) ?_
  rintro ⟨g, w, r⟩ ⟨_, hr⟩
  exact Eventually.pure hr

end Ba
end Verif
