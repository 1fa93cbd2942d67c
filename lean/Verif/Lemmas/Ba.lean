import Verif.Model.Ba
import Verif.Lemmas.EditAll
import Verif.Lemmas.Chain
import Verif.Lemmas.Connect
import Verif.Lemmas.Check
import Verif.Props.Degree

/-!
# Lemmas about the Barabási-Albert ensemble
-/

set_option linter.unusedSectionVars false
set_option linter.unusedSimpArgs false

namespace Verif
open AdjContainer GenericGraph

/-- Invariant rule for a loop whose body may run forever. -/
theorem foldlM_wp {α σ : Type} {f : σ → α → Res σ} (l : List α) (I : List α → σ → Prop)
    (hstep : ∀ pre x post s, l = pre ++ x :: post → I pre s → (f s x).wp (fun s' => I (pre ++ [x]) s') True)
    {s : σ} (h0 : I [] s) : (l.foldlM f s).wp (fun s' => I l s') True := by
  have key : ∀ (post pre : List α) (s : σ), l = pre ++ post → I pre s → (post.foldlM f s).wp (fun s' => I l s') True := by
    intro post
    induction post with
    | nil => intro pre s hl hI; simp at hl; subst hl; exact hI
    | cons x post ih =>
      intro pre s hl hI
      rw [List.foldlM_cons]
      exact Res.wp_bind (Res.wp_mono (hstep pre x post s hl hI) (fun s' hs' => ih (pre ++ [x]) s' (by simpa using hl) hs') id)
  exact key l [] s rfl h0

/-! ### The weighted choice -/

theorem weightedPick_spec : ∀ (ws : List Nat) (t : Nat), t < ws.sum →
    weightedPick ws t < ws.length ∧ 0 < ws.getD (weightedPick ws t) 0 := by
  intro ws
  induction ws with
  | nil => intro t h; simp at h
  | cons w ws ih =>
    intro t h
    simp only [List.sum_cons] at h
    unfold weightedPick
    split
    · simp; omega
    · obtain ⟨h1, h2⟩ := ih (t - w) (by omega)
      exact ⟨by simp; omega, by simpa using h2⟩

/-- Among the numbers below the sum of the weights, index `v` is chosen by exactly as many as its weight. -/
theorem weightedPick_count : ∀ (ws : List Nat) (v : Nat),
    ((List.range ws.sum).filter (fun t => weightedPick ws t = v)).length = ws.getD v 0 := by
  intro ws
  induction ws with
  | nil => intro v; simp
  | cons w ws ih =>
    intro v
    rw [List.sum_cons, List.range_add, List.filter_append, List.length_append]
    have h1 : (List.range w).filter (fun t => decide (weightedPick (w :: ws) t = v)) =
        (List.range w).filter (fun _ => decide (v = 0)) := by
      apply List.filter_congr
      intro t ht
      rw [List.mem_range] at ht
      simp [weightedPick, ht, eq_comm]
    have h2 : ((List.range ws.sum).map (w + ·)).filter (fun t => decide (weightedPick (w :: ws) t = v)) =
        ((List.range ws.sum).filter (fun t => decide (weightedPick ws t + 1 = v))).map (w + ·) := by
      rw [List.filter_map]
      congr 1
      apply List.filter_congr
      intro t _
      simp [weightedPick]
    rw [h1, h2, List.length_map]
    cases v with
    | zero => simp
    | succ v => simpa using ih v

theorem weightedPick_surj {ws : List Nat} {v : Nat} (h : 0 < ws.getD v 0) : ∃ t, t < ws.sum ∧ weightedPick ws t = v := by
  rw [← weightedPick_count] at h
  obtain ⟨t, ht⟩ := List.exists_mem_of_length_pos h
  simp only [List.mem_filter, List.mem_range, decide_eq_true_eq] at ht
  exact ⟨t, ht⟩

namespace Ba

variable {T R : Type} [Rng R]

/-! ### Attaching one vertex -/

/-- State while edges are added at `i`: `S` are the new neighbours. -/
structure Att (g0 : Graph T) (i : Nat) (P : Nat → Prop) (g : Graph T) (S : Finset ℕ) : Prop where
  wf : g.WF
  n : g.nextId = g0.nextId
  data : g.data = g0.data
  edges : g.edges = g0.edges ∪ S.image (fun v => s(i, v))
  mem : ∀ v ∈ S, P v
  deg : ∀ v, (g.nbrs v).length = (g0.nbrs v).length + (if v ∈ S then 1 else 0) + (if v = i then S.card else 0)

theorem Att.start {g0 : Graph T} (h : g0.WF) (i : Nat) (P : Nat → Prop) : Att g0 i P g0 ∅ :=
  ⟨h, rfl, rfl, by simp, by simp, by simp⟩

theorem container_degree {g : Graph T} (h : g.WF) {i : Nat} (hi : i < g.nextId) :
    ∃ c, g.container i = .ok c ∧ AdjContainer.degree c = (g.nbrs i).length ∧ neighbors c = g.nbrs i := by
  have hl := h.lt_length hi
  refine ⟨g.vertices[i], Vec.idx_of_lt hl, ?_, ?_⟩
  · rw [nbrs_getElem hl, LawfulAdj.degree_eq]
  · rw [nbrs_getElem hl]

theorem Att.next {g0 g : Graph T} {i : Nat} {P : Nat → Prop} {S : Finset ℕ} (h : Att g0 i P g S) (hi : i < g0.nextId)
    (hnil : g0.nbrs i = []) (h0 : g0.WF) {v : Nat} (hv : v < g0.nextId) (hvi : v ≠ i) (hP : P v) :
    ∃ r g', g.addEdge i v = .ok (r, g') ∧ Att g0 i P g' (insert v S) := by
  have hmem : s(i, v) ∈ g.edges ↔ v ∈ S := by
    rw [h.edges, Finset.mem_union, Finset.mem_image]
    constructor
    · rintro (hc | ⟨w, hw, hc⟩)
      · rw [h0.mem_edges, hnil] at hc; simp at hc
      · rw [Sym2.eq_iff] at hc
        rcases hc with ⟨_, rfl⟩ | ⟨rfl, rfl⟩
        · exact hw
        · exact hw
    · exact fun hc => .inr ⟨v, hc, rfl⟩
  rcases addEdge_any h.wf (by rw [h.n]; exact hi) (by rw [h.n]; exact hv) (Ne.symm hvi) with
    ⟨h1, h2⟩ | ⟨h1, g', h2, h3, h4, h5, h6⟩
  · rw [hmem] at h1
    exact ⟨_, g, h2, by rw [Finset.insert_eq_of_mem h1]; exact h⟩
  · have hvS : v ∉ S := fun hc => h1 (hmem.mpr hc)
    refine ⟨_, g', h2, h3, h4.trans h.n, h6.trans h.data, ?_, ?_, ?_⟩
    · rw [h5, h.edges, Finset.image_insert, Finset.union_insert]
    · intro w hw
      rcases Finset.mem_insert.mp hw with rfl | hw
      · exact hP
      · exact h.mem w hw
    · intro w
      rw [deg_insert h.wf h3 (Ne.symm hvi) h1 h5 w, h.deg w, Finset.card_insert_of_notMem hvS]
      simp only [inc, Finset.mem_insert]
      by_cases e1 : w = v
      · subst e1
        have : ¬ w = i := hvi
        simp [hvS, this]
      · by_cases e2 : w = i
        · subst e2
          simp [e1]; omega
        · simp [e1, e2]

theorem attach_spec {g0 : Graph T} (h0 : g0.WF) {weights : List Nat} {i m : Nat} (hi : i < g0.nextId)
    (hnil : g0.nbrs i = []) (hpos : 0 < weights.sum) (hw : ∀ v, 0 < weights.getD v 0 → v < g0.nextId ∧ v ≠ i)
    {P : Nat → Prop} (hP : ∀ v, 0 < weights.getD v 0 → P v) :
    ∀ (fuel : Nat) (g : Graph T) (rng : R) (S : Finset ℕ), Att g0 i P g S → S.card ≤ m →
    (attach weights i m fuel g rng).wp (fun p => ∃ S', Att g0 i P p.1 S' ∧ S'.card = m) True := by
  intro fuel
  induction fuel with
  | zero => intros; trivial
  | succ fuel ih =>
    intro g rng S hA hS
    unfold attach
    obtain ⟨c, c1, c2, _⟩ := container_degree hA.wf (i := i) (by rw [hA.n]; exact hi)
    have hdeg : AdjContainer.degree c = S.card := by
      rw [c2, hA.deg, hnil]
      have : i ∉ S := by
        intro hc
        have hwf := hA.wf
        have : s(i, i) ∈ g.edges := by
          rw [hA.edges]; exact Finset.mem_union_right _ (Finset.mem_image.mpr ⟨i, hc, rfl⟩)
        exact (hwf.mem_lt this).2.2 rfl
      simp [this]
    rw [c1, Res.ok_bind, hdeg]
    split
    · rename_i hlt
      obtain ⟨t, rng', ht, htlt⟩ := genRange_ok rng hpos
      obtain ⟨p1, p2⟩ := weightedPick_spec weights t htlt
      have hv := hw _ p2
      obtain ⟨r, g', a1, a2⟩ := hA.next hi hnil h0 hv.1 hv.2 (hP _ p2)
      simp only [weightedSample, ht, Res.ok_bind, Res.pure_eq, a1]
      refine ih g' rng' _ a2 ?_
      have := Finset.card_insert_le (weightedPick weights t) S
      omega
    · rename_i hge
      exact ⟨S, hA, by omega⟩

/-! ### Weights -/

theorem bumpAll_spec {n : Nat} : ∀ (nb weights : List Nat), weights.length = n → (∀ v ∈ nb, v < n) →
    ∃ w, bumpAll weights nb = .ok w ∧ w.length = n ∧ ∀ v, w.getD v 0 = weights.getD v 0 + nb.count v := by
  intro nb
  induction nb with
  | nil => intro weights hl _; exact ⟨weights, rfl, hl, by simp⟩
  | cons x nb ih =>
    intro weights hl hlt
    have hx : x < weights.length := by rw [hl]; exact hlt x (by simp)
    obtain ⟨w, h1, h2, h3⟩ := ih (weights.set x (weights[x] + 1)) (by simpa using hl) (fun v hv => hlt v (by simp [hv]))
    refine ⟨w, ?_, h2, ?_⟩
    · unfold bumpAll at h1 ⊢
      rw [List.foldlM_cons, Vec.idx_of_lt hx]
      simp only [Res.ok_bind, Vec.put_of_lt hx]
      exact h1
    · intro v
      rw [h3, List.count_cons, List.getD_eq_getElem?_getD, List.getD_eq_getElem?_getD, List.getElem?_set]
      by_cases hv : x = v
      · subst hv; simp [hx]; omega
      · simp [hv]

theorem degreeVec_getD {g : Graph T} (h : g.WF) (v : Nat) : g.degreeVec.getD v 0 = (g.nbrs v).length := by
  rw [List.getD_eq_getElem?_getD, degreeVec_getElem? g h]
  split
  · rfl
  · rename_i hv
    rw [nbrs_of_ge (by rw [h.len]; omega)]; rfl

theorem degreeVec_sum_pos {g : Graph T} (h : g.WF) (hE : 1 ≤ g.edgeCount) : 0 < g.degreeVec.sum := by
  rw [(C26_degrees h).2.2.1]; omega

theorem weight_pos {g : Graph T} (h : g.WF) {i : Nat} (hnil : g.nbrs i = []) :
    (∀ v, 0 < g.degreeVec.getD v 0 → g.nbrs v ≠ []) ∧ ∀ v, 0 < g.degreeVec.getD v 0 → v < g.nextId ∧ v ≠ i := by
  have hpos : ∀ v, 0 < g.degreeVec.getD v 0 → g.nbrs v ≠ [] := by
    intro v hv hc
    rw [degreeVec_getD h, hc] at hv; simp at hv
  refine ⟨hpos, fun v hv => ?_⟩
  have := hpos v hv
  refine ⟨?_, fun hc => this (hc ▸ hnil)⟩
  by_contra hc
  exact this (nbrs_of_ge (by rw [h.len]; omega))

/-- After a vertex was attached the weights are the degrees again. -/
theorem growBody_of_attach {m fuel : Nat} {g g' : Graph T} {rng rng' : R} (h : g.WF) (hE : 1 ≤ g.edgeCount) {i : Nat}
    (hi : i < g.nextId) (hnil : g.nbrs i = []) {S : Finset ℕ}
    (ha : attach g.degreeVec i m fuel g rng = .ok (g', rng')) (hA : Att g i (fun v => g.nbrs v ≠ []) g' S) :
    growBody m fuel (g, g.degreeVec, rng) i = .ok (g', g'.degreeVec, rng') := by
  have hsum := degreeVec_sum_pos h hE
  unfold growBody weightedIndexNew
  simp only [hsum, decide_true, Res.assert_true, Res.ok_bind, ha]
  obtain ⟨c, c1, c2, c3⟩ := container_degree hA.wf (i := i) (by rw [hA.n]; exact hi)
  have hlen : g.degreeVec.length = g.nextId := by simp [degreeVec, h.len]
  simp only [c1, Res.ok_bind, Vec.put_of_lt (show i < g.degreeVec.length by rw [hlen]; exact hi), c3]
  obtain ⟨w, b1, b2, b3⟩ := bumpAll_spec (n := g.nextId) (g'.nbrs i) (g.degreeVec.set i (AdjContainer.degree c))
    (by simpa using hlen) (fun v hv => by rw [← hA.n]; exact hA.wf.lt _ _ hv)
  simp only [b1, Res.ok_bind, Res.pure_eq]
  have : g'.degreeVec = w := by
    rw [degreeVec_eq_iff hA.wf]
    refine ⟨by rw [b2, hA.n], fun v hv => ?_⟩
    rw [b3, List.getD_eq_getElem?_getD, List.getElem?_set]
    have hcount : (g'.nbrs i).count v = if v ∈ S then 1 else 0 := by
      have hm : v ∈ g'.nbrs i ↔ v ∈ S := by
        rw [← hA.wf.mem_edges, hA.edges, Finset.mem_union, Finset.mem_image]
        constructor
        · rintro (hc | ⟨x, hx, hc⟩)
          · rw [h.mem_edges, hnil] at hc; simp at hc
          · rw [Sym2.eq_iff] at hc
            rcases hc with ⟨_, rfl⟩ | ⟨rfl, rfl⟩ <;> exact hx
        · exact fun hc => .inr ⟨v, hc, rfl⟩
      split
      · rename_i hvS; exact List.count_eq_one_of_mem (hA.wf.nodup i) (hm.mpr hvS)
      · rename_i hvS; exact List.count_eq_zero.mpr (fun hc => hvS (hm.mp hc))
    rw [hcount]
    by_cases hvi : v = i
    · subst hvi
      have : v ∉ S := by
        intro hc
        exact hA.mem v hc hnil
      simp only [if_true, hlen, hi, Option.getD_some, this, if_false, add_zero]
      exact c2.symm
    · rw [if_neg (Ne.symm hvi), hA.deg v, if_neg hvi, ← degreeVec_getD h v, List.getD_eq_getElem?_getD, add_zero]
  rw [this]

/-- One round of the loop: the weights are the degrees before and after. -/
theorem growBody_spec {m fuel : Nat} {g : Graph T} {rng : R} (h : g.WF) (hE : 1 ≤ g.edgeCount) {i : Nat} (hi : i < g.nextId)
    (hnil : g.nbrs i = []) :
    (growBody m fuel (g, g.degreeVec, rng) i).wp
      (fun st => ∃ S : Finset ℕ, Att g i (fun v => g.nbrs v ≠ []) st.1 S ∧ S.card = m ∧ st.2.1 = st.1.degreeVec) True := by
  have hsum := degreeVec_sum_pos h hE
  obtain ⟨hpos, hw⟩ := weight_pos h hnil
  have hs := attach_spec h hi hnil hsum hw hpos fuel g rng ∅ (m := m) (Att.start h _ _) (by simp)
  cases ha : attach g.degreeVec i m fuel g rng with
  | ok p =>
    obtain ⟨g', rng'⟩ := p
    obtain ⟨S, hA, hS⟩ := hs.post ha
    rw [growBody_of_attach h hE hi hnil ha hA]
    exact ⟨S, hA, hS, rfl⟩
  | panic => exact absurd ha hs.ne_panic
  | diverge =>
    unfold growBody weightedIndexNew
    simp only [hsum, decide_true, Res.assert_true, Res.ok_bind, ha]
    trivial

/-! ### Prescribed draws -/

theorem attach_run {g0 : Graph T} (h0 : g0.WF) {weights : List Nat} {i m : Nat} (hi : i < g0.nextId)
    (hnil : g0.nbrs i = []) (hw : ∀ v, 0 < weights.getD v 0 → v < g0.nextId ∧ v ≠ i)
    {P : Nat → Prop} (hP : ∀ v, 0 < weights.getD v 0 → P v) :
    ∀ (L : List Nat) (g : Graph T) (S : Finset ℕ), Att g0 i P g S → S.card + L.length = m → L.Nodup →
    (∀ v ∈ L, v ∉ S ∧ 0 < weights.getD v 0) →
    ∃ ds g' S', Att g0 i P g' S' ∧ S'.card = m ∧
      ∀ rest : List Nat, attach weights i m (L.length + 1) g (⟨ds ++ rest⟩ : Script) = .ok (g', ⟨rest⟩) := by
  intro L
  induction L with
  | nil =>
    intro g S hA hS _ _
    refine ⟨[], g, S, hA, by simpa using hS, fun rest => ?_⟩
    unfold attach
    obtain ⟨c, c1, c2, _⟩ := container_degree hA.wf (i := i) (by rw [hA.n]; exact hi)
    have : ¬ AdjContainer.degree c < m := by
      rw [c2, hA.deg]
      simp at hS ⊢; omega
    rw [c1, Res.ok_bind, if_neg this]
    rfl
  | cons v L ih =>
    intro g S hA hS hnd hL
    obtain ⟨hv1, hv2⟩ := hL v (by simp)
    obtain ⟨t, ht, hpick⟩ := weightedPick_surj hv2
    obtain ⟨r, g1, a1, a2⟩ := hA.next hi hnil h0 (hw v hv2).1 (hw v hv2).2 (hP v hv2)
    rw [List.nodup_cons] at hnd
    obtain ⟨ds, g', S', b2, b3, b1⟩ := ih g1 (insert v S) a2
      (by rw [Finset.card_insert_of_notMem hv1]; simp at hS; omega) hnd.2
      (fun u hu => ⟨by
        rw [Finset.mem_insert, not_or]
        exact ⟨fun hc => hnd.1 (hc ▸ hu), (hL u (by simp [hu])).1⟩, (hL u (by simp [hu])).2⟩)
    refine ⟨t :: ds, g', S', b2, b3, fun rest => ?_⟩
    rw [show (v :: L).length + 1 = (L.length + 1) + 1 from rfl]
    unfold attach
    obtain ⟨c, c1, c2, _⟩ := container_degree hA.wf (i := i) (by rw [hA.n]; exact hi)
    have hiS : i ∉ S := by
      intro hc
      have : s(i, i) ∈ g.edges := by
        rw [hA.edges]; exact Finset.mem_union_right _ (Finset.mem_image.mpr ⟨i, hc, rfl⟩)
      exact (hA.wf.mem_lt this).2.2 rfl
    have : AdjContainer.degree c < m := by
      rw [c2, hA.deg, hnil]
      simp [hiS] at hS ⊢; omega
    rw [c1, Res.ok_bind, if_pos this]
    simp only [weightedSample, List.cons_append, script_genRange ht, Res.ok_bind, Res.pure_eq, hpick, a1]
    exact b1 rest

theorem initWeights_spec {source : Graph T} (hs : source.WF) {n : Nat} (hn : source.nextId ≤ n) {weights : List Nat}
    (hl : weights.length = n) :
    ∃ w, initWeights source n weights = .ok w ∧ w.length = n ∧ ∀ v, w.getD v 0 = (source.nbrs v).length := by
  obtain ⟨w1, h1, h2, h3⟩ := foldlM_range (f := fun w i => do
      let c ← Vec.idx source.vertices i
      Vec.put w i (AdjContainer.degree c)) source.nextId
    (fun k (w : List Nat) => w.length = n ∧ ∀ v, v < k → w.getD v 0 = (source.nbrs v).length) (s := weights)
    (by
      rintro i w hi ⟨a1, a2⟩
      have hil := hs.lt_length hi
      refine ⟨w.set i (AdjContainer.degree source.vertices[i]), ?_, by simpa using a1, ?_⟩
      · rw [Vec.idx_of_lt hil, Res.ok_bind, Vec.put_of_lt (by omega)]
      · intro v hv
        rw [List.getD_eq_getElem?_getD, List.getElem?_set]
        by_cases hvi : i = v
        · subst hvi
          simp [show i < w.length by omega, nbrs_getElem hil, LawfulAdj.degree_eq]
        · rw [if_neg hvi, ← a2 v (by omega), List.getD_eq_getElem?_getD])
    ⟨hl, by simp⟩
  obtain ⟨w2, k1, k2, k3⟩ := foldlM_range' (f := fun w i => Vec.put w i 0) source.nextId (n - source.nextId)
    (fun k (w : List Nat) => w.length = n ∧ ∀ v, v < k → w.getD v 0 = (source.nbrs v).length) (s := w1)
    (by
      rintro i w hi1 hi2 ⟨a1, a2⟩
      refine ⟨w.set i 0, Vec.put_of_lt (by omega), by simpa using a1, ?_⟩
      intro v hv
      rw [List.getD_eq_getElem?_getD, List.getElem?_set]
      by_cases hvi : i = v
      · subst hvi
        simp [show i < w.length by omega, nbrs_of_ge (show source.vertices.length ≤ i by rw [hs.len]; exact hi1)]
      · rw [if_neg hvi, ← a2 v (by omega), List.getD_eq_getElem?_getD])
    ⟨h2, h3⟩
  refine ⟨w2, ?_, k2, ?_⟩
  · unfold initWeights
    show (_ >>= fun _ => _) = _
    rw [show source.vertexCount = source.nextId from rfl, h1]
    exact k1
  · intro v
    by_cases hv : v < n
    · exact k3 v (by omega)
    · rw [List.getD_eq_getElem?_getD, List.getElem?_eq_none (by omega), nbrs_of_ge (by rw [hs.len]; omega)]; rfl

end Ba

end Verif
