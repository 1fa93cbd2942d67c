import Verif.Lemmas.Connect

/-!
# Component sizes and transitivity
-/

set_option linter.unusedSectionVars false
set_option linter.unusedSimpArgs false

namespace Verif
open AdjContainer GenericGraph

variable {T A : Type} [AdjContainer T A] [LawfulAdj T A]

/-! ### Sizes -/

theorem sortDesc_perm (l : List Nat) : (sortDesc l).Perm l := List.perm_insertionSort ..

theorem sortDesc_sorted (l : List Nat) : (sortDesc l).Pairwise (fun a b => b ≤ a) := by
  have : Std.Total (fun a b : Nat => b ≤ a) := ⟨fun a b => Nat.le_total b a⟩
  have : IsTrans Nat (fun a b : Nat => b ≤ a) := ⟨fun a b c h1 h2 => le_trans h2 h1⟩
  exact List.pairwise_insertionSort _ l

theorem count_eq_card (l : List Int) (a : Int) :
    l.count a = ((Finset.range l.length).filter (fun v => l[v]? = some a)).card := by
  induction l using List.reverseRecOn with
  | nil => simp
  | append_singleton l x ih =>
    rw [List.count_append, ih, List.length_append, List.length_singleton, Finset.range_add_one, Finset.filter_insert]
    have hf : (Finset.range l.length).filter (fun v => (l ++ [x])[v]? = some a) =
        (Finset.range l.length).filter (fun v => l[v]? = some a) := by
      apply Finset.filter_congr
      intro v hv
      rw [List.getElem?_append_left (by simpa using hv)]
    rw [hf]
    by_cases hx : x = a
    · subst hx
      simp
    · simp [hx]

theorem ccCount_fold : ∀ (comp : List Int) (R : List Nat), (∀ c ∈ comp, ∃ k : Nat, k < R.length ∧ c = (k : Int)) →
    ∃ R', comp.foldlM ccCount R = .ok R' ∧ R'.length = R.length ∧
      ∀ k : Nat, R'[k]? = (R[k]?).map (· + comp.count (k : Int)) := by
  intro comp
  induction comp with
  | nil => intro R _; exact ⟨R, rfl, rfl, by simp⟩
  | cons c comp ih =>
    intro R hc
    obtain ⟨k, hk, rfl⟩ := hc c (by simp)
    obtain ⟨R', h1, h2, h3⟩ := ih (R.set k (R[k] + 1)) (fun d hd => by simpa using hc d (by simp [hd]))
    refine ⟨R', ?_, by simpa using h2, ?_⟩
    · rw [List.foldlM_cons]
      simp [ccCount, toUsize, Vec.idx_of_lt hk, Vec.put_of_lt hk, h1]
    · intro j
      rw [h3]
      by_cases hj : k = j
      · subst hj
        simp [hk, List.count_cons]; omega
      · rw [List.getElem?_set_ne hj, List.count_cons]
        have : ¬ ((k : Int) = (j : Int)) := by omega
        simp [this]

theorem CcInv.reps_spec {g : GenericGraph T A} {k comp reps} (h : CcInv g g.nextId k comp reps) :
    reps.Nodup ∧ (∀ r ∈ reps, r < g.nextId) ∧ (∀ r ∈ reps, ∀ r' ∈ reps, g.toSimple.Reachable r r' → r = r') ∧
      (∀ v < g.nextId, ∃ r ∈ reps, g.toSimple.Reachable r v) := by
  have hne : ∀ (c c' r r' : Nat), reps[c]? = some r → reps[c']? = some r' → g.toSimple.Reachable r r' → c = c' := by
    intro c c' r r' h1 h2 h3
    have e1 := (h.rep c r h1).2
    have e2 := (h.rep c' r' h2).2
    have := (h.same r c e1 r').mpr h3
    rw [e2] at this; simp at this; omega
  refine ⟨?_, ?_, ?_, ?_⟩
  · rw [List.nodup_iff_getElem?_ne_getElem?]
    intro i j hij hj hc
    obtain ⟨r, hr⟩ : ∃ r, reps[j]? = some r := ⟨reps[j], List.getElem?_eq_getElem hj⟩
    rw [hr] at hc
    have := hne i j r r hc hr (SimpleGraph.Reachable.refl _)
    omega
  · intro r hr
    obtain ⟨c, hc⟩ := List.getElem?_of_mem hr
    exact (h.rep c r hc).1
  · intro r hr r' hr' hrr
    obtain ⟨c, hc⟩ := List.getElem?_of_mem hr
    obtain ⟨c', hc'⟩ := List.getElem?_of_mem hr'
    have := hne c c' r r' hc hc' hrr
    subst this
    rw [hc] at hc'; simpa using hc'
  · intro v hv
    rcases h.val v hv with h1 | ⟨c, h1, h2⟩
    · exact absurd h1 (h.done v hv hv)
    · have hc : c < reps.length := by rw [h.rlen]; exact h1
      refine ⟨reps[c], List.getElem_mem hc, ?_⟩
      exact (h.same _ c (h.rep c _ (List.getElem?_eq_getElem hc)).2 v).mp h2

theorem CcInv.componentSet_val {g : GenericGraph T A} {k comp reps} (h : CcInv g g.nextId k comp reps) :
    (componentSet g).val = ((reps.map g.toSimple.connectedComponentMk : List _) : Multiset _) := by
  classical
  obtain ⟨h1, h2, h3, h4⟩ := h.reps_spec
  have hnd : (reps.map g.toSimple.connectedComponentMk).Nodup := by
    rw [List.nodup_map_iff_inj_on h1]
    intro r hr r' hr' he
    exact h3 r hr r' hr' (SimpleGraph.ConnectedComponent.exact he)
  have : componentSet g = (reps.map g.toSimple.connectedComponentMk).toFinset := by
    ext c
    simp only [componentSet, Finset.mem_image, Finset.mem_range, List.mem_toFinset, List.mem_map]
    constructor
    · rintro ⟨v, hv, rfl⟩
      obtain ⟨r, hr, hrv⟩ := h4 v hv
      exact ⟨r, hr, SimpleGraph.ConnectedComponent.sound hrv⟩
    · rintro ⟨r, hr, rfl⟩
      exact ⟨r, h2 r hr, rfl⟩
  rw [this, List.toFinset_val, hnd.dedup]

theorem connectedComponents_spec {g : GenericGraph T A} (h : g.WF) :
    ∃ R, g.connectedComponents = .ok R ∧ R.Pairwise (fun a b => b ≤ a) ∧
      (R : Multiset Nat) = (componentSet g).val.map (componentSize g) := by
  classical
  obtain ⟨k, comp, reps, h1, h2⟩ := ccIds_spec h
  obtain ⟨R, h3, h4, h5⟩ := ccCount_fold comp (List.replicate k 0) (by
    intro c hc
    obtain ⟨v, hv⟩ := List.getElem?_of_mem hc
    have hvn : v < g.nextId := by rw [← h2.len]; exact (List.getElem?_eq_some_iff.mp hv).1
    rcases h2.val v hvn with e | ⟨d, e1, e2⟩
    · exact absurd e (h2.done v hvn hvn)
    · rw [hv] at e2; simp at e2; exact ⟨d, by simpa using e1, e2⟩)
  refine ⟨sortDesc R, by simp [GenericGraph.connectedComponents, h1, h3], sortDesc_sorted R, ?_⟩
  rw [Multiset.coe_eq_coe.mpr (sortDesc_perm R), h2.componentSet_val, Multiset.map_coe, List.map_map]
  congr 1
  apply List.ext_getElem?
  intro c
  rw [h5]
  by_cases hc : c < k
  · have hcr : c < reps.length := by rw [h2.rlen]; exact hc
    have hr := h2.rep c _ (List.getElem?_eq_getElem hcr)
    simp only [List.getElem?_replicate, hc, if_true, Option.map_some, List.getElem?_map, List.getElem?_eq_getElem hcr,
      Function.comp, Nat.zero_add, Option.some.injEq]
    rw [count_eq_card, componentSize, h2.len]
    congr 1
    apply Finset.filter_congr
    intro v hv
    rw [h2.same _ c hr.2 v]
    constructor
    · intro hrr; exact (SimpleGraph.ConnectedComponent.sound hrr).symm
    · intro he; exact (SimpleGraph.ConnectedComponent.exact he).symm
  · have hcr : reps.length ≤ c := by rw [h2.rlen]; omega
    simp [List.getElem?_replicate, hc, List.getElem?_eq_none hcr, hcr]

/-! ### Transitivity -/

theorem transInner_fold {g : GenericGraph T A} (h : g.WF) (a : Nat) : ∀ (l : List Nat) (s : Nat × Nat), (∀ c ∈ l, c < g.nextId) →
    l.foldlM (transInner g a) s = .ok (s.1 + (l.filter (fun c => decide (a ∈ g.nbrs c))).length, s.2 + l.length) := by
  intro l
  induction l with
  | nil => intro s _; rfl
  | cons c l ih =>
    intro s hl
    have hc := h.lt_length (hl c (by simp))
    rw [List.foldlM_cons]
    have e : transInner g a s c = .ok (if a ∈ g.nbrs c then s.1 + 1 else s.1, s.2 + 1) := by
      have hadj := LawfulAdj.isAdjacent_iff g.vertices[c] a
      rw [← nbrs_getElem hc] at hadj
      simp [transInner, GenericGraph.container, Vec.idx_of_lt hc, hadj]
    rw [e, Res.ok_bind, ih _ (fun d hd => hl d (by simp [hd]))]
    by_cases hm : a ∈ g.nbrs c
    · simp [hm]; omega
    · simp [hm]; omega

theorem foldlM_sum {α : Type} {f : Nat × Nat → α → Res (Nat × Nat)} (p q : α → Nat) : ∀ (l : List α) (s : Nat × Nat),
    (∀ x ∈ l, ∀ s, f s x = .ok (s.1 + p x, s.2 + q x)) →
    l.foldlM f s = .ok (s.1 + (l.map p).sum, s.2 + (l.map q).sum) := by
  intro l
  induction l with
  | nil => intro s _; simp
  | cons x l ih =>
    intro s hl
    rw [List.foldlM_cons, hl x (by simp), Res.ok_bind, ih _ (fun y hy => hl y (by simp [hy]))]
    simp [Nat.add_assoc]

theorem transitivity_eq {g : GenericGraph T A} (h : g.WF) :
    g.transitivity = .ok
      (((List.range g.nextId).map (fun a => ((g.nbrs a).map (fun b =>
          (((g.nbrs b).filter (fun c => c != a)).filter (fun c => decide (a ∈ g.nbrs c))).length)).sum)).sum,
       ((List.range g.nextId).map (fun a => ((g.nbrs a).map (fun b =>
          ((g.nbrs b).filter (fun c => c != a)).length)).sum)).sum) := by
  unfold GenericGraph.transitivity
  simp only [GenericGraph.vertexCount]
  rw [foldlM_sum (fun a => ((g.nbrs a).map (fun b =>
          (((g.nbrs b).filter (fun c => c != a)).filter (fun c => decide (a ∈ g.nbrs c))).length)).sum)
    (fun a => ((g.nbrs a).map (fun b => ((g.nbrs b).filter (fun c => c != a)).length)).sum)]
  · simp
  · intro a ha s
    have hal := h.lt_length (by simpa using ha)
    simp only [GenericGraph.container, Vec.idx_of_lt hal, Res.ok_bind, ← nbrs_getElem hal]
    rw [foldlM_sum (fun b => (((g.nbrs b).filter (fun c => c != a)).filter (fun c => decide (a ∈ g.nbrs c))).length)
      (fun b => ((g.nbrs b).filter (fun c => c != a)).length)]
    intro b hb s
    have hbl := h.lt_length (h.lt _ _ hb)
    simp only [transMiddle, GenericGraph.container, Vec.idx_of_lt hbl, Res.ok_bind, ← nbrs_getElem hbl]
    rw [transInner_fold h]
    intro c hc
    exact h.lt _ _ (List.mem_of_mem_filter hc)

open Classical in
theorem nbrs_sum {g : GenericGraph T A} (h : g.WF) (a : Nat) (f : Nat → Nat) :
    ((g.nbrs a).map f).sum = ∑ b ∈ Finset.range g.nextId, if g.toSimple.Adj a b then f b else 0 := by
  rw [← Finset.sum_filter]
  have : (Finset.range g.nextId).filter (fun b => g.toSimple.Adj a b) = (g.nbrs a).toFinset := by
    ext b
    simp only [Finset.mem_filter, Finset.mem_range, h.adj_iff, List.mem_toFinset]
    exact ⟨fun hb => hb.2, fun hb => ⟨h.lt _ _ hb, hb⟩⟩
  rw [this, List.sum_toFinset _ (h.nodup a)]

open Classical in
theorem nbrs_filter_length {g : GenericGraph T A} (h : g.WF) (b : Nat) (p : Nat → Bool) :
    ((g.nbrs b).filter p).length = ∑ c ∈ Finset.range g.nextId, if g.toSimple.Adj b c ∧ p c = true then 1 else 0 := by
  have h1 : ((g.nbrs b).filter p).length = ((g.nbrs b).map (fun c => if p c = true then 1 else 0)).sum := by
    induction g.nbrs b with
    | nil => rfl
    | cons x l ih => by_cases hp : p x = true <;> simp [hp, ih]; omega
  rw [h1, nbrs_sum h]
  apply Finset.sum_congr rfl
  intro c _
  by_cases h2 : g.toSimple.Adj b c <;> by_cases h3 : p c = true <;> simp [h2, h3]

open Classical in
theorem transitivity_spec {g : GenericGraph T A} (h : g.WF) :
    g.transitivity = .ok
      ((((Finset.range g.nextId ×ˢ Finset.range g.nextId ×ˢ Finset.range g.nextId).filter
        (fun t => g.toSimple.Adj t.1 t.2.1 ∧ g.toSimple.Adj t.2.1 t.2.2 ∧ t.1 ≠ t.2.2 ∧ g.toSimple.Adj t.1 t.2.2)).card),
       (((Finset.range g.nextId ×ˢ Finset.range g.nextId ×ˢ Finset.range g.nextId).filter
        (fun t => g.toSimple.Adj t.1 t.2.1 ∧ g.toSimple.Adj t.2.1 t.2.2 ∧ t.1 ≠ t.2.2)).card)) := by
  rw [transitivity_eq h]
  congr 2
  · rw [Finset.card_filter, Finset.sum_product, list_sum_range]
    apply Finset.sum_congr rfl
    intro a _
    rw [nbrs_sum h, Finset.sum_product]
    apply Finset.sum_congr rfl
    intro b _
    by_cases hab : g.toSimple.Adj a b
    · simp only [hab, if_true, true_and]
      rw [List.filter_filter, nbrs_filter_length h]
      apply Finset.sum_congr rfl
      intro c _
      congr 1
      rw [eq_iff_iff]
      have hca : a ∈ g.nbrs c ↔ g.toSimple.Adj a c := by rw [SimpleGraph.adj_comm, h.adj_iff]
      simp only [Bool.and_eq_true, decide_eq_true_eq, bne_iff_ne, hca]
      constructor
      · rintro ⟨h1, h2, h3⟩; exact ⟨h1, Ne.symm h3, h2⟩
      · rintro ⟨h1, h2, h3⟩; exact ⟨h1, h3, Ne.symm h2⟩
    · simp [hab]
  · rw [Finset.card_filter, Finset.sum_product, list_sum_range]
    apply Finset.sum_congr rfl
    intro a _
    rw [nbrs_sum h, Finset.sum_product]
    apply Finset.sum_congr rfl
    intro b _
    by_cases hab : g.toSimple.Adj a b
    · simp only [hab, if_true, true_and]
      rw [nbrs_filter_length h]
      apply Finset.sum_congr rfl
      intro c _
      congr 1
      rw [eq_iff_iff]
      simp only [bne_iff_ne]
      constructor
      · rintro ⟨h1, h2⟩; exact ⟨h1, Ne.symm h2⟩
      · rintro ⟨h1, h2⟩; exact ⟨h1, Ne.symm h2⟩
    · simp [hab]

end Verif
