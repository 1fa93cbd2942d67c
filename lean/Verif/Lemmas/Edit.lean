import Verif.Spec.Basic

/-!
# Editing operations: effect on neighbour lists, preservation of `WF`
-/

set_option linter.unusedSectionVars false
set_option linter.unusedSimpArgs false

namespace Verif
open AdjContainer
open scoped BigOperators

namespace GenericGraph
variable {T A : Type} [AdjContainer T A]

theorem nbrs_of_some {g : GenericGraph T A} {i : Nat} {a : A} (h : g.vertices[i]? = some a) :
    g.nbrs i = neighbors a := by simp [nbrs, h]

theorem nbrs_of_ge {g : GenericGraph T A} {i : Nat} (h : g.vertices.length ≤ i) : g.nbrs i = [] := by
  simp [nbrs, List.getElem?_eq_none h]

theorem nbrs_getElem {g : GenericGraph T A} {i : Nat} (h : i < g.vertices.length) :
    g.nbrs i = neighbors g.vertices[i] := nbrs_of_some (List.getElem?_eq_getElem h)

theorem get2_of_lt {g : GenericGraph T A} (hl : g.vertices.length = g.nextId) {i j : Nat}
    (hi : i < g.nextId) (hj : j < g.nextId) (hij : i ≠ j) :
    ∃ a b, g.vertices[i]? = some a ∧ g.vertices[j]? = some b ∧ g.get2 i j = .ok (a, b) := by
  have h1 : i < g.vertices.length := by omega
  have h2 : j < g.vertices.length := by omega
  refine ⟨g.vertices[i], g.vertices[j], List.getElem?_eq_getElem h1, List.getElem?_eq_getElem h2, ?_⟩
  have h3 : (i != j) = true := by simpa using hij
  simp [get2, hi, hj, h3, Vec.idx_of_lt, h1, h2]

/-- `get_2_mut` panics (debug build) unless both indices exist and differ. -/
theorem get2_panic {g : GenericGraph T A} {i j : Nat} (h : ¬ (i < g.nextId ∧ j < g.nextId ∧ i ≠ j)) :
    g.get2 i j = .panic := by
  unfold get2
  by_cases h1 : i < g.nextId ∧ j < g.nextId
  · have : i = j := by by_contra hc; exact h ⟨h1.1, h1.2, hc⟩
    simp [h1.1, h1.2, this]
  · have : (decide (i < g.nextId) && decide (j < g.nextId)) = false := by
      simp only [Bool.and_eq_false_iff, decide_eq_false_iff_not]
      by_contra hc; push Not at hc; exact h1 hc
    simp [this]

variable [LawfulAdj T A]

theorem WF.lt_length {g : GenericGraph T A} (h : g.WF) {i : Nat} (hi : i < g.nextId) : i < g.vertices.length := by
  rw [h.len]; exact hi

theorem WF.lt_left {g : GenericGraph T A} (h : g.WF) {i j : Nat} (hj : j ∈ g.nbrs i) : i < g.nextId :=
  h.lt j i (h.symm i j hj)

theorem WF.ne {g : GenericGraph T A} (h : g.WF) {i j : Nat} (hj : j ∈ g.nbrs i) : i ≠ j := by
  rintro rfl; exact h.irrefl _ hj

theorem WF.adj_iff {g : GenericGraph T A} (h : g.WF) {i j : Nat} : g.toSimple.Adj i j ↔ j ∈ g.nbrs i := by
  simp only [toSimple, SimpleGraph.fromRel_adj]
  constructor
  · rintro ⟨_, h1 | h1⟩
    · exact h1
    · exact h.symm _ _ h1
  · intro h1; exact ⟨h.ne h1, Or.inl h1⟩

theorem WF.of_frame {g g' : GenericGraph T A} (h : g.WF) (hn : g'.nextId = g.nextId)
    (hlen : g'.vertices.length = g.vertices.length)
    (hid : ∀ (i : Nat) (a' : A), g'.vertices[i]? = some a' → AdjContainer.id a' = i ∧ LawfulAdj.inv a')
    (hlt : ∀ i j, j ∈ g'.nbrs i → j < g.nextId) (hirr : ∀ i, i ∉ g'.nbrs i)
    (hnd : ∀ i, (g'.nbrs i).Nodup) (hsym : ∀ i j, j ∈ g'.nbrs i → i ∈ g'.nbrs j)
    (hc : ∑ i ∈ Finset.range g.nextId, (g'.nbrs i).length = 2 * g'.edgeCount) : g'.WF where
  len := by rw [hlen, h.len, hn]
  ids i a ha := (hid i a ha).1
  inv a ha := by
    obtain ⟨i, hi, rfl⟩ := List.mem_iff_getElem.mp ha
    exact (hid i _ (List.getElem?_eq_getElem hi)).2
  lt i j hj := by rw [hn]; exact hlt i j hj
  irrefl := hirr
  nodup := hnd
  symm := hsym
  count := by rw [hn]; exact hc

theorem put2_getElem? (g : GenericGraph T A) {i j : Nat} (hi : i < g.vertices.length) (hj : j < g.vertices.length)
    (hij : i ≠ j) (a b : A) (k : Nat) :
    (g.put2 i j a b).vertices[k]? = if k = i then some a else if k = j then some b else g.vertices[k]? := by
  unfold put2
  by_cases h1 : k = j
  · subst h1
    simp [hij.symm, hj]
  · by_cases h2 : k = i
    · subst h2; simp [h1, hi, Ne.symm h1]
    · simp [h1, h2, Ne.symm h1, Ne.symm h2]

theorem put2_nbrs (g : GenericGraph T A) {i j : Nat} (hi : i < g.vertices.length) (hj : j < g.vertices.length)
    (hij : i ≠ j) (a b : A) (k : Nat) :
    (g.put2 i j a b).nbrs k = if k = i then neighbors a else if k = j then neighbors b else g.nbrs k := by
  unfold nbrs
  rw [put2_getElem? g hi hj hij]
  by_cases h1 : k = i
  · simp [h1]
  · by_cases h2 : k = j <;> simp [h1, h2, hij.symm]

/-- Writing the same containers back changes nothing. -/
theorem put2_self {g : GenericGraph T A} {i j : Nat} {a b : A} (ha : g.vertices[i]? = some a)
    (hb : g.vertices[j]? = some b) : g.put2 i j a b = g := by
  unfold put2
  obtain ⟨h1, rfl⟩ := List.getElem?_eq_some_iff.mp ha
  obtain ⟨h2, rfl⟩ := List.getElem?_eq_some_iff.mp hb
  simp

theorem put2_data (g : GenericGraph T A) {i j : Nat} (hi : i < g.vertices.length) (hj : j < g.vertices.length)
    (hij : i ≠ j) {a b a' b' : A} (ha : g.vertices[i]? = some a)
    (hb : g.vertices[j]? = some b) (ca : contained a' = contained a) (cb : contained b' = contained b) :
    (g.put2 i j a' b').data = g.data := by
  unfold data
  apply List.ext_getElem?
  intro k
  rw [List.getElem?_map, List.getElem?_map, put2_getElem? g hi hj hij]
  by_cases h1 : k = i
  · subst h1; simp [ha, ca]
  · by_cases h2 : k = j
    · subst h2; simp [hij.symm, hb, cb]
    · simp [h1, h2]

theorem sum_len_two {n i j : Nat} (hi : i < n) (hj : j < n) {f f' : Nat → Nat}
    (h : ∀ k, k < n → f' k = f k + (if k = i then 1 else 0) + (if k = j then 1 else 0)) :
    ∑ k ∈ Finset.range n, f' k = ∑ k ∈ Finset.range n, f k + 2 := by
  rw [Finset.sum_congr rfl (fun k hk => h k (Finset.mem_range.mp hk))]
  rw [Finset.sum_add_distrib, Finset.sum_add_distrib, Finset.sum_ite_eq', Finset.sum_ite_eq']
  simp [hi, hj]

/-- Everything about a successful `add_edge`. -/
theorem addEdge_new {g : GenericGraph T A} (h : g.WF) {i j : Nat} (hi : i < g.nextId) (hj : j < g.nextId)
    (hij : i ≠ j) (hnew : j ∉ g.nbrs i) :
    ∃ g', g.addEdge i j = .ok (.ok (), g') ∧ g'.WF ∧ g'.nextId = g.nextId ∧ g'.edgeCount = g.edgeCount + 1 ∧
      (∀ k, g'.nbrs k = if k = i then g.nbrs i ++ [j] else if k = j then g.nbrs j ++ [i] else g.nbrs k) ∧
      g'.data = g.data := by
  obtain ⟨a, b, ha, hb, hget⟩ := get2_of_lt h.len hi hj hij
  have hli := h.lt_length hi
  have hlj := h.lt_length hj
  have hna : g.nbrs i = neighbors a := nbrs_of_some ha
  have hnb : g.nbrs j = neighbors b := nbrs_of_some hb
  have hida := h.ids _ _ ha
  have hidb := h.ids _ _ hb
  have hina := h.inv a (List.mem_of_getElem? ha)
  have hinb := h.inv b (List.mem_of_getElem? hb)
  obtain ⟨a', b', hp, ia, ib, na, nb, ida, idb, ca, cb⟩ := LawfulAdj.push_new a b hina hinb
    (by rw [hidb, ← hna]; exact hnew)
  rw [hidb, ← hna] at na
  rw [hida, ← hnb] at nb
  have hnew' : i ∉ g.nbrs j := fun hc => hnew (h.symm _ _ hc)
  have hnbrs : ∀ k, (g.put2 i j a' b').nbrs k =
      if k = i then g.nbrs i ++ [j] else if k = j then g.nbrs j ++ [i] else g.nbrs k := by
    intro k; rw [put2_nbrs g hli hlj hij, na, nb]
  have hmem : ∀ k l, l ∈ (g.put2 i j a' b').nbrs k ↔ l ∈ g.nbrs k ∨ (k = i ∧ l = j) ∨ (k = j ∧ l = i) := by
    intro k l
    rw [hnbrs]
    by_cases h1 : k = i
    · subst h1; simp [hij]
    · by_cases h2 : k = j
      · subst h2; simp [hij.symm]
      · simp [h1, h2]
  refine ⟨{ g.put2 i j a' b' with edgeCount := g.edgeCount + 1 }, ?_, ?_, rfl, rfl, hnbrs, ?_⟩
  · simp [addEdge, hget, hp, put2]
  · have hm : ∀ k l, l ∈ nbrs { g.put2 i j a' b' with edgeCount := g.edgeCount + 1 } k ↔
        l ∈ g.nbrs k ∨ (k = i ∧ l = j) ∨ (k = j ∧ l = i) := hmem
    refine h.of_frame rfl (by simp [put2]) ?_ ?_ ?_ ?_ ?_ ?_
    · intro k c hc
      have hc' : (g.put2 i j a' b').vertices[k]? = some c := hc
      rw [put2_getElem? g hli hlj hij] at hc'
      by_cases h1 : k = i
      · simp only [h1, if_true, Option.some.injEq] at hc'; subst hc' h1; exact ⟨by rw [ida, hida], ia⟩
      · by_cases h2 : k = j
        · simp only [h2, hij.symm, if_true, if_false, Option.some.injEq] at hc'
          subst hc' h2; exact ⟨by rw [idb, hidb], ib⟩
        · simp only [h1, h2, if_false] at hc'; exact ⟨h.ids _ _ hc', h.inv _ (List.mem_of_getElem? hc')⟩
    · intro k l hl
      rcases (hm k l).mp hl with h1 | ⟨rfl, rfl⟩ | ⟨rfl, rfl⟩
      · exact h.lt _ _ h1
      · exact hj
      · exact hi
    · intro k hk
      rcases (hm k k).mp hk with h1 | ⟨h1, h2⟩ | ⟨h1, h2⟩
      · exact h.irrefl _ h1
      · exact hij (h1.symm.trans h2)
      · exact hij (h2.symm.trans h1)
    · intro k
      show ((g.put2 i j a' b').nbrs k).Nodup
      rw [hnbrs]
      by_cases h1 : k = i
      · subst h1; simp only [if_true]
        rw [List.nodup_append]
        refine ⟨h.nodup _, by simp, ?_⟩
        intro x hx y hy; simp at hy; subst hy; rintro rfl; exact hnew hx
      · by_cases h2 : k = j
        · subst h2; simp only [h1, if_false, if_true]
          rw [List.nodup_append]
          refine ⟨h.nodup _, by simp, ?_⟩
          intro x hx y hy; simp at hy; subst hy; rintro rfl; exact hnew' hx
        · simp only [h1, h2, if_false]; exact h.nodup _
    · intro k l hl
      rw [hm] at hl ⊢
      rcases hl with h1 | ⟨h1, h2⟩ | ⟨h1, h2⟩
      · exact Or.inl (h.symm _ _ h1)
      · exact Or.inr (Or.inr ⟨h2, h1⟩)
      · exact Or.inr (Or.inl ⟨h2, h1⟩)
    · have := sum_len_two (n := g.nextId) hi hj (f := fun k => (g.nbrs k).length)
        (f' := fun k => ((g.put2 i j a' b').nbrs k).length) ?_
      · show ∑ k ∈ Finset.range g.nextId, ((g.put2 i j a' b').nbrs k).length = 2 * (g.edgeCount + 1)
        rw [this, h.count]; omega
      · intro k _
        simp only [hnbrs]
        by_cases h1 : k = i
        · subst h1; simp [hij]
        · by_cases h2 : k = j
          · subst h2; simp [hij.symm]
          · simp [h1, h2]
  · exact put2_data g hli hlj hij ha hb ca cb

/-- A failing `add_edge` returns the unchanged graph. -/
theorem addEdge_exists {g : GenericGraph T A} (h : g.WF) {i j : Nat} (hex : j ∈ g.nbrs i) :
    g.addEdge i j = .ok (.error .edgeExists, g) := by
  have hi := h.lt_left hex
  have hj := h.lt _ _ hex
  obtain ⟨a, b, ha, hb, hget⟩ := get2_of_lt h.len hi hj (h.ne hex)
  have := LawfulAdj.push_exists a b (by rw [h.ids _ _ hb, ← nbrs_of_some ha]; exact hex)
  simp [addEdge, hget, this, put2_self ha hb]

omit [LawfulAdj T A] in
theorem addEdge_panic {g : GenericGraph T A} {i j : Nat} (h : ¬ (i < g.nextId ∧ j < g.nextId ∧ i ≠ j)) :
    g.addEdge i j = .panic := by simp [addEdge, get2_panic h]

omit [LawfulAdj T A] in
theorem removeEdge_panic {g : GenericGraph T A} {i j : Nat} (h : ¬ (i < g.nextId ∧ j < g.nextId ∧ i ≠ j)) :
    g.removeEdge i j = .panic := by simp [removeEdge, get2_panic h]

/-- A failing `remove_edge` returns the unchanged graph. -/
theorem removeEdge_absent {g : GenericGraph T A} (h : g.WF) {i j : Nat} (hi : i < g.nextId) (hj : j < g.nextId)
    (hij : i ≠ j) (hab : j ∉ g.nbrs i) :
    g.removeEdge i j = .ok (.error .edgeDoesNotExist, g) := by
  obtain ⟨a, b, ha, hb, hget⟩ := get2_of_lt h.len hi hj hij
  have := LawfulAdj.remove_absent a b (by rw [h.ids _ _ hb, ← nbrs_of_some ha]; exact hab)
  simp [removeEdge, hget, this, put2_self ha hb]

/-- Everything about a successful `remove_edge`. -/
theorem removeEdge_present {g : GenericGraph T A} (h : g.WF) {i j : Nat} (hex : j ∈ g.nbrs i) :
    ∃ g', g.removeEdge i j = .ok (.ok (), g') ∧ g'.WF ∧ g'.nextId = g.nextId ∧ g'.edgeCount + 1 = g.edgeCount ∧
      (j :: g'.nbrs i).Perm (g.nbrs i) ∧ (i :: g'.nbrs j).Perm (g.nbrs j) ∧
      (∀ k, k ≠ i → k ≠ j → g'.nbrs k = g.nbrs k) ∧ g'.data = g.data := by
  have hi := h.lt_left hex
  have hj := h.lt _ _ hex
  have hij := h.ne hex
  obtain ⟨a, b, ha, hb, hget⟩ := get2_of_lt h.len hi hj hij
  have hli := h.lt_length hi
  have hlj := h.lt_length hj
  have hna : g.nbrs i = neighbors a := nbrs_of_some ha
  have hnb : g.nbrs j = neighbors b := nbrs_of_some hb
  have hida := h.ids _ _ ha
  have hidb := h.ids _ _ hb
  have hina := h.inv a (List.mem_of_getElem? ha)
  have hinb := h.inv b (List.mem_of_getElem? hb)
  obtain ⟨a', b', hp, ia, ib, pa, pb, ida, idb, ca, cb⟩ := LawfulAdj.remove_present a b hina hinb
    (by rw [hidb, ← hna]; exact hex) (by rw [hida, ← hnb]; exact h.symm _ _ hex)
  rw [hidb, ← hna] at pa
  rw [hida, ← hnb] at pb
  have hnbrs := put2_nbrs g hli hlj hij a' b'
  have hni : (g.put2 i j a' b').nbrs i = neighbors a' := by rw [hnbrs]; simp
  have hnj : (g.put2 i j a' b').nbrs j = neighbors b' := by rw [hnbrs]; simp [hij.symm]
  have hnk : ∀ k, k ≠ i → k ≠ j → (g.put2 i j a' b').nbrs k = g.nbrs k := by
    intro k h1 h2; rw [hnbrs]; simp [h1, h2]
  have hsum : ∑ k ∈ Finset.range g.nextId, ((g.put2 i j a' b').nbrs k).length + 2 = 2 * g.edgeCount := by
    have := sum_len_two (n := g.nextId) hi hj (f' := fun k => (g.nbrs k).length)
        (f := fun k => ((g.put2 i j a' b').nbrs k).length) ?_
    · rw [← this, h.count]
    · intro k _
      by_cases h1 : k = i
      · subst h1; have := pa.length_eq; simp [hni, hij] at this ⊢; omega
      · by_cases h2 : k = j
        · subst h2; have := pb.length_eq; simp [hnj, hij.symm] at this ⊢; omega
        · simp [h1, h2, hnk]
  have hpos : 1 ≤ g.edgeCount := by omega
  have nda : (j :: neighbors a').Nodup := pa.nodup_iff.mpr (h.nodup i)
  have ndb : (i :: neighbors b').Nodup := pb.nodup_iff.mpr (h.nodup j)
  have hmem : ∀ k l, l ∈ (g.put2 i j a' b').nbrs k ↔ l ∈ g.nbrs k ∧ ¬ (k = i ∧ l = j) ∧ ¬ (k = j ∧ l = i) := by
    intro k l
    by_cases h1 : k = i
    · subst h1
      rw [hni, ← pa.mem_iff]
      simp only [List.nodup_cons] at nda
      constructor
      · intro hl
        refine ⟨by simp [hl], ?_, fun hc => hij hc.1⟩
        rintro ⟨_, rfl⟩; exact nda.1 hl
      · rintro ⟨h1, h2, _⟩
        rcases List.mem_cons.mp h1 with h3 | h3
        · exact absurd ⟨rfl, h3⟩ h2
        · exact h3
    · by_cases h2 : k = j
      · subst h2
        rw [hnj, ← pb.mem_iff]
        simp only [List.nodup_cons] at ndb
        constructor
        · intro hl
          refine ⟨by simp [hl], fun hc => h1 hc.1, ?_⟩
          rintro ⟨_, rfl⟩; exact ndb.1 hl
        · rintro ⟨h3, _, h4⟩
          rcases List.mem_cons.mp h3 with h5 | h5
          · exact absurd ⟨rfl, h5⟩ h4
          · exact h5
      · rw [hnk k h1 h2]; simp [h1, h2]
  refine ⟨{ g.put2 i j a' b' with edgeCount := g.edgeCount - 1 }, ?_, ?_, rfl, ?_, ?_, ?_, hnk, ?_⟩
  · simp [removeEdge, hget, hp, put2, Res.sub_of_le hpos]
  · have hm : ∀ k l, l ∈ nbrs { g.put2 i j a' b' with edgeCount := g.edgeCount - 1 } k ↔
        l ∈ g.nbrs k ∧ ¬ (k = i ∧ l = j) ∧ ¬ (k = j ∧ l = i) := hmem
    refine h.of_frame rfl (by simp [put2]) ?_ ?_ ?_ ?_ ?_ ?_
    · intro k c hc
      have hc' : (g.put2 i j a' b').vertices[k]? = some c := hc
      rw [put2_getElem? g hli hlj hij] at hc'
      by_cases h1 : k = i
      · simp only [h1, if_true, Option.some.injEq] at hc'; subst hc' h1; exact ⟨by rw [ida, hida], ia⟩
      · by_cases h2 : k = j
        · simp only [h2, hij.symm, if_true, if_false, Option.some.injEq] at hc'
          subst hc' h2; exact ⟨by rw [idb, hidb], ib⟩
        · simp only [h1, h2, if_false] at hc'; exact ⟨h.ids _ _ hc', h.inv _ (List.mem_of_getElem? hc')⟩
    · intro k l hl; exact h.lt _ _ ((hm k l).mp hl).1
    · intro k hk; exact h.irrefl _ ((hm k k).mp hk).1
    · intro k
      show ((g.put2 i j a' b').nbrs k).Nodup
      by_cases h1 : k = i
      · subst h1; rw [hni]; exact (List.nodup_cons.mp nda).2
      · by_cases h2 : k = j
        · subst h2; rw [hnj]; exact (List.nodup_cons.mp ndb).2
        · rw [hnk k h1 h2]; exact h.nodup _
    · intro k l hl
      rw [hm] at hl ⊢
      exact ⟨h.symm _ _ hl.1, fun hc => hl.2.2 ⟨hc.2, hc.1⟩, fun hc => hl.2.1 ⟨hc.2, hc.1⟩⟩
    · show ∑ k ∈ Finset.range g.nextId, ((g.put2 i j a' b').nbrs k).length = 2 * (g.edgeCount - 1)
      omega
  · show g.edgeCount - 1 + 1 = g.edgeCount; omega
  · show (j :: (g.put2 i j a' b').nbrs i).Perm _; rw [hni]; exact pa
  · show (i :: (g.put2 i j a' b').nbrs j).Perm _; rw [hnj]; exact pb
  · exact put2_data g hli hlj hij ha hb ca cb

/-- Adjacency after a successful `add_edge`. -/
theorem addEdge_spec {g : GenericGraph T A} (h : g.WF) {i j : Nat} (hi : i < g.nextId) (hj : j < g.nextId)
    (hij : i ≠ j) (hnew : j ∉ g.nbrs i) :
    ∃ g', g.addEdge i j = .ok (.ok (), g') ∧ g'.WF ∧ g'.nextId = g.nextId ∧ g'.edgeCount = g.edgeCount + 1 ∧
      (∀ k l, l ∈ g'.nbrs k ↔ l ∈ g.nbrs k ∨ (k = i ∧ l = j) ∨ (k = j ∧ l = i)) ∧ g'.data = g.data := by
  obtain ⟨g', h1, h2, h3, h4, h5, h6⟩ := addEdge_new h hi hj hij hnew
  refine ⟨g', h1, h2, h3, h4, ?_, h6⟩
  intro k l
  rw [h5]
  by_cases h1 : k = i
  · subst h1; simp [hij]
  · by_cases h2 : k = j
    · subst h2; simp [hij.symm]
    · simp [h1, h2]

/-- Adjacency after a successful `remove_edge`. -/
theorem removeEdge_spec {g : GenericGraph T A} (h : g.WF) {i j : Nat} (hex : j ∈ g.nbrs i) :
    ∃ g', g.removeEdge i j = .ok (.ok (), g') ∧ g'.WF ∧ g'.nextId = g.nextId ∧ g'.edgeCount + 1 = g.edgeCount ∧
      (∀ k l, l ∈ g'.nbrs k ↔ l ∈ g.nbrs k ∧ ¬ (k = i ∧ l = j) ∧ ¬ (k = j ∧ l = i)) ∧ g'.data = g.data := by
  obtain ⟨g', h1, h2, h3, h4, pa, pb, h5, h6⟩ := removeEdge_present h hex
  refine ⟨g', h1, h2, h3, h4, ?_, h6⟩
  have hij := h.ne hex
  have nda := pa.nodup_iff.mpr (h.nodup i)
  have ndb := pb.nodup_iff.mpr (h.nodup j)
  simp only [List.nodup_cons] at nda ndb
  intro k l
  by_cases h7 : k = i
  · subst h7
    rw [← pa.mem_iff]
    constructor
    · intro hl
      refine ⟨by simp [hl], ?_, fun hc => hij hc.1⟩
      rintro ⟨_, rfl⟩; exact nda.1 hl
    · rintro ⟨h1, h2, _⟩
      rcases List.mem_cons.mp h1 with h3 | h3
      · exact absurd ⟨rfl, h3⟩ h2
      · exact h3
  · by_cases h8 : k = j
    · subst h8
      rw [← pb.mem_iff]
      constructor
      · intro hl
        refine ⟨by simp [hl], fun hc => h7 hc.1, ?_⟩
        rintro ⟨_, rfl⟩; exact ndb.1 hl
      · rintro ⟨h3, _, h4⟩
        rcases List.mem_cons.mp h3 with h5 | h5
        · exact absurd ⟨rfl, h5⟩ h4
        · exact h5
    · rw [h5 k h7 h8]; simp [h7, h8]

end GenericGraph
end Verif
