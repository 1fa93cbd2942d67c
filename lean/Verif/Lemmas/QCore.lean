import Verif.Lemmas.Connect2

/-!
# The q-core
-/

set_option linter.unusedSectionVars false
set_option linter.unusedSimpArgs false

namespace Verif
open AdjContainer GenericGraph

variable {T A : Type} [AdjContainer T A] [LawfulAdj T A]

theorem qDec_spec : ∀ (ns degree : List Nat), ns.Nodup → (∀ n ∈ ns, n < degree.length) →
    ∃ degree', qDec ns degree = .ok degree' ∧ degree'.length = degree.length ∧
      ∀ v, degree'[v]? = if v ∈ ns then (degree[v]?).map (· - 1) else degree[v]? := by
  intro ns
  induction ns with
  | nil => intro degree _ _; exact ⟨degree, rfl, rfl, by simp⟩
  | cons n ns ih =>
    intro degree hnd hl
    have hn := hl n (by simp)
    simp only [List.nodup_cons] at hnd
    obtain ⟨d1, e1, e2, e3⟩ : ∃ d1, (do
        let d ← Vec.idx degree n
        if d > 0 then Vec.put degree n (d - 1) else return degree : Res (List Nat)) = .ok d1 ∧ d1.length = degree.length ∧
        ∀ v, d1[v]? = if v = n then (degree[v]?).map (· - 1) else degree[v]? := by
      by_cases hd : degree[n] > 0
      · refine ⟨degree.set n (degree[n] - 1), by simp [Vec.idx_of_lt hn, hd, hn], by simp, ?_⟩
        intro v
        by_cases hv : v = n
        · subst hv; simp [hn]
        · simp [List.getElem?_set_ne (Ne.symm hv), hv]
      · refine ⟨degree, by simp [Vec.idx_of_lt hn, hd], rfl, ?_⟩
        intro v
        by_cases hv : v = n
        · subst hv; simp [hn]; omega
        · simp [hv]
    obtain ⟨d2, f1, f2, f3⟩ := ih d1 hnd.2 (fun m hm => by rw [e2]; exact hl m (by simp [hm]))
    refine ⟨d2, ?_, by rw [f2, e2], ?_⟩
    · unfold qDec at f1 ⊢
      rw [List.foldlM_cons, e1, Res.ok_bind, f1]
    · intro v
      rw [f3, e3]
      by_cases hv : v = n
      · subst hv; simp [hnd.1]
      · simp [hv]

open Classical in
/-- Invariant of the removal sweeps, `P` are the removed vertices. -/
structure QInv (g : GenericGraph T A) (q : Nat) (P : Finset ℕ) (degree : List Nat) : Prop where
  len : degree.length = g.nextId
  sub : ∀ v ∈ P, v < g.nextId
  zero : ∀ v ∈ P, degree[v]? = some 0
  deg : ∀ v < g.nextId, v ∉ P → degree[v]? = some (((g.nbrs v).filter (fun w => decide (w ∉ P))).length)
  max : ∀ S, QSet g q S → ∀ v ∈ S, v ∉ P

theorem QInv.init {g : GenericGraph T A} (h : g.WF) (q : Nat) : QInv g q ∅ (g.vertices.map AdjContainer.degree) where
  len := by simp [h.len]
  sub := by simp
  zero := by simp
  deg v hv _ := by
    have hl := h.lt_length hv
    simp [hl, LawfulAdj.degree_eq, nbrs_getElem hl]
  max := by simp

open Classical in
theorem filter_card_le {g : GenericGraph T A} (h : g.WF) {S P : Finset ℕ} (v : Nat) (hd : ∀ w ∈ S, w ∉ P) :
    (S.filter (fun w => g.toSimple.Adj v w)).card ≤ ((g.nbrs v).filter (fun w => decide (w ∉ P))).length := by
  have h1 : ((g.nbrs v).filter (fun w => decide (w ∉ P))).Nodup := (h.nodup v).filter _
  rw [← List.toFinset_card_of_nodup h1]
  apply Finset.card_le_card
  intro w hw
  simp only [Finset.mem_filter] at hw
  simp only [List.mem_toFinset, List.mem_filter, decide_eq_true_eq]
  exact ⟨h.adj_iff.mp hw.2, hd w hw.1⟩

theorem QInv.remove {g : GenericGraph T A} (h : g.WF) {q : Nat} {P : Finset ℕ} {degree : List Nat} (hI : QInv g q P degree)
    {i d : Nat} (hi : i < g.nextId) (hd : degree[i]? = some d) (h0 : d ≠ 0) (hq : d < q) :
    ∃ degree', qDec (g.nbrs i) degree = .ok degree' ∧ i < degree'.length ∧ QInv g q (insert i P) (degree'.set i 0) ∧ i ∉ P := by
  classical
  have hiP : i ∉ P := by
    intro hc; have := hI.zero i hc; rw [hd] at this; simp at this; exact h0 this
  obtain ⟨d', e1, e2, e3⟩ := qDec_spec (g.nbrs i) degree (h.nodup i) (fun n hn => by rw [hI.len]; exact h.lt _ _ hn)
  have hil : i < d'.length := by rw [e2, hI.len]; exact hi
  refine ⟨d', e1, hil, ⟨by simp [e2, hI.len], ?_, ?_, ?_, ?_⟩, hiP⟩
  · intro v hv
    rcases Finset.mem_insert.mp hv with rfl | hv
    · exact hi
    · exact hI.sub v hv
  · intro v hv
    by_cases hvi : v = i
    · subst hvi; simp [hil]
    · have hvP : v ∈ P := by
        rcases Finset.mem_insert.mp hv with hv | hv
        · exact absurd hv hvi
        · exact hv
      rw [List.getElem?_set_ne (Ne.symm hvi), e3, hI.zero v hvP]; simp
  · intro v hv hvP
    simp only [Finset.mem_insert, not_or] at hvP
    rw [List.getElem?_set_ne (Ne.symm hvP.1), e3, hI.deg v hv hvP.2]
    have hsplit : ((g.nbrs v).filter (fun w => decide (w ∉ P))).length =
        ((g.nbrs v).filter (fun w => decide (w ∉ insert i P))).length + if i ∈ g.nbrs v then 1 else 0 := by
      have hnd := h.nodup v
      revert hnd
      induction g.nbrs v with
      | nil => intro _; simp
      | cons x l ih =>
        intro hnd
        simp only [List.nodup_cons] at hnd
        have ih := ih hnd.2
        by_cases hx : x = i
        · subst hx
          simp only [List.filter_cons, hiP, not_false_eq_true, decide_true, if_true, List.length_cons, Finset.mem_insert,
            true_or, not_true_eq_false, decide_false, Bool.false_eq_true, if_false, List.mem_cons]
          simp only [hnd.1, if_false, Finset.mem_insert, not_or] at ih
          simpa using ih
        · by_cases hxP : x ∈ P
          · simp only [List.filter_cons, hxP, not_true_eq_false, decide_false, Bool.false_eq_true, if_false,
              Finset.mem_insert, or_true, List.mem_cons, Ne.symm hx, false_or]
            simpa using ih
          · simp only [List.filter_cons, hxP, not_false_eq_true, decide_true, if_true, List.length_cons, Finset.mem_insert,
              hx, false_or, or_false, List.mem_cons, Ne.symm hx]
            simp only [Finset.mem_insert] at ih
            omega
    have hiff : v ∈ g.nbrs i ↔ i ∈ g.nbrs v := ⟨h.symm i v, h.symm v i⟩
    by_cases hm : i ∈ g.nbrs v
    · rw [if_pos (hiff.mpr hm), hsplit, if_pos hm]; simp
    · rw [if_neg (fun hc => hm (hiff.mp hc)), hsplit, if_neg hm]; simp
  · intro S hS v hv hc
    rcases Finset.mem_insert.mp hc with rfl | hc
    · have h1 := (hS v hv).2
      have h2 := filter_card_le h (S := S) (P := P) v (hI.max S hS)
      have h3 := hI.deg v hi hiP
      rw [hd] at h3
      simp only [Option.some.injEq] at h3
      omega
    · exact hI.max S hS v hv hc

theorem qSweep_spec {g : GenericGraph T A} (h : g.WF) {q : Nat} {P : Finset ℕ} {degree : List Nat} (hI : QInv g q P degree) :
    ∃ degree' changed P', (List.range g.nextId).foldlM (qSweepBody g q) (degree, false) = .ok (degree', changed) ∧
      QInv g q P' degree' ∧ (changed = true → P.card < P'.card) ∧
      (changed = false → ∀ v < g.nextId, ∀ d, degree'[v]? = some d → d = 0 ∨ q ≤ d) := by
  obtain ⟨s, h1, P', h2, h3, h4⟩ := foldlM_range (f := qSweepBody g q) g.nextId
    (fun i s => ∃ P', QInv g q P' s.1 ∧ (s.2 = true → P.card < P'.card) ∧
      (s.2 = false → P' = P ∧ ∀ v < i, ∀ d, s.1[v]? = some d → d = 0 ∨ q ≤ d))
    (by
      rintro i ⟨degree, changed⟩ hi ⟨P', i1, i2, i3⟩
      have hil : i < degree.length := by rw [i1.len]; exact hi
      by_cases h0 : degree[i] = 0
      · refine ⟨(degree, changed), by simp [qSweepBody, Vec.idx_of_lt hil, h0], P', i1, i2, fun hc => ⟨(i3 hc).1, ?_⟩⟩
        intro v hv d hd
        by_cases hvi : v = i
        · subst hvi
          simp only [List.getElem?_eq_getElem hil, Option.some.injEq] at hd
          left; omega
        · exact (i3 hc).2 v (by omega) d hd
      · by_cases hq : degree[i] < q
        · obtain ⟨d', e1, e2, e3, e4⟩ := i1.remove h hi (List.getElem?_eq_getElem hil) h0 hq
          have hv := h.lt_length hi
          refine ⟨(d'.set i 0, true), ?_, insert i P', e3, ?_, by simp⟩
          · simp [qSweepBody, Vec.idx_of_lt hil, h0, hq, Vec.idx_of_lt hv, ← nbrs_getElem hv, e1, Vec.put_of_lt e2]
          · intro _
            rw [Finset.card_insert_of_notMem e4]
            cases changed with
            | true => have := i2 rfl; omega
            | false => rw [(i3 rfl).1]; omega
        · refine ⟨(degree, changed), by simp [qSweepBody, Vec.idx_of_lt hil, h0, hq], P', i1, i2, fun hc => ⟨(i3 hc).1, ?_⟩⟩
          intro v hv d hd
          by_cases hvi : v = i
          · subst hvi
            simp only [List.getElem?_eq_getElem hil, Option.some.injEq] at hd
            right; omega
          · exact (i3 hc).2 v (by omega) d hd)
    (s := (degree, false)) ⟨P, hI, by simp, fun _ => ⟨rfl, by simp⟩⟩
  exact ⟨s.1, s.2, P', h1, h2, h3, fun hc => (h4 hc).2⟩

theorem qSweeps_spec {g : GenericGraph T A} (h : g.WF) {q : Nat} : ∀ (fuel : Nat) (P : Finset ℕ) (degree : List Nat),
    QInv g q P degree → g.nextId < fuel + P.card →
    ∃ degree' P', qSweeps g q fuel degree = .ok degree' ∧ QInv g q P' degree' ∧
      ∀ v < g.nextId, ∀ d, degree'[v]? = some d → d = 0 ∨ q ≤ d := by
  intro fuel
  induction fuel with
  | zero =>
    intro P degree hI hf
    have : P ⊆ Finset.range g.nextId := fun v hv => by simpa using hI.sub v hv
    have := Finset.card_le_card this
    simp at this; omega
  | succ fuel ih =>
    intro P degree hI hf
    obtain ⟨degree', changed, P', e1, e2, e3, e4⟩ := qSweep_spec h hI
    cases changed with
    | false => exact ⟨degree', P', by simp [qSweeps, GenericGraph.vertexCount, e1], e2, e4 rfl⟩
    | true =>
      obtain ⟨d2, P2, f1, f2, f3⟩ := ih P' degree' e2 (by have := e3 rfl; omega)
      exact ⟨d2, P2, by simp [qSweeps, GenericGraph.vertexCount, e1, f1], f2, f3⟩

/-- The maximal set, read off from the degrees after the sweeps. -/
def aliveSet (n : Nat) (degree : List Nat) : Finset ℕ :=
  (Finset.range n).filter (fun v => ∃ d, degree[v]? = some d ∧ d ≠ 0)

theorem alive_core {g : GenericGraph T A} (h : g.WF) {q : Nat} (hq : 2 ≤ q) {P : Finset ℕ} {degree : List Nat}
    (hI : QInv g q P degree) (hdone : ∀ v < g.nextId, ∀ d, degree[v]? = some d → d = 0 ∨ q ≤ d) :
    QSet g q (aliveSet g.nextId degree) ∧ ∀ S, QSet g q S → S ⊆ aliveSet g.nextId degree := by
  classical
  have hmem : ∀ v, v ∈ aliveSet g.nextId degree ↔ v < g.nextId ∧ ∃ d, degree[v]? = some d ∧ d ≠ 0 := by
    intro v; simp [aliveSet]
  constructor
  · intro v hv
    obtain ⟨h1, d, h2, h3⟩ := (hmem v).mp hv
    refine ⟨h1, ?_⟩
    have hvP : v ∉ P := by intro hc; have := hI.zero v hc; rw [h2] at this; simp at this; exact h3 this
    have hqd : q ≤ d := by
      rcases hdone v h1 d h2 with h4 | h4
      · exact absurd h4 h3
      · exact h4
    have hd := hI.deg v h1 hvP
    rw [h2] at hd
    simp only [Option.some.injEq] at hd
    have hnd : ((g.nbrs v).filter (fun w => decide (w ∉ P))).Nodup := (h.nodup v).filter _
    refine le_trans hqd ?_
    rw [hd, ← List.toFinset_card_of_nodup hnd]
    apply Finset.card_le_card
    intro w hw
    simp only [List.mem_toFinset, List.mem_filter, decide_eq_true_eq] at hw
    rw [Finset.mem_filter, hmem]
    have hwn := h.lt _ _ hw.1
    refine ⟨⟨hwn, _, hI.deg w hwn hw.2, ?_⟩, h.adj_iff.mpr hw.1⟩
    have : v ∈ (g.nbrs w).filter (fun x => decide (x ∉ P)) := by
      simp only [List.mem_filter, decide_eq_true_eq]
      exact ⟨h.symm _ _ hw.1, hvP⟩
    have := List.length_pos_of_mem this
    omega
  · intro S hS v hv
    rw [hmem]
    obtain ⟨h1, h2⟩ := hS v hv
    refine ⟨h1, _, hI.deg v h1 (hI.max S hS v hv), ?_⟩
    have := filter_card_le h (S := S) (P := P) v (hI.max S hS)
    omega

/-! ### Component search -/

theorem qVisit_eq : ∀ (l degree stack : List Nat), (∀ j ∈ l, j < degree.length) →
    ∃ degree' stack', qVisit l degree stack = .ok (degree', stack') ∧
      visitStack l (degree.map (fun d => d == 0)) stack = .ok (degree'.map (fun d => d == 0), stack') := by
  intro l
  induction l with
  | nil => intro degree stack _; exact ⟨degree, stack, rfl, rfl⟩
  | cons j l ih =>
    intro degree stack hl
    have hj := hl j (by simp)
    have hj' : j < (degree.map (fun d => d == 0)).length := by simpa using hj
    by_cases h0 : degree[j] = 0
    · obtain ⟨d', s', e1, e2⟩ := ih degree stack (fun m hm => hl m (by simp [hm]))
      refine ⟨d', s', by simp [qVisit, Vec.idx_of_lt hj, h0, e1], ?_⟩
      simp [visitStack, Vec.idx_of_lt hj', h0, e2]
    · obtain ⟨d', s', e1, e2⟩ := ih (degree.set j 0) (j :: stack) (fun m hm => by simpa using hl m (by simp [hm]))
      refine ⟨d', s', by simp [qVisit, Vec.idx_of_lt hj, h0, Vec.put_of_lt hj, e1], ?_⟩
      rw [List.map_set] at e2
      simp [visitStack, Vec.idx_of_lt hj', h0, Vec.put_of_lt hj']
      simpa using e2

/-- Link between the degrees and the vertices `M` of `K` that are already counted. -/
structure QLink (g : GenericGraph T A) (K M : Finset ℕ) (degree : List Nat) : Prop where
  len : degree.length = g.nextId
  alive : ∀ v, (∃ d, degree[v]? = some d ∧ d ≠ 0) ↔ v ∈ K ∧ v ∉ M

theorem QLink.zero {g : GenericGraph T A} {K M : Finset ℕ} {degree : List Nat} (h : QLink g K M degree) {v : Nat}
    (hv : v < g.nextId) : degree[v]? = some 0 ↔ ¬ (v ∈ K ∧ v ∉ M) := by
  rw [← h.alive]
  have hl : v < degree.length := by rw [h.len]; exact hv
  simp [List.getElem?_eq_getElem hl]

/-- The search from one vertex: `M0` are the vertices counted by previous searches. -/
theorem qSearch_spec {g : GenericGraph T A} (h : g.WF) {K M0 : Finset ℕ} (hK : ∀ v ∈ K, v < g.nextId)
    (hM0 : ∀ v ∈ M0, ∀ w, (inducedOn g K).Adj v w → w ∈ M0) {s : Nat} :
    ∀ (fuel : Nat) (degree stack D : List Nat),
    SearchInv (inducedOn g K).Adj s (fun v => v ∈ stack ∨ v ∈ D) stack D →
    (∀ v ∈ stack ++ D, v ∈ K ∧ v ∉ M0) →
    QLink g K (M0 ∪ (stack ++ D).toFinset) degree → g.nextId < fuel + D.length →
    ∃ degree' D', qSearch g fuel degree stack D.length = .ok (degree', D'.length) ∧
      SearchInv (inducedOn g K).Adj s (fun v => v ∈ D') [] D' ∧ (∀ v ∈ D', v ∈ K ∧ v ∉ M0) ∧
      QLink g K (M0 ∪ D'.toFinset) degree' := by
  intro fuel
  induction fuel with
  | zero =>
    intro degree stack D hS hKM _ hf
    have : D ⊆ List.range g.nextId := fun x hx => by simpa using hK x (hKM x (by simp [hx])).1
    have := (hS.nodup_done.subperm this).length_le
    simp at this; omega
  | succ fuel ih =>
    intro degree stack D hS hKM hL hf
    cases stack with
    | nil =>
      refine ⟨degree, D, rfl, ?_, ?_, by simpa using hL⟩
      · have : (fun v => v ∈ ([] : List Nat) ∨ v ∈ D) = (fun v => v ∈ D) := by funext v; simp
        rw [this] at hS; exact hS
      · simpa using hKM
    | cons index stack =>
      obtain ⟨hiK, hiM⟩ := hKM index (by simp)
      have hlt := h.lt_length (hK index hiK)
      have hnl : ∀ j ∈ g.nbrs index, j < degree.length := fun j hj => by rw [hL.len]; exact h.lt _ _ hj
      obtain ⟨d', s', e1, e2⟩ := qVisit_eq (g.nbrs index) degree stack hnl
      obtain ⟨hd, new, f1, f2⟩ := visitStack_spec (g.nbrs index) (degree.map (fun d => d == 0)) stack (by simpa using hnl)
      rw [e2] at f1
      simp only [Res.ok.injEq, Prod.mk.injEq] at f1
      obtain ⟨rfl, rfl⟩ := f1
      have hnew : ∀ w, w ∈ new ↔ (inducedOn g K).Adj index w ∧ ¬ (w ∈ index :: stack ∨ w ∈ D) := by
        intro w
        rw [f2.mem]
        have hbe : ∀ w < g.nextId, ((degree.map (fun d => d == 0))[w]? = some false ↔ w ∈ K ∧ w ∉ M0 ∪ (index :: stack ++ D).toFinset) := by
          intro w hw
          rw [← hL.alive]
          have hwl : w < degree.length := by rw [hL.len]; exact hw
          simp [List.getElem?_eq_getElem hwl]
        constructor
        · rintro ⟨h1, h2⟩
          obtain ⟨h3, h4⟩ := (hbe w (h.lt _ _ h1)).mp h2
          refine ⟨⟨h.adj_iff.mpr h1, hiK, h3⟩, ?_⟩
          intro hc
          apply h4
          simp at hc ⊢; tauto
        · rintro ⟨⟨h1, _, h3⟩, h4⟩
          have h1' := h.adj_iff.mp h1
          refine ⟨h1', (hbe w (h.lt _ _ h1')).mpr ⟨h3, ?_⟩⟩
          simp only [Finset.mem_union, List.mem_toFinset, List.mem_append, not_or]
          refine ⟨?_, by tauto, by tauto⟩
          intro hc
          exact hiM (hM0 w hc index ⟨h1.symm, h3, hiK⟩)
      have hstep := hS.step (new := new) (H' := fun v => v ∈ new.reverse ++ stack ∨ v ∈ D ++ [index])
        (F' := new.reverse ++ stack) hnew f2.nodup
        (by intro w; simp; tauto) ((List.reverse_perm new).append_right stack)
      have hKM' : ∀ v ∈ new.reverse ++ stack ++ (D ++ [index]), v ∈ K ∧ v ∉ M0 := by
        intro v hv
        simp only [List.mem_append, List.mem_reverse, List.mem_singleton] at hv
        rcases hv with (hv | hv) | hv | hv
        · obtain ⟨⟨h1, h2, h3⟩, _⟩ := (hnew v).mp hv
          exact ⟨h3, fun hc => hiM (hM0 v hc index ⟨h1.symm, h3, h2⟩)⟩
        · exact hKM v (by simp [hv])
        · exact hKM v (by simp [hv])
        · subst hv; exact ⟨hiK, hiM⟩
      have hL' : QLink g K (M0 ∪ (new.reverse ++ stack ++ (D ++ [index])).toFinset) d' := by
        have hlen : d'.length = degree.length := by simpa using f2.len
        refine ⟨by rw [hlen, hL.len], ?_⟩
        intro v
        have hav : ∀ (l : List Nat), (∃ d, l[v]? = some d ∧ d ≠ 0) ↔ (l.map (fun d => d == 0))[v]? = some false := by
          intro l
          rw [List.getElem?_map]
          cases l[v]? <;> simp
        rw [hav, f2.get]
        by_cases hvn : v ∈ g.nbrs index
        · rw [if_pos hvn]
          simp only [Option.some.injEq, Bool.true_eq_false, false_iff, not_and, not_not]
          intro hvK
          simp only [Finset.mem_union, List.mem_toFinset, List.mem_append, List.mem_reverse, List.mem_singleton]
          by_cases hvh : v ∈ index :: stack ∨ v ∈ D
          · simp only [List.mem_cons] at hvh; tauto
          · have := (hnew v).mpr ⟨⟨h.adj_iff.mpr hvn, hiK, hvK⟩, hvh⟩
            tauto
        · rw [if_neg hvn, ← hav, hL.alive]
          have : v ∉ new := fun hc => hvn (h.adj_iff.mp ((hnew v).mp hc).1.1)
          simp only [Finset.mem_union, List.mem_toFinset, List.mem_append, List.mem_reverse, List.mem_singleton,
            List.mem_cons, this, false_or]
          tauto
      obtain ⟨d2, D2, g1, g2⟩ := ih d' (new.reverse ++ stack) (D ++ [index]) hstep hKM' hL' (by simp; omega)
      refine ⟨d2, D2, ?_, g2⟩
      simp only [List.length_append, List.length_singleton] at g1
      simp only [qSearch, GenericGraph.container, Vec.idx_of_lt hlt, Res.ok_bind, ← nbrs_getElem hlt, e1]
      exact g1

theorem qCore_spec {g : GenericGraph T A} (h : g.WF) {q : Nat} (hq : 2 ≤ q) (hn : 0 < g.nextId) :
    ∃ r K, g.qCore q = .ok (some r) ∧ QSet g q K ∧ (∀ S, QSet g q S → S ⊆ K) ∧
      (∀ v ∈ K, sizeWithin g K v ≤ r) ∧ (K = ∅ → r = 0) ∧ (K ≠ ∅ → ∃ v ∈ K, sizeWithin g K v = r) := by
  classical
  obtain ⟨degree, P, h1, h2, h3⟩ := qSweeps_spec h (q := q) (g.nextId + 1) ∅ _ (QInv.init h q) (by simp)
  obtain ⟨k1, k2⟩ := alive_core h hq h2 h3
  set K := aliveSet g.nextId degree with hKdef
  have hKlt : ∀ v ∈ K, v < g.nextId := fun v hv => (k1 v hv).1
  obtain ⟨s, e1, M, e2, e3, e4, e5, e6, e7, e8⟩ := foldlM_range (f := qCompBody g) g.nextId
    (fun i s => ∃ M : Finset ℕ, QLink g K M s.1 ∧ M ⊆ K ∧ (∀ v ∈ M, ∀ w, (inducedOn g K).Adj v w → w ∈ M) ∧
      (∀ v ∈ K, v < i → v ∈ M) ∧ (∀ v ∈ M, sizeWithin g K v ≤ s.2) ∧ (M = ∅ → s.2 = 0) ∧
      (M ≠ ∅ → ∃ v ∈ M, sizeWithin g K v = s.2))
    (by
      rintro i ⟨deg, res⟩ hi ⟨M, i1, i2, i3, i4, i5, i6, i7⟩
      dsimp only at i1 i5 i6 i7 ⊢
      have hil : i < deg.length := by rw [i1.len]; exact hi
      by_cases h0 : deg[i] = 0
      · refine ⟨(deg, res), by simp [qCompBody, Vec.idx_of_lt hil, h0], M, i1, i2, i3, ?_, i5, i6, i7⟩
        intro v hv hvi
        by_cases hve : v = i
        · subst hve
          by_contra hc
          have := (i1.zero hi).mp (by rw [List.getElem?_eq_getElem hil, h0])
          exact this ⟨hv, hc⟩
        · exact i4 v hv (by omega)
      · have hiKM : i ∈ K ∧ i ∉ M := (i1.alive i).mp ⟨_, List.getElem?_eq_getElem hil, h0⟩
        obtain ⟨d', D, f1, f2, f3, f4⟩ := qSearch_spec h hKlt i3 (s := i) (g.nextId + 1) (deg.set i 0) [i] []
          (by
            have : (fun v => v ∈ [i] ∨ v ∈ ([] : List Nat)) = (fun v => v = i) := by funext v; simp
            rw [this]; exact SearchInv.init (fun v => Iff.rfl))
          (by intro v hv; simp at hv; subst hv; exact hiKM)
          (by
            refine ⟨by simp [i1.len], ?_⟩
            intro v
            by_cases hvi : v = i
            · subst hvi; simp [hil]
            · rw [List.getElem?_set_ne (Ne.symm hvi), i1.alive]; simp [hvi])
          (by simp)
        have hD : ∀ w, w ∈ D ↔ (inducedOn g K).Reachable i w := by
          intro w; rw [f2.done, reachable_iff_rtg]
        have hsize : ∀ v ∈ D, sizeWithin g K v = D.length := by
          intro v hv
          rw [sizeWithin, ← List.toFinset_card_of_nodup f2.nodup_done]
          congr 1
          ext w
          simp only [Finset.mem_filter, List.mem_toFinset]
          constructor
          · rintro ⟨_, hr⟩; exact (hD w).mpr (((hD v).mp hv).trans hr)
          · intro hw; exact ⟨(f3 w hw).1, ((hD v).mp hv).symm.trans ((hD w).mp hw)⟩
        have hiD : i ∈ D := (hD i).mpr (SimpleGraph.Reachable.refl _)
        refine ⟨(d', Nat.max res D.length), ?_, M ∪ D.toFinset, f4, ?_, ?_, ?_, ?_, ?_, ?_⟩
        · simp only [List.length_nil] at f1
          simp [qCompBody, Vec.idx_of_lt hil, h0, Vec.put_of_lt hil, GenericGraph.vertexCount, f1]
        · intro v hv
          rcases Finset.mem_union.mp hv with hv | hv
          · exact i2 hv
          · exact (f3 v (by simpa using hv)).1
        · intro v hv w hvw
          rcases Finset.mem_union.mp hv with hv | hv
          · exact Finset.mem_union_left _ (i3 v hv w hvw)
          · apply Finset.mem_union_right
            simp only [List.mem_toFinset] at hv ⊢
            exact (hD w).mpr (((hD v).mp hv).trans hvw.reachable)
        · intro v hv hvi
          by_cases hve : v = i
          · subst hve; apply Finset.mem_union_right; simpa using hiD
          · exact Finset.mem_union_left _ (i4 v hv (by omega))
        · intro v hv
          rcases Finset.mem_union.mp hv with hv | hv
          · exact le_trans (i5 v hv) (Nat.le_max_left _ _)
          · rw [hsize v (by simpa using hv)]; exact Nat.le_max_right _ _
        · intro hc
          have : i ∈ M ∪ D.toFinset := Finset.mem_union_right _ (by simpa using hiD)
          rw [hc] at this; simp at this
        · intro _
          rcases Nat.le_total res D.length with hle | hle
          · exact ⟨i, Finset.mem_union_right _ (by simpa using hiD), by rw [hsize i hiD]; exact (Nat.max_eq_right hle).symm⟩
          · by_cases hM : M = ∅
            · have := i6 hM
              refine ⟨i, Finset.mem_union_right _ (by simpa using hiD), ?_⟩
              have hpos := List.length_pos_of_mem hiD
              omega
            · obtain ⟨v, hv, hs⟩ := i7 hM
              exact ⟨v, Finset.mem_union_left _ hv, by rw [hs]; exact (Nat.max_eq_left hle).symm⟩)
    (s := (degree, 0)) ⟨∅, ⟨h2.len, by
        intro v
        simp only [hKdef, aliveSet, Finset.mem_filter, Finset.mem_range, Finset.notMem_empty, not_false_eq_true, and_true]
        constructor
        · rintro ⟨d, hd, hd0⟩
          refine ⟨?_, d, hd, hd0⟩
          rw [← h2.len]; exact (List.getElem?_eq_some_iff.mp hd).1
        · exact fun hx => hx.2⟩, by simp, by simp, by simp, by simp, by simp, by simp⟩
  have hMK : M = K := Finset.Subset.antisymm e3 (fun v hv => e5 v hv (hKlt v hv))
  subst hMK
  refine ⟨s.2, _, ?_, k1, k2, e6, e7, e8⟩
  unfold GenericGraph.qCore
  rw [if_neg (show ¬ (q < 2 ∨ g.vertexCount = 0) by simp only [GenericGraph.vertexCount]; omega)]
  simp only [GenericGraph.vertexCount]
  rw [h1]
  simp only [Res.ok_bind]
  have e1' : List.foldlM (qCompBody g) (degree, 0) (List.range g.nextId) = .ok (s.1, s.2) := e1
  rw [e1']; rfl

end Verif
