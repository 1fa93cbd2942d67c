import Verif.Model.Config
import Verif.Lemmas.EditAll
import Verif.Lemmas.Chain
import Verif.Lemmas.Check
import Verif.Props.Degree

/-!
# Lemmas about the configuration model
-/

set_option linter.unusedSectionVars false
set_option linter.unusedSimpArgs false

namespace Verif
open AdjContainer GenericGraph

/-- The edge halves demanded by a degree vector: vertex `v` occurs as often as its degree. -/
def IsHalves (d l : List Nat) : Prop := ∀ v, l.count v = d.getD v 0

variable {T R : Type} [Rng R]

/-- The states of a `ConfigurationModel` apart from the degrees of the present graph. -/
structure Config.Base (e : Config T R) : Prop where
  wf : e.graph.WF
  n : e.graph.nextId = e.degreeVec.length
  halves : IsHalves e.degreeVec e.backup

/-- The valid states of a `ConfigurationModel`. -/
structure Config.Inv (e : Config T R) : Prop extends e.Base where
  deg : e.graph.degreeVec = e.degreeVec

theorem getD_ge {d : List Nat} {v : Nat} (h : d.length ≤ v) : d.getD v 0 = 0 := by
  rw [List.getD_eq_getElem?_getD, List.getElem?_eq_none h]; rfl

theorem halves_init (d : List Nat) :
    IsHalves d ((List.range d.length).flatMap (fun i => List.replicate (d.getD i 0) i)) := by
  intro v
  rw [List.count_flatMap]
  have : (List.map (List.count v ∘ fun i => List.replicate (d.getD i 0) i) (List.range d.length)) =
      (List.range d.length).map (fun i => if i = v then d.getD v 0 else 0) := by
    apply List.map_congr_left
    intro i _
    simp only [Function.comp, List.count_replicate, beq_iff_eq]
    split
    · rename_i h; subst h; rfl
    · rfl
  rw [this, list_sum_range, Finset.sum_ite_eq']
  split
  · rfl
  · rename_i h
    rw [getD_ge (by simpa using h)]

theorem IsHalves.perm {d l l' : List Nat} (h : IsHalves d l) (p : l'.Perm l) : IsHalves d l' :=
  fun v => by rw [p.count_eq, h v]

theorem IsHalves.lt {d l : List Nat} (h : IsHalves d l) {v : Nat} (hv : v ∈ l) : v < d.length := by
  by_contra hc
  have := List.count_pos_iff.mpr hv
  rw [h v, getD_ge (by omega)] at this
  omega

theorem IsHalves.length {d l : List Nat} (h : IsHalves d l) : l.length = d.sum := by
  have : l.Perm ((List.range d.length).flatMap (fun i => List.replicate (d.getD i 0) i)) := by
    rw [List.perm_iff_count]
    intro v
    rw [h v, halves_init d v]
  rw [this.length_eq, List.length_flatMap]
  simp only [List.length_replicate]
  congr 1
  apply List.ext_getElem
  · simp
  · intro i h1 h2
    simp at h1
    simp [h1]

namespace Config

theorem findPartner_spec {halfs : List Nat} {node1 : Nat} : ∀ {c : Nat}, c < halfs.length →
    (findPartner halfs node1 c = .ok none) ∨
    (∃ k, findPartner halfs node1 c = .ok (some k) ∧ ∃ hk : k < halfs.length, halfs[k] ≠ node1) := by
  intro c
  induction c with
  | zero =>
    intro h
    unfold findPartner
    rw [Vec.idx_of_lt h]
    by_cases h1 : node1 = halfs[0]
    · left; simp [h1]
    · right; refine ⟨0, by simp [h1], h, fun hc => h1 hc.symm⟩
  | succ c ih =>
    intro h
    unfold findPartner
    rw [Vec.idx_of_lt h]
    by_cases h1 : node1 = halfs[c+1]
    · rcases ih (by omega) with h2 | ⟨k, h2, h3⟩
      · left; rw [← h2]; simp [-Res.bind_eq_ok, h1]
      · right; refine ⟨k, ?_, h3⟩; rw [← h2]; simp [-Res.bind_eq_ok, h1]
    · right; refine ⟨c+1, by simp [h1], h, fun hc => h1 hc.symm⟩

/-- One run of `add_multiple_random_edges`: the numbers of neighbours and of remaining halves of a vertex add up to the same
number if it succeeds. -/
theorem addMultiple_spec : ∀ (fuel : Nat) (g : Graph T) (halfs : List Nat), g.WF → (∀ v ∈ halfs, v < g.nextId) →
    2 ≤ halfs.length → halfs.length < fuel + fuel →
    ∃ b g' halfs', addMultiple fuel g halfs = .ok (b, g', halfs') ∧ g'.WF ∧ g'.nextId = g.nextId ∧ g'.data = g.data ∧
      (b = true → halfs'.length = halfs.length % 2 ∧
        ∀ v, (g'.nbrs v).length + halfs'.count v = (g.nbrs v).length + halfs.count v) := by
  intro fuel
  induction fuel with
  | zero => intro g halfs _ _ _ h; omega
  | succ fuel ih =>
    intro g halfs hwf hlt hlen hfuel
    unfold addMultiple
    obtain ⟨init, node1, rfl⟩ : ∃ init y, halfs = init ++ [y] :=
      ⟨halfs.dropLast, halfs.getLast (by rintro rfl; simp at hlen),
        (List.dropLast_append_getLast (by rintro rfl; simp at hlen)).symm⟩
    simp only [List.length_append, List.length_singleton] at hlen hfuel ⊢
    simp only [List.getLast?_append, List.getLast?_singleton, Option.some_or, Res.unwrap_some, Res.ok_bind,
      List.dropLast_concat]
    rw [Res.sub_of_le (by omega), Res.ok_bind]
    rcases findPartner_spec (halfs := init) (node1 := node1) (c := init.length - 1) (by omega) with h1 | ⟨k, h1, hk, hne⟩
    · rw [h1]
      exact ⟨false, g, init, rfl, hwf, rfl, rfl, by simp⟩
    · rw [h1]
      simp only [Res.ok_bind]
      obtain ⟨rest, h2, hp⟩ := Vec.swapRemove_of_lt hk
      rw [h2]
      simp only [Res.ok_bind]
      have hrest : rest.length + 1 = init.length := by have := hp.length_eq; simpa using this
      rcases addEdge_any hwf (hlt node1 (by simp)) (hlt init[k] (by simp)) (Ne.symm hne) with
        ⟨_, h3⟩ | ⟨hnew, g1, h3, h4, h5, h6, h7⟩
      · rw [h3]
        exact ⟨false, g, rest, rfl, hwf, rfl, rfl, by simp⟩
      · rw [h3]
        simp only [Res.ok_bind]
        have hcnt : ∀ v, (g1.nbrs v).length + rest.count v = (g.nbrs v).length + (init ++ [node1]).count v := by
          intro v
          rw [deg_insert hwf h4 (Ne.symm hne) hnew h6 v, List.count_append, ← hp.count_eq v, List.count_cons,
            List.count_singleton]
          unfold inc
          have e1 : (if v = node1 then 1 else 0) = (if (node1 == v) = true then 1 else 0) := by
            by_cases h : v = node1
            · simp [h]
            · simp [h, Ne.symm h]
          have e2 : (if v = init[k] then 1 else 0) = (if (init[k] == v) = true then 1 else 0) := by
            by_cases h : v = init[k]
            · simp [h]
            · simp [h, Ne.symm h]
          rw [e1, e2]; omega
        split
        · rename_i hgt
          obtain ⟨b, g2, h', q1, q2, q3, q4, q5⟩ := ih g1 rest h4 (by
            intro v hv; rw [h5]; apply hlt
            rw [List.mem_append]; left
            exact hp.subset (List.mem_cons_of_mem _ hv)) (by omega) (by omega)
          refine ⟨b, g2, h', q1, q2, by rw [q3, h5], by rw [q4, h7], fun hb => ?_⟩
          obtain ⟨q6, q7⟩ := q5 hb
          refine ⟨by omega, fun v => by rw [q7, hcnt]⟩
        · refine ⟨true, g1, rest, rfl, h4, h5, h7, fun _ => ⟨by omega, hcnt⟩⟩

/-- The loop invariant of `randomize`. -/
structure LoopInv (e : Config T R) : Prop extends e.Base where
  left : ∀ v, (e.graph.nbrs v).length + e.halfs.count v = e.degreeVec.getD v 0

theorem LoopInv.lt {e : Config T R} (h : e.LoopInv) : ∀ v ∈ e.halfs, v < e.graph.nextId := by
  intro v hv
  by_contra hc
  have := h.left v
  have h2 := List.count_pos_iff.mpr hv
  rw [getD_ge (by rw [← h.n]; omega)] at this
  omega

theorem LoopInv.length {e : Config T R} (h : e.LoopInv) : 2 * e.graph.edgeCount + e.halfs.length = e.degreeVec.sum := by
  have h1 : IsHalves ((List.range e.graph.nextId).map (fun v => e.halfs.count v)) e.halfs := by
    intro v
    by_cases hv : v < e.graph.nextId
    · simp [hv]
    · rw [getD_ge (by simpa using hv), List.count_eq_zero]
      exact fun hc => hv (h.lt v hc)
  have h2 : e.degreeVec = (List.range e.graph.nextId).map (fun v => (e.graph.nbrs v).length + e.halfs.count v) := by
    apply List.ext_getElem
    · simp [h.n]
    · intro i h1 h2
      have := h.left i
      simp at h2 ⊢
      rw [this]; simp [h1]
  rw [h1.length, h2, list_sum_range, list_sum_range, Finset.sum_add_distrib, h.wf.count]

theorem LoopInv.start {e : Config T R} (h : e.Base) (hg : ∀ v, e.graph.nbrs v = []) (hb : e.halfs = e.backup) : e.LoopInv :=
  { h with left := fun v => by rw [hg, hb, h.halves v]; simp }

/-- Starting over: shuffle, clear. -/
theorem restart {e : Config T R} (h : e.Base) {backup : List Nat} {rng : R}
    (hs : Rng.shuffle e.rng e.backup = (backup, rng)) :
    ({ e with graph := e.graph.clearEdges, rng, backup, halfs := backup } : Config T R).LoopInv := by
  have hp : backup.Perm e.backup := by have := Rng.shuffle_perm e.rng e.backup; rwa [hs] at this
  refine LoopInv.start ⟨clearEdges_wf h.wf, ?_, h.halves.perm hp⟩ (fun v => clearEdges_nbrs h.wf v) rfl
  show e.graph.clearEdges.nextId = _
  rw [clearEdges_nextId]; exact h.n

theorem LoopInv.done {e : Config T R} (h : e.LoopInv) (he : e.halfs = []) : e.Inv :=
  { h.toBase with
    deg := by
      rw [degreeVec_eq_iff h.wf]
      refine ⟨h.n, fun i _ => ?_⟩
      have := h.left i
      rwa [he, List.count_nil, Nat.add_zero] at this }

/-- `randomize` of a state: never panics if the degree sum is even; every result realises the degree vector. -/
theorem randLoop_spec : ∀ (fuel : Nat) (e : Config T R), e.LoopInv → e.degreeVec.sum % 2 = 0 →
    (randLoop fuel e).wp (fun e' => e'.Inv ∧ e'.degreeVec = e.degreeVec ∧ e'.graph.data = e.graph.data ∧ e'.halfs = []) True := by
  intro fuel
  induction fuel with
  | zero => intro e _ _; exact trivial
  | succ fuel ih =>
    intro e h hev
    unfold randLoop
    split
    · rename_i he
      rw [List.isEmpty_iff] at he
      exact ⟨h.done he, rfl, rfl, he⟩
    · rename_i he
      rw [List.isEmpty_iff] at he
      have hl := h.length
      have hpos : 0 < e.halfs.length := List.length_pos_of_ne_nil he
      obtain ⟨b, g, halfs, h1, h2, h3, h4, h5⟩ := addMultiple_spec (e.halfs.length + 1) e.graph e.halfs h.wf h.lt (by omega) (by omega)
      rw [h1, Res.ok_bind]
      have hb : ({ e with graph := g, halfs := halfs } : Config T R).Base := ⟨h2, by rw [← h.n]; exact h3, h.halves⟩
      cases b with
      | true =>
        obtain ⟨_, h7⟩ := h5 rfl
        refine Res.wp_mono (ih { e with graph := g, halfs := halfs } { hb with left := fun v => ?_ } hev) ?_ id
        · show (g.nbrs v).length + halfs.count v = _
          rw [h7]; exact h.left v
        · rintro e' ⟨q1, q2, q3, q4⟩
          exact ⟨q1, q2, by rw [q3]; exact h4, q4⟩
      | false =>
        rcases hs : Rng.shuffle e.rng e.backup with ⟨backup, rng⟩
        have hr := restart hb hs
        refine Res.wp_mono (ih _ hr hev) ?_ id
        rintro e' ⟨q1, q2, q3, q4⟩
        exact ⟨q1, q2, by rw [q3]; show (GenericGraph.clearEdges g).data = _; rw [clearEdges_data, h4], q4⟩

/-- With an odd degree sum no result exists. -/
theorem randLoop_odd : ∀ (fuel : Nat) (e : Config T R), e.LoopInv → e.degreeVec.sum % 2 = 1 → ∀ e', randLoop fuel e ≠ .ok e' := by
  intro fuel
  induction fuel with
  | zero => intro e _ _ e' h; cases h
  | succ fuel ih =>
    intro e h hev e' hr
    have hl := h.length
    unfold randLoop at hr
    have he : ¬ e.halfs.isEmpty = true := by
      rw [List.isEmpty_iff]; intro he; rw [he] at hl; simp at hl; omega
    rw [if_neg he] at hr
    by_cases h2 : e.halfs.length = 1
    · obtain ⟨x, hx⟩ := List.length_eq_one_iff.mp h2
      rw [hx] at hr
      simp [addMultiple, Res.sub] at hr
    · have hpos : 0 < e.halfs.length := List.length_pos_of_ne_nil (by rwa [List.isEmpty_iff] at he)
      obtain ⟨b, g, halfs, h1, h2, h3, h4, h5⟩ := addMultiple_spec (e.halfs.length + 1) e.graph e.halfs h.wf h.lt (by omega) (by omega)
      rw [h1, Res.ok_bind] at hr
      have hb : ({ e with graph := g, halfs := halfs } : Config T R).Base := ⟨h2, by rw [← h.n]; exact h3, h.halves⟩
      cases b with
      | true =>
        obtain ⟨_, h7⟩ := h5 rfl
        refine ih { e with graph := g, halfs := halfs } { hb with left := fun v => ?_ } hev e' hr
        show (g.nbrs v).length + halfs.count v = _
        rw [h7]; exact h.left v
      | false =>
        rcases hs : Rng.shuffle e.rng e.backup with ⟨backup, rng⟩
        simp only [hs] at hr
        exact ih _ (restart hb hs) hev e' hr

/-! ### Steps -/

theorem chooseOne_spec {l : List Nat} (hl : l ≠ []) (rng : R) : ∃ a rng', chooseOne rng l = .ok (a, rng') ∧ a ∈ l := by
  have hpos : 0 < l.length := List.length_pos_of_ne_nil hl
  obtain ⟨i, r, h1, h2⟩ := genRange_ok rng hpos
  refine ⟨l[i], r, ?_, List.getElem_mem h2⟩
  simp [-Res.bind_eq_ok, chooseOne, h1, Vec.idx_of_lt h2]

theorem drawTwo_spec {h : Nat} (hh : 2 ≤ h) (rng : R) :
    ∃ a b rng', drawTwoFromRange rng h = .ok ((a, b), rng') ∧ a < h ∧ b < h ∧ a ≠ b := by
  obtain ⟨i, r, h1, h2⟩ := genRange_ok rng (show 0 < h by omega)
  obtain ⟨j, r', h3, h4⟩ := genRange_ok r (show 0 < h - 1 by omega)
  by_cases hc : j < i
  · exact ⟨i, j, r', by simp [-Res.bind_eq_ok, drawTwoFromRange, h1, h3, Res.sub_of_le (show 1 ≤ h by omega), hc], h2, by omega, by omega⟩
  · exact ⟨i, j + 1, r', by simp [-Res.bind_eq_ok, drawTwoFromRange, h1, h3, Res.sub_of_le (show 1 ≤ h by omega), hc], h2, by omega, by omega⟩

theorem drawVertices_spec {backup : List Nat} (hb : 2 ≤ backup.length) : ∀ (fuel : Nat) (rng : R),
    (drawVertices fuel rng backup).wp (fun p => p.1.1 ∈ backup ∧ p.1.2 ∈ backup ∧ p.1.1 ≠ p.1.2) True := by
  intro fuel
  induction fuel with
  | zero => intro _; exact trivial
  | succ fuel ih =>
    intro rng
    unfold drawVertices chooseTwo
    obtain ⟨a, b, r, h1, h2, h3, _⟩ := drawTwo_spec hb rng
    rw [if_neg (by omega), h1]
    simp only [Res.ok_bind, Vec.idx_of_lt h2, Vec.idx_of_lt h3, Res.pure_eq]
    simp only [Vec.idx, List.getElem?_cons_zero, List.getElem?_cons_succ, Res.ok_bind]
    split
    · exact ih r
    · rename_i hne
      exact ⟨List.getElem_mem _, List.getElem_mem _, by simpa using hne⟩

/-- The effect of a successful step on a graph. -/
structure Swapped (g g' : Graph T) (n j k l : Nat) : Prop where
  nj : s(n, j) ∈ g.edges
  kl : s(k, l) ∈ g.edges
  nk : s(n, k) ∉ g.edges
  jl : s(j, l) ∉ g.edges
  ne1 : n ≠ k
  ne2 : j ≠ l
  edges : g'.edges = ((insert s(j, l) (insert s(n, k) g.edges)).erase s(n, j)).erase s(k, l)

theorem Swapped.distinct {g g' : Graph T} {n j k l : Nat} (hg : g.WF) (h : Swapped g g' n j k l) :
    n ≠ j ∧ n ≠ k ∧ n ≠ l ∧ j ≠ k ∧ j ≠ l ∧ k ≠ l := by
  refine ⟨(hg.mem_lt h.nj).2.2, h.ne1, ?_, ?_, h.ne2, (hg.mem_lt h.kl).2.2⟩
  · rintro rfl; exact h.nk (Sym2.eq_swap ▸ h.kl)
  · rintro rfl; exact h.nk h.nj

theorem Swapped.deg {g g' : Graph T} {n j k l : Nat} (hg : g.WF) (hg' : g'.WF) (h : Swapped g g' n j k l) (v : Nat) :
    (g'.nbrs v).length = (g.nbrs v).length := by
  obtain ⟨d1, d2, d3, d4, d5, d6⟩ := h.distinct hg
  rw [hg'.deg_eq, hg.deg_eq, h.edges]
  have e1 := degOf_insert d2 h.nk v
  have n2 : s(j, l) ∉ insert s(n, k) g.edges := by
    rw [Finset.mem_insert, not_or]
    refine ⟨?_, h.jl⟩
    rw [Sym2.eq_iff]; omega
  have e2 := degOf_insert d5 n2 v
  have m3 : s(n, j) ∈ insert s(j, l) (insert s(n, k) g.edges) :=
    Finset.mem_insert_of_mem (Finset.mem_insert_of_mem h.nj)
  have e3 := degOf_erase d1 m3 v
  have m4 : s(k, l) ∈ (insert s(j, l) (insert s(n, k) g.edges)).erase s(n, j) := by
    rw [Finset.mem_erase]
    refine ⟨?_, Finset.mem_insert_of_mem (Finset.mem_insert_of_mem h.kl)⟩
    rw [Ne, Sym2.eq_iff]; omega
  have e4 := degOf_erase d6 m4 v
  unfold inc at *
  omega

theorem Swapped.mem {g g' : Graph T} {n j k l : Nat} (hg : g.WF) (h : Swapped g g' n j k l) :
    s(n, k) ∈ g'.edges ∧ s(j, l) ∈ g'.edges ∧ s(n, j) ∉ g'.edges ∧ s(k, l) ∉ g'.edges := by
  obtain ⟨d1, d2, d3, d4, d5, d6⟩ := h.distinct hg
  rw [h.edges]
  simp only [Finset.mem_erase, Finset.mem_insert, Ne, Sym2.eq_iff]
  have := h.nk; have := h.jl
  refine ⟨⟨by omega, by omega, by tauto⟩, ⟨by omega, by omega, by tauto⟩, ?_, ?_⟩
  · rintro ⟨_, hc, _⟩; simp at hc
  · rintro ⟨hc, _⟩; simp at hc

/-- A valid state with the same degrees and vertices. -/
theorem Inv.of_graph {e : Config T R} (h : e.Inv) {g : Graph T} {rng : R} (hg : g.WF) (hn : g.nextId = e.graph.nextId)
    (hd : ∀ v, (g.nbrs v).length = (e.graph.nbrs v).length) : ({ e with graph := g, rng := rng } : Config T R).Inv where
  wf := hg
  n := by rw [← h.n]; exact hn
  halves := h.halves
  deg := by
    have h1 := (degreeVec_eq_iff h.wf e.degreeVec).mp h.deg
    show g.degreeVec = e.degreeVec
    rw [degreeVec_eq_iff hg]
    exact ⟨by rw [hn]; exact h1.1, fun i hi => by rw [hd]; exact h1.2 i (by omega)⟩

theorem Inv.deg_count {e : Config T R} (h : e.Inv) {v : Nat} (hv : v ∈ e.backup) : e.graph.nbrs v ≠ [] ∧ v < e.graph.nextId := by
  have hlt : v < e.graph.nextId := by rw [h.n]; exact h.halves.lt hv
  refine ⟨fun hc => ?_, hlt⟩
  have h1 := ((degreeVec_eq_iff h.wf e.degreeVec).mp h.deg).2 v hlt
  have h2 := List.count_pos_iff.mpr hv
  rw [h.halves v, ← h1, hc] at h2
  simp at h2

theorem Inv.length {e : Config T R} (h : e.Inv) : e.backup.length = 2 * e.graph.edgeCount := by
  rw [h.halves.length, ← h.deg, degreeVec_eq h.wf, list_sum_range, h.wf.count]

theorem wp_own {α : Type} {x : Res α} {P : α → Prop} (h : x.wp P True) : x.wp P (x = .diverge) := by
  cases x with
  | ok a => exact h
  | panic => exact h
  | diverge => rfl

theorem mStep_spec' {e : Config T R} (h : e.Inv) (hE : 1 ≤ e.graph.edgeCount) (fuel : Nat) :
    (mStep fuel e).wp (fun p => p.2.Inv ∧ p.2.degreeVec = e.degreeVec ∧ p.2.graph.data = e.graph.data ∧
      ((p.1 = .error ∧ p.2.graph.edges = e.graph.edges) ∨
       ∃ n j k l, p.1 = .added (n, j) (k, l) ∧ Swapped e.graph p.2.graph n j k l))
      (drawVertices fuel e.rng e.backup = .diverge) := by
  unfold mStep
  apply Res.wp_bind
  refine Res.wp_mono (wp_own (drawVertices_spec (by rw [h.length]; omega) fuel e.rng)) ?_ id
  rintro ⟨⟨n, k⟩, r⟩ ⟨hn, hk, hnk⟩
  simp only at hn hk hnk
  obtain ⟨hn1, hn2⟩ := h.deg_count hn
  obtain ⟨hk1, hk2⟩ := h.deg_count hk
  have vn := h.wf.lt_length hn2
  have vk := h.wf.lt_length hk2
  rw [nbrs_getElem vn] at hn1
  rw [nbrs_getElem vk] at hk1
  obtain ⟨j, r1, c1, c2⟩ := chooseOne_spec hn1 r
  obtain ⟨l, r2, c3, c4⟩ := chooseOne_spec hk1 r1
  have c1' : chooseOne r (e.graph.vertices[n]).adj = .ok (j, r1) := c1
  have c3' : chooseOne r1 (e.graph.vertices[k]).adj = .ok (l, r2) := c3
  simp only [Vec.idx_of_lt vn, Vec.idx_of_lt vk, Res.ok_bind, c1', c3']
  have hnj : s(n, j) ∈ e.graph.edges := by rw [h.wf.mem_edges, nbrs_getElem vn]; exact c2
  have hkl : s(k, l) ∈ e.graph.edges := by rw [h.wf.mem_edges, nbrs_getElem vk]; exact c4
  obtain ⟨_, hj, dnj⟩ := h.wf.mem_lt hnj
  obtain ⟨_, hl, dkl⟩ := h.wf.mem_lt hkl
  have keep : ∀ {g : Graph T}, g.WF → g.nextId = e.graph.nextId → g.edges = e.graph.edges →
      ({ e with graph := g, rng := r2 } : Config T R).Inv := by
    intro g hg hgn hge
    exact h.of_graph hg hgn (fun v => by rw [hg.deg_eq, h.wf.deg_eq, hge])
  split
  · exact ⟨keep h.wf rfl rfl, rfl, rfl, .inl ⟨rfl, rfl⟩⟩
  · rename_i hne
    have hjl : j ≠ l := by intro hc; exact hne (by simp [hc])
    rcases addEdge_any h.wf hn2 hk2 hnk with ⟨_, a1⟩ | ⟨hnew, g1, a1, a2, a3, a4, a5⟩
    · rw [a1]
      exact ⟨keep h.wf rfl rfl, rfl, rfl, .inl ⟨rfl, rfl⟩⟩
    · rw [a1]
      simp only [Res.ok_bind]
      have hnl : n ≠ l := by rintro rfl; exact hnew (Sym2.eq_swap ▸ hkl)
      have hjk : j ≠ k := by rintro rfl; exact hnew hnj
      rcases addEdge_any a2 (by rw [a3]; exact hj) (by rw [a3]; exact hl) hjl with ⟨_, b1⟩ | ⟨hnew2, g2, b1, b2, b3, b4, b5⟩
      · rw [b1]
        simp only [Res.ok_bind]
        obtain ⟨g3, d1, d2, d3, _, d5, d6⟩ := removeEdge_edges a2 (i := n) (j := k) (by rw [a4]; simp)
        rw [d1]
        simp only [Res.ok_bind, unwrapOk]
        have de : g3.edges = e.graph.edges := by rw [d5, a4, Finset.erase_insert hnew]
        exact ⟨keep d2 (by rw [d3, a3]) de, rfl, by rw [← a5]; exact d6, .inl ⟨rfl, de⟩⟩
      · rw [b1]
        simp only [Res.ok_bind]
        obtain ⟨g3, d1, d2, d3, _, d5, d6⟩ := removeEdge_edges b2 (i := n) (j := j) (by rw [b4, a4]; simp [hnj])
        rw [d1]
        simp only [Res.ok_bind, unwrapOk]
        obtain ⟨g4, f1, f2, f3, _, f5, f6⟩ := removeEdge_edges d2 (i := k) (j := l) (by
          rw [d5, b4, a4, Finset.mem_erase]
          refine ⟨?_, Finset.mem_insert_of_mem (Finset.mem_insert_of_mem hkl)⟩
          rw [Ne, Sym2.eq_iff]; omega)
        rw [f1]
        simp only [Res.ok_bind, unwrapOk]
        have hsw : Swapped e.graph g4 n j k l :=
          ⟨hnj, hkl, hnew, fun hc => hnew2 (by rw [a4]; exact Finset.mem_insert_of_mem hc), hnk, hjl,
            by rw [f5, d5, b4, a4]⟩
        refine ⟨h.of_graph f2 (by rw [f3, d3, b3, a3]) (hsw.deg h.wf f2), rfl, ?_, .inr ⟨n, j, k, l, rfl, hsw⟩⟩
        show g4.data = _
        rw [f6, d6, b5, a5]

theorem mStep_spec {e : Config T R} (h : e.Inv) (hE : 1 ≤ e.graph.edgeCount) (fuel : Nat) :
    (mStep fuel e).wp (fun p => p.2.Inv ∧ p.2.degreeVec = e.degreeVec ∧ p.2.graph.data = e.graph.data ∧
      ((p.1 = .error ∧ p.2.graph.edges = e.graph.edges) ∨
       ∃ n j k l, p.1 = .added (n, j) (k, l) ∧ Swapped e.graph p.2.graph n j k l)) True :=
  Res.wp_mono (mStep_spec' h hE fuel) (fun _ hp => hp) (fun _ => trivial)

/-- With no edges a step panics. -/
theorem mStep_no_edges {e : Config T R} (h : e.Inv) (hE : e.graph.edgeCount = 0) (fuel : Nat) :
    mStep (fuel + 1) e = .panic := by
  have hb : e.backup = [] := by
    have := h.length; rw [hE] at this
    exact List.length_eq_zero_iff.mp (by omega)
  simp [mStep, drawVertices, chooseTwo, hb, Vec.idx]

/-! ### Undo -/

/-- `undo_step` of an arbitrary step whose four pairs are pairs of different existing vertices. -/
theorem undoStep_spec {e : Config T R} (h : e.Inv) {a b c d : Nat} (ha : a < e.graph.nextId) (hb : b < e.graph.nextId)
    (hc : c < e.graph.nextId) (hd : d < e.graph.nextId) (hab : a ≠ b) (hcd : c ≠ d) (hbd : b ≠ d) (hac : a ≠ c) :
    ∃ r g, e.undoStep (.added (a, b) (c, d)) = .ok (r, { e with graph := g }) ∧ g.WF ∧ g.nextId = e.graph.nextId ∧
      g.data = e.graph.data ∧
      (if s(c, d) ∈ e.graph.edges then r = .error (.unableToAddEdge (c, d) .edgeExists) ∧ g.edges = e.graph.edges
       else if s(a, b) ∈ insert s(c, d) e.graph.edges then
         r = .error (.unableToAddEdge (a, b) .edgeExists) ∧ g.edges = e.graph.edges
       else if s(b, d) ∉ insert s(a, b) (insert s(c, d) e.graph.edges) then
         r = .error (.unableToRemoveEdge (b, d) .edgeDoesNotExist) ∧ g.edges = e.graph.edges
       else if s(a, c) ∉ insert s(a, b) (insert s(c, d) e.graph.edges) then
         r = .error (.unableToRemoveEdge (a, c) .edgeDoesNotExist) ∧ g.edges = e.graph.edges
       else r = .ok () ∧ g.edges = ((insert s(a, b) (insert s(c, d) e.graph.edges)).erase s(b, d)).erase s(a, c)) := by
  unfold undoStep
  rcases addEdge_any h.wf hc hd hcd with ⟨m1, a1⟩ | ⟨m1, g1, a1, a2, a3, a4, a5⟩
  · simp only [a1, Res.ok_bind, if_pos m1]
    exact ⟨_, _, rfl, h.wf, rfl, rfl, rfl, rfl⟩
  simp only [a1, Res.ok_bind, if_neg m1]
  rcases addEdge_any a2 (by rw [a3]; exact ha) (by rw [a3]; exact hb) hab with ⟨m2, b1⟩ | ⟨m2, g2, b1, b2, b3, b4, b5⟩
  · rw [a4] at m2
    simp only [b1, Res.ok_bind, if_pos m2]
    obtain ⟨g3, d1, d2, d3, _, d5, d6⟩ := removeEdge_edges a2 (i := c) (j := d) (by rw [a4]; simp)
    simp only [d1, Res.ok_bind, unwrapOk]
    exact ⟨_, _, rfl, d2, by rw [d3, a3], by rw [d6, a5], rfl, by rw [d5, a4, Finset.erase_insert m1]⟩
  rw [a4] at m2
  simp only [b1, Res.ok_bind, if_neg m2]
  rw [a4] at b4
  rcases removeEdge_any b2 (i := b) (j := d) (by rw [b3, a3]; exact hb) (by rw [b3, a3]; exact hd) hbd with
    ⟨m3, c1⟩ | ⟨m3, g3, c1, c2, c3, c4, c5⟩
  · rw [b4] at m3
    simp only [c1, Res.ok_bind, if_pos m3]
    obtain ⟨g4, d1, d2, d3, _, d5, d6⟩ := removeEdge_edges b2 (i := c) (j := d) (by rw [b4]; simp)
    simp only [d1, Res.ok_bind, unwrapOk]
    have hne : s(a, b) ≠ s(c, d) := fun hc => m2 (by rw [hc]; simp)
    obtain ⟨g5, f1, f2, f3, _, f5, f6⟩ := removeEdge_edges d2 (i := a) (j := b) (by rw [d5, b4]; simp [hne])
    simp only [f1, Res.ok_bind, unwrapOk]
    refine ⟨_, _, rfl, f2, by rw [f3, d3, b3, a3], by rw [f6, d6, b5, a5], rfl, ?_⟩
    rw [f5, d5, b4, Finset.erase_right_comm, Finset.erase_insert m2, Finset.erase_insert m1]
  rw [b4] at m3 c4
  simp only [c1, Res.ok_bind, if_neg (not_not.mpr m3)]
  have hac' : s(a, c) ≠ s(b, d) := by
    intro hcc; rw [Sym2.eq_iff] at hcc
    rcases hcc with ⟨rfl, _⟩ | ⟨rfl, rfl⟩
    · exact hab rfl
    · exact m2 (by rw [Sym2.eq_swap]; simp)
  rcases removeEdge_any c2 (i := a) (j := c) (by rw [c3, b3, a3]; exact ha) (by rw [c3, b3, a3]; exact hc) hac with
    ⟨m4, d1⟩ | ⟨m4, g4, d1, d2, d3, d4, d5⟩
  · rw [c4, Finset.mem_erase, not_and] at m4
    have m4 := m4 hac'
    simp only [d1, Res.ok_bind, if_pos m4]
    -- the removed edge is neither of the two added ones
    have hbc : b ≠ c := by rintro rfl; exact m4 (by simp)
    have had : a ≠ d := by rintro rfl; exact m4 (by simp [Sym2.eq_swap])
    have hne : s(a, b) ≠ s(c, d) := fun hc => m2 (by rw [hc]; simp)
    have hne1 : s(c, d) ≠ s(b, d) := by rw [Ne, Sym2.eq_iff]; omega
    have hne2 : s(a, b) ≠ s(b, d) := by rw [Ne, Sym2.eq_iff]; omega
    obtain ⟨g4, p1, p2, p3, _, p5, p6⟩ := removeEdge_edges c2 (i := c) (j := d) (by rw [c4]; simp [hne1])
    simp only [p1, Res.ok_bind, unwrapOk]
    obtain ⟨g5, q1, q2, q3, _, q5, q6⟩ := removeEdge_edges p2 (i := a) (j := b) (by rw [p5, c4]; simp [hne, hne2])
    simp only [q1, Res.ok_bind, unwrapOk]
    obtain ⟨g6, s1, s2, s3, _, s5, s6⟩ := addEdge_edges q2 (i := b) (j := d) (by rw [q3, p3, c3, b3, a3]; exact hb)
      (by rw [q3, p3, c3, b3, a3]; exact hd) hbd (by rw [q5, p5, c4]; simp)
    simp only [s1, Res.ok_bind, unwrapOk]
    refine ⟨_, _, rfl, s2, by rw [s3, q3, p3, c3, b3, a3], by rw [s6, q6, p6, c5, b5, a5], rfl, ?_⟩
    have m3' : s(b, d) ∈ e.graph.edges := by
      simp only [Finset.mem_insert] at m3
      rcases m3 with h1 | h1 | h1
      · exact absurd h1.symm hne2
      · exact absurd h1.symm hne1
      · exact h1
    rw [s5, q5, p5, c4]
    ext x
    simp only [Finset.mem_insert, Finset.mem_erase]
    constructor
    · rintro (rfl | ⟨x1, x2, x3, x4⟩)
      · exact m3'
      · rcases x4 with rfl | rfl | x4
        · exact absurd rfl x1
        · exact absurd rfl x2
        · exact x4
    · intro hx
      by_cases hxb : x = s(b, d)
      · exact .inl hxb
      · refine .inr ⟨?_, ?_, hxb, .inr (.inr hx)⟩
        · rintro rfl; exact m2 (Finset.mem_insert_of_mem hx)
        · rintro rfl; exact m1 hx
  · rw [c4, Finset.mem_erase] at m4
    simp only [d1, Res.ok_bind, if_neg (not_not.mpr m4.2)]
    exact ⟨_, _, rfl, d2, by rw [d3, c3, b3, a3], by rw [d5, c5, b5, a5], rfl, by rw [d4, c4]⟩

/-- `undo_step_quiet` succeeds exactly when `undo_step` returns `Ok`, with the same result. -/
theorem undoStepQuiet_eq (e : Config T R) (s : ConfigStep) :
    ∀ e', e.undoStep s = .ok (.ok (), e') → e.undoStepQuiet s = .ok e' := by
  intro e' he
  unfold undoStep at he
  unfold undoStepQuiet
  cases s with
  | error => simpa using he
  | added e1 e2 =>
    simp only [Res.bind_eq_ok, Prod.exists] at he
    obtain ⟨r, g, h1, he⟩ := he
    rcases r with err | ⟨⟩
    · simp at he
    simp only [Res.bind_eq_ok, Prod.exists] at he
    obtain ⟨r, g', h2, he⟩ := he
    rcases r with err | ⟨⟩
    · simp [unwrapOk] at he
    simp only [Res.bind_eq_ok, Prod.exists] at he
    obtain ⟨r, g'', h3, he⟩ := he
    rcases r with err | ⟨⟩
    · simp [unwrapOk] at he
    simp only [Res.bind_eq_ok, Prod.exists] at he
    obtain ⟨r, g3, h4, he⟩ := he
    rcases r with err | ⟨⟩
    · simp [unwrapOk] at he
    simp only [Res.pure_eq, Res.ok.injEq, Prod.mk.injEq, true_and] at he
    simp [-Res.bind_eq_ok, h1, h2, h3, h4, unwrapOk, he]

end Config
end Verif
