import Verif.Lemmas.Draws
import Verif.Props.Config

/-!
# The configuration model on a fair tape

`randomize` shuffles the halves until they can be joined.  The order of the halves before a shuffle influences which number of the
tape leads to which order; a synchronising word of numbers leads from every order through a given one.
-/

set_option linter.unusedSectionVars false
set_option linter.unusedSimpArgs false

namespace Verif
open AdjContainer

/-- The order of a list after `k` shuffles. -/
noncomputable def arr : ℕ → Stream → List ℕ → List ℕ
  | 0, _, b => b
  | k + 1, r, b => arr k (r.skip 1) (Rng.shuffle r b).1

theorem arr_add : ∀ (k l : ℕ) (r : Stream) (b : List ℕ), arr (k + l) r b = arr l (r.skip k) (arr k r b) := by
  intro k
  induction k with
  | zero => intro l r b; rw [Nat.zero_add]; rfl
  | succ k ih =>
    intro l r b
    rw [show k + 1 + l = (k + l) + 1 by omega, arr, ih, arr, Stream.skip_skip, Nat.add_comm 1 k]

theorem arr_perm : ∀ (k : ℕ) (r : Stream) (b : List ℕ), (arr k r b).Perm b := by
  intro k
  induction k with
  | zero => intro r b; exact List.Perm.refl _
  | succ k ih => intro r b; exact (ih _ _).trans (Rng.shuffle_perm r b)

/-- The order after the shuffles whose outcomes have the given numbers. -/
def arrWord : List ℕ → List ℕ → List ℕ
  | [], b => b
  | x :: w, b => arrWord w (b.permutations.getD x b)

theorem getD_perm (b : List ℕ) (x : ℕ) : (b.permutations.getD x b).Perm b := by
  rw [List.getD_eq_getElem?_getD]
  cases h : b.permutations[x]? with
  | none => exact List.Perm.refl _
  | some y => exact List.mem_permutations.mp (List.mem_of_getElem? h)

theorem arrWord_perm : ∀ (w b : List ℕ), (arrWord w b).Perm b := by
  intro w
  induction w with
  | nil => intro b; exact List.Perm.refl _
  | cons x w ih => intro b; exact (ih _).trans (getD_perm b x)

theorem arrWord_append : ∀ (w w' b : List ℕ), arrWord (w ++ w') b = arrWord w' (arrWord w b) := by
  intro w
  induction w with
  | nil => intro w' b; rfl
  | cons x w ih => intro w' b; exact ih _ _

theorem sync_word (t : List ℕ) : ∀ B : List (List ℕ), (∀ b ∈ B, b.Perm t) →
    ∃ w : List ℕ, (∀ x ∈ w, x < t.permutations.length) ∧ ∀ b ∈ B, ∃ w', w' <+: w ∧ arrWord w' b = t := by
  intro B
  induction B with
  | nil => intro _; exact ⟨[], by simp, by simp⟩
  | cons b B ih =>
    intro hB
    obtain ⟨w, h1, h2⟩ := ih (fun b hb => hB b (List.mem_cons_of_mem _ hb))
    have hp : (arrWord w b).Perm t := (arrWord_perm w b).trans (hB b List.mem_cons_self)
    obtain ⟨x, hx, hxt⟩ := List.mem_iff_getElem.mp (List.mem_permutations.mpr hp.symm)
    refine ⟨w ++ [x], ?_, ?_⟩
    · intro y hy
      rcases List.mem_append.mp hy with hy | hy
      · exact h1 y hy
      · rw [List.mem_singleton] at hy
        subst hy
        rw [List.length_permutations] at hx ⊢
        rwa [hp.length_eq] at hx
    · intro c hc
      rcases List.mem_cons.mp hc with rfl | hc
      · refine ⟨w ++ [x], List.prefix_refl _, ?_⟩
        rw [arrWord_append]
        show ((arrWord w c).permutations.getD x (arrWord w c)) = t
        rw [getD_lt hx, hxt]
      · obtain ⟨w', k1, k2⟩ := h2 c hc
        exact ⟨w', k1.trans (List.prefix_append _ _), k2⟩

theorem arr_word {t : List ℕ} : ∀ (w : List ℕ) (r : Stream) (b : List ℕ), b.Perm t →
    (∀ i (hi : i < w.length), partOf (r.tape (r.pos + i)) t.permutations.length = w[i]) → arr w.length r b = arrWord w b := by
  intro w
  induction w with
  | nil => intro r b _ _; rfl
  | cons x w ih =>
    intro r b hb h
    rw [List.length_cons, arr, arrWord]
    have h0 := h 0 (by simp)
    have hlen : b.permutations.length = t.permutations.length := by
      rw [List.length_permutations, List.length_permutations, hb.length_eq]
    have hsh : (Rng.shuffle r b).1 = b.permutations.getD x b := by
      show b.permutations.getD (partOf r.head b.permutations.length) b = _
      rw [hlen]
      congr 1
    rw [hsh]
    apply ih _ _ ((getD_perm b x).trans hb)
    intro i hi
    have := h (i + 1) (by simpa using hi)
    rw [List.getElem_cons_succ] at this
    rw [← this, Stream.skip_tape, Stream.skip_pos]
    congr 2
    omega

/-- On a fair tape repeated shuffling reaches every order. -/
theorem arr_fair {r : Stream} (hω : Fair r.tape) {b t : List ℕ} (hb : b.Perm t) : ∃ K, arr K r b = t := by
  obtain ⟨w, h1, h2⟩ := sync_word t t.permutations (fun b hb => List.mem_permutations.mp hb)
  have hpos : 0 < t.permutations.length := by rw [List.length_permutations]; exact Nat.factorial_pos _
  set l := (w ++ [0]).map (fun x => (t.permutations.length, x)) with hl
  obtain ⟨j, hj⟩ := hω.draws (l := l) (by simp [hl]) (by
    intro d hd
    rw [hl, List.mem_map] at hd
    obtain ⟨x, hx, rfl⟩ := hd
    rcases List.mem_append.mp hx with hx | hx
    · exact h1 x hx
    · rw [List.mem_singleton] at hx; subst hx; exact hpos) r.pos
  have hlen : l.length = w.length + 1 := by simp [hl]
  set r' := r.skip (j * l.length) with hr'
  have hb' : (arr (j * l.length) r b).Perm t := (arr_perm _ _ _).trans hb
  obtain ⟨w', k1, k2⟩ := h2 _ (List.mem_permutations.mpr hb')
  refine ⟨j * l.length + w'.length, ?_⟩
  rw [arr_add, arr_word w' _ _ hb', k2]
  intro i hi
  have hle := k1.length_le
  have := hj i (by omega)
  have e : l[i]'(by omega) = (t.permutations.length, w'[i]) := by
    simp only [hl, List.getElem_map, Prod.mk.injEq, true_and]
    rw [List.getElem_append_left (by omega), k1.getElem hi]
  rw [e] at this
  exact this

namespace Config

variable {T : Type}

theorem randLoop_empty {R : Type} [Rng R] {e : Config T R} (h : e.halfs = []) (fuel : ℕ) : randLoop (fuel + 1) e = .ok e := by
  rw [randLoop, h]; rfl

theorem randLoop_within {d t : List Nat} (hgood : ∀ h : Graph T, h.WF → h.nextId = d.length →
      t = [] ∨ (t ≠ [] ∧ ∃ g', addMultiple (t.length + 1) h.clearEdges t = .ok (true, g', []))) (hev : d.sum % 2 = 0) :
    ∀ (K : ℕ) (e : Config T Stream) (h : Graph T), e.degreeVec = d → e.LoopInv → h.WF → h.nextId = d.length →
      e.graph = h.clearEdges → e.halfs = e.backup →
    arr K e.rng e.backup = t → Eventually (fun fuel => randLoop fuel e) (fun e' => e'.rng.tape = e.rng.tape) := by
  intro K
  induction K with
  | zero =>
    intro e h hd hI hw hn hg hh ht
    have ht' : e.halfs = t := hh.trans ht
    rcases hgood h hw hn with h1 | ⟨h1, g', h2⟩
    · refine ⟨1, e, rfl, fun fuel hf => ?_⟩
      obtain ⟨fuel, rfl⟩ : ∃ k, fuel = k + 1 := ⟨fuel - 1, by omega⟩
      exact randLoop_empty (ht'.trans h1) fuel
    · refine ⟨2, { e with graph := g', halfs := [] }, rfl, fun fuel hf => ?_⟩
      obtain ⟨fuel, rfl⟩ : ∃ k, fuel = k + 2 := ⟨fuel - 2, by omega⟩
      show randLoop (fuel + 1 + 1) e = _
      have hne : e.halfs.isEmpty = false := by rw [ht']; rwa [List.isEmpty_eq_false_iff]
      rw [randLoop]
      simp only [hne, Bool.false_eq_true, if_false]
      rw [ht', hg, h2]
      simp only [Res.ok_bind, if_true]
      exact randLoop_empty rfl fuel
  | succ K ih =>
    intro e h hd hI hw hn hg hh ht
    by_cases hne : e.halfs = []
    · refine ⟨1, e, rfl, fun fuel hf => ?_⟩
      obtain ⟨fuel, rfl⟩ : ∃ k, fuel = k + 1 := ⟨fuel - 1, by omega⟩
      exact randLoop_empty hne fuel
    · have hl := hI.length
      have hpos : 0 < e.halfs.length := List.length_pos_of_ne_nil hne
      have hev' : e.degreeVec.sum % 2 = 0 := by rw [hd]; exact hev
      obtain ⟨b, g, halfs, h1, h2, h3, h4, h5⟩ :=
        addMultiple_spec (e.halfs.length + 1) e.graph e.halfs hI.wf hI.lt (by omega) (by omega)
      have hne' : e.halfs.isEmpty = false := by rwa [List.isEmpty_eq_false_iff]
      cases b with
      | true =>
        have : halfs = [] := by
          have := (h5 rfl).1
          exact List.length_eq_zero_iff.mp (by omega)
        refine ⟨2, { e with graph := g, halfs := halfs }, rfl, fun fuel hf => ?_⟩
        obtain ⟨fuel, rfl⟩ : ∃ k, fuel = k + 2 := ⟨fuel - 2, by omega⟩
        show randLoop (fuel + 1 + 1) e = _
        rw [randLoop]
        simp only [hne', Bool.false_eq_true, if_false, h1, Res.ok_bind, if_true]
        exact randLoop_empty this fuel
      | false =>
        have hb : ({ e with graph := g, halfs := halfs } : Config T Stream).Base := ⟨h2, by rw [← hI.n]; exact h3, hI.halves⟩
        have hs : Rng.shuffle e.rng e.backup = ((Rng.shuffle e.rng e.backup).1, e.rng.skip 1) := rfl
        obtain ⟨F, x, k1, k2⟩ := ih
          ⟨g.clearEdges, e.degreeVec, e.rng.skip 1, (Rng.shuffle e.rng e.backup).1, (Rng.shuffle e.rng e.backup).1⟩ g
          hd (restart hb hs) h2 (by rw [h3, hI.n, hd]) rfl rfl ht
        refine ⟨F + 1, x, k1, fun fuel hf => ?_⟩
        obtain ⟨fuel, rfl⟩ : ∃ k, fuel = k + 1 := ⟨fuel - 1, by omega⟩
        show randLoop (fuel + 1) e = _
        rw [randLoop]
        simp only [hne', Bool.false_eq_true, if_false, h1, Res.ok_bind]
        exact k2 fuel (by omega)

theorem randomize_fair {e : Config T Stream} (h : e.Base) {g : Graph T} (hd : Realises g e.degreeVec) (hω : Fair e.rng.tape) :
    Eventually (fun fuel => e.randomize fuel) (fun e' => e'.rng.tape = e.rng.tape) := by
  obtain ⟨t, ht, hgood⟩ := good_order hd
  have hev : e.degreeVec.sum % 2 = 0 := by
    obtain ⟨hw, hdeg⟩ := realises_iff.mp hd
    rw [← hdeg]
    exact degreeVec_even hw
  have hs : Rng.shuffle e.rng e.backup = ((Rng.shuffle e.rng e.backup).1, e.rng.skip 1) := rfl
  have hperm : ((Rng.shuffle e.rng e.backup).1).Perm t := by
    refine (Rng.shuffle_perm e.rng e.backup).trans ?_
    rw [List.perm_iff_count]
    intro v
    rw [ht v, h.halves v]
  obtain ⟨K, hK⟩ := arr_fair (r := e.rng.skip 1) hω hperm
  unfold randomize
  exact randLoop_within (fun h' hw hn => (hgood h' hw hn).imp And.left (fun x => ⟨x.1, x.2.choose, x.2.choose_spec.1⟩)) hev K
    ⟨e.graph.clearEdges, e.degreeVec, e.rng.skip 1, (Rng.shuffle e.rng e.backup).1, (Rng.shuffle e.rng e.backup).1⟩ e.graph rfl
    (restart h hs) h.wf h.n rfl rfl hK

/-! ### Steps -/

theorem drawVertices_within {backup : List Nat} (hb : 2 ≤ backup.length) {i j : ℕ} (hi : i < backup.length)
    (hj : j < backup.length) (hne : backup[i] ≠ backup[j]) (hji : j < i) :
    ∀ (k : ℕ) (r : Stream), partOf (r.tape (r.pos + k * 2 + 0)) backup.length = i →
      partOf (r.tape (r.pos + k * 2 + 1)) (backup.length - 1) = j →
      Eventually (fun fuel => drawVertices fuel r backup) (fun p => p.2.tape = r.tape) := by
  have hstep : ∀ (r : Stream), drawTwoFromRange r backup.length =
      .ok ((partOf r.head backup.length, if partOf (r.skip 1).head (backup.length - 1) < partOf r.head backup.length then
        partOf (r.skip 1).head (backup.length - 1) else partOf (r.skip 1).head (backup.length - 1) + 1), (r.skip 1).skip 1) := by
    intro r
    unfold drawTwoFromRange
    rw [r.genRange_eq (by omega)]
    simp only [Res.ok_bind, Res.sub_of_le (show 1 ≤ backup.length by omega)]
    rw [(r.skip 1).genRange_eq (by omega)]
    simp only [Res.ok_bind]
    split <;> rfl
  have hround : ∀ (r : Stream), ∃ a b, (∀ fuel, drawVertices (fuel + 1) r backup =
      if a == b then drawVertices fuel ((r.skip 1).skip 1) backup else .ok ((a, b), (r.skip 1).skip 1)) ∧
      (partOf r.head backup.length = i → partOf (r.skip 1).head (backup.length - 1) = j → a ≠ b) := by
    intro r
    set p := partOf r.head backup.length with hp
    set q := partOf (r.skip 1).head (backup.length - 1) with hq
    have hpl : p < backup.length := partOf_lt _ (by omega)
    have hql : q < backup.length - 1 := partOf_lt _ (by omega)
    have hql' : (if q < p then q else q + 1) < backup.length := by split <;> omega
    refine ⟨backup[p], backup[if q < p then q else q + 1], fun fuel => ?_, ?_⟩
    · rw [drawVertices, chooseTwo, if_neg (by omega), hstep r]
      simp only [Res.ok_bind, ← hp, ← hq, Vec.idx_of_lt hpl, Vec.idx_of_lt hql', Res.pure_eq]
      simp only [Vec.idx, List.getElem?_cons_zero, List.getElem?_cons_succ, Res.ok_bind]
    · intro h1 h2
      simp only [h1, h2, if_pos hji]
      exact hne
  intro k
  induction k with
  | zero =>
    intro r h1 h2
    obtain ⟨a, b, k1, k2⟩ := hround r
    have hab := k2 h1 h2
    refine ⟨1, ((a, b), (r.skip 1).skip 1), rfl, fun fuel hf => ?_⟩
    obtain ⟨fuel, rfl⟩ : ∃ k, fuel = k + 1 := ⟨fuel - 1, by omega⟩
    show drawVertices (fuel + 1) r backup = _
    rw [k1, if_neg (by simpa using hab)]
  | succ k ih =>
    intro r h1 h2
    obtain ⟨a, b, k1, _⟩ := hround r
    by_cases hab : a = b
    · obtain ⟨F, x, l1, l2⟩ := ih ((r.skip 1).skip 1)
        (by rw [← h1]; simp only [Stream.skip_tape, Stream.skip_pos]; congr 2; omega)
        (by rw [← h2]; simp only [Stream.skip_tape, Stream.skip_pos]; congr 2; omega)
      refine ⟨F + 1, x, l1, fun fuel hf => ?_⟩
      obtain ⟨fuel, rfl⟩ : ∃ k, fuel = k + 1 := ⟨fuel - 1, by omega⟩
      show drawVertices (fuel + 1) r backup = _
      rw [k1, if_pos (by simpa using hab)]
      exact l2 fuel (by omega)
    · refine ⟨1, ((a, b), (r.skip 1).skip 1), rfl, fun fuel hf => ?_⟩
      obtain ⟨fuel, rfl⟩ : ∃ k, fuel = k + 1 := ⟨fuel - 1, by omega⟩
      show drawVertices (fuel + 1) r backup = _
      rw [k1, if_neg (by simpa using hab)]

theorem mStep_fair {e : Config T Stream} (h : e.Inv) (hE : 1 ≤ e.graph.edgeCount) (hω : Fair e.rng.tape) :
    Eventually (fun fuel => e.mStep fuel) (fun _ => True) := by
  have hlen := h.length
  obtain ⟨x, hx⟩ : ∃ x, x ∈ e.graph.edges := by
    have : 0 < e.graph.edges.card := by rw [← h.wf.edgeCount_eq_card]; omega
    exact Finset.card_pos.mp this
  have hpair : ∃ u v, u ∈ e.backup ∧ v ∈ e.backup ∧ u ≠ v := by
    induction x using Sym2.ind with
    | h u v =>
      obtain ⟨a1, a2, a3⟩ := h.wf.mem_lt hx
      have hin : ∀ w z, s(w, z) ∈ e.graph.edges → w ∈ e.backup := by
        intro w z hwz
        have hw := (h.wf.mem_lt hwz).1
        rw [← List.count_pos_iff, h.halves w, ← ((GenericGraph.degreeVec_eq_iff h.wf e.degreeVec).mp h.deg).2 w hw]
        exact List.length_pos_of_mem (h.wf.mem_edges.mp hwz)
      exact ⟨u, v, hin u v hx, hin v u (Sym2.eq_swap ▸ hx), a3⟩
  obtain ⟨u, v, hu, hv, huv⟩ := hpair
  obtain ⟨i, j, hi, hj, hji, hne⟩ : ∃ i j, ∃ (hi : i < e.backup.length) (hj : j < e.backup.length), j < i ∧ e.backup[i] ≠ e.backup[j] := by
    obtain ⟨i, hi, hiu⟩ := List.mem_iff_getElem.mp hu
    obtain ⟨j, hj, hjv⟩ := List.mem_iff_getElem.mp hv
    rcases Nat.lt_trichotomy i j with hl | hl | hl
    · exact ⟨j, i, hj, hi, hl, by rw [hiu, hjv]; exact huv.symm⟩
    · subst hl; exact absurd (hiu.symm.trans hjv) huv
    · exact ⟨i, j, hi, hj, hl, by rw [hiu, hjv]; exact huv⟩
  obtain ⟨k, hk⟩ := hω.draws (l := [(e.backup.length, i), (e.backup.length - 1, j)]) (by simp) (by
    intro d hd
    simp only [List.mem_cons, List.not_mem_nil, or_false] at hd
    rcases hd with rfl | rfl
    · exact hi
    · show j < e.backup.length - 1; omega) e.rng.pos
  obtain ⟨F, p, k1, k2⟩ := drawVertices_within (by omega) hi hj hne hji k e.rng (hk 0 (by simp)) (hk 1 (by simp))
  have hnp := mStep_spec' h hE F
  have key : ∃ y, ∀ fuel, F ≤ fuel → mStep fuel e = .ok y := by
    rcases hm : mStep F e with y | _ | _
    · refine ⟨y, fun fuel hf => ?_⟩
      rw [← hm]
      unfold mStep
      simp only at k2
      rw [k2 F (le_refl _), k2 fuel hf]
    · exact absurd hm hnp.ne_panic
    · exfalso
      rw [hm] at hnp
      have hh : drawVertices F e.rng e.backup = .diverge := hnp
      simp only at k2
      rw [k2 F (le_refl _)] at hh
      cases hh
  obtain ⟨y, hy⟩ := key
  exact ⟨F, y, trivial, hy⟩

end Config
end Verif
