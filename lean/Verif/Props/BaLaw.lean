import Verif.Props.Ba
import Mathlib.Algebra.BigOperators.Group.Finset.Basic

/-!
# C64: the attachments of the Barabási-Albert ensemble as a function of the draws
-/

set_option linter.unusedSectionVars false
set_option linter.unusedSimpArgs false

namespace Verif
open AdjContainer GenericGraph

variable {T R : Type} [Rng R]

/-! ## Specification -/

/-- If the ends of the edges `E` are listed vertex after vertex, number `t` belongs to vertex `v`. -/
def HalfOwner (E : Finset (Sym2 ℕ)) (t v : ℕ) : Prop :=
  ∑ u ∈ Finset.range v, degOf E u ≤ t ∧ t < ∑ u ∈ Finset.range (v + 1), degOf E u

instance (E : Finset (Sym2 ℕ)) (t v : ℕ) : Decidable (HalfOwner E t v) := inferInstanceAs (Decidable (_ ∧ _))

/-- The generator gives the numbers `ts` when asked again and again for a number below `b`. -/
inductive Drawn (b : ℕ) : R → List ℕ → R → Prop
  | nil (r : R) : Drawn b r [] r
  | cons {r r' r'' : R} {t : ℕ} {ts : List ℕ} : genRange r b = .ok (t, r') → Drawn b r' ts r'' → Drawn b r (t :: ts) r''

/-- `S` are the first `m` different elements of the list, which stops with the last of them. -/
structure FirstDistinct (m : ℕ) (vs : List ℕ) (S : Finset ℕ) : Prop where
  eq : S = vs.toFinset
  card : S.card = m
  stop : ∀ k < vs.length, (vs.take k).toFinset.card < m

/-- Preferential attachment: each vertex in turn draws ends of the edges that were there before its turn, until it has `m`
different vertices, and is joined to these. -/
inductive GrowsBy (m : ℕ) : Finset (Sym2 ℕ) → R → List ℕ → Finset (Sym2 ℕ) → R → Prop
  | nil (E : Finset (Sym2 ℕ)) (r : R) : GrowsBy m E r [] E r
  | cons {E E' : Finset (Sym2 ℕ)} {r r' r'' : R} {i : ℕ} {order ts vs : List ℕ} {S : Finset ℕ} :
      Drawn (2 * E.card) r ts r' → List.Forall₂ (HalfOwner E) ts vs → FirstDistinct m vs S →
      GrowsBy m (E ∪ S.image (fun v => s(i, v))) r' order E' r'' → GrowsBy m E r (i :: order) E' r''

/-! ## Proof -/

theorem weightedPick_sums : ∀ (ws : List ℕ) (t : ℕ), t < ws.sum →
    ∑ u ∈ Finset.range (weightedPick ws t), ws.getD u 0 ≤ t ∧ t < ∑ u ∈ Finset.range (weightedPick ws t + 1), ws.getD u 0 := by
  intro ws
  induction ws with
  | nil => intro t h; simp at h
  | cons w ws ih =>
    intro t h
    simp only [List.sum_cons] at h
    unfold weightedPick
    split
    · rename_i hlt
      simpa using hlt
    · rename_i hge
      obtain ⟨h1, h2⟩ := ih (t - w) (by omega)
      rw [Finset.sum_range_succ', Finset.sum_range_succ']
      simp only [List.getD_cons_succ, List.getD_cons_zero]
      omega

namespace Ba

theorem halfOwner_pick {g : Graph T} (h : g.WF) {t : ℕ} (ht : t < g.degreeVec.sum) :
    HalfOwner g.edges t (weightedPick g.degreeVec t) := by
  have := weightedPick_sums g.degreeVec t ht
  simp only [degreeVec_getD h, WF.deg_eq h] at this
  exact this

theorem attach_drawn {g0 : Graph T} (h0 : g0.WF) {weights : List Nat} {i m : Nat} (hi : i < g0.nextId)
    (hnil : g0.nbrs i = []) (hpos : 0 < weights.sum) (hw : ∀ v, 0 < weights.getD v 0 → v < g0.nextId ∧ v ≠ i)
    {P : Nat → Prop} (hP : ∀ v, 0 < weights.getD v 0 → P v) :
    ∀ (fuel : Nat) (g : Graph T) (rng : R) (S : Finset ℕ), Att g0 i P g S → S.card ≤ m →
    ∀ g' rng', attach weights i m fuel g rng = .ok (g', rng') → ∃ ts, Drawn weights.sum rng ts rng' ∧
      Att g0 i P g' (S ∪ (ts.map (weightedPick weights)).toFinset) ∧ (S ∪ (ts.map (weightedPick weights)).toFinset).card = m ∧
      ∀ k < ts.length, (S ∪ ((ts.map (weightedPick weights)).take k).toFinset).card < m := by
  intro fuel
  induction fuel with
  | zero => intro g rng S _ _ g' rng' h; simp [attach] at h
  | succ fuel ih =>
    intro g rng S hA hS g' rng' hr
    unfold attach at hr
    obtain ⟨c, c1, c2, _⟩ := container_degree hA.wf (i := i) (by rw [hA.n]; exact hi)
    have hdeg : AdjContainer.degree c = S.card := by
      rw [c2, hA.deg, hnil]
      have : i ∉ S := by
        intro hc
        have hwf := hA.wf
        have : s(i, i) ∈ g.edges := by
          rw [hA.edges]; exact Finset.mem_union_right _ (Finset.mem_image.mpr ⟨i, hc, rfl⟩)
        exact (hwf.mem_lt this).2.2 rfl
      simp [this]
    rw [c1, Res.ok_bind, hdeg] at hr
    split at hr
    · rename_i hlt
      obtain ⟨t, rng1, ht, htlt⟩ := genRange_ok rng hpos
      obtain ⟨p1, p2⟩ := weightedPick_spec weights t htlt
      have hv := hw _ p2
      obtain ⟨r, g1, a1, a2⟩ := hA.next hi hnil h0 hv.1 hv.2 (hP _ p2)
      simp only [weightedSample, ht, Res.ok_bind, Res.pure_eq, a1] at hr
      obtain ⟨ts, b1, b2, b3, b4⟩ := ih g1 rng1 _ a2 (by
        have := Finset.card_insert_le (weightedPick weights t) S
        omega) g' rng' hr
      have hun : ∀ X : List ℕ, S ∪ ((weightedPick weights t) :: X).toFinset = insert (weightedPick weights t) S ∪ X.toFinset := by
        intro X
        ext v
        simp only [Finset.mem_union, List.mem_toFinset, List.mem_cons, Finset.mem_insert]
        tauto
      refine ⟨t :: ts, .cons ht b1, by rw [List.map_cons, hun]; exact b2, by rw [List.map_cons, hun]; exact b3, ?_⟩
      intro k hk
      cases k with
      | zero => simpa using hlt
      | succ k =>
        rw [List.map_cons, List.take_succ_cons, hun]
        exact b4 k (by simpa using hk)
    · rename_i hge
      simp only [Res.pure_eq, Res.ok.injEq, Prod.mk.injEq] at hr
      obtain ⟨rfl, rfl⟩ := hr
      exact ⟨[], .nil _, by simpa using hA, by simp; omega, by simp⟩

theorem drawn_lt {b : ℕ} {r r' : R} {ts : List ℕ} (h : Drawn b r ts r') : ∀ t ∈ ts, t < b := by
  induction h with
  | nil => simp
  | cons h1 _ ih =>
    intro t ht
    rcases List.mem_cons.mp ht with rfl | ht
    · exact (genRange_eq_ok h1).2.1
    · exact ih t ht

theorem loop_drawn {g0 : Graph T} (h0 : g0.WF) (hE : 1 ≤ g0.edgeCount) {m fuel : Nat} :
    ∀ (post pre : List Nat), (pre ++ post).Nodup → (∀ i ∈ pre ++ post, i < g0.nextId ∧ g0.nbrs i = []) →
    ∀ (g : Graph T) (rng : R), Loop g0 m pre (g, g.degreeVec, rng) →
    ∀ st, post.foldlM (growBody m fuel) (g, g.degreeVec, rng) = .ok st →
      GrowsBy m g.edges rng post st.1.edges st.2.2 := by
  intro post
  induction post with
  | nil =>
    intro pre _ _ g rng _ st hst
    simp only [List.foldlM_nil, Res.pure_eq, Res.ok.injEq] at hst
    subst hst
    exact .nil _ _
  | cons i post ih =>
    intro pre hnd hlt g rng hI st hst
    have hpre : i ∉ pre := by
      intro hc
      exact (List.nodup_append.mp hnd).2.2 _ hc i (by simp) rfl
    have hn : g.nextId = g0.nextId := hI.n
    have hnil : g.nbrs i = [] := hI.isolated h0 (hlt i (by simp)).2 hpre
    have hi : i < g.nextId := by rw [hn]; exact (hlt i (by simp)).1
    obtain ⟨hpos, hw⟩ := weight_pos hI.wf hnil
    have hE1 := hI.edge h0 hE
    have hsum := degreeVec_sum_pos hI.wf hE1
    have hsum2 : g.degreeVec.sum = 2 * g.edges.card := by rw [(C26_degrees hI.wf).2.2.1, hI.wf.edgeCount_eq_card]
    rw [List.foldlM_cons] at hst
    cases ha : attach g.degreeVec i m fuel g rng with
    | panic =>
      unfold growBody weightedIndexNew at hst
      simp [hsum, ha] at hst
    | diverge =>
      unfold growBody weightedIndexNew at hst
      simp [hsum, ha] at hst
    | ok p =>
      obtain ⟨g1, rng1⟩ := p
      obtain ⟨ts, b1, b2, b3, b4⟩ := attach_drawn hI.wf hi hnil hsum hw (P := fun v => g.nbrs v ≠ []) hpos fuel g rng ∅
        (Att.start hI.wf _ _) (by simp) g1 rng1 ha
      rw [Finset.empty_union] at b2 b3
      rw [growBody_of_attach hI.wf hE1 hi hnil ha b2, Res.ok_bind] at hst
      have hI' : Loop g0 m (pre ++ [i]) (g1, g1.degreeVec, rng1) := hI.next hnil b2 b3 rfl
      have := ih (pre ++ [i]) (by simpa using hnd) (by simpa using hlt) g1 rng1 hI' st hst
      rw [b2.edges] at this
      have hlt' := drawn_lt b1
      refine .cons (by rw [← hsum2]; exact b1) ?_ ⟨rfl, b3, ?_⟩ this
      · clear b1 b2 b3 b4 this hst ha
        induction ts with
        | nil => exact .nil
        | cons t ts ihl =>
          exact .cons (halfOwner_pick hI.wf (hlt' t (by simp))) (ihl (fun x hx => hlt' x (by simp [hx])))
      · intro k hk
        have := b4 k (by simpa using hk)
        simpa using this

end Ba

/-- Each vertex beyond the source is attached, in the shuffled order, by drawing uniformly among the ends of the edges present
before its turn until `m` different vertices were met; these are its new neighbours, and nothing else is drawn. -/
theorem C64_ba_attachment_law {e e' : Ba T R} (hv : e.Valid) (hE : 1 ≤ e.source.edgeCount) {fuel : ℕ}
    (he : e.randomize fuel = .ok e') {order : List ℕ} {r : R}
    (hs : Rng.shuffle e.rng (List.range' e.source.vertexCount (e.graph.vertexCount - e.source.vertexCount)) = (order, r)) :
    GrowsBy e.m e.source.edges r order e'.graph.edges e'.rng := by
  obtain ⟨g0, h1, h2, h3, h4, h5, h6, h7, h8⟩ := Ba.prepare hv
  unfold Ba.randomize at he
  rw [h1, Res.ok_bind] at he
  rw [← h3] at hs
  have hp : order.Perm (List.range' e.source.vertexCount (g0.vertexCount - e.source.vertexCount)) := by
    have := Rng.shuffle_perm e.rng (List.range' e.source.vertexCount (g0.vertexCount - e.source.vertexCount))
    rw [hs] at this; exact this
  simp only [hs, h8, Res.ok_bind] at he
  obtain ⟨o1, o2⟩ := Ba.order_spec hv h3 h7 hp
  cases hf : order.foldlM (Ba.growBody e.m fuel) (g0, g0.degreeVec, r) with
  | panic => simp [hf] at he
  | diverge => simp [hf] at he
  | ok st =>
    have := Ba.loop_drawn h2 (by rw [h6]; exact hE) order [] (by simpa using o1) (by simpa using o2) g0 r
      ⟨h2, rfl, rfl, rfl, .start⟩ st hf
    simp only [hf, Res.ok_bind, Res.pure_eq, Res.ok.injEq] at he
    subst he
    rw [h5] at this
    exact this

/-- Every number below twice the number of edges has exactly one owner, and a vertex owns exactly as many as its degree: each draw
chooses a vertex with probability proportional to its degree. -/
theorem C64_ba_owner_count {g : Graph T} (h : g.WF) :
    (∀ t < 2 * g.edgeCount, ∃! v, HalfOwner g.edges t v) ∧
      ∀ v, ((Finset.range (2 * g.edgeCount)).filter (HalfOwner g.edges · v)).card = (g.nbrs v).length := by
  have mono : ∀ {a b : ℕ}, a ≤ b → ∑ u ∈ Finset.range a, degOf g.edges u ≤ ∑ u ∈ Finset.range b, degOf g.edges u :=
    fun hab => Finset.sum_le_sum_of_subset (Finset.range_mono hab)
  have hsum : g.degreeVec.sum = 2 * g.edgeCount := (C26_degrees h).2.2.1
  have inj : ∀ {t v v' : ℕ}, HalfOwner g.edges t v → HalfOwner g.edges t v' → v = v' := by
    rintro t v v' ⟨h1, h2⟩ ⟨h3, h4⟩
    by_contra hc
    rcases Nat.lt_or_gt_of_ne hc with hlt | hlt
    · have := mono (show v + 1 ≤ v' from hlt); omega
    · have := mono (show v' + 1 ≤ v from hlt); omega
  have pick : ∀ t < 2 * g.edgeCount, HalfOwner g.edges t (weightedPick g.degreeVec t) :=
    fun t ht => Ba.halfOwner_pick h (by rw [hsum]; exact ht)
  refine ⟨fun t ht => ⟨_, pick t ht, fun v hv => inj hv (pick t ht)⟩, fun v => ?_⟩
  rw [← C44_ba_preferential h v, ← List.toFinset_card_of_nodup (List.nodup_range.filter _)]
  congr 1
  ext t
  simp only [Finset.mem_filter, Finset.mem_range, List.mem_toFinset, List.mem_filter, List.mem_range, decide_eq_true_eq]
  constructor
  · rintro ⟨h1, h2⟩
    exact ⟨h1, inj (pick t h1) h2⟩
  · rintro ⟨h1, rfl⟩
    exact ⟨h1, pick t h1⟩

/-- The hypotheses are met: three vertices are attached to a single edge, each to one vertex. -/
example : ∃ e e' : Ba Nat Script, e.Valid ∧ 1 ≤ e.source.edgeCount ∧ e.randomize 9 = .ok e' ∧ e'.graph.edgeCount = 4 ∧
    Rng.shuffle e.rng (List.range' e.source.vertexCount (e.graph.vertexCount - e.source.vertexCount)) = ([2, 3, 4], e.rng) := by
  refine ⟨⟨exGraph 1 [[1], [0]], GenericGraph.new 5, ⟨[1, 3, 0]⟩, 1, List.replicate 5 0⟩, _, ?_, by decide, rfl, by decide, by decide⟩
  exact ⟨wf_of_check _ (fun _ _ => trivial) (by decide), new_wf 5, by decide, by decide⟩

end Verif
