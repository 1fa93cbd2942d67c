import Verif.Lemmas.Adaptive
import Verif.Lemmas.WsFair
import Verif.Props.WsLaw
import Verif.Props.ErBalance

/-!
# Watts-Strogatz: which edges are moved, as a random set
-/

set_option linter.unusedSectionVars false
set_option linter.unusedSimpArgs false

namespace Verif
open MeasureTheory ProbabilityTheory AdjContainer

namespace Ws

variable {T : Type} [Node T]

/-! ## The functions read the tape only through draws -/

def mk3 {α β : Type} (a : α × β) (r : Stream) : α × β × Stream := (a.1, a.2, r)

theorem joins_mk3 {α β : Type} : Joins (mk3 : α × β → Stream → α × β × Stream) := by
  rintro ⟨a, b⟩ ⟨a', b'⟩ r r' h
  simp only [mk3, Prod.mk.injEq] at h
  obtain ⟨rfl, rfl, rfl⟩ := h
  exact ⟨rfl, rfl⟩

def mk4 {α β γ : Type} (a : α × β × γ) (r : Stream) : α × β × γ × Stream := (a.1, a.2.1, a.2.2, r)

theorem testLoop_adaptive (p : ℚ) : ∀ (j : Nat) (tos : List Nat) (orig rew : List OriginalEdge),
    Adaptive mk4 (fun _ r => testLoop p j tos orig rew r) := by
  intro j
  induction j with
  | zero => intro tos orig rew; exact Adaptive.ok (mk := mk4) (tos, orig, rew)
  | succ j ih =>
    intro tos orig rew
    simp only [testLoop]
    refine Adaptive.constBind fun o _ => ?_
    by_cases ho : o.isAtOrigin = true
    · simp only [ho, if_true]
      refine Adaptive.bind (Adaptive.coin p) (g := fun _ x => if x.1 = true then do
          let (edge, original) ← Vec.swapRemove orig j
          let (_, tos) ← Vec.swapRemove tos j
          testLoop p j tos original (rew ++ [edge]) x.2
        else testLoop p j tos orig rew x.2) ?_
      intro b
      cases b
      · exact ih tos orig rew
      · exact Adaptive.constBind fun x _ => Adaptive.constBind fun y _ => ih y.2 x.2 (rew ++ [x.1])
    · simp only [ho]
      exact ih tos orig rew

theorem removeStage_adaptive (p : ℚ) (g : WSGraph T) (i : Nat) : Adaptive mk3 (fun _ r => removeStage p g r i) := by
  unfold removeStage
  refine Adaptive.constBind fun c _ => Adaptive.constBind fun _ _ => ?_
  refine Adaptive.bind (testLoop_adaptive p _ _ _ _) (g := fun _ x => do
    let g ← x.2.2.1.foldlM removeOther { g with vertices := g.vertices.set i { c with dst := x.1, original := x.2.1 } }
    return (g, x.2.2.1, x.2.2.2)) ?_
  intro a
  simp only [mk4]
  exact Adaptive.constBind fun g' _ => Adaptive.ok (mk := mk3) (g', a.2.2)

theorem pickPair_adaptive (g : WSGraph T) (o : OriginalEdge) : Adaptive mk3 (fun fuel r => pickPair g o fuel r) := by
  intro fuel
  induction fuel with
  | zero => intro ω k b hb; cases hb
  | succ fuel ih =>
    intro ω k b hb
    have hb' : pickPair g o (fuel + 1) ⟨ω, k⟩ = .ok b := hb
    rw [pickPair] at hb'
    obtain ⟨x, hx, hb'⟩ := Res.bind_eq_ok.mp hb'
    obtain ⟨a1, l1, rfl, m1, n1⟩ := Adaptive.genRange (asU32 g.vertexCount) 0 ω k x hx
    simp only at hb'
    obtain ⟨y, hy, hb'⟩ := Res.bind_eq_ok.mp hb'
    obtain ⟨a2, l2, rfl, m2, n2⟩ := Adaptive.genRange (asU32 g.vertexCount) 0 ω _ y hy
    simp only at hb'
    have hstep : ∀ fuel' ω' k', Matches ω' k' (l1 ++ l2) → pickPair g o (fuel' + 1) (⟨ω', k'⟩ : Stream) =
        (if a1 == a2 || (a1 == o.from_ && a2 == o.dst) || (a1 == o.dst && a2 == o.from_) then
          pickPair g o fuel' (⟨ω', k' + l1.length + l2.length⟩ : Stream)
        else do
          let c ← Vec.idx g.vertices a1
          if isAdjacent c a2 then pickPair g o fuel' (⟨ω', k' + l1.length + l2.length⟩ : Stream)
          else return (a1, a2, (⟨ω', k' + l1.length + l2.length⟩ : Stream))) := by
      intro fuel' ω' k' hm
      obtain ⟨q1, q2⟩ := matches_append.mp hm
      rw [pickPair]
      have e1 : genRange (⟨ω', k'⟩ : Stream) (asU32 g.vertexCount) = .ok (a1, ⟨ω', k' + l1.length⟩) := n1 0 (le_refl _) ω' k' q1
      have e2 : genRange (⟨ω', k' + l1.length⟩ : Stream) (asU32 g.vertexCount) = .ok (a2, ⟨ω', k' + l1.length + l2.length⟩) :=
        n2 0 (le_refl _) ω' _ q2
      rw [e1, Res.ok_bind]
      simp only
      rw [e2, Res.ok_bind]
    have again : pickPair g o fuel (⟨ω, k + l1.length + l2.length⟩ : Stream) = .ok b →
        (∀ fuel' ω' k', Matches ω' k' (l1 ++ l2) → pickPair g o (fuel' + 1) (⟨ω', k'⟩ : Stream) =
          pickPair g o fuel' (⟨ω', k' + l1.length + l2.length⟩ : Stream)) →
        ∃ a, ∃ l : List (ℕ × ℕ), b = mk3 a ⟨ω, k + l.length⟩ ∧ Matches ω k l ∧ ∀ fuel', fuel + 1 ≤ fuel' → ∀ ω' k', Matches ω' k' l →
          pickPair g o fuel' (⟨ω', k'⟩ : Stream) = .ok (mk3 a ⟨ω', k' + l.length⟩) := by
      intro hb hs
      obtain ⟨a, l, rfl, m3, n3⟩ := ih ω _ b hb
      have hlen : ∀ k', k' + (l1 ++ l2 ++ l).length = k' + l1.length + l2.length + l.length := by
        intro k'; simp only [List.length_append]; omega
      refine ⟨a, l1 ++ l2 ++ l, by rw [hlen], ?_, ?_⟩
      · refine matches_append.mpr ⟨matches_append.mpr ⟨m1, m2⟩, ?_⟩
        rw [List.length_append, ← Nat.add_assoc]; exact m3
      · intro fuel' hfuel ω' k' hm
        obtain ⟨f, rfl⟩ : ∃ f, fuel' = f + 1 := ⟨fuel' - 1, by omega⟩
        obtain ⟨q1, q2⟩ := matches_append.mp hm
        rw [hs f ω' k' q1, hlen]
        rw [List.length_append, ← Nat.add_assoc] at q2
        exact n3 f (by omega) ω' _ q2
    by_cases hc : (a1 == a2 || (a1 == o.from_ && a2 == o.dst) || (a1 == o.dst && a2 == o.from_)) = true
    · simp only [hc, if_true] at hb' hstep
      exact again hb' hstep
    · simp only [hc] at hb' hstep
      obtain ⟨c, hcc, hb'⟩ := Res.bind_eq_ok.mp hb'
      simp only [hcc, Res.ok_bind] at hstep
      by_cases ha : isAdjacent c a2 = true
      · simp only [ha, if_true] at hb' hstep
        exact again hb' hstep
      · simp only [ha] at hb' hstep
        cases hb'
        have hlen : ∀ k', k' + (l1 ++ l2).length = k' + l1.length + l2.length := by
          intro k'; simp only [List.length_append]; omega
        refine ⟨(a1, a2), l1 ++ l2, by rw [hlen]; rfl, matches_append.mpr ⟨m1, m2⟩, ?_⟩
        intro fuel' hfuel ω' k' hm
        obtain ⟨f, rfl⟩ : ∃ f, fuel' = f + 1 := ⟨fuel' - 1, by omega⟩
        rw [hlen]
        exact hstep f ω' k' hm

theorem addRandomEdge_adaptive (g : WSGraph T) (o : OriginalEdge) :
    Adaptive Prod.mk (fun fuel r => addRandomEdge fuel (g, r) o) := by
  unfold addRandomEdge
  refine Adaptive.bind (pickPair_adaptive g o) (g := fun _ x =>
    if x.1 == o.dst || x.2.1 == o.from_ then do
      let g ← createEdge g x.2.1 x.1 o.swapDirection
      return (g, x.2.2)
    else do
      let g ← createEdge g x.1 x.2.1 o
      return (g, x.2.2)) ?_
  intro a
  by_cases hc : (a.1 == o.dst || a.2 == o.from_) = true
  · simp only [mk3, hc, if_true]
    exact Adaptive.constBind fun g' _ => Adaptive.ok (mk := Prod.mk) g'
  · simp only [mk3, hc]
    exact Adaptive.constBind fun g' _ => Adaptive.ok (mk := Prod.mk) g'

theorem addAll_adaptive (l : List OriginalEdge) (g : WSGraph T) :
    Adaptive Prod.mk (fun fuel r => l.foldlM (addRandomEdge fuel) (g, r)) :=
  Adaptive.foldlM (fun o g => addRandomEdge_adaptive g o) l g

theorem rewireBody_adaptive (p : ℚ) (g : WSGraph T) (i : Nat) : Adaptive Prod.mk (fun fuel r => rewireBody p fuel (g, r) i) := by
  refine Adaptive.bind (removeStage_adaptive p g i) (g := fun fuel x => x.2.1.foldlM (addRandomEdge fuel) (x.1, x.2.2)) ?_
  intro a
  exact addAll_adaptive a.2 a.1

theorem loop_adaptive (p : ℚ) (vs : List ℕ) (g : WSGraph T) :
    Adaptive Prod.mk (fun fuel r => vs.foldlM (rewireBody p fuel) (g, r)) :=
  Adaptive.foldlM (fun i g => rewireBody_adaptive p g i) vs g

/-! ## The coins -/

/-- The probability of heads and of tails. -/
noncomputable def q1 (p : ℚ) : ENNReal := (heads p : ENNReal) * ((2 ^ 53 : ℕ) : ENNReal)⁻¹

noncomputable def q0 (p : ℚ) : ENNReal := 1 - q1 p

theorem coin_one (p : ℚ) : Chance (fun ω k => (coin (⟨ω, k⟩ : Stream) p).1 = true) (q1 p) := by
  have h := chance_draw (h := 2 ^ 53) (by positivity) (fun u : ℕ => (u : ℚ) / 2 ^ 53 ≤ p)
  refine h.congr fun ω k => ?_
  show _ ↔ decide ((partOf (ω k) (2 ^ 53) : ℚ) / 2 ^ 53 ≤ p) = true
  rw [decide_eq_true_iff]

theorem coin_zero (p : ℚ) : Chance (fun ω k => (coin (⟨ω, k⟩ : Stream) p).1 = false) (q0 p) :=
  (coin_one p).not.congr fun ω k => by simp

theorem q_sum (p : ℚ) : q1 p + q0 p = 1 := by
  refine add_tsub_cancel_of_le ?_
  rw [← (coin_one p).prob 0]
  exact prob_le_one

theorem coin_sampler (p : ℚ) : Sampler (fun ω k b j => b = (coin (⟨ω, k⟩ : Stream) p).1 ∧ j = k + 1) := by
  refine ⟨?_, fun h h' => ⟨h.1.trans h'.1.symm, h.2.trans h'.2.symm⟩⟩
  rintro ω k b j ⟨rfl, rfl⟩
  refine ⟨[(2 ^ 53, partOf (ω k) (2 ^ 53))], rfl, matches_single.mpr rfl, fun ω' k' hm => ⟨?_, rfl⟩⟩
  have h1 := matches_single.mp hm
  show decide ((partOf (ω k) (2 ^ 53) : ℚ) / 2 ^ 53 ≤ p) = decide ((partOf (ω' k') (2 ^ 53) : ℚ) / 2 ^ 53 ≤ p)
  rw [h1]

theorem Thrown.sub {α : Type} {R : Type} [Rng R] {p : ℚ} {r r' : R} {L D : List α} (h : Thrown p r L D r') : ∀ e ∈ D, e ∈ L := by
  induction h with
  | nil => simp
  | heads _ _ ih => intro e he; rcases List.mem_cons.mp he with rfl | he <;> simp_all
  | tails _ _ ih => intro e he; exact List.mem_cons_of_mem _ (ih e he)

theorem thrown_chance {α : Type} [DecidableEq α] (p : ℚ) : ∀ (L : List α), L.Nodup → ∀ D : Finset α, D ⊆ L.toFinset →
    Chance (fun ω k => ∃ D' r', Thrown p (⟨ω, k⟩ : Stream) L D' r' ∧ D'.toFinset = D) (∏ e ∈ L.toFinset, if e ∈ D then q1 p else q0 p) := by
  intro L
  induction L with
  | nil =>
    intro _ D hD
    have : D = ∅ := Finset.subset_empty.mp (by simpa using hD)
    subst this
    rw [List.toFinset_nil, Finset.prod_empty]
    refine Chance.true.congr fun ω k => ⟨fun _ => ⟨[], _, .nil _, rfl⟩, fun _ => trivial⟩
  | cons x L ih =>
    intro hnd D hD
    obtain ⟨hx, hnd⟩ := List.nodup_cons.mp hnd
    have hx' : x ∉ L.toFinset := by rwa [List.mem_toFinset]
    rw [List.toFinset_cons, Finset.prod_insert hx']
    by_cases hxD : x ∈ D
    · have hsub : D.erase x ⊆ L.toFinset := by
        intro e he
        obtain ⟨h1, h2⟩ := Finset.mem_erase.mp he
        have := hD h2
        rw [List.toFinset_cons, Finset.mem_insert] at this
        exact this.resolve_left h1
      have hprod : (∏ e ∈ L.toFinset, if e ∈ D then q1 p else q0 p) = ∏ e ∈ L.toFinset, if e ∈ D.erase x then q1 p else q0 p := by
        refine Finset.prod_congr rfl fun e he => ?_
        have : e ≠ x := fun hc => hx' (hc ▸ he)
        simp [Finset.mem_erase, this]
      rw [if_pos hxD, hprod]
      have hP : Chance (fun ω k => ∃ b j, (b = (coin (⟨ω, k⟩ : Stream) p).1 ∧ j = k + 1) ∧ b = true) (q1 p) :=
        (coin_one p).congr fun ω k => ⟨fun h => ⟨_, _, ⟨rfl, rfl⟩, h⟩, fun ⟨b, j, ⟨h1, _⟩, h2⟩ => h1.symm.trans h2⟩
      refine (chance_bind (coin_sampler p) hP (Q := fun _ ω k => ∃ D' r', Thrown p (⟨ω, k⟩ : Stream) L D' r' ∧ D'.toFinset = D.erase x)
        (fun _ _ => ih hnd _ hsub)).congr fun ω k => ?_
      constructor
      · rintro ⟨b, j, ⟨h1, rfl⟩, h2, D', r', h3, h4⟩
        refine ⟨x :: D', r', .heads ?_ h3, by rw [List.toFinset_cons, h4, Finset.insert_erase hxD]⟩
        rw [h2] at h1
        exact Prod.ext h1.symm rfl
      · rintro ⟨D', r', h1, h2⟩
        cases h1 with
        | @heads _ rn _ _ _ D' hc ht =>
          refine ⟨true, k + 1, ⟨by rw [hc], rfl⟩, rfl, D', r', ?_, ?_⟩
          · have : rn = ⟨ω, k + 1⟩ := (congrArg Prod.snd hc).symm
            rw [← this]; exact ht
          · rw [← h2, List.toFinset_cons, Finset.erase_insert]
            rw [List.mem_toFinset]
            exact fun hc => hx (Thrown.sub ht x hc)
        | tails hc ht =>
          rw [← h2, List.mem_toFinset] at hxD
          exact absurd (Thrown.sub ht x hxD) hx
    · have hsub : D ⊆ L.toFinset := by
        intro e he
        have := hD he
        rw [List.toFinset_cons, Finset.mem_insert] at this
        exact this.resolve_left (fun hc => hxD (hc ▸ he))
      rw [if_neg hxD]
      have hP : Chance (fun ω k => ∃ b j, (b = (coin (⟨ω, k⟩ : Stream) p).1 ∧ j = k + 1) ∧ b = false) (q0 p) :=
        (coin_zero p).congr fun ω k => ⟨fun h => ⟨_, _, ⟨rfl, rfl⟩, h⟩, fun ⟨b, j, ⟨h1, _⟩, h2⟩ => h1.symm.trans h2⟩
      refine (chance_bind (coin_sampler p) hP (Q := fun _ ω k => ∃ D' r', Thrown p (⟨ω, k⟩ : Stream) L D' r' ∧ D'.toFinset = D)
        (fun _ _ => ih hnd _ hsub)).congr fun ω k => ?_
      constructor
      · rintro ⟨b, j, ⟨h1, rfl⟩, h2, D', r', h3, h4⟩
        refine ⟨D', r', .tails ?_ h3, h4⟩
        rw [h2] at h1
        exact Prod.ext h1.symm rfl
      · rintro ⟨D', r', h1, h2⟩
        cases h1 with
        | heads hc ht => rw [← h2] at hxD; simp at hxD
        | @tails _ rn _ _ _ _ hc ht =>
          refine ⟨false, k + 1, ⟨by rw [hc], rfl⟩, rfl, D', r', ?_, h2⟩
          have : rn = ⟨ω, k + 1⟩ := (congrArg Prod.snd hc).symm
          rw [← this]; exact ht

/-! ## The edges at home -/

/-- The edges that are at their place on the ring. -/
def homeSet (n : ℕ) (g : WSGraph T) : Finset (Sym2 ℕ) := (Finset.range n).biUnion fun i => (homeList g i).toFinset

theorem mem_homeList {n d : Nat} {dat : List T} {g : WSGraph T} {E : Finset (Sym2 ℕ)} {org : Sym2 ℕ → Sym2 ℕ}
    (h : J n d dat g E org 0) {i : Nat} (hi : i < n) :
    (homeList g i).Nodup ∧ ∀ e, e ∈ homeList g i ↔ e ∈ E ∧ org e = e ∧ i ∈ e := by
  obtain ⟨_, _, _, _, _, h1, h2, _⟩ := removeStage_thrown_list (p := 0) h hi (⟨fun _ => 0, 0⟩ : Stream)
  exact ⟨h1, h2⟩

theorem mem_homeSet {n d : Nat} {dat : List T} {g : WSGraph T} {E : Finset (Sym2 ℕ)} {org : Sym2 ℕ → Sym2 ℕ}
    (h : J n d dat g E org 0) (e : Sym2 ℕ) : e ∈ homeSet n g ↔ e ∈ E ∧ org e = e := by
  unfold homeSet
  rw [Finset.mem_biUnion]
  constructor
  · rintro ⟨i, hi, he⟩
    rw [List.mem_toFinset, (mem_homeList h (Finset.mem_range.mp hi)).2] at he
    exact ⟨he.1, he.2.1⟩
  · rintro ⟨h1, h2⟩
    induction e using Sym2.ind with
    | h u v =>
      have hu := (h.lt u v h1).1
      exact ⟨u, Finset.mem_range.mpr hu, by rw [List.mem_toFinset, (mem_homeList h hu).2]; exact ⟨h1, h2, by simp⟩⟩

theorem PairDrawn.free {R : Type} [Rng R] {n : ℕ} {E : Finset (Sym2 ℕ)} {o x : Sym2 ℕ} {r r' : R} (h : PairDrawn n E o r x r') :
    x ≠ o ∧ x ∉ E := by
  induction h with
  | accept _ _ _ h1 h2 => exact ⟨h1, h2⟩
  | reject _ _ _ _ ih => exact ih

theorem PutBack.home {R : Type} [Rng R] {n : ℕ} {E E' : Finset (Sym2 ℕ)} {org org' : Sym2 ℕ → Sym2 ℕ} {r r' : R} {l : List (Sym2 ℕ)}
    (h : PutBack n E org r l E' org' r') (e : Sym2 ℕ) : (e ∈ E' ∧ org' e = e) ↔ (e ∈ E ∧ org e = e) := by
  induction h with
  | nil => rfl
  | @cons E E' org org' r r' r'' o x l hd _ ih =>
    have hx : x ≠ o ∧ x ∉ E := PairDrawn.free hd
    rw [ih]
    by_cases hex : e = x
    · subst hex
      rw [Function.update_self]
      exact ⟨fun h => absurd h.2.symm hx.1, fun h => absurd h.1 hx.2⟩
    · rw [Function.update_of_ne hex, Finset.mem_insert]
      simp [hex]

/-- Between two vertices. -/
def Good (n d : Nat) (dat : List T) (g : WSGraph T) : Prop := ∃ E org, J n d dat g E org 0

/-- What one vertex does, whatever the draws. -/
theorem body_home {p : ℚ} {n d : Nat} (hn : n < 2 ^ 32) {dat : List T} {g : WSGraph T} (hg : Good n d dat g) {i : ℕ} (hi : i < n)
    {ω : ℕ → ℝ} {k j i' : ℕ} {a : WSGraph T × List OriginalEdge} {g' : WSGraph T}
    (h1 : RetOf mk3 (fun _ r => removeStage p g r i) ω k a i')
    (h2 : RetOf Prod.mk (fun fuel r => a.2.foldlM (addRandomEdge fuel) (a.1, r)) ω i' g' j) :
    Good n d dat g' ∧ homeSet n g' = homeSet n g \ (a.2.map OriginalEdge.pair).toFinset := by
  obtain ⟨E, org, hJ⟩ := hg
  obtain ⟨F, hF⟩ := h1
  obtain ⟨F', hF'⟩ := h2
  obtain ⟨g1, rewire, r1, a1, a2, a3, a4, a5⟩ := removeStage_thrown_list (p := p) hJ hi (⟨ω, k⟩ : Stream)
  have hF : removeStage p g ⟨ω, k⟩ i = .ok (mk3 a ⟨ω, i'⟩) := hF F (le_refl _)
  rw [a1] at hF
  simp only [mk3, Res.ok.injEq, Prod.mk.injEq] at hF
  obtain ⟨rfl, rfl, rfl⟩ := hF
  obtain ⟨E', org', b1, b2⟩ := addAll_putBack hn (by omega) a.2 (⟨ω, i'⟩ : Stream) (g', (⟨ω, j⟩ : Stream)) a2 (hF' F' (le_refl _))
  refine ⟨⟨E', org', b1⟩, ?_⟩
  ext e
  rw [mem_homeSet b1, PutBack.home b2, Finset.mem_sdiff, Finset.mem_sdiff, mem_homeSet hJ]
  tauto

theorem body_ret {p : ℚ} {g : WSGraph T} {i : ℕ} {ω : ℕ → ℝ} {k j : ℕ} {g' : WSGraph T} :
    RetOf Prod.mk (fun fuel r => rewireBody p fuel (g, r) i) ω k g' j ↔
      ∃ a i', RetOf mk3 (fun _ r => removeStage p g r i) ω k a i' ∧
        RetOf Prod.mk (fun fuel r => a.2.foldlM (addRandomEdge fuel) (a.1, r)) ω i' g' j :=
  RetOf.bind_iff (mk' := Prod.mk) (g := fun fuel (x : WSGraph T × List OriginalEdge × Stream) => x.2.1.foldlM (addRandomEdge fuel) (x.1, x.2.2))
    (removeStage_adaptive p g i)

theorem body_chance (p : ℚ) {n d : Nat} (hn : n < 2 ^ 32) (hd : 2 * d + 2 ≤ n) {dat : List T} {g : WSGraph T} (hg : Good n d dat g)
    {i : ℕ} (hi : i < n) {D : Finset (Sym2 ℕ)} (hD : D ⊆ (homeSet n g).filter (i ∈ ·)) :
    Chance (fun ω k => ∃ g' j, RetOf Prod.mk (fun fuel r => rewireBody p fuel (g, r) i) ω k g' j ∧
        Good n d dat g' ∧ homeSet n g' = homeSet n g \ D)
      (∏ e ∈ (homeSet n g).filter (i ∈ ·), if e ∈ D then q1 p else q0 p) := by
  have hg' := hg
  obtain ⟨E, org, hJ⟩ := hg
  have hL : (homeList g i).toFinset = (homeSet n g).filter (i ∈ ·) := by
    ext e
    rw [List.mem_toFinset, (mem_homeList hJ hi).2, Finset.mem_filter, mem_homeSet hJ]
    tauto
  rw [← hL] at hD ⊢
  have hP : Chance (fun ω k => ∃ a j, RetOf mk3 (fun _ r => removeStage p g r i) ω k a j ∧
      ((a.2.map OriginalEdge.pair).toFinset = D ∧ J n d dat a.1 (E \ D) org
        ((a.2.map OriginalEdge.pair : List (Sym2 ℕ)) : Multiset (Sym2 ℕ)))) (∏ e ∈ (homeList g i).toFinset, if e ∈ D then q1 p else q0 p) := by
    refine (thrown_chance p _ (mem_homeList hJ hi).1 D hD).congr fun ω k => ?_
    obtain ⟨g1, rewire, r1, a1, a2, a3, a4, a5⟩ := removeStage_thrown_list (p := p) hJ hi (⟨ω, k⟩ : Stream)
    obtain ⟨⟨a, b⟩, j, e1, e2⟩ := (removeStage_adaptive p g i).ret (fuel := 0) a1
    simp only [mk3, Prod.mk.injEq] at e1
    obtain ⟨rfl, rfl, rfl⟩ := e1
    constructor
    · rintro ⟨D', r', h1, rfl⟩
      have : ∀ {R : Type} [Rng R] {r r' r'' : R} {L D D' : List (Sym2 ℕ)}, Thrown p r L D r' → Thrown p r L D' r'' → D = D' := by
        intro R _ r r' r'' L D D' h h'
        induction h generalizing D' r'' with
        | nil => cases h'; rfl
        | heads hc _ ih =>
          cases h' with
          | heads hc' h' => rw [hc] at hc'; cases hc'; rw [ih h']
          | tails hc' h' => rw [hc] at hc'; cases hc'
        | tails hc _ ih =>
          cases h' with
          | heads hc' h' => rw [hc] at hc'; cases hc'
          | tails hc' h' => rw [hc] at hc'; cases hc'; rw [ih h']
      have := this h1 a5
      subst this
      exact ⟨(g1, rewire), j, e2, rfl, a2⟩
    · rintro ⟨⟨a', b'⟩, j', h1, h2, h3⟩
      obtain ⟨h4, h5⟩ := ((removeStage_adaptive p g i).sampler joins_mk3).det e2 h1
      cases h4
      exact ⟨_, _, a5, h2⟩
  have hQ : ∀ a : WSGraph T × List OriginalEdge, ((a.2.map OriginalEdge.pair).toFinset = D ∧ J n d dat a.1 (E \ D) org
        ((a.2.map OriginalEdge.pair : List (Sym2 ℕ)) : Multiset (Sym2 ℕ))) →
      Chance (fun ω k => ∃ g' j, RetOf Prod.mk (fun fuel r => a.2.foldlM (addRandomEdge fuel) (a.1, r)) ω k g' j ∧ True) 1 := by
    rintro a ⟨h1, h2⟩
    refine ((addAll_adaptive a.2 a.1).sampler joins_pair).chance_one ?_
    filter_upwards [ae_fair] with ω hω
    obtain ⟨F, x, ⟨hx, _⟩, hF⟩ := addAll_fair hn hd hω a.2 (r := ⟨ω, 0⟩) rfl h2
    refine ⟨x.1, x.2.pos, ⟨F, fun fuel hf => ?_⟩, trivial⟩
    rw [show (⟨ω, x.2.pos⟩ : Stream) = x.2 by rw [← hx]]
    exact hF fuel hf
  have hb := chance_bind ((removeStage_adaptive p g i).sampler joins_mk3) hP (Q := fun a ω k => ∃ g' j,
    RetOf Prod.mk (fun fuel r => a.2.foldlM (addRandomEdge fuel) (a.1, r)) ω k g' j ∧ True) hQ
  rw [mul_one] at hb
  refine hb.congr fun ω k => ?_
  constructor
  · rintro ⟨a, i', h1, ⟨h2, h3⟩, g', j, h4, _⟩
    obtain ⟨k1, k2⟩ := body_home hn hg' hi h1 h4
    rw [h2] at k2
    exact ⟨g', j, body_ret.mpr ⟨a, i', h1, h4⟩, k1, k2⟩
  · rintro ⟨g', j, h1, h2, h3⟩
    obtain ⟨a, i', h4, h5⟩ := body_ret.mp h1
    obtain ⟨k1, k2⟩ := body_home hn hg' hi h4 h5
    obtain ⟨g1, rewire, r1, a1, a2, a3, a4, a5⟩ := removeStage_thrown_list (p := p) hJ hi (⟨ω, k⟩ : Stream)
    obtain ⟨F, hF⟩ := h4
    have hF' : removeStage p g ⟨ω, k⟩ i = .ok (mk3 a ⟨ω, i'⟩) := hF F (le_refl _)
    rw [a1] at hF'
    simp only [mk3, Res.ok.injEq, Prod.mk.injEq] at hF'
    obtain ⟨rfl, rfl, rfl⟩ := hF'
    have hDD : (a.2.map OriginalEdge.pair).toFinset = D := by
      have hs1 : (a.2.map OriginalEdge.pair).toFinset ⊆ homeSet n g := by
        intro e he
        have := Thrown.sub a5 e (List.mem_toFinset.mp he)
        rw [a4] at this
        exact (mem_homeSet hJ e).mpr ⟨this.1, this.2.1⟩
      have hs2 : D ⊆ homeSet n g := by
        intro e he
        have := hD he
        rw [hL] at this
        exact (Finset.mem_filter.mp this).1
      rw [k2] at h3
      rw [← Finset.sdiff_sdiff_eq_self hs1, h3, Finset.sdiff_sdiff_eq_self hs2]
    refine ⟨a, i', ⟨F, hF⟩, ⟨hDD, ?_⟩, g', j, h5, trivial⟩
    rw [← hDD]
    exact a2

/-! ## All vertices -/

/-- The probability that an edge is moved that is looked at `c` times. -/
noncomputable def mv (p : ℚ) : ℕ → ENNReal
  | 0 => 0
  | c + 1 => q1 p + q0 p * mv p c

/-- The weight of one edge: `c` coins. -/
noncomputable def wt (p : ℚ) (H' : Finset (Sym2 ℕ)) (vs : List ℕ) (e : Sym2 ℕ) : ENNReal :=
  if e ∈ H' then q0 p ^ (vs.countP (· ∈ e)) else mv p (vs.countP (· ∈ e))

theorem wt_cons_mem (p : ℚ) (H' : Finset (Sym2 ℕ)) {i : ℕ} (vs : List ℕ) {e : Sym2 ℕ} (h : i ∈ e) :
    wt p H' (i :: vs) e = (if e ∈ H' then 0 else q1 p) + q0 p * wt p H' vs e := by
  unfold wt
  rw [List.countP_cons_of_pos (by simpa using h)]
  split
  · rw [zero_add, pow_succ']
  · rfl

theorem wt_cons_not_mem (p : ℚ) (H' : Finset (Sym2 ℕ)) {i : ℕ} (vs : List ℕ) {e : Sym2 ℕ} (h : i ∉ e) :
    wt p H' (i :: vs) e = wt p H' vs e := by
  unfold wt
  rw [List.countP_cons_of_neg (by simpa using h)]

theorem weight_step (p : ℚ) {H H' : Finset (Sym2 ℕ)} (hH : H' ⊆ H) (i : ℕ) (vs : List ℕ) :
    ∑ D ∈ (H.filter (i ∈ ·)).powerset, (∏ e ∈ H.filter (i ∈ ·), if e ∈ D then q1 p else q0 p) *
        (if H' ⊆ H \ D then ∏ e ∈ H \ D, wt p H' vs e else 0) = ∏ e ∈ H, wt p H' (i :: vs) e := by
  set Hi := H.filter (i ∈ ·) with hHi
  have hsub : Hi ⊆ H := Finset.filter_subset _ _
  have hr : ∏ e ∈ H, wt p H' (i :: vs) e = (∏ e ∈ H \ Hi, wt p H' vs e) * ∏ e ∈ Hi, ((if e ∈ H' then 0 else q1 p) + q0 p * wt p H' vs e) := by
    rw [← Finset.prod_sdiff hsub]
    congr 1
    · refine Finset.prod_congr rfl fun e he => ?_
      rw [Finset.mem_sdiff, hHi, Finset.mem_filter] at he
      exact wt_cons_not_mem p H' vs fun hc => he.2 ⟨he.1, hc⟩
    · exact Finset.prod_congr rfl fun e he => wt_cons_mem p H' vs (Finset.mem_filter.mp he).2
  rw [hr, Finset.prod_add, Finset.mul_sum]
  refine Finset.sum_congr rfl fun D hD => ?_
  have hD := Finset.mem_powerset.mp hD
  have h1 : (∏ e ∈ Hi, if e ∈ D then q1 p else q0 p) = (∏ e ∈ D, q1 p) * ∏ e ∈ Hi \ D, q0 p := by
    rw [← Finset.prod_sdiff hD, mul_comm]
    congr 1
    · exact Finset.prod_congr rfl fun e he => if_pos he
    · exact Finset.prod_congr rfl fun e he => if_neg (Finset.mem_sdiff.mp he).2
  have h2 : ∏ e ∈ H \ D, wt p H' vs e = (∏ e ∈ H \ Hi, wt p H' vs e) * ∏ e ∈ Hi \ D, wt p H' vs e := by
    have hs : Hi \ D ⊆ H \ D := Finset.sdiff_subset_sdiff hsub (le_refl _)
    rw [← Finset.prod_sdiff hs]
    congr 2
    ext e
    simp only [Finset.mem_sdiff]
    constructor
    · rintro ⟨⟨a, b⟩, c⟩; exact ⟨a, fun hc => c ⟨hc, b⟩⟩
    · rintro ⟨a, b⟩; exact ⟨⟨a, fun hc => b (hD hc)⟩, fun hc => b hc.1⟩
  by_cases hc : H' ⊆ H \ D
  · rw [if_pos hc, h1, h2]
    have h3 : (∏ e ∈ D, if e ∈ H' then 0 else q1 p) = ∏ e ∈ D, q1 p :=
      Finset.prod_congr rfl fun e he => if_neg fun hm => (Finset.mem_sdiff.mp (hc hm)).2 he
    rw [h3, Finset.prod_mul_distrib]
    ring
  · rw [if_neg hc, mul_zero]
    obtain ⟨e, he1, he2⟩ := Finset.not_subset.mp hc
    have heD : e ∈ D := by
      by_contra hn
      exact he2 (Finset.mem_sdiff.mpr ⟨hH he1, hn⟩)
    rw [Finset.prod_eq_zero (f := fun e => if e ∈ H' then 0 else q1 p) heD (if_pos he1), zero_mul, mul_zero]

theorem loop_chance (p : ℚ) {n d : Nat} (hn : n < 2 ^ 32) (hd : 2 * d + 2 ≤ n) {dat : List T} : ∀ (vs : List ℕ), (∀ i ∈ vs, i < n) →
    ∀ {g : WSGraph T}, Good n d dat g → ∀ H' : Finset (Sym2 ℕ),
    Chance (fun ω k => ∃ g' j, RetOf Prod.mk (fun fuel r => vs.foldlM (rewireBody p fuel) (g, r)) ω k g' j ∧
        Good n d dat g' ∧ homeSet n g' = H')
      (if H' ⊆ homeSet n g then ∏ e ∈ homeSet n g, wt p H' vs e else 0) := by
  intro vs
  induction vs with
  | nil =>
    intro _ g hg H'
    have hw : (if H' ⊆ homeSet n g then ∏ e ∈ homeSet n g, wt p H' [] e else 0) = if homeSet n g = H' then 1 else 0 := by
      by_cases he : homeSet n g = H'
      · subst he
        rw [if_pos (le_refl _), if_pos rfl]
        exact Finset.prod_eq_one fun e he => by simp [wt, he]
      · rw [if_neg he]
        split
        · rename_i hs
          obtain ⟨e, h1, h2⟩ := Finset.exists_of_ssubset (Finset.ssubset_iff_subset_ne.mpr ⟨hs, fun hc => he hc.symm⟩)
          exact Finset.prod_eq_zero h1 (by simp [wt, h2, mv])
        · rfl
    rw [hw]
    have hret : ∀ ω k, (∃ g' j, RetOf Prod.mk (fun fuel r => ([] : List ℕ).foldlM (rewireBody p fuel) (g, r)) ω k g' j ∧
        Good n d dat g' ∧ homeSet n g' = H') ↔ homeSet n g = H' := by
      intro ω k
      constructor
      · rintro ⟨g', j, ⟨F, hF⟩, h1, h2⟩
        have := hF F (le_refl _)
        simp only [List.foldlM_nil, Res.pure_eq, Res.ok.injEq, Prod.mk.injEq] at this
        rw [this.1]; exact h2
      · intro h
        exact ⟨g, k, ⟨0, fun _ _ => rfl⟩, hg, h⟩
    by_cases he : homeSet n g = H'
    · rw [if_pos he]
      exact Chance.true.congr fun ω k => by rw [hret]; simp [he]
    · rw [if_neg he]
      exact Chance.false.congr fun ω k => by rw [hret]; simp [he]
  | cons i vs ih =>
    intro hvs g hg H'
    have hi := hvs i (by simp)
    have hret : ∀ ω k g'' j, RetOf Prod.mk (fun fuel r => (i :: vs).foldlM (rewireBody p fuel) (g, r)) ω k g'' j ↔
        ∃ g' j', RetOf Prod.mk (fun fuel r => rewireBody p fuel (g, r) i) ω k g' j' ∧
          RetOf Prod.mk (fun fuel r => vs.foldlM (rewireBody p fuel) (g', r)) ω j' g'' j := by
      intro ω k g'' j
      have := RetOf.bind_iff (mk' := Prod.mk) (g := fun fuel (x : WSGraph T × Stream) => vs.foldlM (rewireBody p fuel) x)
        (rewireBody_adaptive p g i) (ω := ω) (k := k) (j := j) (c := g'')
      exact this
    have hterm : ∀ D ∈ ((homeSet n g).filter (i ∈ ·)).powerset, Chance (fun ω k => ∃ g' j,
        RetOf Prod.mk (fun fuel r => rewireBody p fuel (g, r) i) ω k g' j ∧ (Good n d dat g' ∧ homeSet n g' = homeSet n g \ D) ∧
        ∃ g'' j', RetOf Prod.mk (fun fuel r => vs.foldlM (rewireBody p fuel) (g', r)) ω j g'' j' ∧ Good n d dat g'' ∧ homeSet n g'' = H')
        ((∏ e ∈ (homeSet n g).filter (i ∈ ·), if e ∈ D then q1 p else q0 p) *
          (if H' ⊆ homeSet n g \ D then ∏ e ∈ homeSet n g \ D, wt p H' vs e else 0)) := by
      intro D hD
      refine chance_bind ((rewireBody_adaptive p g i).sampler joins_pair) (body_chance p hn hd hg hi (Finset.mem_powerset.mp hD))
        (Q := fun g' ω k => ∃ g'' j', RetOf Prod.mk (fun fuel r => vs.foldlM (rewireBody p fuel) (g', r)) ω k g'' j' ∧
          Good n d dat g'' ∧ homeSet n g'' = H') ?_
      rintro g' ⟨h1, h2⟩
      rw [← h2]
      exact ih (fun j hj => hvs j (by simp [hj])) h1 H'
    have hsum := Chance.sum _ hterm (by
      intro D hD D' hD' ω k h1 h2
      obtain ⟨g1, j1, a1, ⟨_, a2⟩, _⟩ := h1
      obtain ⟨g2, j2, b1, ⟨_, b2⟩, _⟩ := h2
      obtain ⟨rfl, _⟩ := ((rewireBody_adaptive p g i).sampler joins_pair).det a1 b1
      have s1 := (Finset.mem_powerset.mp hD).trans (Finset.filter_subset _ _)
      have s2 := (Finset.mem_powerset.mp hD').trans (Finset.filter_subset _ _)
      rw [← Finset.sdiff_sdiff_eq_self s1, ← a2, b2, Finset.sdiff_sdiff_eq_self s2])
    have hw : (∑ D ∈ ((homeSet n g).filter (i ∈ ·)).powerset, (∏ e ∈ (homeSet n g).filter (i ∈ ·), if e ∈ D then q1 p else q0 p) *
        (if H' ⊆ homeSet n g \ D then ∏ e ∈ homeSet n g \ D, wt p H' vs e else 0)) =
        (if H' ⊆ homeSet n g then ∏ e ∈ homeSet n g, wt p H' (i :: vs) e else 0) := by
      by_cases hs : H' ⊆ homeSet n g
      · rw [if_pos hs, weight_step p hs]
      · rw [if_neg hs]
        refine Finset.sum_eq_zero fun D _ => ?_
        rw [if_neg (fun hc => hs (hc.trans Finset.sdiff_subset)), mul_zero]
    rw [hw] at hsum
    refine hsum.congr fun ω k => ?_
    constructor
    · rintro ⟨D, _, g', j, h1, _, g'', j', h2, h3⟩
      exact ⟨g'', j', (hret _ _ _ _).mpr ⟨g', j, h1, h2⟩, h3⟩
    · rintro ⟨g'', j', h1, h2⟩
      obtain ⟨g', j, h3, h4⟩ := (hret _ _ _ _).mp h1
      obtain ⟨a, i', h5, h6⟩ := body_ret.mp h3
      obtain ⟨k1, k2⟩ := body_home hn hg hi h5 h6
      refine ⟨(a.2.map OriginalEdge.pair).toFinset, ?_, g', j, h3, ⟨k1, k2⟩, g'', j', h4, h2⟩
      obtain ⟨E, org, hJ⟩ := hg
      obtain ⟨g1, rewire, r1, a1, a2, a3, a4, a5⟩ := removeStage_thrown_list (p := p) hJ hi (⟨ω, k⟩ : Stream)
      obtain ⟨F, hF⟩ := h5
      have hF' : removeStage p g ⟨ω, k⟩ i = .ok (mk3 a ⟨ω, i'⟩) := hF F (le_refl _)
      rw [a1] at hF'
      simp only [mk3, Res.ok.injEq, Prod.mk.injEq] at hF'
      obtain ⟨rfl, rfl, rfl⟩ := hF'
      rw [Finset.mem_powerset]
      intro e he
      have := Thrown.sub a5 e (List.mem_toFinset.mp he)
      rw [a4] at this
      exact Finset.mem_filter.mpr ⟨(mem_homeSet hJ e).mpr ⟨this.1, this.2.1⟩, this.2.2⟩

theorem countP_two {n : ℕ} {u v : ℕ} (hu : u < n) (hv : v < n) (huv : u ≠ v) : (List.range n).countP (· ∈ s(u, v)) = 2 := by
  have h1 : (List.range n).countP (· ∈ s(u, v)) = ((Finset.range n).filter (· ∈ s(u, v))).card := by
    rw [List.countP_eq_length_filter]
    rfl
  rw [h1]
  have h2 : (Finset.range n).filter (· ∈ s(u, v)) = {u, v} := by
    ext x
    simp only [Finset.mem_filter, Finset.mem_range, Sym2.mem_iff, Finset.mem_insert, Finset.mem_singleton]
    constructor
    · exact fun h => h.2
    · rintro (rfl | rfl) <;> simp [*]
  rw [h2, Finset.card_pair huv]

/-- All vertices once: the set of edges at home afterwards. -/
theorem all_chance (p : ℚ) {n d : Nat} (hn : n < 2 ^ 32) (hd : 2 * d + 2 ≤ n) {dat : List T} {g : WSGraph T}
    (hg : J n d dat g (ringSet n d) id 0) {S : Finset (Sym2 ℕ)} (hS : S ⊆ ringSet n d) :
    Chance (fun ω k => ∃ g' j, RetOf Prod.mk (fun fuel r => (List.range n).foldlM (rewireBody p fuel) (g, r)) ω k g' j ∧
        Good n d dat g' ∧ homeSet n g' = ringSet n d \ S)
      (mv p 2 ^ S.card * (q0 p ^ 2) ^ (n * d - S.card)) := by
  have hhome : homeSet n g = ringSet n d := by
    ext e; rw [mem_homeSet hg]; simp
  have h := loop_chance p hn hd (List.range n) (fun i hi => List.mem_range.mp hi) ⟨_, _, hg⟩ (ringSet n d \ S)
  rw [hhome, if_pos Finset.sdiff_subset] at h
  have hw : ∏ e ∈ ringSet n d, wt p (ringSet n d \ S) (List.range n) e = mv p 2 ^ S.card * (q0 p ^ 2) ^ (n * d - S.card) := by
    have hwt : ∀ e ∈ ringSet n d, wt p (ringSet n d \ S) (List.range n) e = if e ∈ S then mv p 2 else q0 p ^ 2 := by
      intro e he
      have hc : (List.range n).countP (· ∈ e) = 2 := by
        induction e using Sym2.ind with
        | h u v =>
          obtain ⟨h1, h2, h3⟩ := hg.lt u v he
          exact countP_two h1 h2 h3
      unfold wt
      rw [hc]
      by_cases hes : e ∈ S <;> simp [hes, he]
    rw [Finset.prod_congr rfl hwt, ← Finset.prod_sdiff hS, mul_comm]
    have a1 : ∏ e ∈ S, (if e ∈ S then mv p 2 else q0 p ^ 2) = mv p 2 ^ S.card := by
      rw [Finset.prod_congr rfl (fun e he => if_pos he), Finset.prod_const]
    have a2 : ∏ e ∈ ringSet n d \ S, (if e ∈ S then mv p 2 else q0 p ^ 2) = (q0 p ^ 2) ^ (n * d - S.card) := by
      rw [Finset.prod_congr rfl (fun e he => if_neg (Finset.mem_sdiff.mp he).2), Finset.prod_const, Finset.card_sdiff_of_subset hS,
        ringSet_card (by omega)]
    rw [a1, a2]
  rw [hw] at h
  exact h

end Ws
end Verif
