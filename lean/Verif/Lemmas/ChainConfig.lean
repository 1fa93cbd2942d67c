import Verif.Lemmas.ChainLaw
import Verif.Lemmas.ChainSteps
import Verif.Props.ConvergeConfig

/-!
# The law of one step of the configuration model

As in `Verif.Lemmas.ChainSteps`, but the two positions are drawn until they belong to different vertices.
-/

set_option linter.unusedSectionVars false
set_option linter.unusedSimpArgs false

namespace Verif
open AdjContainer GenericGraph MeasureTheory ProbabilityTheory

variable {T : Type}

/-- A loop that draws something and either uses it or starts again. -/
theorem Adaptive.loop {α β γ : Type} {mk : α → Stream → β} {h : Stream → Res (γ × Stream)} (hh : Adaptive Prod.mk (fun _ r => h r))
    (t : γ → Option (Res α)) {f : ℕ → Stream → Res β} (h0 : ∀ r, f 0 r = .diverge)
    (hs : ∀ fuel r, f (fuel + 1) r = h r >>= fun x => (t x.1).elim (f fuel x.2) (fun y => y >>= fun a => .ok (mk a x.2))) :
    Adaptive mk f := by
  intro fuel
  induction fuel with
  | zero => intro ω k b hb; rw [h0] at hb; cases hb
  | succ fuel ih =>
    intro ω k b hb
    rw [hs] at hb
    obtain ⟨x, hx, hb⟩ := Res.bind_eq_ok.mp hb
    obtain ⟨a, l, rfl, m1, n1⟩ := hh 0 ω k x hx
    dsimp only at hb
    have hn : ∀ ω' k', Matches ω' k' l → h (⟨ω', k'⟩ : Stream) = .ok (a, ⟨ω', k' + l.length⟩) := fun ω' k' hm => n1 0 (le_refl _) ω' k' hm
    cases ht : t a with
    | none =>
      rw [ht] at hb
      obtain ⟨a2, l2, rfl, m2, n2⟩ := ih ω _ b hb
      refine ⟨a2, l ++ l2, by rw [List.length_append, Nat.add_assoc], matches_append.mpr ⟨m1, m2⟩, ?_⟩
      intro fuel' hf ω' k' hm
      obtain ⟨q1, q2⟩ := matches_append.mp hm
      obtain ⟨F, rfl⟩ : ∃ F, fuel' = F + 1 := ⟨fuel' - 1, by omega⟩
      rw [hs, hn _ _ q1]
      simp only [Res.ok_bind, ht]
      show f F ⟨ω', k' + l.length⟩ = _
      rw [n2 F (by omega) ω' _ q2, List.length_append, Nat.add_assoc]
    | some y =>
      rw [ht] at hb
      have hb' : (y >>= fun a => Res.ok (mk a ⟨ω, k + l.length⟩)) = .ok b := hb
      obtain ⟨c, hc, hb'⟩ := Res.bind_eq_ok.mp hb'
      cases hb'
      refine ⟨c, l, rfl, m1, ?_⟩
      intro fuel' hf ω' k' hm
      obtain ⟨F, rfl⟩ : ∃ F, fuel' = F + 1 := ⟨fuel' - 1, by omega⟩
      rw [hs, hn _ _ hm]
      simp only [Res.ok_bind, ht]
      show (y >>= fun a => Res.ok (mk a ⟨ω', k' + l.length⟩)) = _
      rw [hc]; rfl

/-! ## Drawing two numbers until they are in a given set -/

/-- One attempt: two draws. -/
def ReadAttempt (m n : ℕ) (A : Finset (ℕ × ℕ)) (_ : Unit) (ω : ℕ → ℝ) (k : ℕ) (x : Unit ⊕ (ℕ × ℕ)) (j : ℕ) : Prop :=
  j = k + 2 ∧ match x with
    | .inl _ => (partOf (ω k) m, partOf (ω (k + 1)) n) ∉ A
    | .inr v => v = (partOf (ω k) m, partOf (ω (k + 1)) n) ∧ v ∈ A

theorem readAttempt_sampler (m n : ℕ) (A : Finset (ℕ × ℕ)) (s : Unit) : Sampler (ReadAttempt m n A s) := by
  refine ⟨?_, ?_⟩
  · rintro ω k x j ⟨rfl, h⟩
    refine ⟨[(m, partOf (ω k) m)] ++ [(n, partOf (ω (k + 1)) n)], rfl,
      matches_append.mpr ⟨matches_single.mpr rfl, matches_single.mpr rfl⟩, fun ω' k' hm => ⟨rfl, ?_⟩⟩
    obtain ⟨h1, h2⟩ := matches_append.mp hm
    have h1 := matches_single.mp h1
    have h2 := matches_single.mp h2
    simp only [List.length_singleton] at h2
    rw [h1, h2]
    exact h
  · rintro ω k x x' j j' ⟨rfl, h⟩ ⟨rfl, h'⟩
    refine ⟨?_, rfl⟩
    cases x with
    | inl _ => cases x' with
      | inl _ => rfl
      | inr v => exact absurd (by rw [h'.1] at h'; exact h'.2) h
    | inr u => cases x' with
      | inl _ => exact absurd (by rw [h.1] at h; exact h.2) h'
      | inr v => rw [h.1, h'.1]

theorem readAttempt_chance {m n : ℕ} (hm : 0 < m) (hn : 0 < n) {A : Finset (ℕ × ℕ)} (hA : A ⊆ Finset.range m ×ˢ Finset.range n)
    {d : ℕ × ℕ} (hd : d ∈ A) :
    Chance (fun ω k => ∃ a j, UntilS (ReadAttempt m n A) ω () k a j ∧ a = d) ((A.card : ENNReal)⁻¹) := by
  have hcA : ((Finset.range m ×ˢ Finset.range n).filter (fun x => x ∈ A)) = A := by
    rw [Finset.filter_mem_eq_inter, Finset.inter_eq_right.mpr hA]
  have hfail : Chance (fun ω k => ∃ s' j, ReadAttempt m n A () ω k (.inl s') j)
      (1 - (A.card : ENNReal) * ((m * n : ℕ) : ENNReal)⁻¹) := by
    have := (chance_draw_pair hm hn (fun x => x ∈ A)).not
    rw [hcA] at this
    exact this.congr fun ω k => ⟨fun h => ⟨(), k + 2, rfl, h⟩, fun ⟨_, _, _, h⟩ => h⟩
  have hgood : Chance (fun ω k => ∃ a j, ReadAttempt m n A () ω k (.inr a) j ∧ a = d)
      (((1 : ℕ) : ENNReal) * ((m * n : ℕ) : ENNReal)⁻¹) := by
    have := chance_draw_pair hm hn (fun x => x = d)
    rw [Finset.filter_eq' _ d, if_pos (hA hd), Finset.card_singleton] at this
    refine this.congr fun ω k => ?_
    constructor
    · intro h
      exact ⟨_, k + 2, ⟨rfl, rfl, by rw [h]; exact hd⟩, h⟩
    · rintro ⟨_, _, ⟨_, rfl, _⟩, h⟩
      exact h
  have h1 := chance_untilS (fun s => readAttempt_sampler m n A s) (I := fun _ => True) (P := fun a => a = d) (fun _ _ => trivial)
    (fun s _ => hfail) (fun s _ => hgood) () trivial
  have hle : (A.card : ENNReal) * ((m * n : ℕ) : ENNReal)⁻¹ ≤ 1 := by
    have := (chance_draw_pair hm hn (fun x => x ∈ A)).prob 0
    rw [hcA] at this
    rw [← this]
    exact prob_le_one
  rw [ENNReal.sub_sub_cancel ENNReal.one_ne_top hle, ratio_of_counts (Nat.mul_pos hm hn), Nat.cast_one, one_div] at h1
  exact h1

theorem untilS_read_mem {m n : ℕ} {A : Finset (ℕ × ℕ)} {ω : ℕ → ℝ} {k j : ℕ} {a : ℕ × ℕ} (h : UntilS (ReadAttempt m n A) ω () k a j) :
    a ∈ A := by
  generalize () = s0 at h
  induction h with
  | done h => exact h.2.2
  | again _ _ ih => exact ih

namespace Config

/-- The state without the generator, and the state with another generator. -/
def core {R : Type} (e : Config T R) : Config T Unit := ⟨e.graph, e.degreeVec, (), e.halfs, e.backup⟩
def put {R : Type} (c : Config T Unit) (r : R) : Config T R := ⟨c.graph, c.degreeVec, r, c.halfs, c.backup⟩

theorem joins_put : Joins (put : Config T Unit → Stream → Config T Stream) := by
  intro a a' r r' h
  exact ⟨congrArg (core (R := Stream)) h, congrArg Config.rng h⟩

/-- What a step does once the two edges are known. -/
def act (g : Graph T) (edge1 edge2 : ℕ × ℕ) : Res (ConfigStep × Graph T) :=
  if edge2.1 == edge1.1 || edge1.2 == edge2.2 then return (.error, g)
  else do
    let (r, graph) ← g.addEdge edge1.1 edge2.1
    match r with
    | .error _ => return (.error, graph)
    | .ok () => do
      let (r, graph) ← graph.addEdge edge1.2 edge2.2
      match r with
      | .error _ => do
        let p ← graph.removeEdge edge1.1 edge2.1
        let graph ← unwrapOk p
        return (.error, graph)
      | .ok () => do
        let p ← graph.removeEdge edge1.1 edge1.2
        let graph ← unwrapOk p
        let p ← graph.removeEdge edge2.1 edge2.2
        let graph ← unwrapOk p
        return (.added edge1 edge2, graph)

/-- The part of a step after the two vertices were drawn. -/
def rest {R : Type} [Rng R] (c : Config T Unit) (p : ℕ × ℕ) (r : R) : Res (ConfigStep × Config T R) := do
  let ca ← Vec.idx c.graph.vertices p.1
  let q ← genRange r ca.adj.length
  let a1 ← Vec.idx ca.adj q.1
  let cb ← Vec.idx c.graph.vertices p.2
  let q ← genRange q.2 cb.adj.length
  let b1 ← Vec.idx cb.adj q.1
  let z ← act c.graph (p.1, a1) (p.2, b1)
  return (z.1, put { c with graph := z.2 } q.2)

/-- The same as a function of the draws. -/
def after (c : Config T Unit) (p d : ℕ × ℕ) : Res (ConfigStep × Config T Unit) := do
  let ca ← Vec.idx c.graph.vertices p.1
  let a1 ← Vec.idx ca.adj d.1
  let cb ← Vec.idx c.graph.vertices p.2
  let b1 ← Vec.idx cb.adj d.2
  let z ← act c.graph (p.1, a1) (p.2, b1)
  return (z.1, { c with graph := z.2 })

theorem mStep_factor {R : Type} [Rng R] (fuel : ℕ) (c : Config T Unit) (r : R) : mStep fuel (put c r) = (do
    let p ← drawVertices fuel r c.backup
    rest c p.1 p.2) := by
  unfold mStep rest chooseOne
  simp only [put]
  cases drawVertices fuel r c.backup with
  | panic => rfl
  | diverge => rfl
  | ok p =>
    obtain ⟨⟨a, b⟩, r⟩ := p
    simp only [Res.ok_bind]
    cases Vec.idx c.graph.vertices a with
    | panic => rfl
    | diverge => rfl
    | ok ca =>
      simp only [Res.ok_bind]
      cases genRange r ca.adj.length with
      | panic => rfl
      | diverge => rfl
      | ok q =>
        obtain ⟨u, r⟩ := q
        simp only [Res.ok_bind]
        cases Vec.idx ca.adj u with
        | panic => rfl
        | diverge => rfl
        | ok a1 =>
          simp only [Res.ok_bind, Res.pure_eq]
          cases Vec.idx c.graph.vertices b with
          | panic => rfl
          | diverge => rfl
          | ok cb =>
            simp only [Res.ok_bind]
            cases genRange r cb.adj.length with
            | panic => rfl
            | diverge => rfl
            | ok q =>
              obtain ⟨v, r⟩ := q
              simp only [Res.ok_bind]
              cases Vec.idx cb.adj v with
              | panic => rfl
              | diverge => rfl
              | ok b1 =>
                simp only [Res.ok_bind, act]
                by_cases hc : (b == a || a1 == b1) = true
                · simp only [hc, if_true]; rfl
                · simp only [hc, if_false]
                  cases c.graph.addEdge a b with
                  | panic => rfl
                  | diverge => rfl
                  | ok p =>
                    obtain ⟨x, g⟩ := p
                    cases x with
                    | error _ => rfl
                    | ok _ =>
                      simp only [Res.ok_bind]
                      cases g.addEdge a1 b1 with
                      | panic => rfl
                      | diverge => rfl
                      | ok p =>
                        obtain ⟨x, g⟩ := p
                        cases x with
                        | error _ =>
                          simp only [Res.ok_bind]
                          cases g.removeEdge a b with
                          | panic => rfl
                          | diverge => rfl
                          | ok p =>
                            simp only [Res.ok_bind]
                            cases unwrapOk p <;> rfl
                        | ok _ =>
                          simp only [Res.ok_bind]
                          cases g.removeEdge a a1 with
                          | panic => rfl
                          | diverge => rfl
                          | ok p =>
                            simp only [Res.ok_bind]
                            cases unwrapOk p with
                            | panic => rfl
                            | diverge => rfl
                            | ok g =>
                              simp only [Res.ok_bind]
                              cases g.removeEdge b b1 with
                              | panic => rfl
                              | diverge => rfl
                              | ok p =>
                                simp only [Res.ok_bind]
                                cases unwrapOk p <;> rfl

theorem chooseTwo_adaptive (l : List ℕ) : Adaptive Prod.mk (fun _ r => chooseTwo r l) := by
  unfold chooseTwo
  by_cases h : l.length < 2
  · simp only [h, if_true]; exact Adaptive.ok l
  · simp only [h, if_false]
    refine Adaptive.bind (f := fun _ r => drawTwoFromRange r l.length) (g := fun _ (p : (ℕ × ℕ) × Stream) => do
      let a ← Vec.idx l p.1.1
      let b ← Vec.idx l p.1.2
      return ([a, b], p.2)) (drawTwo_adaptive _) ?_
    intro p
    dsimp only
    refine Adaptive.constBind fun a _ => ?_
    refine Adaptive.constBind fun b _ => ?_
    exact Adaptive.ok [a, b]

/-- What is done with the two vertices drawn. -/
def judge (l : List ℕ) : Option (Res (ℕ × ℕ)) :=
  match Vec.idx l 0 with
  | .panic => some .panic
  | .diverge => some .diverge
  | .ok a => match Vec.idx l 1 with
    | .panic => some .panic
    | .diverge => some .diverge
    | .ok b => if a == b then none else some (.ok (a, b))

theorem drawVertices_adaptive (l : List ℕ) : Adaptive Prod.mk (fun fuel r => drawVertices fuel r l) := by
  refine Adaptive.loop (chooseTwo_adaptive l) judge (fun _ => rfl) ?_
  intro fuel r
  conv => lhs; unfold drawVertices
  cases chooseTwo r l with
  | panic => rfl
  | diverge => rfl
  | ok x =>
    obtain ⟨l', r⟩ := x
    simp only [Res.ok_bind, judge]
    cases Vec.idx l' 0 with
    | panic => rfl
    | diverge => rfl
    | ok a =>
      simp only [Res.ok_bind]
      cases Vec.idx l' 1 with
      | panic => rfl
      | diverge => rfl
      | ok b =>
        simp only [Res.ok_bind]
        by_cases hab : (a == b) = true
        · simp only [hab, if_true]; rfl
        · simp only [hab, if_false]; rfl

theorem rest_adaptive (c : Config T Unit) (p : ℕ × ℕ) : Adaptive (mkStep put) (fun _ r => (rest c p r : Res (ConfigStep × Config T Stream))) := by
  unfold rest
  refine Adaptive.constBind fun ca _ => ?_
  refine Adaptive.bind (f := fun _ r => Verif.genRange r ca.adj.length) (g := fun _ (q : ℕ × Stream) => do
    let a1 ← Vec.idx ca.adj q.1
    let cb ← Vec.idx c.graph.vertices p.2
    let q ← Verif.genRange q.2 cb.adj.length
    let b1 ← Vec.idx cb.adj q.1
    let z ← act c.graph (p.1, a1) (p.2, b1)
    return (z.1, put { c with graph := z.2 } q.2)) (Adaptive.genRange _) ?_
  intro u
  dsimp only
  refine Adaptive.constBind fun a1 _ => ?_
  refine Adaptive.constBind fun cb _ => ?_
  refine Adaptive.bind (f := fun _ r => Verif.genRange r cb.adj.length) (g := fun _ (q : ℕ × Stream) => do
    let b1 ← Vec.idx cb.adj q.1
    let z ← act c.graph (p.1, a1) (p.2, b1)
    return (z.1, put { c with graph := z.2 } q.2)) (Adaptive.genRange _) ?_
  intro v
  dsimp only
  refine Adaptive.constBind fun b1 _ => ?_
  refine Adaptive.constBind fun z _ => ?_
  exact Adaptive.ok (mk := mkStep put) (z.1, ({ c with graph := z.2 } : Config T Unit))

theorem mStep_adaptive (c : Config T Unit) : Adaptive (mkStep put) (fun fuel r => mStep fuel (put c r : Config T Stream)) := by
  simp only [mStep_factor]
  exact Adaptive.bind (drawVertices_adaptive c.backup) (g := fun _ (p : (ℕ × ℕ) × Stream) => rest c p.1 p.2) (fun p => rest_adaptive c p)

/-- The pairs of positions with different vertices. -/
def good (l : List ℕ) : Finset (ℕ × ℕ) :=
  (Finset.range l.length ×ˢ Finset.range (l.length - 1)).filter (fun d => l.getD d.1 0 ≠ l.getD (secondPos d) 0)

theorem chooseTwo_stream {l : List ℕ} (hl : 2 ≤ l.length) (ω : ℕ → ℝ) (k : ℕ) :
    chooseTwo (⟨ω, k⟩ : Stream) l = .ok ([l.getD (partOf (ω k) l.length) 0,
      l.getD (secondPos (partOf (ω k) l.length, partOf (ω (k + 1)) (l.length - 1))) 0], ⟨ω, k + 2⟩) := by
  have h1 := partOf_lt (ω k) (show 0 < l.length by omega)
  have h2 := partOf_lt (ω (k + 1)) (show 0 < l.length - 1 by omega)
  have h3 := secondPos_lt (d := (partOf (ω k) l.length, partOf (ω (k + 1)) (l.length - 1))) h1 h2
  unfold chooseTwo
  rw [if_neg (by omega), drawTwo_stream hl]
  simp only [Res.ok_bind]
  rw [Vec.idx_of_lt h1]
  simp only [Res.ok_bind]
  show (Vec.idx l (secondPos (partOf (ω k) l.length, partOf (ω (k + 1)) (l.length - 1))) >>= _) = _
  rw [Vec.idx_of_lt h3]
  simp only [Res.ok_bind, List.getD, List.getElem?_eq_getElem h1, List.getElem?_eq_getElem h3, Option.getD_some]
  rfl

theorem drawVertices_stream {l : List ℕ} (hl : 2 ≤ l.length) (fuel : ℕ) (ω : ℕ → ℝ) (k : ℕ) :
    drawVertices (fuel + 1) (⟨ω, k⟩ : Stream) l =
      if l.getD (partOf (ω k) l.length) 0 = l.getD (secondPos (partOf (ω k) l.length, partOf (ω (k + 1)) (l.length - 1))) 0 then
        drawVertices fuel (⟨ω, k + 2⟩ : Stream) l
      else .ok ((l.getD (partOf (ω k) l.length) 0, l.getD (secondPos (partOf (ω k) l.length, partOf (ω (k + 1)) (l.length - 1))) 0),
        ⟨ω, k + 2⟩) := by
  conv => lhs; unfold drawVertices
  rw [chooseTwo_stream hl]
  simp only [Res.ok_bind, Vec.idx, List.getElem?_cons_zero, List.getElem?_cons_succ, beq_iff_eq]
  rfl

theorem drawVertices_ret {l : List ℕ} (hl : 2 ≤ l.length) {ω : ℕ → ℝ} {k j : ℕ} {p : ℕ × ℕ} :
    RetOf Prod.mk (fun fuel r => drawVertices fuel r l) ω k p j ↔
      ∃ d, UntilS (ReadAttempt l.length (l.length - 1) (good l)) ω () k d j ∧ p = (l.getD d.1 0, l.getD (secondPos d) 0) := by
  have hmem : ∀ k, (partOf (ω k) l.length, partOf (ω (k + 1)) (l.length - 1)) ∈ good l ↔
      l.getD (partOf (ω k) l.length) 0 ≠ l.getD (secondPos (partOf (ω k) l.length, partOf (ω (k + 1)) (l.length - 1))) 0 := by
    intro k
    unfold good
    rw [Finset.mem_filter, Finset.mem_product, Finset.mem_range, Finset.mem_range]
    exact ⟨fun h => h.2, fun h => ⟨⟨partOf_lt _ (by omega), partOf_lt _ (by omega)⟩, h⟩⟩
  constructor
  · rintro ⟨F, hF'⟩
    have hF : drawVertices F (⟨ω, k⟩ : Stream) l = .ok (p, ⟨ω, j⟩) := hF' F (le_refl F)
    clear hF'
    induction F generalizing k with
    | zero => cases hF
    | succ F ih =>
      rw [drawVertices_stream hl] at hF
      split at hF
      · rename_i hs
        obtain ⟨d, h1, h2⟩ := ih hF
        exact ⟨d, .again (s' := ()) ⟨rfl, fun hc => (hmem k).mp hc hs⟩ h1, h2⟩
      · rename_i hs
        simp only [Res.ok.injEq, Prod.mk.injEq, Stream.mk.injEq, true_and] at hF
        obtain ⟨h1, rfl⟩ := hF
        exact ⟨_, .done ⟨rfl, rfl, (hmem k).mpr hs⟩, h1.symm⟩
  · rintro ⟨d, h1, rfl⟩
    suffices hs : ∃ F, drawVertices F (⟨ω, k⟩ : Stream) l = .ok ((l.getD d.1 0, l.getD (secondPos d) 0), ⟨ω, j⟩) by
      obtain ⟨F, hF⟩ := hs
      exact (drawVertices_adaptive l).retOf joins_pair hF
    generalize () = s0 at h1
    induction h1 with
    | @done s k j a h1 =>
      obtain ⟨rfl, rfl, h1⟩ := h1
      refine ⟨1, ?_⟩
      rw [drawVertices_stream hl, if_neg ((hmem k).mp h1)]
    | @again s s' k i j a h1 _ ih =>
      obtain ⟨rfl, h1⟩ := h1
      obtain ⟨F, hF⟩ := ih
      refine ⟨F + 1, ?_⟩
      rw [drawVertices_stream hl, if_pos (by by_contra hc; exact h1 ((hmem k).mpr hc))]
      exact hF

/-- The vertices drawn for a pair of positions. -/
def vertsAt (l : List ℕ) (d : ℕ × ℕ) : ℕ × ℕ := (l.getD d.1 0, l.getD (secondPos d) 0)

theorem mem_good {l : List ℕ} {d : ℕ × ℕ} : d ∈ good l ↔ d.1 < l.length ∧ d.2 < l.length - 1 ∧ l.getD d.1 0 ≠ l.getD (secondPos d) 0 := by
  unfold good
  rw [Finset.mem_filter, Finset.mem_product, Finset.mem_range, Finset.mem_range, and_assoc]

theorem vert_at {e : Config T Script} (h : e.Inv) {pos : ℕ} (hp : pos < e.backup.length) :
    ∃ hv : e.backup.getD pos 0 < e.graph.vertices.length, (e.graph.vertices[e.backup.getD pos 0]).adj.length = e.degAt pos := by
  have hm : e.backup.getD pos 0 ∈ e.backup := by
    simp only [List.getD, hp, List.getElem?_eq_getElem, Option.getD_some]; exact List.getElem_mem _
  obtain ⟨_, h2⟩ := h.deg_count hm
  have hv := h.wf.lt_length h2
  refine ⟨hv, ?_⟩
  have := nbrs_getElem hv
  have h3 := h.nbrs_length (e.backup.getD pos 0)
  rw [this] at h3
  exact h3

theorem rest_stream {e : Config T Script} (h : e.Inv) {d : ℕ × ℕ} (hd : d ∈ good e.backup) (ω : ℕ → ℝ) (i : ℕ) :
    rest e.core (vertsAt e.backup d) (⟨ω, i⟩ : Stream) = after e.core (vertsAt e.backup d) (partOf (ω i) (e.degAt d.1),
      partOf (ω (i + 1)) (e.degAt (secondPos d))) >>= fun a => .ok (mkStep put a ⟨ω, i + 2⟩) := by
  obtain ⟨d1, d2, _⟩ := mem_good.mp hd
  have d3 := secondPos_lt d1 d2
  obtain ⟨v1, l1⟩ := vert_at h d1
  obtain ⟨v2, l2⟩ := vert_at h d3
  have p1 := degAt_pos h.toBase d1
  have p2 := degAt_pos h.toBase d3
  unfold rest after vertsAt
  show (Vec.idx e.graph.vertices (e.backup.getD d.1 0) >>= _) = ((Vec.idx e.graph.vertices (e.backup.getD d.1 0) >>= _) >>= _)
  rw [Vec.idx_of_lt v1]
  simp only [Res.ok_bind]
  rw [l1, Stream.genRange_eq _ p1]
  simp only [Res.ok_bind]
  show (Vec.idx _ (partOf (ω i) (e.degAt d.1)) >>= _) = _
  cases Vec.idx (e.graph.vertices[e.backup.getD d.1 0]).adj (partOf (ω i) (e.degAt d.1)) with
  | panic => rfl
  | diverge => rfl
  | ok a1 =>
    simp only [Res.ok_bind]
    show (Vec.idx e.graph.vertices (e.backup.getD (secondPos d) 0) >>= _) =
      ((Vec.idx e.graph.vertices (e.backup.getD (secondPos d) 0) >>= _) >>= _)
    rw [Vec.idx_of_lt v2]
    simp only [Res.ok_bind]
    rw [l2]
    show (genRange (⟨ω, i + 1⟩ : Stream) (e.degAt (secondPos d)) >>= _) = _
    rw [Stream.genRange_eq _ p2]
    simp only [Res.ok_bind]
    show (Vec.idx _ (partOf (ω (i + 1)) (e.degAt (secondPos d))) >>= _) = _
    cases Vec.idx (e.graph.vertices[e.backup.getD (secondPos d) 0]).adj (partOf (ω (i + 1)) (e.degAt (secondPos d))) with
    | panic => rfl
    | diverge => rfl
    | ok b1 =>
      simp only [Res.ok_bind]
      cases act e.core.graph (e.backup.getD d.1 0, a1) (e.backup.getD (secondPos d) 0, b1) <;> rfl

theorem stepWith_eq {e : Config T Script} (h : e.Inv) {d x : ℕ × ℕ} (hd : (⟨d, x⟩ : Σ _ : ℕ × ℕ, ℕ × ℕ) ∈ e.stepDraws) :
    e.stepWith ⟨d, x⟩ = after e.core (vertsAt e.backup d) x >>= fun a => .ok (put a.2 (⟨[]⟩ : Script)) := by
  obtain ⟨d1, d2, d4, x1, x2⟩ := mem_stepDraws.mp hd
  have d3 := secondPos_lt (d := d) d1 d2
  obtain ⟨v1, l1⟩ := vert_at h d1
  obtain ⟨v2, l2⟩ := vert_at h d3
  unfold stepWith
  show (mStep 1 (put e.core (⟨[d.1, d.2, x.1, x.2]⟩ : Script)) >>= _) = _
  rw [mStep_factor]
  show ((drawVertices 1 (⟨[d.1, d.2, x.1, x.2]⟩ : Script) e.backup >>= _) >>= _) = _
  rw [drawVertices_script 0 _ d1 d2, if_neg d4]
  simp only [Res.ok_bind]
  unfold rest after vertsAt
  show ((Vec.idx e.graph.vertices (e.backup.getD d.1 0) >>= _) >>= _) = ((Vec.idx e.graph.vertices (e.backup.getD d.1 0) >>= _) >>= _)
  rw [Vec.idx_of_lt v1]
  simp only [Res.ok_bind]
  rw [l1, script_genRange x1]
  simp only [Res.ok_bind]
  cases Vec.idx (e.graph.vertices[e.backup.getD d.1 0]).adj x.1 with
  | panic => rfl
  | diverge => rfl
  | ok a1 =>
    simp only [Res.ok_bind]
    show ((Vec.idx e.graph.vertices (e.backup.getD (secondPos d) 0) >>= _) >>= _) =
      ((Vec.idx e.graph.vertices (e.backup.getD (secondPos d) 0) >>= _) >>= _)
    rw [Vec.idx_of_lt v2]
    simp only [Res.ok_bind]
    rw [l2, script_genRange x2]
    simp only [Res.ok_bind]
    cases Vec.idx (e.graph.vertices[e.backup.getD (secondPos d) 0]).adj x.2 with
    | panic => rfl
    | diverge => rfl
    | ok b1 =>
      simp only [Res.ok_bind]
      cases act e.core.graph (e.backup.getD d.1 0, a1) (e.backup.getD (secondPos d) 0, b1) <;> rfl

/-- The states in which the chain moves. -/
def Moves (c : Config T Unit) : Prop := (put c (⟨[]⟩ : Script)).Inv ∧ ∃ d ∈ c.degreeVec, 0 < d

theorem Moves.inv {e : Config T Script} (h : Moves e.core) : e.Inv := ⟨⟨h.1.wf, h.1.n, h.1.halves⟩, h.1.deg⟩

theorem Moves.rounds {e : Config T Script} (h : Moves e.core) : 0 < e.rounds := by
  have hi := h.inv
  refine (rounds_pos hi ?_).1
  obtain ⟨d, hd, hd0⟩ := h.2
  have hd : d ∈ e.degreeVec := hd
  obtain ⟨v, hv, rfl⟩ := List.getElem_of_mem hd
  have : 0 < (e.graph.nbrs v).length := by
    rw [hi.nbrs_length]
    simpa [List.getD, hv] using hd0
  obtain ⟨w, hw⟩ := List.exists_mem_of_length_pos this
  rw [hi.wf.edgeCount_eq_card]
  exact Finset.card_pos.mpr ⟨s(v, w), hi.wf.mem_edges.mpr hw⟩

theorem Moves.two {e : Config T Script} (h : Moves e.core) : 2 ≤ e.backup.length := by
  obtain ⟨d, hd⟩ := Finset.card_pos.mp h.rounds
  have := mem_good.mp hd
  omega

theorem mStep_ret {e : Config T Script} (h : Moves e.core) {ω : ℕ → ℝ} {k : ℕ} {c' : Config T Unit} :
    (∃ s j, RetOf (mkStep put) (fun fuel r => mStep fuel (put e.core r : Config T Stream)) ω k (s, c') j) ↔
      ∃ d i, UntilS (ReadAttempt e.backup.length (e.backup.length - 1) (good e.backup)) ω () k d i ∧
        ∃ e', e.stepWith ⟨d, (partOf (ω i) (e.degAt d.1), partOf (ω (i + 1)) (e.degAt (secondPos d)))⟩ = .ok e' ∧ core e' = c' := by
  have hi := h.inv
  have hsd : ∀ {d : ℕ × ℕ} {i : ℕ}, d ∈ good e.backup →
      (⟨d, (partOf (ω i) (e.degAt d.1), partOf (ω (i + 1)) (e.degAt (secondPos d)))⟩ : Σ _ : ℕ × ℕ, ℕ × ℕ) ∈ e.stepDraws := by
    intro d i hd
    obtain ⟨d1, d2, d3⟩ := mem_good.mp hd
    exact mem_stepDraws.mpr ⟨d1, d2, d3, partOf_lt _ (degAt_pos hi.toBase d1), partOf_lt _ (degAt_pos hi.toBase (secondPos_lt d1 d2))⟩
  have hb : ∀ {s j}, RetOf (mkStep put) (fun fuel r => mStep fuel (put e.core r : Config T Stream)) ω k (s, c') j ↔
      ∃ p i, RetOf Prod.mk (fun fuel r => drawVertices fuel r e.backup) ω k p i ∧
        RetOf (mkStep put) (fun _ r => rest e.core p r) ω i (s, c') j := by
    intro s j
    simp only [mStep_factor]
    exact RetOf.bind_iff (mk' := mkStep put) (drawVertices_adaptive e.core.backup)
      (g := fun _ (p : (ℕ × ℕ) × Stream) => rest e.core p.1 p.2)
  constructor
  · rintro ⟨s, j, hr⟩
    obtain ⟨p, i, h1, h2⟩ := hb.mp hr
    obtain ⟨d, h3, rfl⟩ := (drawVertices_ret h.two).mp h1
    refine ⟨d, i, h3, ?_⟩
    have hd := untilS_read_mem h3
    rw [retOf_nofuel] at h2
    have h2 : rest e.core (vertsAt e.backup d) (⟨ω, i⟩ : Stream) = .ok (mkStep put (s, c') ⟨ω, j⟩) := h2
    rw [rest_stream hi hd] at h2
    rw [stepWith_eq hi (hsd hd)]
    obtain ⟨a, a1, a2⟩ := Res.bind_eq_ok.mp h2
    rw [a1]
    injection a2 with a2
    have := (joins_mkStep joins_put a2).1
    exact ⟨_, rfl, by rw [this]; rfl⟩
  · rintro ⟨d, i, h3, e', h4, rfl⟩
    have hd := untilS_read_mem h3
    rw [stepWith_eq hi (hsd hd)] at h4
    obtain ⟨a, a1, a2⟩ := Res.bind_eq_ok.mp h4
    cases a2
    refine ⟨a.1, i + 2, hb.mpr ⟨vertsAt e.backup d, i, (drawVertices_ret h.two).mpr ⟨d, h3, rfl⟩, ?_⟩⟩
    rw [retOf_nofuel, rest_stream hi hd, a1]
    rfl

theorem stepLaw : StepLaw (put : Config T Unit → Stream → Config T Stream) mStep Moves (fun c => c.graph.edges)
    (core : Config T Script → Config T Unit) stepDraws stepProb stepWith (fun e => e.graph.edges) := by
  refine ⟨joins_put, mStep_adaptive, fun _ => rfl, ?_, ?_, ?_, ?_⟩
  · intro e _ d _
    unfold stepProb
    positivity
  · rintro e he ⟨⟨i, j⟩, u, v⟩ hd
    have h1 := he.inv
    obtain ⟨q1, q2, q3, q4, q5⟩ := mem_stepDraws.mp hd
    obtain ⟨s, g, a1, a2, _⟩ := mStep_script h1 0 q1 q2 q3 (u := u) (v := v)
      (by rw [h1.nbrs_length]; exact q4) (by rw [h1.nbrs_length]; exact q5)
    exact ⟨_, stepWith_eq_ok.mpr ⟨s, a1 []⟩, a2 _, he.2⟩
  · intro e he ω k s c' j h
    obtain ⟨d, i, h3, e', h4, h5⟩ := (mStep_ret he).mp ⟨s, j, h⟩
    obtain ⟨d1, d2, d3⟩ := mem_good.mp (untilS_read_mem h3)
    exact ⟨_, mem_stepDraws.mpr ⟨d1, d2, d3, partOf_lt _ (degAt_pos he.inv.toBase d1),
      partOf_lt _ (degAt_pos he.inv.toBase (secondPos_lt d1 d2))⟩, e', h4, h5⟩
  · intro e he c' P _ hP
    have hi := he.inv
    have h2 := he.two
    have hterm : ∀ d ∈ good e.backup, Chance (fun ω k => ∃ a i,
        UntilS (ReadAttempt e.backup.length (e.backup.length - 1) (good e.backup)) ω () k a i ∧ a = d ∧
          P ⟨d, (partOf (ω i) (e.degAt d.1), partOf (ω (i + 1)) (e.degAt (secondPos d)))⟩)
        (((good e.backup).card : ENNReal)⁻¹ * ((((Finset.range (e.degAt d.1) ×ˢ Finset.range (e.degAt (secondPos d))).filter
          (fun x => P ⟨d, x⟩)).card : ENNReal) * ((e.degAt d.1 * e.degAt (secondPos d) : ℕ) : ENNReal)⁻¹)) := by
      intro d hd
      obtain ⟨d1, d2, _⟩ := mem_good.mp hd
      exact chance_bind (Sampler.untilS (fun s => readAttempt_sampler _ _ _ s) ()) (P := fun a => a = d)
        (readAttempt_chance (by omega) (by omega) (Finset.filter_subset _ _) hd)
        (Q := fun _ ω i => P ⟨d, (partOf (ω i) (e.degAt d.1), partOf (ω (i + 1)) (e.degAt (secondPos d)))⟩)
        (fun _ _ => chance_draw_pair (degAt_pos hi.toBase d1) (degAt_pos hi.toBase (secondPos_lt d1 d2)) (fun x => P ⟨d, x⟩))
    have hs := Chance.sum (good e.backup) hterm (by
      rintro a - a' - ω k ⟨b, j, h1, rfl, _⟩ ⟨b', j', h1', rfl, _⟩
      exact ((Sampler.untilS (fun s => readAttempt_sampler _ _ _ s) ()).det h1 h1').1)
    have hval : (∑ d ∈ good e.backup, ((good e.backup).card : ENNReal)⁻¹ *
        ((((Finset.range (e.degAt d.1) ×ˢ Finset.range (e.degAt (secondPos d))).filter
          (fun x => P ⟨d, x⟩)).card : ENNReal) * ((e.degAt d.1 * e.degAt (secondPos d) : ℕ) : ENNReal)⁻¹)) =
        ∑ d ∈ (stepDraws e).filter P, ENNReal.ofReal (stepProb e d : ℝ) := by
      rw [Finset.sum_filter]
      unfold stepDraws
      rw [Finset.sum_sigma]
      refine Finset.sum_congr rfl (fun d hd => ?_)
      obtain ⟨d1, d2, _⟩ := mem_good.mp hd
      rw [← Finset.sum_filter]
      simp only [stepProb]
      rw [Finset.sum_const, nsmul_eq_mul]
      have p0 : (0 : ℝ) < e.rounds := by exact_mod_cast he.rounds
      have p1 : (0 : ℝ) < e.degAt d.1 := by exact_mod_cast degAt_pos hi.toBase d1
      have p2 : (0 : ℝ) < e.degAt (secondPos d) := by exact_mod_cast degAt_pos hi.toBase (secondPos_lt d1 d2)
      have e1 : ENNReal.ofReal (((1 / (e.rounds : ℚ) * (1 / (e.degAt d.1 : ℚ)) * (1 / (e.degAt (secondPos d) : ℚ)) : ℚ)) : ℝ) =
          ((good e.backup).card : ENNReal)⁻¹ * ((e.degAt d.1 * e.degAt (secondPos d) : ℕ) : ENNReal)⁻¹ := by
        push_cast
        rw [show (1 / (e.rounds : ℝ) * (1 / (e.degAt d.1 : ℝ)) * (1 / (e.degAt (secondPos d) : ℝ))) =
          (e.rounds : ℝ)⁻¹ * ((e.degAt d.1 : ℝ) * (e.degAt (secondPos d) : ℝ))⁻¹ by rw [mul_inv]; simp only [one_div]; ring]
        rw [ENNReal.ofReal_mul (by positivity), ENNReal.ofReal_inv_of_pos p0, ENNReal.ofReal_inv_of_pos (by positivity),
          ENNReal.ofReal_mul p1.le, ENNReal.ofReal_natCast, ENNReal.ofReal_natCast, ENNReal.ofReal_natCast]
        rfl
      rw [e1]
      ring
    rw [hval] at hs
    refine hs.congr fun ω k => ?_
    rw [mStep_ret he]
    constructor
    · rintro ⟨d, _, a, i, h3, rfl, h4⟩
      exact ⟨a, i, h3, (hP _).mp h4⟩
    · rintro ⟨d, i, h3, h4⟩
      exact ⟨d, untilS_read_mem h3, d, i, h3, rfl, (hP _).mpr h4⟩

end Config
end Verif
