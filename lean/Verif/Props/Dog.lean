import Verif.Props.Spacial
import Verif.Lemmas.Dog
import Mathlib.Tactic.FieldSimp

/-!
# C47 (DogEnsemble), C48, C58
-/

set_option linter.unusedSectionVars false
set_option linter.unusedSimpArgs false

namespace Verif
open AdjContainer GenericGraph

variable {T R : Type} [Rng R]

/-! ### C48: Latin hypercube sampling -/

namespace Latin

theorem next_spec {l : Latin R} (hl : l.x.length = l.y.length) (hx : l.x ≠ []) :
    ∃ (a b : Nat) (l' : Latin R), l.next = .ok (some (a, b), l') ∧ (a :: l'.x).Perm l.x ∧ (b :: l'.y).Perm l.y ∧
      l'.x.length = l'.y.length ∧ l'.x.length + 1 = l.x.length := by
  have hpos : 0 < l.x.length := List.length_pos_iff.mpr hx
  obtain ⟨i, r1, i1, i2⟩ := genRange_ok l.rng hpos
  obtain ⟨j, r2, j1, j2⟩ := genRange_ok r1 hpos
  obtain ⟨xs, x1, x2⟩ := Vec.swapRemove_of_lt i2
  obtain ⟨ys, y1, y2⟩ := Vec.swapRemove_of_lt (l := l.y) (i := j) (by omega)
  have e1 := x2.length_eq
  have e2 := y2.length_eq
  simp only [List.length_cons] at e1 e2
  refine ⟨_, _, ⟨xs, ys, r2⟩, ?_, x2, y2, by show xs.length = ys.length; omega, by show xs.length + 1 = _; omega⟩
  unfold next
  have : l.x.isEmpty = false := by cases h : l.x with
    | nil => exact absurd h hx
    | cons => rfl
  simp only [this, i1, j1, x1, y1, Res.ok_bind, Res.pure_eq, Bool.false_eq_true, if_false]

theorem collect_spec : ∀ (k : Nat) (l : Latin R), l.x.length = l.y.length → l.x.length = k →
    ∃ ps l', l.collect (k + 1) = .ok (ps, l') ∧ ps.length = k ∧ (ps.map Prod.fst).Perm l.x ∧ (ps.map Prod.snd).Perm l.y ∧
      l'.x = [] := by
  intro k
  induction k with
  | zero =>
    intro l hl hk
    have hx : l.x = [] := List.length_eq_zero_iff.mp hk
    have hy : l.y = [] := List.length_eq_zero_iff.mp (by omega)
    refine ⟨[], l, ?_, rfl, by simp [hx], by simp [hy], hx⟩
    simp [collect, next, hx]
  | succ k ih =>
    intro l hl hk
    obtain ⟨a, b, l1, h1, h2, h3, h4, h5⟩ := next_spec hl (by intro hc; rw [hc] at hk; simp at hk)
    obtain ⟨ps, l', c1, c2, c3, c4, c5⟩ := ih l1 h4 (by omega)
    refine ⟨(a, b) :: ps, l', ?_, by simp [c2], ?_, ?_, c5⟩
    · rw [collect, h1]
      simp only [Res.ok_bind, c1, Res.pure_eq]
    · simp only [List.map_cons]
      exact (c3.cons a).trans h2
    · simp only [List.map_cons]
      exact (c4.cons b).trans h3

end Latin

/-- The iterator returns exactly `n` points; every number below `n` occurs exactly once as first and exactly once as second
coordinate. -/
theorem C48_latin (n : Nat) (r : R) :
    ∃ ps l', (Latin.new n r).collect (n + 1) = .ok (ps, l') ∧ ps.length = n ∧
      (∀ k < n, (ps.map Prod.fst).count k = 1 ∧ (ps.map Prod.snd).count k = 1) ∧
      (∀ p ∈ ps, p.1 < n ∧ p.2 < n) ∧ l'.next = .ok (none, l') := by
  obtain ⟨ps, l', h1, h2, h3, h4, h5⟩ := Latin.collect_spec n (Latin.new n r) rfl (by simp [Latin.new])
  refine ⟨ps, l', h1, h2, ?_, ?_, by simp [Latin.next, h5]⟩
  · intro k hk
    rw [h3.count_eq, h4.count_eq]
    simp only [Latin.new]
    exact ⟨List.count_eq_one_of_mem List.nodup_range (List.mem_range.mpr hk),
      List.count_eq_one_of_mem List.nodup_range (List.mem_range.mpr hk)⟩
  · intro p hp
    have a1 := h3.mem_iff.mp (List.mem_map_of_mem hp)
    have a2 := h4.mem_iff.mp (List.mem_map_of_mem hp)
    exact ⟨List.mem_range.mp a1, List.mem_range.mp a2⟩

/-- `len` is the number of points still to come: each call of `next` lowers it by one until it is zero. -/
theorem C48_latin_len {l : Latin R} (hl : l.x.length = l.y.length) :
    (l.len = 0 → l.next = .ok (none, l)) ∧
    (0 < l.len → ∃ p l', l.next = .ok (some p, l') ∧ l'.len + 1 = l.len ∧ l'.x.length = l'.y.length) := by
  constructor
  · intro h
    have : l.x = [] := List.length_eq_zero_iff.mp h
    simp [Latin.next, this]
  · intro h
    obtain ⟨a, b, l', h1, _, _, h4, h5⟩ := Latin.next_spec hl (List.length_pos_iff.mp h)
    exact ⟨(a, b), l', h1, h5, h4⟩

/-- Draws that fit: two numbers below `k`, then two below `k - 1`, and so on. -/
def LatinDraws : Nat → List Nat → Prop
  | 0, ds => ds = []
  | k + 1, ds => ∃ i j rest, ds = i :: j :: rest ∧ i < k + 1 ∧ j < k + 1 ∧ LatinDraws k rest

theorem Latin.unique : ∀ (k : Nat) (x y xs ys : List Nat), x.Nodup → y.Nodup → x.length = k → y.length = k →
    xs.Perm x → ys.Perm y →
    ∃! ds, LatinDraws k ds ∧ ∃ l', (⟨x, y, (⟨ds⟩ : Script)⟩ : Latin Script).collect (k + 1) = .ok (xs.zip ys, l') := by
  intro k
  induction k with
  | zero =>
    intro x y xs ys _ _ hx hy hpx hpy
    obtain rfl := List.length_eq_zero_iff.mp hx
    obtain rfl := List.length_eq_zero_iff.mp hy
    obtain rfl := hpx.eq_nil
    obtain rfl := hpy.eq_nil
    refine ⟨[], ⟨rfl, _, rfl⟩, ?_⟩
    rintro ds ⟨hds, _⟩
    exact hds
  | succ k ih =>
    intro x y xs ys hnx hny hx hy hpx hpy
    cases xs with
    | nil => have := hpx.length_eq; simp at this; omega
    | cons a xs =>
      cases ys with
      | nil => have := hpy.length_eq; simp at this; omega
      | cons b ys =>
        have ha : a ∈ x := hpx.mem_iff.mp (by simp)
        have hb : b ∈ y := hpy.mem_iff.mp (by simp)
        obtain ⟨i, hi, rfl⟩ := List.getElem_of_mem ha
        obtain ⟨j, hj, rfl⟩ := List.getElem_of_mem hb
        obtain ⟨x', x1, x2⟩ := Vec.swapRemove_of_lt hi
        obtain ⟨y', y1, y2⟩ := Vec.swapRemove_of_lt hj
        have lx := x2.length_eq
        have ly := y2.length_eq
        simp only [List.length_cons] at lx ly
        obtain ⟨ds, ⟨d1, l', d2⟩, d3⟩ := ih x' y' xs ys (List.nodup_cons.mp (x2.nodup_iff.mpr hnx)).2
          (List.nodup_cons.mp (y2.nodup_iff.mpr hny)).2 (by omega) (by omega)
          (List.perm_cons _ |>.mp (hpx.trans x2.symm)) (List.perm_cons _ |>.mp (hpy.trans y2.symm))
        have step : ∀ (i j : Nat) (rest : List Nat) (hi : i < x.length) (hj : j < y.length) (x' y' : List Nat),
            Vec.swapRemove x i = .ok (x[i], x') → Vec.swapRemove y j = .ok (y[j], y') →
            (⟨x, y, (⟨i :: j :: rest⟩ : Script)⟩ : Latin Script).next = .ok (some (x[i], y[j]), ⟨x', y', ⟨rest⟩⟩) := by
          intro i j rest hi hj x' y' x1 y1
          have hne : x.isEmpty = false := by
            cases x with
            | nil => simp at hx
            | cons => rfl
          unfold Latin.next
          simp only [hne, Bool.false_eq_true, if_false]
          rw [script_genRange hi]
          simp only [Res.ok_bind]
          rw [script_genRange (show j < x.length by omega)]
          simp only [Res.ok_bind, x1, y1, Res.pure_eq]
        refine ⟨i :: j :: ds, ⟨⟨i, j, ds, rfl, by omega, by omega, d1⟩, l', ?_⟩, ?_⟩
        · rw [Latin.collect, step i j ds hi hj x' y' x1 y1]
          simp only [Res.ok_bind, d2, Res.pure_eq, List.zip_cons_cons]
        · rintro ds' ⟨⟨i', j', rest, rfl, h1, h2, h3⟩, l'', h4⟩
          have hi' : i' < x.length := by omega
          have hj' : j' < y.length := by omega
          obtain ⟨x'', x1', _⟩ := Vec.swapRemove_of_lt hi'
          obtain ⟨y'', y1', _⟩ := Vec.swapRemove_of_lt hj'
          rw [Latin.collect, step i' j' rest hi' hj' x'' y'' x1' y1'] at h4
          simp only [Res.ok_bind, Res.bind_eq_ok, Res.pure_eq, Res.ok.injEq, Prod.mk.injEq, Prod.exists,
            List.zip_cons_cons, List.cons.injEq] at h4
          obtain ⟨ps, l3, h5, ⟨⟨h6, h7⟩, h8⟩, _⟩ := h4
          have ei : i' = i := (List.Nodup.getElem_inj_iff hnx).mp h6
          have ej : j' = j := (List.Nodup.getElem_inj_iff hny).mp h7
          subst ei ej
          rw [x1] at x1'
          rw [y1] at y1'
          simp only [Res.ok.injEq, Prod.mk.injEq, true_and] at x1' y1'
          subst x1' y1'
          rw [d3 rest ⟨h3, l3, by rw [h5, h8]⟩]

/-- Every pair of orders of the rows and the columns is produced by exactly one sequence of draws: all of them are equally
likely under a uniform generator. -/
theorem C48_latin_uniform (n : Nat) {xs ys : List Nat} (hx : xs.Perm (List.range n)) (hy : ys.Perm (List.range n)) :
    ∃! ds, LatinDraws n ds ∧ ∃ l', (Latin.new n (⟨ds⟩ : Script)).collect (n + 1) = .ok (xs.zip ys, l') :=
  Latin.unique n _ _ xs ys List.nodup_range List.nodup_range (by simp) (by simp) hx hy

example : ([1, 2, 0] : List Nat).Perm (List.range 3) ∧ ([0, 2, 1] : List Nat).Perm (List.range 3) ∧
    ∃ l', (Latin.new 3 (⟨[1, 0, 1, 0, 0, 0]⟩ : Script)).collect 4 = .ok ([1, 2, 0].zip [0, 2, 1], l') :=
  ⟨by decide, by decide, _, rfl⟩

/-! ### C47: DogEnsemble -/

namespace Dog

/-- Number of vertices that get long-range edges. -/
def numSpecial (e : Dog T R) : Nat := roundUsize ((e.graph.vertexCount : ℚ) * (1 - e.tau))

/-- The vertices that get long-range edges. -/
def special (e : Dog T R) : List Nat := (Rng.shuffle e.near.2 (List.range e.graph.vertexCount)).1.take e.numSpecial

theorem special_spec (e : Dog T R) : e.special.Nodup ∧ (∀ v ∈ e.special, v < e.graph.vertexCount) ∧
    (e.numSpecial ≤ e.graph.vertexCount → e.special.length = e.numSpecial) := by
  have hp := Rng.shuffle_perm e.near.2 (List.range e.graph.vertexCount)
  refine ⟨((hp.nodup_iff).mpr List.nodup_range).sublist (List.take_sublist _ _), ?_, ?_⟩
  · intro v hv
    exact List.mem_range.mp (hp.mem_iff.mp (List.mem_of_mem_take hv))
  · intro h
    have := hp.length_eq
    rw [List.length_range] at this
    unfold special
    rw [List.length_take, this]; omega

/-- `randomize` after its checks. -/
theorem randomize_eq {e : Dog T R} (h : e.graph.WF) (fuel : Nat) (hnum : e.numSpecial ≤ e.graph.vertexCount)
    (hl : 0 < e.lambda) (hn : 0 < e.graph.vertexCount) :
    ∃ g' : SpacialGraph T, g'.WF ∧ g'.nextId = e.graph.nextId ∧ g'.data = e.graph.data ∧ coords g' = coords e.graph ∧
      g'.edges = e.near.1 ∧ e.randomize fuel = (e.special.foldlM (farBody e.poisson fuel) ((g', 2 * g'.edgeCount),
        (Rng.shuffle e.near.2 (List.range e.graph.vertexCount)).2) >>= fun t =>
        .ok { e with graph := t.1.1, rng := t.2 }) := by
  obtain ⟨g', a1, a2, a3, a4, a5, a6⟩ := near_spec h
  refine ⟨g', a2, a3, a4, a5, a6, ?_⟩
  have hpl := (Rng.shuffle_perm e.near.2 (List.range e.graph.vertexCount)).length_eq
  rw [List.length_range] at hpl
  have hp : prefixOf (Rng.shuffle e.near.2 (List.range e.graph.nextId)).1 (roundUsize ((e.graph.nextId : ℚ) * (1 - e.tau))) =
      .ok e.special := by
    unfold prefixOf
    rw [if_pos (by rw [show (Rng.shuffle e.near.2 (List.range e.graph.nextId)).1.length = e.graph.vertexCount from hpl]; exact hnum)]
    rfl
  have hn' : 0 < e.graph.nextId := hn
  unfold randomize
  simp only [GenericGraph.vertexCount, clearEdges_nextId, a1, Res.ok_bind, hp, hl, hn', decide_true, Res.assert, if_true,
    degree_sum a2]
  rfl

/-- The panics of `randomize`. -/
theorem randomize_panic {e : Dog T R} (h : e.graph.WF) (fuel : Nat)
    (hbad : e.graph.vertexCount < e.numSpecial ∨ e.lambda = 0 ∨ e.graph.vertexCount = 0) : e.randomize fuel = .panic := by
  obtain ⟨g', a1, a2, a3, a4, a5, a6⟩ := near_spec h
  have hpl := (Rng.shuffle_perm e.near.2 (List.range e.graph.vertexCount)).length_eq
  rw [List.length_range] at hpl
  unfold randomize
  simp only [GenericGraph.vertexCount, clearEdges_nextId, a1, Res.ok_bind]
  by_cases hnum : e.graph.vertexCount < e.numSpecial
  · have hp : prefixOf (Rng.shuffle e.near.2 (List.range e.graph.nextId)).1 (roundUsize ((e.graph.nextId : ℚ) * (1 - e.tau))) =
        .panic := by
      unfold prefixOf
      rw [if_neg]
      rw [show (Rng.shuffle e.near.2 (List.range e.graph.nextId)).1.length = e.graph.vertexCount from hpl]
      exact Nat.not_le.mpr hnum
    rw [hp]; rfl
  · have hp : prefixOf (Rng.shuffle e.near.2 (List.range e.graph.nextId)).1 (roundUsize ((e.graph.nextId : ℚ) * (1 - e.tau))) =
        .ok e.special := by
      unfold prefixOf
      rw [if_pos]
      · rfl
      · rw [show (Rng.shuffle e.near.2 (List.range e.graph.nextId)).1.length = e.graph.vertexCount from hpl]
        exact Nat.not_lt.mp hnum
    rw [hp]
    simp only [Res.ok_bind]
    rcases hbad with hb | hb | hb
    · exact absurd hb hnum
    · simp [hb, Res.assert]
    · change e.graph.nextId = 0 at hb
      by_cases hl : 0 < e.lambda <;> simp [hb, hl, Res.assert]

end Dog

/-- `DogEnsemble::randomize` never panics if there is a vertex, `lambda` is positive and `tau` is not negative; whenever it
returns, the graph is a valid simple graph with the same vertices and positions, its edges are the short edges (the pairs whose
throw succeeded) and, for each of the distinct special vertices, as many long-range edges as its Poisson number says, each to a
vertex that already had an edge. -/
theorem C47_dog_randomize {e : Dog T R} (h : e.graph.WF) (fuel : Nat) (hnum : e.numSpecial ≤ e.graph.vertexCount)
    (hl : 0 < e.lambda) (hn : 0 < e.graph.vertexCount) :
    (e.randomize fuel).wp (fun e' => e'.graph.WF ∧ e'.graph.vertexCount = e.graph.vertexCount ∧
      e'.graph.data = e.graph.data ∧ coords e'.graph = coords e.graph ∧
      ∃ (special ms : List Nat) (links : List (ℕ × ℕ)), special.Nodup ∧ (∀ v ∈ special, v < e.graph.vertexCount) ∧
        special.length = e.numSpecial ∧ ms.length = e.numSpecial ∧ (∀ m ∈ ms, ∃ r, m = (e.poisson r).1) ∧
        links.map Prod.fst = (special.zip ms).flatMap (fun p => List.replicate p.2 p.1) ∧
        Dog.FarLinks e.near.1 links e'.graph.edges ∧ e'.graph.edgeCount = e.near.1.card + links.length ∧
        (∀ v, (links.map Prod.fst).count v ≤ degOf e'.graph.edges v)) True := by
  obtain ⟨g', a1, a2, a3, a4, a5, a6⟩ := Dog.randomize_eq h fuel hnum hl hn
  obtain ⟨s1, s2, s3⟩ := Dog.special_spec e
  rw [a6]
  refine Res.wp_bind (Res.wp_mono (Dog.far_loop e.poisson fuel (g0 := g') (by rw [a2]; exact s2)
    ⟨a1, rfl, rfl, rfl, rfl, .start⟩) ?_ id)
  rintro ⟨⟨g2, D⟩, r⟩ ⟨ms, l, h1, h2, h3, h4⟩
  have hw : g2.WF := h4.wf
  have hlk : Dog.FarLinks g'.edges l g2.edges := h4.links
  rw [a5] at hlk
  refine ⟨hw, h4.n.trans a2, h4.data.trans a3, h4.coords.trans a4, e.special, ms, l, s1, s2, s3 hnum, h1.trans (s3 hnum), h2, h3, hlk, ?_, ?_⟩
  · show g2.edgeCount = _
    rw [hw.edgeCount_eq_card, hlk.card]
  · intro v
    exact le_trans (Nat.le_add_left _ _) (hlk.degree v)

/-! ### C58: when `DogEnsemble::randomize` panics or never returns -/

theorem lt_roundUsize {q : ℚ} {n : Nat} : n < roundUsize q ↔ (n : ℚ) + 1 / 2 ≤ q := by
  unfold roundUsize
  split
  · rename_i h
    constructor
    · intro hc; omega
    · intro hc
      have : (0 : ℚ) ≤ n := by exact_mod_cast Nat.zero_le n
      linarith
  · rename_i h
    rw [Int.lt_toNat, ← Int.add_one_le_iff, Rat.le_floor_iff]
    push_cast
    constructor <;> intro hh <;> linarith

/-- `randomize` panics exactly if there are no vertices, if `lambda` is zero, or if `tau` is so negative that more than all
vertices would get long-range edges. -/
theorem C58_dog_panics_iff {e : Dog T R} (h : e.graph.WF) (fuel : Nat) :
    e.randomize fuel = .panic ↔ e.graph.vertexCount = 0 ∨ e.lambda = 0 ∨ e.tau * e.graph.vertexCount ≤ - (1 / 2) := by
  have hq : e.graph.vertexCount < e.numSpecial ↔ e.tau * e.graph.vertexCount ≤ - (1 / 2) := by
    unfold Dog.numSpecial
    rw [lt_roundUsize]
    constructor <;> intro hh <;> linarith
  rw [← hq]
  constructor
  · intro hp
    by_contra hc
    push Not at hc
    obtain ⟨c1, c2, c3⟩ := hc
    exact (C47_dog_randomize h fuel c3 (by omega) (by omega)).ne_panic hp
  · rintro (hb | hb | hb)
    · exact Dog.randomize_panic h fuel (.inr (.inr hb))
    · exact Dog.randomize_panic h fuel (.inr (.inl hb))
    · exact Dog.randomize_panic h fuel (.inl hb)

/-- If no short edge came up, at least one vertex is to get long-range edges and no Poisson number is zero, then `randomize`
never returns: all degrees are zero, so no partner is ever accepted. -/
theorem C58_dog_no_short_edges {e : Dog T R} (h : e.graph.WF) (fuel : Nat) (hnear : e.near.1 = ∅) (hnum : 0 < e.numSpecial)
    (hle : e.numSpecial ≤ e.graph.vertexCount) (hl : 0 < e.lambda) (hp : ∀ r, 0 < (e.poisson r).1) :
    e.randomize fuel = .diverge := by
  have hw := C47_dog_randomize h fuel hle hl (by omega)
  cases hr : e.randomize fuel with
  | diverge => rfl
  | panic => rw [hr] at hw; exact hw.elim
  | ok e' =>
    rw [hr] at hw
    obtain ⟨_, _, _, _, special, ms, links, s1, s2, s3, s4, s5, s6, s7, _⟩ := hw
    rw [hnear] at s7
    have hlinks : links = [] := by
      by_contra hc
      have := s7.nonempty hc
      simp at this
    rw [hlinks] at s6
    cases special with
    | nil => simp at s3; omega
    | cons v special =>
      cases ms with
      | nil => simp at s4; omega
      | cons m ms =>
        obtain ⟨r, hr⟩ := s5 m (by simp)
        have := hp r
        simp only [List.map_nil, List.zip_cons_cons, List.flatMap_cons] at s6
        have := congrArg List.length s6
        simp at this
        omega

/-- A vertex of a simple graph has at most `n - 1` neighbours. -/
theorem degOf_lt {g : SpacialGraph T} (h : g.WF) (v : Nat) (hv : v < g.vertexCount) : degOf g.edges v < g.vertexCount := by
  have h1 : degOf g.edges v ≤ ((Finset.range g.vertexCount).erase v).card := by
    unfold degOf
    have : g.edges.filter (fun e => v ∈ e) ⊆ ((Finset.range g.vertexCount).erase v).image (fun w => s(v, w)) := by
      intro e he
      obtain ⟨h1, h2⟩ := Finset.mem_filter.mp he
      obtain ⟨w, rfl⟩ := Sym2.mem_iff_exists.mp h2
      rw [h.mem_edges] at h1
      exact Finset.mem_image.mpr ⟨w, Finset.mem_erase.mpr ⟨(h.ne h1).symm, Finset.mem_range.mpr (h.lt _ _ h1)⟩, rfl⟩
    exact (Finset.card_le_card this).trans Finset.card_image_le
  rw [Finset.card_erase_of_mem (Finset.mem_range.mpr hv), Finset.card_range] at h1
  omega

/-- If every Poisson number is at least the number of vertices, `randomize` never returns: no vertex has room for so many
edges. -/
theorem C58_dog_saturated {e : Dog T R} (h : e.graph.WF) (fuel : Nat) (hnum : 0 < e.numSpecial)
    (hle : e.numSpecial ≤ e.graph.vertexCount) (hl : 0 < e.lambda) (hp : ∀ r, e.graph.vertexCount ≤ (e.poisson r).1) :
    e.randomize fuel = .diverge := by
  have hw := C47_dog_randomize h fuel hle hl (by omega)
  cases hr : e.randomize fuel with
  | diverge => rfl
  | panic => rw [hr] at hw; exact hw.elim
  | ok e' =>
    rw [hr] at hw
    obtain ⟨w1, w2, _, _, special, ms, links, s1, s2, s3, s4, s5, s6, s7, s8, s9⟩ := hw
    cases special with
    | nil => simp at s3; omega
    | cons v special =>
      cases ms with
      | nil => simp at s4; omega
      | cons m ms =>
        obtain ⟨r, hr⟩ := s5 m (by simp)
        have h1 := hp r
        have h2 := s9 v
        have h3 := degOf_lt w1 v (by rw [w2]; exact s2 v (by simp))
        rw [w2] at h3
        rw [s6] at h2
        simp only [List.zip_cons_cons, List.flatMap_cons, List.count_append, List.count_replicate_self] at h2
        omega

/-- The search for a partner of `node` can return exactly if there is a vertex that differs from `node`, is not yet adjacent
to it, and has an edge; otherwise it runs forever, whatever the generator does. -/
theorem C58_partner_iff {g : SpacialGraph T} (h : g.WF) {node D : Nat} (hnode : node < g.vertexCount) (hD : 0 < D) :
    ((∃ v < g.vertexCount, v ≠ node ∧ ¬ g.toSimple.Adj node v ∧ ∃ w, g.toSimple.Adj v w) ↔
      ∃ (ds : List Nat) (fuel : Nat) (g' : SpacialGraph T), ∀ rest, Dog.findPartner node D fuel g (⟨ds ++ rest⟩ : Script) = .ok (g', ⟨rest⟩)) ∧
    ((¬ ∃ v < g.vertexCount, v ≠ node ∧ ¬ g.toSimple.Adj node v ∧ ∃ w, g.toSimple.Adj v w) →
      ∀ (fuel : Nat) (r : R), Dog.findPartner node D fuel g r = .diverge) := by
  have hpart : (∃ v < g.vertexCount, v ≠ node ∧ ¬ g.toSimple.Adj node v ∧ ∃ w, g.toSimple.Adj v w) ↔
      ∃ v, Dog.Partner g node v := by
    constructor
    · rintro ⟨v, h1, h2, h3, w, h4⟩
      refine ⟨v, h1, h2, ?_, ?_⟩
      · rw [h.mem_edges]; rwa [h.adj_iff] at h3
      · rw [h.adj_iff] at h4; exact List.ne_nil_of_mem h4
    · rintro ⟨v, h1, h2, h3, h4⟩
      refine ⟨v, h1, h2, ?_, ?_⟩
      · rw [h.mem_edges] at h3; rwa [h.adj_iff]
      · obtain ⟨w, hw⟩ := List.exists_mem_of_ne_nil _ h4
        exact ⟨w, by rwa [h.adj_iff]⟩
  rw [hpart]
  constructor
  · constructor
    · rintro ⟨v, hv⟩
      obtain ⟨g', a1, _⟩ := addEdge_edges h hnode hv.1 (Ne.symm hv.2.1) hv.2.2.1
      exact ⟨[v, 0], 1, g', fun rest => Dog.findPartner_graph h hv hD 0 rest a1⟩
    · rintro ⟨ds, fuel, g', hd⟩
      obtain ⟨v, hv⟩ := (Dog.findPartner_spec h hnode D fuel (⟨ds ++ []⟩ : Script)).post (hd [])
      exact ⟨v, hv.partner⟩
  · intro hno fuel r
    exact Dog.findPartner_stuck h hnode D (fun v hv => hno ⟨v, hv⟩) fuel r

/-! ### C48: the positions of the DogEnsemble -/

namespace Dog

theorem placeGrid_spec (sc : ℚ) : ∀ (vs : List (SpacialNodeContainer T)) (l : Latin R), l.x.length = l.y.length →
    l.x.length = vs.length → ∃ (vs' : List (SpacialNodeContainer T)) (l' : Latin R) (xs ys : List Nat), placeGrid sc vs l = .ok (vs', l') ∧ xs.Perm l.x ∧ ys.Perm l.y ∧
      vs'.length = vs.length ∧ (∀ (i : Nat) (c : SpacialNodeContainer T), vs'[i]? = some c → ∃ v a b, vs[i]? = some v ∧
        xs[i]? = some a ∧ ys[i]? = some b ∧ c = { v with x := some ((a : ℚ) * sc), y := some ((b : ℚ) * sc) }) := by
  intro vs
  induction vs with
  | nil =>
    intro l h1 h2
    have hx : l.x = [] := List.length_eq_zero_iff.mp h2
    have hy : l.y = [] := List.length_eq_zero_iff.mp (h1 ▸ h2)
    exact ⟨[], l, [], [], rfl, by rw [hx], by rw [hy], rfl, by simp⟩
  | cons v vs ih =>
    intro l h1 h2
    obtain ⟨a, b, l1, n1, n2, n3, n4, n5⟩ := Latin.next_spec h1 (by intro hc; rw [hc] at h2; simp at h2)
    obtain ⟨vs', l', xs, ys, e1, e2, e3, e4, e5⟩ := ih l1 n4 (by simp at h2; omega)
    refine ⟨{ v with x := some ((a : ℚ) * sc), y := some ((b : ℚ) * sc) } :: vs', l', a :: xs, b :: ys, ?_, ?_, ?_, by simp [e4], ?_⟩
    · simp [placeGrid, n1, e1]
    · exact (e2.cons a).trans n2
    · exact (e3.cons b).trans n3
    · intro i c hc
      cases i with
      | zero =>
        simp only [List.getElem?_cons_zero, Option.some.injEq] at hc
        exact ⟨v, a, b, rfl, rfl, rfl, hc.symm⟩
      | succ i =>
        simp only [List.getElem?_cons_succ] at hc ⊢
        exact e5 i c hc

theorem jitter_spec (sc : ℚ) : ∀ (vs : List (SpacialNodeContainer T)) (r : R),
    (jitter sc vs r).1.length = vs.length ∧ (∀ (i : Nat) (c : SpacialNodeContainer T), (jitter sc vs r).1[i]? = some c →
      ∃ (v : SpacialNodeContainer T) (u w : ℚ), vs[i]? = some v ∧ 0 ≤ u ∧ u < 1 ∧ 0 ≤ w ∧ w < 1 ∧
        c = { v with x := v.x.map (· + u * sc), y := v.y.map (· + w * sc) }) := by
  intro vs
  have unit : ∀ r : R, 0 ≤ (uniformQ r).1 ∧ (uniformQ r).1 < 1 := by
    intro r
    have : (Rng.genUnit r).1 / 2 < 2 ^ 52 := Nat.div_lt_of_lt_mul (Rng.genUnit_lt r)
    unfold uniformQ
    refine ⟨by positivity, ?_⟩
    rw [div_lt_one (by positivity)]
    exact_mod_cast this
  induction vs with
  | nil => intro r; exact ⟨rfl, by simp [jitter]⟩
  | cons v vs ih =>
    intro r
    obtain ⟨h1, h2⟩ := ih (uniformQ (uniformQ r).2).2
    refine ⟨by simp only [jitter, List.length_cons]; omega, ?_⟩
    intro i c hc
    simp only [jitter] at hc
    cases i with
    | zero =>
      simp only [List.getElem?_cons_zero, Option.some.injEq] at hc
      exact ⟨v, _, _, by simp, (unit r).1, (unit r).2, (unit _).1, (unit _).2, hc.symm⟩
    | succ i =>
      rw [List.getElem?_cons_succ] at hc ⊢
      exact h2 i c hc

/-- What `new` does before `randomize`. -/
theorem new_eq [Node T] (fuel n : Nat) (r : R) (law : Pos → Pos → ℚ) (tau : ℚ) (lambda : Nat) (poisson : R → Nat × R)
    (hn : 0 < n) : ∃ (g : SpacialGraph T) (r' : R) (xs ys : List Nat), g.WF ∧ g.vertexCount = n ∧ g.edges = ∅ ∧
      g.data = (List.range n).map Node.newFromIndex ∧ xs.Perm (List.range n) ∧ ys.Perm (List.range n) ∧
      (∀ i < n, ∃ (a b : Nat) (x y : ℚ), xs[i]? = some a ∧ ys[i]? = some b ∧ posAt (coords g) i = (some x, some y) ∧
        (a : ℚ) / n ≤ x ∧ x < ((a : ℚ) + 1) / n ∧ (b : ℚ) / n ≤ y ∧ y < ((b : ℚ) + 1) / n) ∧
      (Dog.new fuel n r law tau lambda poisson : Res (Dog T R)) = randomize fuel ⟨g, r', law, tau, lambda, poisson⟩ := by
  have hnew : (GenericGraph.new n : SpacialGraph T).WF := new_wf n
  have hlen : (GenericGraph.new n : SpacialGraph T).vertices.length = n := hnew.len
  obtain ⟨vs1, l1, xs, ys, p1, p2, p3, p4, p5⟩ := placeGrid_spec (T := T) (1 / (n : ℚ)) (GenericGraph.new n : SpacialGraph T).vertices
    (Latin.new n r) rfl (by rw [hlen]; simp [Latin.new])
  obtain ⟨j1, j2⟩ := jitter_spec (1 / (n : ℚ)) vs1 l1.rng
  let g0 : SpacialGraph T := ⟨(GenericGraph.new n : SpacialGraph T).nextId, (GenericGraph.new n : SpacialGraph T).edgeCount,
    (jitter (1 / (n : ℚ)) vs1 l1.rng).1⟩
  obtain ⟨w1, w2, w3⟩ := wf_of_same (T := T) (g' := g0) hnew rfl rfl (j1.trans p4) (by
    intro i c hc
    obtain ⟨v, u, w, h1, _, _, _, _, h2⟩ := j2 i c hc
    obtain ⟨v0, a, b, h3, _, _, h4⟩ := p5 i v h1
    subst h4
    exact ⟨v0, _, _, h3, h2⟩)
  refine ⟨g0, (jitter (1 / (n : ℚ)) vs1 l1.rng).2, xs, ys, w1, rfl, ?_, ?_, p2, p3, ?_, ?_⟩
  · rw [w3]
    exact (hnew.edges_eq_of (S := ∅) (by
      intro i j
      rw [new_eq_fromVec, fromVec_nbrs]; simp))
  · rw [w2]
    show (GenericGraph.new n : SpacialGraph T).data = _
    rw [new_eq_fromVec, fromVec_data]
  · intro i hi
    have hl : i < (jitter (1 / (n : ℚ)) vs1 l1.rng).1.length := by rw [j1, p4, hlen]; exact hi
    obtain ⟨v, u, w, h1, u0, u1, w0, w1', h2⟩ := j2 i _ (List.getElem?_eq_getElem hl)
    obtain ⟨v0, a, b, h3, h5, h6, h4⟩ := p5 i v h1
    have hq : (0 : ℚ) < n := by exact_mod_cast hn
    refine ⟨a, b, (a : ℚ) * (1 / n) + u * (1 / n), (b : ℚ) * (1 / n) + w * (1 / n), h5, h6, ?_, ?_, ?_, ?_, ?_⟩
    · rw [← pos_of_idx (g := g0) (c := (jitter (1 / (n : ℚ)) vs1 l1.rng).1[i]) (List.getElem?_eq_getElem hl), h2, h4]
      rfl
    · rw [div_eq_mul_one_div, ← add_mul]
      exact mul_le_mul_of_nonneg_right (by linarith) (by positivity)
    · rw [div_eq_mul_one_div ((a : ℚ) + 1), ← add_mul]
      exact mul_lt_mul_of_pos_right (by linarith) (by positivity)
    · rw [div_eq_mul_one_div, ← add_mul]
      exact mul_le_mul_of_nonneg_right (by linarith) (by positivity)
    · rw [div_eq_mul_one_div ((b : ℚ) + 1), ← add_mul]
      exact mul_lt_mul_of_pos_right (by linarith) (by positivity)
  · unfold Dog.new
    simp only [Res.assert, hn, decide_true, if_true, Res.ok_bind, p1]
    rfl

end Dog

/-- `DogEnsemble::new` never panics for `n > 0`, `lambda > 0` and `tau` not too negative.  Whenever it returns, the graph is a
valid simple graph with `n` vertices, and the square is cut into `n` columns and `n` rows such that every column and every row
holds exactly one vertex. -/
theorem C48_dog_new [Node T] (fuel n : Nat) (r : R) (law : Pos → Pos → ℚ) (tau : ℚ) (lambda : Nat) (poisson : R → Nat × R)
    (hn : 0 < n) (hl : 0 < lambda) (htau : - (1 / 2) < tau * n) :
    (Dog.new fuel n r law tau lambda poisson : Res (Dog T R)).wp (fun e => e.graph.WF ∧ e.graph.vertexCount = n ∧
      e.graph.data = (List.range n).map Node.newFromIndex ∧
      ∃ xs ys : List Nat, xs.Perm (List.range n) ∧ ys.Perm (List.range n) ∧
        ∀ i < n, ∃ (a b : Nat) (x y : ℚ), xs[i]? = some a ∧ ys[i]? = some b ∧ posAt (coords e.graph) i = (some x, some y) ∧
          (a : ℚ) / n ≤ x ∧ x < ((a : ℚ) + 1) / n ∧ (b : ℚ) / n ≤ y ∧ y < ((b : ℚ) + 1) / n) True := by
  obtain ⟨g, r', xs, ys, h1, h2, h3, h4, h5, h6, h7, h8⟩ := Dog.new_eq (T := T) fuel n r law tau lambda poisson hn
  rw [h8]
  have hnum : (⟨g, r', law, tau, lambda, poisson⟩ : Dog T R).numSpecial ≤ g.vertexCount := by
    by_contra hc
    rw [not_le] at hc
    unfold Dog.numSpecial at hc
    rw [lt_roundUsize] at hc
    simp only [h2] at hc
    linarith
  refine Res.wp_mono (C47_dog_randomize (e := ⟨g, r', law, tau, lambda, poisson⟩) h1 fuel hnum hl (by rw [h2]; exact hn)) ?_ id
  rintro e ⟨a1, a2, a3, a4, _⟩
  refine ⟨a1, a2.trans h2, a3.trans h4, xs, ys, h5, h6, ?_⟩
  rw [a4]
  exact h7

/-- The first loop over the vertices, for given draws: the points of the iterator, in its order. -/
theorem Dog.placeGrid_script (sc : ℚ) : ∀ (vs : List (SpacialNodeContainer T)) (x y ds : List Nat), LatinDraws vs.length ds →
    x.length = vs.length → y.length = vs.length → ∃ (ps : List (Nat × Nat)) (l : Latin Script) (vs' : List (SpacialNodeContainer T)),
      (⟨x, y, (⟨ds⟩ : Script)⟩ : Latin Script).collect (vs.length + 1) = .ok (ps, l) ∧ ps.length = vs.length ∧ vs'.length = vs.length ∧
      (∀ rest, Dog.placeGrid sc vs ⟨x, y, (⟨ds ++ rest⟩ : Script)⟩ = .ok (vs', ⟨[], [], ⟨rest⟩⟩)) ∧
      ∀ (i : Nat) (c : SpacialNodeContainer T), vs'[i]? = some c → ∃ v q, vs[i]? = some v ∧ ps[i]? = some q ∧
        c = { v with x := some ((q.1 : ℚ) * sc), y := some ((q.2 : ℚ) * sc) } := by
  intro vs
  induction vs with
  | nil =>
    intro x y ds hd hx hy
    obtain rfl := List.length_eq_zero_iff.mp hx
    obtain rfl := List.length_eq_zero_iff.mp hy
    obtain rfl : ds = [] := hd
    exact ⟨[], _, [], rfl, rfl, rfl, fun rest => rfl, by simp⟩
  | cons v vs ih =>
    intro x y ds hd hx hy
    obtain ⟨i, j, ds', rfl, hi, hj, hd'⟩ := hd
    rw [List.length_cons] at hx hy
    have hi' : i < x.length := by omega
    have hj' : j < y.length := by omega
    obtain ⟨x', x1, x2⟩ := Vec.swapRemove_of_lt hi'
    obtain ⟨y', y1, y2⟩ := Vec.swapRemove_of_lt hj'
    have lx := x2.length_eq
    have ly := y2.length_eq
    simp only [List.length_cons] at lx ly
    obtain ⟨ps, l, vs', h1, h2, h3, h4, h5⟩ := ih x' y' ds' hd' (by omega) (by omega)
    have step : ∀ rest, (⟨x, y, (⟨i :: j :: rest⟩ : Script)⟩ : Latin Script).next = .ok (some (x[i], y[j]), ⟨x', y', ⟨rest⟩⟩) := by
      intro rest
      have hne : x.isEmpty = false := by
        cases x with
        | nil => simp at hx
        | cons => rfl
      unfold Latin.next
      simp only [hne, Bool.false_eq_true, if_false]
      rw [script_genRange hi']
      simp only [Res.ok_bind]
      rw [script_genRange (show j < x.length by omega)]
      simp only [Res.ok_bind, x1, y1, Res.pure_eq]
    refine ⟨(x[i], y[j]) :: ps, l, { v with x := some ((x[i] : ℚ) * sc), y := some ((y[j] : ℚ) * sc) } :: vs', ?_, by simp [h2],
      by simp [h3], ?_, ?_⟩
    · rw [Latin.collect, step]
      simp only [Res.ok_bind, List.length_cons, h1, Res.pure_eq]
    · intro rest
      simp only [Dog.placeGrid, List.cons_append, step, Res.ok_bind, h4, Res.pure_eq]
    · intro k c hc
      cases k with
      | zero =>
        simp only [List.getElem?_cons_zero, Option.some.injEq] at hc
        exact ⟨v, _, rfl, rfl, hc.symm⟩
      | succ k =>
        simp only [List.getElem?_cons_succ] at hc ⊢
        exact h5 k c hc

/-- The second loop, for given draws: two of its own for every vertex. -/
theorem Dog.jitter_script (sc : ℚ) : ∀ (vs : List (SpacialNodeContainer T)) (os : List (Nat × Nat)), os.length = vs.length →
    (∀ o ∈ os, o.1 < 2 ^ 53 ∧ o.2 < 2 ^ 53) → ∀ rest, (Dog.jitter sc vs (⟨os.flatMap (fun o => [o.1, o.2]) ++ rest⟩ : Script)).2 = ⟨rest⟩ ∧
      ∀ (i : Nat) (c : SpacialNodeContainer T),
        (Dog.jitter sc vs (⟨os.flatMap (fun o => [o.1, o.2]) ++ rest⟩ : Script)).1[i]? = some c → ∃ v o, vs[i]? = some v ∧ os[i]? = some o ∧
          c = { v with x := v.x.map (· + ((o.1 / 2 : Nat) : ℚ) / 2 ^ 52 * sc), y := v.y.map (· + ((o.2 / 2 : Nat) : ℚ) / 2 ^ 52 * sc) } := by
  intro vs
  have unit : ∀ (u : Nat) (l : List Nat), u < 2 ^ 53 → uniformQ (⟨u :: l⟩ : Script) = (((u / 2 : Nat) : ℚ) / 2 ^ 52, ⟨l⟩) := by
    intro u l hu
    have hg : Rng.genUnit (⟨u :: l⟩ : Script) = (u, ⟨l⟩) := by
      simp [Rng.genUnit, Script.next]; omega
    rw [uniformQ, hg]
  induction vs with
  | nil =>
    intro os ho hb rest
    obtain rfl := List.length_eq_zero_iff.mp ho
    exact ⟨rfl, by simp [Dog.jitter]⟩
  | cons v vs ih =>
    intro os ho hb rest
    cases os with
    | nil => simp at ho
    | cons o os =>
      have hb0 := hb o (by simp)
      obtain ⟨h1, h2⟩ := ih os (by simpa using ho) (fun o' h' => hb o' (by simp [h'])) rest
      simp only [List.flatMap_cons, List.cons_append, List.nil_append, Dog.jitter, unit _ _ hb0.1, unit _ _ hb0.2]
      refine ⟨h1, ?_⟩
      intro i c hc
      cases i with
      | zero =>
        simp only [List.getElem?_cons_zero, Option.some.injEq] at hc ⊢
        exact ⟨v, o, rfl, rfl, hc.symm⟩
      | succ i =>
        rw [List.getElem?_cons_succ] at hc ⊢
        rw [List.getElem?_cons_succ]
        exact h2 i c hc

/-- Where the vertices of a `DogEnsemble` are, as a function of the draws: the columns and rows are the points of
`LatinHypercubeSampling2D` for the first `2 n` draws (all orders are equally likely, `C48_latin_uniform`), and within its cell every
vertex has an offset for each of the coordinates, made of two draws used for nothing else.  So under a uniform generator the cells and
all `2 n` offsets are independent, and the offsets uniform. -/
theorem C48_dog_positions [Node T] {n : Nat} (hn : 0 < n) {ds : List Nat} (hd : LatinDraws n ds) {os : List (Nat × Nat)}
    (ho : os.length = n) (hb : ∀ o ∈ os, o.1 < 2 ^ 53 ∧ o.2 < 2 ^ 53) (rest : List Nat) (fuel : Nat) (law : Pos → Pos → ℚ) (tau : ℚ)
    {lambda : Nat} (hl : 0 < lambda) (htau : - (1 / 2) < tau * n) (poisson : Script → Nat × Script) {e : Dog T Script}
    (hok : Dog.new fuel n (⟨ds ++ (os.flatMap (fun o => [o.1, o.2]) ++ rest)⟩ : Script) law tau lambda poisson = .ok e) :
    ∃ ps l, (Latin.new n (⟨ds⟩ : Script)).collect (n + 1) = .ok (ps, l) ∧ ∀ i < n, ∃ q o, ps[i]? = some q ∧ os[i]? = some o ∧
      posAt (coords e.graph) i = (some (((q.1 : ℚ) + ((o.1 / 2 : Nat) : ℚ) / 2 ^ 52) / n), some (((q.2 : ℚ) + ((o.2 / 2 : Nat) : ℚ) / 2 ^ 52) / n)) := by
  have hnew : (GenericGraph.new n : SpacialGraph T).WF := new_wf n
  have hlen : (GenericGraph.new n : SpacialGraph T).vertices.length = n := hnew.len
  obtain ⟨ps, l, vs1, p1, p2, p3, p4, p5⟩ := Dog.placeGrid_script (T := T) (1 / (n : ℚ)) (GenericGraph.new n : SpacialGraph T).vertices
    (List.range n) (List.range n) ds (by rw [hlen]; exact hd) (by simp [hlen]) (by simp [hlen])
  obtain ⟨j1, j2⟩ := Dog.jitter_script (1 / (n : ℚ)) vs1 os (by rw [ho, p3, hlen]) hb rest
  rw [hlen] at p1 p2 p3
  refine ⟨ps, l, p1, fun i hi => ?_⟩
  obtain ⟨k1, _⟩ := Dog.jitter_spec (1 / (n : ℚ)) vs1 (⟨os.flatMap (fun o => [o.1, o.2]) ++ rest⟩ : Script)
  generalize hjit : Dog.jitter (1 / (n : ℚ)) vs1 (⟨os.flatMap (fun o => [o.1, o.2]) ++ rest⟩ : Script) = jit at j1 j2 k1
  let g0 : SpacialGraph T := ⟨(GenericGraph.new n : SpacialGraph T).nextId, (GenericGraph.new n : SpacialGraph T).edgeCount, jit.1⟩
  have heq : (Dog.new fuel n (⟨ds ++ (os.flatMap (fun o => [o.1, o.2]) ++ rest)⟩ : Script) law tau lambda poisson : Res (Dog T Script)) =
      Dog.randomize fuel ⟨g0, jit.2, law, tau, lambda, poisson⟩ := by
    unfold Dog.new
    simp only [Res.assert, hn, decide_true, if_true, Res.ok_bind, Latin.new, p4, hjit]
    rfl
  rw [heq] at hok
  obtain ⟨w1, _, _⟩ := wf_of_same (T := T) (g' := g0) hnew rfl rfl (k1.trans (p3.trans hlen.symm)) (by
    intro i c hc
    obtain ⟨v, o, h1, _, h2⟩ := j2 i c hc
    obtain ⟨v0, q, h3, _, h4⟩ := p5 i v h1
    subst h4
    exact ⟨v0, _, _, h3, h2⟩)
  have hnum : (⟨g0, jit.2, law, tau, lambda, poisson⟩ : Dog T Script).numSpecial ≤ g0.vertexCount := by
    by_contra hc
    rw [not_le] at hc
    unfold Dog.numSpecial at hc
    rw [lt_roundUsize] at hc
    simp only [show g0.vertexCount = n from rfl] at hc
    linarith
  have hr := C47_dog_randomize (e := ⟨g0, jit.2, law, tau, lambda, poisson⟩) w1 fuel hnum hl hn
  rw [hok] at hr
  obtain ⟨_, _, _, a4, _⟩ := hr
  have hl' : i < jit.1.length := by rw [k1, p3]; exact hi
  obtain ⟨v, o, h1, h6, h2⟩ := j2 i _ (List.getElem?_eq_getElem hl')
  obtain ⟨v0, q, h3, h5, h4⟩ := p5 i v h1
  refine ⟨q, o, h5, h6, ?_⟩
  rw [a4, ← pos_of_idx (g := g0) (c := jit.1[i]) (List.getElem?_eq_getElem hl'), h2, h4]
  simp only [SpacialNodeContainer.pos, Option.map_some, Prod.mk.injEq, Option.some.injEq]
  constructor <;> ring

/-- The hypotheses are met. -/
example : LatinDraws 2 [1, 0, 0, 0] ∧ (∀ o ∈ [(6, 8), (0, 2 ^ 52)], o.1 < 2 ^ 53 ∧ o.2 < 2 ^ 53) ∧ - (1 / 2) < (1 : ℚ) * 2 ∧
    ∃ e : Dog Nat Script, Dog.new 1 2 (⟨[1, 0, 0, 0] ++ ([(6, 8), (0, 2 ^ 52)].flatMap (fun o => [o.1, o.2]) ++ [])⟩ : Script)
      (fun _ _ => 1 / 2) 1 1 (fun r => (0, r)) = .ok e ∧
      coords e.graph = [(some (1 / 2 + 3 / 2 ^ 53), some (4 / 2 ^ 53)), (some 0, some (3 / 4))] := by
  refine ⟨⟨1, 0, _, rfl, by decide, by decide, 0, 0, _, rfl, by decide, by decide, rfl⟩, by decide, by norm_num, ?_⟩
  have key : ∀ x : Res (Dog Nat Script), (match x with
      | .ok e => decide (coords e.graph = [(some (1 / 2 + 3 / 2 ^ 53), some (4 / 2 ^ 53)), (some 0, some (3 / 4))])
      | _ => false) = true →
      ∃ e, x = .ok e ∧ coords e.graph = [(some (1 / 2 + 3 / 2 ^ 53), some (4 / 2 ^ 53)), (some 0, some (3 / 4))] := by
    intro x hx
    cases x with
    | ok e => exact ⟨e, rfl, of_decide_eq_true hx⟩
    | panic => cases hx
    | diverge => cases hx
  exact key _ (by decide +kernel)

/-- `DogEnsemble::new` panics exactly if there are no vertices, if `lambda` is zero, or if `tau` is too negative. -/
theorem C58_dog_new_panics_iff [Node T] (fuel n : Nat) (r : R) (law : Pos → Pos → ℚ) (tau : ℚ) (lambda : Nat)
    (poisson : R → Nat × R) : (Dog.new fuel n r law tau lambda poisson : Res (Dog T R)) = .panic ↔
      n = 0 ∨ lambda = 0 ∨ tau * n ≤ - (1 / 2) := by
  rcases Nat.eq_zero_or_pos n with rfl | hn
  · exact ⟨fun _ => .inl rfl, fun _ => rfl⟩
  · obtain ⟨g, r', xs, ys, h1, h2, _, _, _, _, _, h8⟩ := Dog.new_eq (T := T) fuel n r law tau lambda poisson hn
    rw [h8, C58_dog_panics_iff h1]
    simp only [h2]

/-! Cases that meet the hypotheses. -/

/-- Four vertices on a line; every short edge of length one succeeds, the others fail. -/
def exDog : Dog Nat Script where
  graph := exSpacial.graph
  rng := ⟨[]⟩
  law := exSpacial.law
  tau := 1 / 2
  lambda := 2
  poisson := fun r => (1, r)

example : exDog.graph.WF ∧ 0 < exDog.graph.vertexCount ∧ 0 < exDog.lambda ∧ exDog.numSpecial ≤ exDog.graph.vertexCount ∧
    0 < exDog.numSpecial := by
  have h1 : exDog.graph.WF := exSpacial_wf
  refine ⟨h1, by decide, by decide, ?_, ?_⟩
  · rw [← not_lt, Dog.numSpecial, lt_roundUsize, show exDog.graph.vertexCount = exSpacial.graph.vertexCount from rfl,
      show exDog.tau = 1 / 2 from rfl]
    have : (0 : ℚ) ≤ exSpacial.graph.vertexCount := by positivity
    intro hc; linarith
  · rw [Dog.numSpecial, lt_roundUsize, show exDog.graph.vertexCount = exSpacial.graph.vertexCount from rfl,
      show exDog.tau = 1 / 2 from rfl, show exSpacial.graph.vertexCount = 3 from rfl]
    norm_num

/-- Without short edges and with a Poisson number that is never zero. -/
def exLonely : Dog Nat Script := { exDog with law := fun _ _ => -1 }

/-- With a Poisson number that is always as large as the number of vertices. -/
def exFull : Dog Nat Script := { exDog with poisson := fun r => (3, r) }

theorem throwsLt_neg : ∀ (l : List (Nat × Nat)) (r : R), chosen l (throwsLt (fun _ => -1) l r).1 = ∅ := by
  intro l
  induction l with
  | nil => intro r; simp [chosen]
  | cons q l ih =>
    intro r
    have : (coinLt r (-1)).1 = false := by
      unfold coinLt uniformQ
      simp only [decide_eq_false_iff_not, not_lt]
      have : (0 : ℚ) ≤ (((Rng.genUnit r).1 / 2 : Nat) : ℚ) / 2 ^ 52 := by positivity
      linarith
    have h2 := ih (coinLt r (-1)).2
    simp only [chosen] at h2 ⊢
    simp only [throwsLt, this, List.zip_cons_cons, List.filter_cons]
    exact h2

example : exLonely.near.1 = ∅ ∧ ∀ r, 0 < (exLonely.poisson r).1 :=
  ⟨throwsLt_neg _ _, fun _ => Nat.one_pos⟩

example : ∀ r, exFull.graph.vertexCount ≤ (exFull.poisson r).1 := fun _ => Nat.le_refl 3

example : ∃ v < exSpacial.graph.vertexCount, v ≠ 2 ∧ ¬ exSpacial.graph.toSimple.Adj 2 v ∧ ∃ w, exSpacial.graph.toSimple.Adj v w := by
  refine ⟨0, by decide, by decide, ?_, 1, ?_⟩
  · rw [exSpacial_wf.adj_iff]; decide
  · rw [exSpacial_wf.adj_iff]; decide

end Verif
