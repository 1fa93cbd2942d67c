import Verif.Props.Dog
import Verif.Props.SpacialDot

/-!
# C75 and C87 for `DogEnsemble`

The public calls that change a `DogEnsemble` are `new` and `randomize` (src/spacial/dog_networks.rs:43-152); `graph` only looks.
-/

set_option linter.unusedSectionVars false
set_option linter.unusedSimpArgs false

namespace Verif
open AdjContainer GenericGraph DotRead

variable {T R : Type} [Rng R]

/-- A call of `randomize` that returns. -/
def Dog.Call (x y : Dog T R) : Prop := ∃ fuel, x.randomize fuel = .ok y

/-- `DogEnsemble`: after any number of calls of `randomize` the graph is a simple graph on the vertices of the constructor, with their node
data, at their positions (one in each column and each row of the square cut into `n` columns and rows), and the parameters are those of
the constructor; the next `randomize` does not panic. -/
theorem C75_dog [Node T] {n : Nat} {r : R} {law : Pos → Pos → ℚ} {tau : ℚ} {lambda : Nat} {poisson : R → Nat × R} {fuel : Nat} {e0 : Dog T R}
    (h0 : Dog.new fuel n r law tau lambda poisson = .ok e0) {e : Dog T R} (he : Relation.ReflTransGen Dog.Call e0 e) :
    e.graph.WF ∧ e.graph.vertexCount = n ∧ e.graph.data = (List.range n).map Node.newFromIndex ∧ coords e.graph = coords e0.graph ∧
      e.law = law ∧ e.tau = tau ∧ e.lambda = lambda ∧ e.poisson = poisson ∧ (∀ fuel, e.randomize fuel ≠ .panic) ∧
      ∃ xs ys : List Nat, xs.Perm (List.range n) ∧ ys.Perm (List.range n) ∧
        ∀ i < n, ∃ (a b : Nat) (x y : ℚ), xs[i]? = some a ∧ ys[i]? = some b ∧ posAt (coords e.graph) i = (some x, some y) ∧
          (a : ℚ) / n ≤ x ∧ x < ((a : ℚ) + 1) / n ∧ (b : ℚ) / n ≤ y ∧ y < ((b : ℚ) + 1) / n := by
  have hp := (C58_dog_new_panics_iff (T := T) fuel n r law tau lambda poisson).not.mp (by rw [h0]; exact fun h => by cases h)
  push Not at hp
  obtain ⟨hn, hl, ht⟩ := hp
  have hn' : 0 < n := Nat.pos_of_ne_zero hn
  have hl' : 0 < lambda := Nat.pos_of_ne_zero hl
  have hpar : ∀ {x y : Dog T R} {fuel : Nat}, x.randomize fuel = .ok y →
      y.law = x.law ∧ y.tau = x.tau ∧ y.lambda = x.lambda ∧ y.poisson = x.poisson := by
    intro x y fuel h
    unfold Dog.randomize at h
    simp only [Res.bind_eq_ok, Res.pure_eq, Res.ok.injEq] at h
    obtain ⟨_, _, _, _, _, _, _, _, _, _, rfl⟩ := h
    exact ⟨rfl, rfl, rfl, rfl⟩
  obtain ⟨b1, b2, b3, b4⟩ := (C48_dog_new (T := T) fuel n r law tau lambda poisson hn' hl' ht).post h0
  obtain ⟨g, r', _, _, _, _, _, _, _, _, _, h8⟩ := Dog.new_eq (T := T) fuel n r law tau lambda poisson hn'
  obtain ⟨c1, c2, c3, c4⟩ := hpar (h8 ▸ h0)
  have key : e.graph.WF ∧ e.graph.vertexCount = n ∧ e.graph.data = e0.graph.data ∧ coords e.graph = coords e0.graph ∧
      e.law = law ∧ e.tau = tau ∧ e.lambda = lambda ∧ e.poisson = poisson := by
    induction he with
    | refl => exact ⟨b1, b2, rfl, rfl, c1, c2, c3, c4⟩
    | tail _ hc ih =>
      obtain ⟨a1, a2, a3, a4, a5, a6, a7, a8⟩ := ih
      obtain ⟨f, hc⟩ := hc
      obtain ⟨d1, d2, d3, d4⟩ := hpar hc
      have hnum := (C58_dog_panics_iff a1 f).not.mp (by rw [hc]; exact fun h => by cases h)
      push Not at hnum
      obtain ⟨k1, k2, k3, k4, _⟩ := (C47_dog_randomize a1 f (by
        by_contra hcc
        rw [not_le] at hcc
        unfold Dog.numSpecial at hcc
        rw [lt_roundUsize] at hcc
        rw [a2, a6] at hcc
        linarith) (by rw [a7]; exact hl') (by rw [a2]; exact hn')).post hc
      exact ⟨k1, k2.trans a2, k3.trans a3, k4.trans a4, d1.trans a5, d2.trans a6, d3.trans a7, d4.trans a8⟩
  obtain ⟨a1, a2, a3, a4, a5, a6, a7, a8⟩ := key
  refine ⟨a1, a2, a3.trans b3, a4, a5, a6, a7, a8, fun f => ?_, by rw [a4]; exact b4⟩
  refine (C58_dog_panics_iff a1 f).not.mpr ?_
  rw [a2, a6, a7]
  push Not
  exact ⟨hn, hl, ht⟩

/-- The text written by `dot_string_from_indices`, `dot_string_with_indices` and `dot_string` of a `DogEnsemble` after any number of calls of
`randomize`: the graph, the labels, and every vertex pinned to a hundred times its position in the unit square. -/
theorem C87_dog_history [Node T] {n : Nat} {r : R} {law : Pos → Pos → ℚ} {tau : ℚ} {lambda : Nat} {poisson : R → Nat × R} {fuel : Nat}
    {e0 : Dog T R} (h0 : Dog.new fuel n r law tau lambda poisson = .ok e0) :
    ∃ x y : Nat → ℚ, (∀ i < n, posAt (coords e0.graph) i = (some (x i), some (y i)) ∧ 0 ≤ x i ∧ x i < 1 ∧ 0 ≤ y i ∧ y i < 1) ∧
      ∀ e, Relation.ReflTransGen Dog.Call e0 e → ∀ opts, IsOptions opts →
        (∀ f : Nat → String, (∀ i < n, IsLabel (f i)) → ∃ s st, dotToString (e.dotFromIndices putString opts f) = .ok s ∧
          Draws n e.graph.toSimple s st ∧ ∀ i < n, label st (toString i) = some (f i) ∧ Pins st i (100 * x i) (100 * y i)) ∧
        (∃ s st, dotToString (e.dotWithIndices putString opts) = .ok s ∧
          Draws n e.graph.toSimple s st ∧ ∀ i < n, label st (toString i) = some (toString i) ∧ Pins st i (100 * x i) (100 * y i)) ∧
        ∃ s st, dotToString (e.dot putString opts) = .ok s ∧
          Draws n e.graph.toSimple s st ∧ ∀ i < n, label st (toString i) = some "" ∧ Pins st i (100 * x i) (100 * y i) := by
  have hpos : ∀ i < n, ∃ x y : ℚ, posAt (coords e0.graph) i = (some x, some y) ∧ 0 ≤ x ∧ x < 1 ∧ 0 ≤ y ∧ y < 1 := by
    obtain ⟨_, _, _, _, _, _, _, _, _, xs, ys, p1, p2, hp⟩ := C75_dog h0 .refl
    intro i hi
    have hn : (0 : ℚ) < n := by exact_mod_cast Nat.lt_of_le_of_lt (Nat.zero_le i) hi
    obtain ⟨a, b, x, y, h1, h2, h3, h4, h5, h6, h7⟩ := hp i hi
    have ha : a < n := List.mem_range.mp (p1.mem_iff.mp (List.mem_of_getElem? h1))
    have hb : b < n := List.mem_range.mp (p2.mem_iff.mp (List.mem_of_getElem? h2))
    have hup : ∀ c : Nat, c < n → ((c : ℚ) + 1) / n ≤ 1 := fun c hc => by
      rw [div_le_one hn]; exact_mod_cast hc
    exact ⟨x, y, h3, le_trans (by positivity) h4, lt_of_lt_of_le h5 (hup a ha), le_trans (by positivity) h6, lt_of_lt_of_le h7 (hup b hb)⟩
  choose! x y hxy using hpos
  refine ⟨x, y, hxy, fun e he opts ho => ?_⟩
  obtain ⟨h1, h2, _, h4, _⟩ := C75_dog h0 he
  have := C87_dog h1 (x := x) (y := y) (by rw [h2, h4]; exact fun i hi => (hxy i hi).1) ho
  rwa [h2] at this

/-- A case that meets the hypotheses: two vertices, joined or not, drawn twice; the second part adds no edges. -/
example : ∃ (e0 e : Dog Nat Script), Dog.new 0 2 ⟨[]⟩ (fun _ _ => 1 / 2) 1 1 (fun r => (0, r)) = .ok e0 ∧
    Relation.ReflTransGen Dog.Call e0 e ∧ e.graph.edgeCount = 1 := by
  have key : ((Dog.new 0 2 ⟨[]⟩ (fun _ _ => 1 / 2) 1 1 (fun r => (0, r)) : Res (Dog Nat Script)).bind fun e0 => (e0.randomize 0).bind fun e =>
      .ok e.graph.edgeCount) = .ok 1 := by
    decide +kernel
  obtain ⟨e0, h0, h1⟩ := Res.bind_eq_ok.mp key
  obtain ⟨e, h2, h3⟩ := Res.bind_eq_ok.mp h1
  exact ⟨e0, e, h0, .single ⟨0, h2⟩, Res.ok.inj h3⟩

end Verif
