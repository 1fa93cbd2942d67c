import Verif.Lemmas.Bicon2
import Verif.Model.Bicon
import Verif.Lemmas.EdgeSet
import Verif.Lemmas.Traverse
import Verif.Lemmas.Connect
import Verif.Lemmas.Connect2

/-!
# The edge stack and the invariant of `vertex_biconnected_components`
-/

set_option linter.unusedSectionVars false
set_option linter.unusedSimpArgs false

namespace Verif
open AdjContainer

variable {G : SimpleGraph ℕ} {p : List ℕ} {lo nu : ℕ → ℕ}

/-- The edge stack contains the edges of the path; the edges above an edge `(u, v)` of the path start at `v` or below and their ends are
accounted for by the low points. -/
structure EsInv (p : List ℕ) (lo nu : ℕ → ℕ) (es : List (ℕ × ℕ)) : Prop where
  short : p.length ≤ 1 → es = []
  tree : ∀ u ∈ p, ∀ v ∈ p, nu v = nu u + 1 → ∃ above below, es = above ++ (u, v) :: below ∧
    ∀ e ∈ above, nu v ≤ nu e.1 ∧ ∃ x ∈ p, nu v ≤ nu x ∧ lo x ≤ nu e.2

namespace EsInv
variable {es : List (ℕ × ℕ)}

theorem push {top y : ℕ} (h : EsInv (p ++ [top]) lo nu es) (hp : PathInv (p ++ [top]) nu) (hl : LowInv (p ++ [top]) lo nu)
    (hy : y ∉ p ++ [top]) (hes : ∀ e ∈ es, e.1 ≠ y ∧ e.2 ≠ y) :
    EsInv (p ++ [top] ++ [y]) (Function.update lo y (nu top)) (Function.update nu y (p.length + 1)) ((top, y) :: es) := by
  have htop := hp.last
  have hne : ∀ x ∈ p ++ [top], x ≠ y := fun x hx e => hy (e ▸ hx)
  have hnu : ∀ x ∈ p ++ [top], Function.update nu y (p.length + 1) x = nu x := fun x hx => Function.update_of_ne (hne x hx) _ _
  have hlo : ∀ x ∈ p ++ [top], Function.update lo y (nu top) x = lo x := fun x hx => Function.update_of_ne (hne x hx) _ _
  have hlt : ∀ x ∈ p ++ [top], nu x < p.length + 1 := fun x hx => by
    have := hp.lt hx
    simpa using this
  have hsplit : ∀ x, x ∈ p ++ [top] ++ [y] ↔ x ∈ p ++ [top] ∨ x = y := by
    intro x; rw [List.mem_append (s := p ++ [top]), List.mem_singleton]
  refine ⟨by simp, ?_⟩
  intro u hu v hv huv
  rcases (hsplit u).mp hu with hu | rfl
  · rw [hnu u hu] at huv
    rcases (hsplit v).mp hv with hv | rfl
    · rw [hnu v hv] at huv ⊢
      obtain ⟨above, below, h1, h2⟩ := h.tree u hu v hv huv
      refine ⟨(top, y) :: above, below, by rw [h1]; rfl, ?_⟩
      intro e he
      rcases List.mem_cons.mp he with rfl | he
      · simp only
        rw [hnu top (by simp)]
        have := hlt v hv
        refine ⟨by omega, v, (hsplit v).mpr (Or.inl hv), by rw [hnu v hv], ?_⟩
        rw [hlo v hv, Function.update_self]
        have := hl v hv
        omega
      · obtain ⟨h3, h4⟩ := hes e (by rw [h1]; simp [he])
        rw [Function.update_of_ne h3, Function.update_of_ne h4]
        obtain ⟨h5, x, hx, h6, h7⟩ := h2 e he
        exact ⟨h5, x, (hsplit x).mpr (Or.inl hx), by rw [hnu x hx]; exact h6, by rw [hlo x hx]; exact h7⟩
    · rw [Function.update_self] at huv
      have : u = top := hp.inj ‹u ∈ p ++ [top]› (by simp) (by omega)
      subst this
      exact ⟨[], es, rfl, by simp⟩
  · rw [Function.update_self] at huv
    rcases (hsplit v).mp hv with hv | rfl
    · rw [hnu v hv] at huv
      have := hlt v hv
      omega
    · rw [Function.update_self] at huv
      omega

theorem back {top w : ℕ} (h : EsInv (p ++ [top]) lo nu es) (hp : PathInv (p ++ [top]) nu) (hpos : 1 ≤ p.length) :
    EsInv (p ++ [top]) (Function.update lo top (min (lo top) (nu w))) nu ((top, w) :: es) := by
  have htop := hp.last
  refine ⟨fun hs => by simp at hs; subst hs; simp at hpos, ?_⟩
  intro u hu v hv huv
  obtain ⟨above, below, h1, h2⟩ := h.tree u hu v hv huv
  refine ⟨(top, w) :: above, below, by rw [h1]; rfl, ?_⟩
  have hlt := hp.lt hv
  simp only [List.length_append, List.length_singleton] at hlt
  intro e he
  rcases List.mem_cons.mp he with rfl | he
  · simp only
    refine ⟨by omega, top, by simp, by omega, ?_⟩
    rw [Function.update_self]
    omega
  · obtain ⟨h5, x, hx, h6, h7⟩ := h2 e he
    refine ⟨h5, x, hx, h6, ?_⟩
    by_cases hxt : x = top
    · subst hxt
      rw [Function.update_self]
      omega
    · rw [Function.update_of_ne hxt]
      exact h7

theorem keep {top next : ℕ} {q : List ℕ} (hq : p = q ++ [next]) (h : EsInv (p ++ [top]) lo nu es) (hp : PathInv (p ++ [top]) nu)
    (hlo : lo top < p.length - 1) :
    EsInv p (Function.update lo next (min (lo next) (lo top))) nu es := by
  have htop := hp.last
  have hnext : nu next + 1 = p.length := by
    have := hp.pop
    rw [hq] at this
    rw [this.last, hq]
    simp
  have hnextm : next ∈ p := by rw [hq]; simp
  refine ⟨fun hs => by omega, ?_⟩
  intro u hu v hv huv
  obtain ⟨above, below, h1, h2⟩ := h.tree u (by simp [hu]) v (by simp [hv]) huv
  refine ⟨above, below, h1, ?_⟩
  intro e he
  obtain ⟨h5, x, hx, h6, h7⟩ := h2 e he
  have hlt := hp.pop.lt hv
  rcases List.mem_append.mp hx with hx | hx
  · refine ⟨h5, x, hx, h6, ?_⟩
    by_cases hxn : x = next
    · subst hxn
      rw [Function.update_self]
      omega
    · rw [Function.update_of_ne hxn]
      exact h7
  · rw [List.mem_singleton] at hx
    subst hx
    refine ⟨h5, next, hnextm, by omega, ?_⟩
    rw [Function.update_self]
    omega

theorem dropWhile_all {α : Type} (q : α → Bool) : ∀ (a : List α), (∀ x ∈ a, q x = true) → a.dropWhile q = []
  | [], _ => rfl
  | x :: a, h => by
    rw [List.dropWhile_cons, if_pos (h x (by simp))]
    exact dropWhile_all q a (fun y hy => h y (List.mem_cons_of_mem _ hy))

theorem dropWhile_stop {α : Type} (q : α → Bool) (a : List α) (x : α) (b : List α) (hx : q x = false) :
    (a ++ x :: b).dropWhile q = a.dropWhile q ++ x :: b := by
  induction a with
  | nil => simp [List.dropWhile_cons, hx]
  | cons y a ih =>
    rw [List.cons_append, List.dropWhile_cons, List.dropWhile_cons]
    split
    · exact ih
    · rfl

/-- The condition of the loop taking edges from the stack. -/
def keepEdge (nu : ℕ → ℕ) (bound : ℕ) (e : ℕ × ℕ) : Bool := decide (bound ≤ nu e.2) && decide (bound ≤ nu e.1)

theorem close {top : ℕ} (h : EsInv (p ++ [top]) lo nu es) (hp : PathInv (p ++ [top]) nu) (hl : LowInv (p ++ [top]) lo nu)
    (hpos : 1 ≤ p.length) (hlo : lo top = p.length - 1) :
    EsInv p lo nu (es.dropWhile (keepEdge nu (p.length - 1))) ∧ es.takeWhile (keepEdge nu (p.length - 1)) ≠ [] := by
  have htop := hp.last
  constructor
  · refine ⟨?_, ?_⟩
    · intro h1
      apply dropWhile_all
      intro e _
      have : p.length - 1 = 0 := by omega
      simp [keepEdge, this]
    · intro u hu v hv huv
      obtain ⟨above, below, h1, h2⟩ := h.tree u (by simp [hu]) v (by simp [hv]) huv
      have hlt := hp.pop.lt hv
      refine ⟨above.dropWhile (keepEdge nu (p.length - 1)), below, ?_, ?_⟩
      · rw [h1]
        apply dropWhile_stop
        simp [keepEdge]
        omega
      · intro e he
        obtain ⟨h5, x, hx, h6, h7⟩ := h2 e ((List.dropWhile_sublist _).subset he)
        rcases List.mem_append.mp hx with hx | hx
        · exact ⟨h5, x, hx, h6, h7⟩
        · rw [List.mem_singleton] at hx
          subst hx
          have := hl v (by simp [hv])
          exact ⟨h5, v, hv, Nat.le_refl _, by omega⟩
  · obtain ⟨u, hu, hnu⟩ := hp.pop.exists_of_lt (t := p.length - 1) (by omega)
    obtain ⟨above, below, h1, h2⟩ := h.tree u (by simp [hu]) top (by simp) (by omega)
    have hall : ∀ e ∈ above ++ [(u, top)], keepEdge nu (p.length - 1) e = true := by
      intro e he
      rcases List.mem_append.mp he with he | he
      · obtain ⟨h5, x, hx, h6, h7⟩ := h2 e he
        have hxt : x = top := by
          rcases List.mem_append.mp hx with hx | hx
          · have := hp.pop.lt hx; omega
          · simpa using hx
        subst hxt
        simp [keepEdge]
        omega
      · rw [List.mem_singleton] at he
        subst he
        simp [keepEdge]
        omega
    have he : ∃ e l, above ++ [(u, top)] = e :: l := by
      cases above with
      | nil => exact ⟨_, _, rfl⟩
      | cons a l => exact ⟨_, _, rfl⟩
    obtain ⟨e, l, he⟩ := he
    have h3 : es = e :: (l ++ below) := by
      rw [h1]
      have : above ++ (u, top) :: below = (above ++ [(u, top)]) ++ below := by simp
      rw [this, he]
      rfl
    rw [h3, List.takeWhile_cons, if_pos (hall e (by rw [he]; simp))]
    simp

end EsInv

/-- `popEdges` splits the stack. -/
theorem popEdges_spec {number : List ℕ} {bound : ℕ} : ∀ (es : List (ℕ × ℕ)), (∀ e ∈ es, e.1 < number.length ∧ e.2 < number.length) →
    popEdges number bound es = .ok (es.takeWhile (EsInv.keepEdge (fun x => number.getD x 0) bound),
      es.dropWhile (EsInv.keepEdge (fun x => number.getD x 0) bound))
  | [], _ => rfl
  | e :: rest, h => by
    obtain ⟨h1, h2⟩ := h e (by simp)
    rw [popEdges, Vec.idx_of_lt h2, Res.ok_bind, List.takeWhile_cons, List.dropWhile_cons]
    have e1 : number.getD e.1 0 = number[e.1] := by simp [List.getD, h1]
    have e2 : number.getD e.2 0 = number[e.2] := by simp [List.getD, h2]
    by_cases c2 : number[e.2] < bound
    · rw [if_pos c2]
      have : EsInv.keepEdge (fun x => number.getD x 0) bound e = false := by
        simp only [EsInv.keepEdge, e2]
        simp
        omega
      rw [this]
      rfl
    · rw [if_neg c2, Vec.idx_of_lt h1, Res.ok_bind]
      by_cases c1 : number[e.1] < bound
      · rw [if_pos c1]
        have : EsInv.keepEdge (fun x => number.getD x 0) bound e = false := by
          simp only [EsInv.keepEdge, e1]
          simp
          omega
        rw [this]
        rfl
      · rw [if_neg c1, popEdges_spec rest (fun e he => h e (List.mem_cons_of_mem _ he)), Res.ok_bind]
        have : EsInv.keepEdge (fun x => number.getD x 0) bound e = true := by
          simp only [EsInv.keepEdge, e1, e2]
          simp
          omega
        rw [this]
        rfl

end Verif
