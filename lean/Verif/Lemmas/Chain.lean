import Verif.Model.Chain
import Verif.Lemmas.Basic
import Mathlib.Data.Finset.Card
import Mathlib.Data.Finset.Prod

/-!
# Chains of steps, scripted generators
-/

set_option linter.unusedSectionVars false
set_option linter.unusedSimpArgs false

namespace Verif

/-- What is needed of the two operations to undo a whole chain: steps never fail and keep the invariant; undoing a step
in any state equivalent to the one after the step leads to a state equivalent to the one before. -/
structure Undoable {E S U : Type} (mStep : E → Res (S × E)) (undo : E → S → Res (U × E)) (Inv : E → Prop)
    (Sim : E → E → Prop) : Prop where
  progress : ∀ e, Inv e → ∃ s e', mStep e = .ok (s, e') ∧ Inv e'
  back : ∀ e s e' x, Inv e → mStep e = .ok (s, e') → Inv x → Sim e' x →
    ∃ u x', undo x s = .ok (u, x') ∧ Inv x' ∧ Sim e x'
  refl : ∀ e, Sim e e

theorem undoSteps_append_one {E S U : Type} (undo : E → S → Res (U × E)) (l : List S) (s : S) (e : E) :
    undoSteps undo (s :: l) e = (undoSteps undo l e >>= fun p => undo p.2 s >>= fun q => pure (p.1 ++ [q.1], q.2)) := by
  unfold undoSteps
  rw [List.reverse_cons, List.foldlM_append]
  simp only [List.foldlM_cons, List.foldlM_nil, bind_pure]

theorem Undoable.chain {E S U : Type} {mStep : E → Res (S × E)} {undo : E → S → Res (U × E)} {Inv : E → Prop}
    {Sim : E → E → Prop} (h : Undoable mStep undo Inv Sim) : ∀ (k : Nat) (e : E), Inv e →
    ∃ steps e', mSteps mStep k e = .ok (steps, e') ∧ steps.length = k ∧ Inv e' ∧
      ∀ x, Inv x → Sim e' x → ∃ us x', undoSteps undo steps x = .ok (us, x') ∧ us.length = k ∧ Inv x' ∧ Sim e x' := by
  intro k
  induction k with
  | zero => intro e he; exact ⟨[], e, rfl, rfl, he, fun x hx hs => ⟨[], x, rfl, rfl, hx, hs⟩⟩
  | succ k ih =>
    intro e he
    obtain ⟨s, e1, h1, h2⟩ := h.progress e he
    obtain ⟨steps, e', h3, h4, h5, h6⟩ := ih e1 h2
    refine ⟨s :: steps, e', ?_, by simp [h4], h5, ?_⟩
    · simp [mSteps, h1, h3]
    · intro x hx hs
      obtain ⟨us, x1, h7, h8, h9, h10⟩ := h6 x hx hs
      obtain ⟨u, x', h11, h12, h13⟩ := h.back e s e1 x1 he h1 h9 h10
      refine ⟨us ++ [u], x', ?_, by simp [h8], h12, h13⟩
      rw [undoSteps_append_one, h7]
      simp [h11]

/-- The quiet variant undoes like the other one if single steps do. -/
theorem undoStepsQuiet_eq {E S U : Type} {undo : E → S → Res (U × E)} {quiet : E → S → Res E}
    (hq : ∀ e s u e', undo e s = .ok (u, e') → quiet e s = .ok e') (l : List S) :
    ∀ (e : E) (us : List U) (e' : E), undoSteps undo l e = .ok (us, e') → undoStepsQuiet quiet l e = .ok e' := by
  induction l with
  | nil => intro e us e' h; simp [undoSteps] at h; simp [undoStepsQuiet, h]
  | cons s l ih =>
    intro e us e' h
    rw [undoSteps_append_one] at h
    simp only [Res.bind_eq_ok, Res.pure_eq, Res.ok.injEq, Prod.mk.injEq] at h
    obtain ⟨⟨us', e1⟩, h1, ⟨u, e2⟩, h2, _, h3⟩ := h
    have := ih e us' e1 h1
    unfold undoStepsQuiet at this ⊢
    rw [List.reverse_cons, List.foldlM_append, this]
    simp only [Res.ok_bind, List.foldlM_cons, List.foldlM_nil]
    rw [hq _ _ _ _ h2]
    simp [← h3]

theorem undoStepsQuiet_cons {E S : Type} (quiet : E → S → Res E) (l : List S) (s : S) (e : E) :
    undoStepsQuiet quiet (s :: l) e = (undoStepsQuiet quiet l e >>= fun p => quiet p s) := by
  unfold undoStepsQuiet
  rw [List.reverse_cons, List.foldlM_append]
  simp only [List.foldlM_cons, List.foldlM_nil, bind_pure]

/-- Like `Undoable.chain`, for a quiet variant that agrees with the other one only on steps that were really made. -/
theorem Undoable.chain_quiet {E S U : Type} {mStep : E → Res (S × E)} {undo : E → S → Res (U × E)} {quiet : E → S → Res E}
    {Inv : E → Prop} {Sim : E → E → Prop} (h : Undoable mStep undo Inv Sim)
    (hq : ∀ e s e' x u x', Inv e → mStep e = .ok (s, e') → Inv x → Sim e' x → undo x s = .ok (u, x') → quiet x s = .ok x') :
    ∀ (k : Nat) (e : E), Inv e →
    ∃ steps e', mSteps mStep k e = .ok (steps, e') ∧ steps.length = k ∧ Inv e' ∧
      ∀ x, Inv x → Sim e' x → ∃ us x', undoSteps undo steps x = .ok (us, x') ∧ undoStepsQuiet quiet steps x = .ok x' ∧
        us.length = k ∧ Inv x' ∧ Sim e x' := by
  intro k
  induction k with
  | zero => intro e he; exact ⟨[], e, rfl, rfl, he, fun x hx hs => ⟨[], x, rfl, rfl, rfl, hx, hs⟩⟩
  | succ k ih =>
    intro e he
    obtain ⟨s, e1, h1, h2⟩ := h.progress e he
    obtain ⟨steps, e', h3, h4, h5, h6⟩ := ih e1 h2
    refine ⟨s :: steps, e', ?_, by simp [h4], h5, ?_⟩
    · simp [mSteps, h1, h3]
    · intro x hx hs
      obtain ⟨us, x1, h7, h7', h8, h9, h10⟩ := h6 x hx hs
      obtain ⟨u, x', h11, h12, h13⟩ := h.back e s e1 x1 he h1 h9 h10
      refine ⟨us ++ [u], x', ?_, ?_, by simp [h8], h12, h13⟩
      · rw [undoSteps_append_one, h7]
        simp [h11]
      · rw [undoStepsQuiet_cons, h7']
        exact hq e s e1 x1 u x' he h1 h9 h10 h11

/-- Like `Undoable.chain_quiet` for steps that need not terminate (they contain loops that wait for a suitable draw): whenever
the chain of steps returns, it can be undone. -/
theorem chain_of_ok {E S U : Type} {mStep : E → Res (S × E)} {undo : E → S → Res (U × E)} {quiet : E → S → Res E}
    {Inv : E → Prop} {Sim : E → E → Prop}
    (keep : ∀ e s e', Inv e → mStep e = .ok (s, e') → Inv e')
    (back : ∀ e s e' x, Inv e → mStep e = .ok (s, e') → Inv x → Sim e' x →
      ∃ u x', undo x s = .ok (u, x') ∧ quiet x s = .ok x' ∧ Inv x' ∧ Sim e x') :
    ∀ (k : Nat) (e : E) (steps : List S) (e' : E), Inv e → mSteps mStep k e = .ok (steps, e') →
      steps.length = k ∧ Inv e' ∧
      ∀ x, Inv x → Sim e' x → ∃ us x', undoSteps undo steps x = .ok (us, x') ∧ undoStepsQuiet quiet steps x = .ok x' ∧
        us.length = k ∧ Inv x' ∧ Sim e x' := by
  intro k
  induction k with
  | zero =>
    intro e steps e' he h
    simp only [mSteps, Res.ok.injEq, Prod.mk.injEq] at h
    obtain ⟨rfl, rfl⟩ := h
    exact ⟨rfl, he, fun x hx hs => ⟨[], x, rfl, rfl, rfl, hx, hs⟩⟩
  | succ k ih =>
    intro e steps e' he h
    simp only [mSteps, Res.bind_eq_ok, Prod.exists, Res.pure_eq, Res.ok.injEq, Prod.mk.injEq] at h
    obtain ⟨s, e1, h1, l, e2, h2, rfl, rfl⟩ := h
    have hi := keep e s e1 he h1
    obtain ⟨h4, h5, h6⟩ := ih e1 l e2 hi h2
    refine ⟨by simp [h4], h5, ?_⟩
    intro x hx hs
    obtain ⟨us, x1, h7, h7', h8, h9, h10⟩ := h6 x hx hs
    obtain ⟨u, x', h11, h11', h12, h13⟩ := back e s e1 x1 he h1 h9 h10
    refine ⟨us ++ [u], x', ?_, ?_, by simp [h8], h12, h13⟩
    · rw [undoSteps_append_one, h7]
      simp [h11]
    · rw [undoStepsQuiet_cons, h7']
      exact h11'

/-! ### Scripted generator

`Script` returns the numbers of a list one after the other.  Counting the scripts that lead from one state to another counts
the equally likely outcomes of the draws of a step. -/

/-- A generator that returns prescribed numbers. -/
structure Script where
  draws : List Nat
deriving DecidableEq, Repr

/-- Next number of a script. -/
def Script.next (s : Script) : Nat := s.draws.headD 0

instance : Rng Script where
  genRange s h := (s.next % h, ⟨s.draws.tail⟩)
  genRange_lt _ _ hh := Nat.mod_lt _ hh
  genUnit s := (s.next % 2 ^ 53, ⟨s.draws.tail⟩)
  genUnit_lt _ := Nat.mod_lt _ (by decide)
  shuffle s l := (l, s)
  shuffle_perm _ l := List.Perm.refl l

theorem script_genRange {i h : Nat} {l : List Nat} (hi : i < h) : genRange (⟨i :: l⟩ : Script) h = .ok (i, ⟨l⟩) := by
  have : 0 < h := by omega
  simp [genRange, this, Rng.genRange, Script.next, Nat.mod_eq_of_lt hi]

theorem genRange_ok {R : Type} [Rng R] (r : R) {h : Nat} (hh : 0 < h) :
    ∃ i r', genRange r h = .ok (i, r') ∧ i < h := by
  refine ⟨(Rng.genRange r h).1, (Rng.genRange r h).2, by simp [genRange, hh], Rng.genRange_lt r h hh⟩

theorem genRange_eq_ok {R : Type} [Rng R] {r r' : R} {h i : Nat} (e : genRange r h = .ok (i, r')) :
    0 < h ∧ i < h ∧ Rng.genRange r h = (i, r') := by
  unfold genRange at e
  split at e
  · rename_i hh
    simp at e
    refine ⟨hh, ?_, e⟩
    have := Rng.genRange_lt r h hh
    rw [e] at this; exact this
  · simp at e

end Verif
