import Verif.Props.Sw

/-!
# When `undo_step_quiet` of `SwEnsemble` panics
-/

set_option linter.unusedSectionVars false
set_option linter.unusedSimpArgs false

namespace Verif
open GenericGraph
variable {T R : Type} [Rng R]

/-- **C37.** As documented, `undo_step_quiet` panics exactly if the step is `InvalidAdjecency` or `GError`, or the result of the rewiring
is one of these (or the rewiring itself panics); otherwise it leaves what `undo_step` leaves.  For every state, valid or not. -/
theorem C37_undo_quiet_panics (e : SwEns T R) (s : SwChange) :
    (e.undoStepQuiet s = .panic ↔
      e.undoStep s = .panic ∨ ∃ u x, e.undoStep s = .ok (u, x) ∧ (u = .invalidAdjecency ∨ ∃ er, u = .gError er)) ∧
    (∀ u x, e.undoStep s = .ok (u, x) → u ≠ .invalidAdjecency → (∀ er, u ≠ .gError er) → e.undoStepQuiet s = .ok x) := by
  have hmove : ∀ a b c, (∀ s', s' = SwChange.rewire a b c ∨ s' = SwChange.reset a b c →
      e.undoStep s' = (SwGraph.rewireEdge e.graph a c b >>= fun q => .ok (q.1, { e with graph := q.2 })) ∧
      e.undoStepQuiet s' = (SwGraph.rewireEdge e.graph a c b >>= fun q => Res.assert q.1.isValid >>= fun _ => .ok { e with graph := q.2 })) := by
    rintro a b c s' (rfl | rfl) <;> exact ⟨rfl, rfl⟩
  have hgo : ∀ a b c, s = SwChange.rewire a b c ∨ s = SwChange.reset a b c → _ := fun a b c h => hmove a b c s h
  cases s with
  | nothing => exact ⟨by simp [SwEns.undoStepQuiet, SwEns.undoStep], by simp [SwEns.undoStepQuiet, SwEns.undoStep]⟩
  | blockedByExistingEdge => exact ⟨by simp [SwEns.undoStepQuiet, SwEns.undoStep], by simp [SwEns.undoStepQuiet, SwEns.undoStep]⟩
  | invalidAdjecency => exact ⟨by simp [SwEns.undoStepQuiet, SwEns.undoStep], fun u x h h1 => by cases h; exact absurd rfl h1⟩
  | gError er => exact ⟨by simp [SwEns.undoStepQuiet, SwEns.undoStep], fun u x h _ h2 => by cases h; exact absurd rfl (h2 er)⟩
  | rewire a b c =>
    obtain ⟨h1, h2⟩ := hgo a b c (.inl rfl)
    rw [h1, h2]
    rcases SwGraph.rewireEdge e.graph a c b with ⟨u, g⟩ | _ | _
    · cases u <;> simp [SwChange.isValid, Res.assert]
    · simp
    · simp
  | reset a b c =>
    obtain ⟨h1, h2⟩ := hgo a b c (.inr rfl)
    rw [h1, h2]
    rcases SwGraph.rewireEdge e.graph a c b with ⟨u, g⟩ | _ | _
    · cases u <;> simp [SwChange.isValid, Res.assert]
    · simp
    · simp

/-- On a valid network: the edge moved from 1 to 4 goes back, a step naming the missing edge from 0 to 3 panics. -/
example : SwValid exSw ∧ (∃ x, (⟨exSw, 1 / 2, ⟨[]⟩⟩ : SwEns Nat Script).undoStepQuiet (.rewire 0 1 4) = .ok x) ∧
    (⟨exSw, 1 / 2, ⟨[]⟩⟩ : SwEns Nat Script).undoStepQuiet (.rewire 0 1 3) = .panic :=
  ⟨exSw_valid, ⟨_, rfl⟩, (C37_undo_quiet_panics _ _).1.mpr (.inr ⟨_, _, rfl, .inl rfl⟩)⟩

end Verif
