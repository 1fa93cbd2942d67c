import Verif.Model.GenericGraph
import Mathlib.Data.List.Nodup
import Mathlib.Data.List.Sort

/-!
# Lemmas about `Res`, vectors and sorting
-/

namespace Verif

namespace Res
variable {α β : Type}

/-- Weakest precondition: `ok` results satisfy `P`, panics are excluded, divergence is allowed iff `D`. -/
def wp (r : Res α) (P : α → Prop) (D : Prop) : Prop :=
  match r with
  | ok a => P a
  | panic => False
  | diverge => D

@[simp] theorem pure_eq (a : α) : (pure a : Res α) = ok a := rfl
@[simp] theorem ok_bind (a : α) (f : α → Res β) : (ok a >>= f) = f a := rfl
@[simp] theorem panic_bind (f : α → Res β) : ((panic : Res α) >>= f) = panic := rfl
@[simp] theorem diverge_bind (f : α → Res β) : ((diverge : Res α) >>= f) = diverge := rfl
@[simp] theorem assert_true : assert true = ok () := rfl
@[simp] theorem assert_false : assert false = panic := rfl
@[simp] theorem unwrap_some (a : α) : unwrap (some a) = ok a := rfl
@[simp] theorem unwrap_none : unwrap (none : Option α) = panic := rfl

theorem sub_of_le {a b : Nat} (h : b ≤ a) : sub a b = ok (a - b) := by simp [sub, h]

@[simp] theorem bind_eq_ok {x : Res α} {f : α → Res β} {b : β} :
    (x >>= f) = ok b ↔ ∃ a, x = ok a ∧ f a = ok b := by
  cases x <;> simp

theorem bind_eq_panic {x : Res α} {f : α → Res β} :
    (x >>= f) = panic ↔ x = panic ∨ ∃ a, x = ok a ∧ f a = panic := by
  cases x <;> simp

theorem bind_eq_diverge {x : Res α} {f : α → Res β} :
    (x >>= f) = diverge ↔ x = diverge ∨ ∃ a, x = ok a ∧ f a = diverge := by
  cases x <;> simp

@[simp] theorem assert_eq_ok {b : Bool} : assert b = ok () ↔ b = true := by
  cases b <;> simp

@[simp] theorem unwrap_eq_ok {o : Option α} {a : α} : unwrap o = ok a ↔ o = some a := by
  cases o <;> simp

@[simp] theorem sub_eq_ok {a b c : Nat} : sub a b = ok c ↔ b ≤ a ∧ a - b = c := by
  unfold sub; split <;> simp_all

theorem wp_bind {x : Res α} {f : α → Res β} {P : β → Prop} {D : Prop}
    (h : wp x (fun a => wp (f a) P D) D) : wp (x >>= f) P D := by
  cases x <;> exact h

theorem wp_mono {x : Res α} {P Q : α → Prop} {D E : Prop}
    (h : wp x P D) (hPQ : ∀ a, P a → Q a) (hDE : D → E) : wp x Q E := by
  cases x <;> simp_all [wp]

theorem wp_ok {a : α} {P : α → Prop} {D : Prop} : wp (ok a) P D ↔ P a := Iff.rfl

theorem wp_false_iff {x : Res α} {P : α → Prop} : wp x P False ↔ ∃ a, x = ok a ∧ P a := by
  cases x <;> simp [wp]

theorem wp.post {x : Res α} {P : α → Prop} {D : Prop} (h : wp x P D) {a : α} (e : x = ok a) : P a := by
  subst e; exact h

theorem wp.ne_panic {x : Res α} {P : α → Prop} {D : Prop} (h : wp x P D) : x ≠ panic := by
  intro e; subst e; exact h

instance : LawfulMonad Res := LawfulMonad.mk'
  (id_map := by intro α x; cases x <;> rfl)
  (pure_bind := by intros; rfl)
  (bind_assoc := by intro α β γ x f g; cases x <;> rfl)

end Res

namespace Vec
variable {α : Type}

theorem idx_of_lt {l : List α} {i : Nat} (h : i < l.length) : idx l i = .ok l[i] := by
  simp [idx, h]

@[simp] theorem idx_eq_ok {l : List α} {i : Nat} {a : α} : idx l i = .ok a ↔ l[i]? = some a := by
  unfold idx; split <;> simp_all

theorem idx_of_some {l : List α} {i : Nat} {a : α} (h : l[i]? = some a) : idx l i = .ok a := by simp [h]

@[simp] theorem put_eq_ok {l l' : List α} {i : Nat} {a : α} :
    put l i a = .ok l' ↔ i < l.length ∧ l.set i a = l' := by
  unfold put; split <;> simp_all

theorem put_of_lt {l : List α} {i : Nat} {a : α} (h : i < l.length) : put l i a = .ok (l.set i a) := by
  simp [h]

/-- `swap_remove` returns the element at `i` and a permutation of the others. -/
theorem swapRemove_of_lt {l : List α} {i : Nat} (h : i < l.length) :
    ∃ l', swapRemove l i = .ok (l[i], l') ∧ (l[i] :: l').Perm l := by
  have hne : l ≠ [] := by rintro rfl; simp at h
  have hl : l.getLast? = some (l.getLast hne) := List.getLast?_eq_some_getLast hne
  refine ⟨(l.set i (l.getLast hne)).dropLast, ?_, ?_⟩
  · simp [swapRemove, h, hl]
  · obtain ⟨init, y, rfl⟩ : ∃ init y, l = init ++ [y] :=
      ⟨l.dropLast, l.getLast hne, (List.dropLast_append_getLast hne).symm⟩
    simp only [List.length_append, List.length_singleton] at h
    simp only [List.getLast_append_singleton]
    rcases Nat.lt_succ_iff_lt_or_eq.mp h with h' | h'
    · rw [List.set_append_left _ _ h', List.dropLast_concat, List.getElem_append_left h']
      have h1 : init = init.take i ++ init[i] :: init.drop (i+1) := by
        conv_lhs => rw [← List.take_append_drop i init]
        rw [List.drop_eq_getElem_cons h']
      have h2 : init.set i y = init.take i ++ y :: init.drop (i+1) := by
        rw [List.set_eq_take_append_cons_drop]; simp [h']
      rw [h2]
      calc (init[i] :: (init.take i ++ y :: init.drop (i+1))).Perm
            (init[i] :: (y :: (init.take i ++ init.drop (i+1)))) := List.Perm.cons _ List.perm_middle
        _ |>.Perm (y :: (init[i] :: (init.take i ++ init.drop (i+1)))) := List.Perm.swap _ _ _
        _ |>.Perm (y :: (init.take i ++ init[i] :: init.drop (i+1))) := List.Perm.cons _ List.perm_middle.symm
        _ |>.Perm (y :: init) := by rw [← h1]
        _ |>.Perm (init ++ [y]) := (List.perm_append_singleton _ _).symm
    · subst h'
      simp only [List.getElem_concat_length]
      have : (init ++ [y]).set init.length y = init ++ [y] := by
        rw [List.set_append_right _ _ (le_refl _)]; simp
      rw [this, List.dropLast_concat]
      exact (List.perm_append_singleton _ _).symm

theorem swapRemove_eq_ok {l l' : List α} {i : Nat} {x : α} (h : swapRemove l i = .ok (x, l')) :
    ∃ hi : i < l.length, x = l[i] ∧ (x :: l').Perm l := by
  have hi : i < l.length := by
    by_contra hc
    simp [swapRemove, List.getElem?_eq_none (Nat.le_of_not_lt hc)] at h
  obtain ⟨l2, h2, hp⟩ := swapRemove_of_lt hi
  rw [h2] at h
  simp only [Res.ok.injEq, Prod.mk.injEq] at h
  obtain ⟨rfl, rfl⟩ := h
  exact ⟨hi, rfl, hp⟩

/-- `swap_remove` commutes with `map`. -/
theorem swapRemove_map {β : Type} (f : α → β) {l l' : List α} {i : Nat} {x : α}
    (h : swapRemove l i = .ok (x, l')) : swapRemove (l.map f) i = .ok (f x, l'.map f) := by
  unfold swapRemove at h ⊢
  simp only [List.getElem?_map, List.getLast?_map]
  cases h1 : l[i]? <;> cases h2 : l.getLast? <;> simp_all
  obtain ⟨rfl, rfl⟩ := h
  rw [← List.map_set, List.map_dropLast]

end Vec

section sort
variable {α : Type}

theorem sortBy_perm (key : α → Nat) (l : List α) : (sortBy key l).Perm l := List.perm_insertionSort _ _

theorem sortBy_sorted (key : α → Nat) (l : List α) :
    (sortBy key l).Pairwise (fun a b => key a ≤ key b) := by
  have : Std.Total (fun a b : α => key a ≤ key b) := ⟨fun a b => le_total _ _⟩
  have : IsTrans α (fun a b : α => key a ≤ key b) := ⟨fun a b c h1 h2 => le_trans h1 h2⟩
  exact List.pairwise_insertionSort _ l

end sort

theorem findIdx?_mem {α : Type} [BEq α] [LawfulBEq α] {l : List α} {x : α} (h : x ∈ l) :
    ∃ i, l.findIdx? (· == x) = some i ∧ ∃ hi : i < l.length, l[i] = x := by
  have : (l.findIdx? (· == x)).isSome := by
    rw [List.findIdx?_isSome]
    simpa using h
  obtain ⟨i, hi⟩ := Option.isSome_iff_exists.mp this
  refine ⟨i, hi, ?_⟩
  rw [List.findIdx?_eq_some_iff_getElem] at hi
  obtain ⟨h1, h2, _⟩ := hi
  exact ⟨h1, by simpa using h2⟩

end Verif
