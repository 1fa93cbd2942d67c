import Verif.Model.Iter
import Verif.Spec.Basic

/-!
# Specification of iterators

A plain list is the reference: what a call returns on the list of the remaining items, and what remains.
-/

namespace Verif

/-- One call on the list of the remaining items. -/
def listStep {α : Type} (l : List α) : IterOp α → IterObs α × List α
  | .next => (.item l.head?, l.tail)
  | .nth n => (.item l[n]?, l.drop (n + 1))
  | .nextBack => (.item l.getLast?, l.dropLast)
  | .nthBack n => (.item l.reverse[n]?, (l.reverse.drop (n + 1)).reverse)
  | .len => (.size l.length, l)
  | .any p => (.flag (l.any p), (l.dropWhile (fun x => !p x)).tail)
  | .all p => (.flag (l.all p), (l.dropWhile p).tail)

/-- What a history of calls returns. -/
def listRun {α : Type} : List (IterOp α) → List α → List (IterObs α) × List α
  | [], l => ([], l)
  | op :: ops, l => ((listStep l op).1 :: (listRun ops (listStep l op).2).1, (listRun ops (listStep l op).2).2)

/-- `reduce` on a list. -/
def listReduce {α : Type} (f : α → α → α) : List α → Option α
  | [] => none
  | x :: xs => some (xs.foldl f x)

/-- The implementation `I` with start state `s` behaves like the list `l`: every history of calls returns the same, without panic, and
so do the consuming methods `fold`, `reduce`. -/
def BehavesLike {S α : Type} (I : IterImpl S α) (s : S) (l : List α) : Prop :=
  ∀ ops : List (IterOp α), ∃ s', I.run ops s = .ok ((listRun ops l).1, s') ∧
    (∀ {β : Type} (f : β → α → β) (b : β), I.fold f (I.len s' + 1) b s' = .ok ((listRun ops l).2.foldl f b)) ∧
    (∀ f : α → α → α, I.reduce f (I.len s' + 1) s' = .ok (listReduce f (listRun ops l).2))

/-- `new` is the data after the writes of a history of calls and writes `ops` that returned `os`: the `k`-th call returned a
reference to vertex `i` showing its old value, through which the `k`-th write was made; vertices without a returned reference
keep their data. -/
def WrittenBy {T : Type} (ops : List (IterOp (Nat × T) × (T → T))) (os : List (IterObs (Nat × T))) (old new : List T) : Prop :=
  (∀ (k i : Nat) (t : T) (op : IterOp (Nat × T) × (T → T)), os[k]? = some (.item (some (i, t))) → ops[k]? = some op →
    old[i]? = some t ∧ new[i]? = some (op.2 t)) ∧
  (∀ i : Nat, (∀ t : T, IterObs.item (some (i, t)) ∉ os) → new[i]? = old[i]?)

/-- The items among the returned values. -/
def returned {α : Type} (os : List (IterObs α)) : List α :=
  os.filterMap (fun o => match o with
    | .item (some x) => some x
    | _ => none)

end Verif
