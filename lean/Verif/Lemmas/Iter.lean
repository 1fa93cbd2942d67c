import Verif.Spec.Iter
import Verif.Lemmas.Traverse

/-!
# Simulation of iterators by lists
-/

set_option linter.unusedSectionVars false
set_option linter.unusedSimpArgs false

namespace Verif
open AdjContainer

variable {S α : Type}

/-- `R` relates a state of the iterator to the remaining items. -/
structure IterSim (I : IterImpl S α) (R : S → List α → Prop) : Prop where
  next : ∀ s l, R s l → ∃ s', I.next s = .ok (l.head?, s') ∧ R s' l.tail
  nth : ∀ s l n, R s l → ∃ s', I.nth s n = .ok (l[n]?, s') ∧ R s' (l.drop (n + 1))
  nextBack : ∀ s l, R s l → ∃ s', I.nextBack s = .ok (l.getLast?, s') ∧ R s' l.dropLast
  len : ∀ s l, R s l → I.len s = l.length

namespace IterSim
variable {I : IterImpl S α} {R : S → List α → Prop} (h : IterSim I R)
include h

theorem any (p : α → Bool) : ∀ (l : List α) (fuel : Nat) (s : S), R s l → l.length < fuel →
    ∃ s', I.any p fuel s = .ok (l.any p, s') ∧ R s' (l.dropWhile (fun x => !p x)).tail
  | [], fuel + 1, s, hr, _ => by
    obtain ⟨s', e, hr'⟩ := h.next s [] hr
    exact ⟨s', by simp [-Res.bind_eq_ok, IterImpl.any, e], hr'⟩
  | x :: l, fuel + 1, s, hr, hf => by
    obtain ⟨s', e, hr'⟩ := h.next s _ hr
    by_cases hp : p x
    · refine ⟨s', ?_, by simpa [hp] using hr'⟩
      simp [-Res.bind_eq_ok, IterImpl.any, e, hp]
    · obtain ⟨s'', e', hr''⟩ := any p l fuel s' hr' (by simp at hf; omega)
      refine ⟨s'', ?_, by simpa [hp] using hr''⟩
      simp only [IterImpl.any, e, Res.ok_bind, List.head?_cons]
      simp [-Res.bind_eq_ok, hp, e']

theorem all (p : α → Bool) : ∀ (l : List α) (fuel : Nat) (s : S), R s l → l.length < fuel →
    ∃ s', I.all p fuel s = .ok (l.all p, s') ∧ R s' (l.dropWhile p).tail
  | [], fuel + 1, s, hr, _ => by
    obtain ⟨s', e, hr'⟩ := h.next s [] hr
    exact ⟨s', by simp [-Res.bind_eq_ok, IterImpl.all, e], hr'⟩
  | x :: l, fuel + 1, s, hr, hf => by
    obtain ⟨s', e, hr'⟩ := h.next s _ hr
    by_cases hp : p x
    · obtain ⟨s'', e', hr''⟩ := all p l fuel s' hr' (by simp at hf; omega)
      refine ⟨s'', ?_, by simpa [hp] using hr''⟩
      simp only [IterImpl.all, e, Res.ok_bind, List.head?_cons]
      simp [-Res.bind_eq_ok, hp, e']
    · refine ⟨s', ?_, by simpa [hp] using hr'⟩
      simp [-Res.bind_eq_ok, IterImpl.all, e, hp]

theorem fold {β : Type} (f : β → α → β) : ∀ (l : List α) (fuel : Nat) (b : β) (s : S), R s l → l.length < fuel →
    I.fold f fuel b s = .ok (l.foldl f b)
  | [], fuel + 1, b, s, hr, _ => by
    obtain ⟨s', e, hr'⟩ := h.next s [] hr
    simp [-Res.bind_eq_ok, IterImpl.fold, e]
  | x :: l, fuel + 1, b, s, hr, hf => by
    obtain ⟨s', e, hr'⟩ := h.next s _ hr
    have := fold f l fuel (f b x) s' hr' (by simp at hf; omega)
    simp [-Res.bind_eq_ok, IterImpl.fold, e, this]

theorem reduce (f : α → α → α) (l : List α) (fuel : Nat) (s : S) (hr : R s l) (hf : l.length < fuel) :
    I.reduce f fuel s = .ok (listReduce f l) := by
  obtain ⟨s', e, hr'⟩ := h.next s l hr
  cases l with
  | nil => simp [-Res.bind_eq_ok, IterImpl.reduce, e, listReduce]
  | cons x xs =>
    have := h.fold f xs fuel x s' hr' (by simp at hf; omega)
    simp [-Res.bind_eq_ok, IterImpl.reduce, e, this, listReduce]

theorem nthBack : ∀ (n : Nat) (l : List α) (s : S), R s l →
    ∃ s', I.nthBack n s = .ok (l.reverse[n]?, s') ∧ R s' (l.reverse.drop (n + 1)).reverse
  | 0, l, s, hr => by
    obtain ⟨s', e, hr'⟩ := h.nextBack s l hr
    refine ⟨s', ?_, by simpa [List.dropLast_eq_take, List.drop_reverse] using hr'⟩
    simp only [IterImpl.nthBack, e]
    rw [← List.head?_eq_getElem?, List.head?_reverse]
  | n + 1, l, s, hr => by
    obtain ⟨s', e, hr'⟩ := h.nextBack s l hr
    cases hl : l.getLast? with
    | none =>
      have hnil : l = [] := List.getLast?_eq_none_iff.mp hl
      subst hnil
      refine ⟨s', ?_, by simpa using hr'⟩
      simp [-Res.bind_eq_ok, IterImpl.nthBack, e]
    | some x =>
      obtain ⟨l0, rfl⟩ : ∃ l0, l = l0 ++ [x] := by
        rw [List.getLast?_eq_some_iff] at hl; exact hl
      rw [List.dropLast_concat] at hr'
      obtain ⟨s'', e', hr''⟩ := nthBack n l0 s' hr'
      refine ⟨s'', ?_, by simpa using hr''⟩
      rw [hl] at e
      simp [-Res.bind_eq_ok, IterImpl.nthBack, e, e']

theorem step (s : S) (l : List α) (op : IterOp α) (hr : R s l) :
    ∃ s', I.step s op = .ok ((listStep l op).1, s') ∧ R s' (listStep l op).2 := by
  cases op with
  | next =>
    obtain ⟨s', e, hr'⟩ := h.next s l hr
    exact ⟨s', by simp [-Res.bind_eq_ok, IterImpl.step, e, listStep], hr'⟩
  | nth n =>
    obtain ⟨s', e, hr'⟩ := h.nth s l n hr
    exact ⟨s', by simp [-Res.bind_eq_ok, IterImpl.step, e, listStep], hr'⟩
  | nextBack =>
    obtain ⟨s', e, hr'⟩ := h.nextBack s l hr
    exact ⟨s', by simp [-Res.bind_eq_ok, IterImpl.step, e, listStep], hr'⟩
  | nthBack n =>
    obtain ⟨s', e, hr'⟩ := h.nthBack n l s hr
    exact ⟨s', by simp only [IterImpl.step, e, Res.ok_bind, Res.pure_eq, listStep], hr'⟩
  | len => exact ⟨s, by simp [IterImpl.step, h.len s l hr, listStep], hr⟩
  | any p =>
    obtain ⟨s', e, hr'⟩ := h.any p l (I.len s + 1) s hr (by rw [h.len s l hr]; omega)
    exact ⟨s', by simp only [IterImpl.step, e, Res.ok_bind, Res.pure_eq, listStep], hr'⟩
  | all p =>
    obtain ⟨s', e, hr'⟩ := h.all p l (I.len s + 1) s hr (by rw [h.len s l hr]; omega)
    exact ⟨s', by simp only [IterImpl.step, e, Res.ok_bind, Res.pure_eq, listStep], hr'⟩

theorem run : ∀ (ops : List (IterOp α)) (s : S) (l : List α), R s l →
    ∃ s', I.run ops s = .ok ((listRun ops l).1, s') ∧ R s' (listRun ops l).2
  | [], s, l, hr => ⟨s, rfl, hr⟩
  | op :: ops, s, l, hr => by
    obtain ⟨s1, e1, h1⟩ := h.step s l op hr
    obtain ⟨s2, e2, h2⟩ := run ops s1 _ h1
    exact ⟨s2, by simp only [IterImpl.run, e1, e2, Res.ok_bind, Res.pure_eq, listRun], h2⟩

theorem behaves {s : S} {l : List α} (hr : R s l) : BehavesLike I s l := by
  intro ops
  obtain ⟨s', e, hr'⟩ := h.run ops s l hr
  refine ⟨s', e, ?_, ?_⟩
  · intro β f b
    exact h.fold f _ _ b s' hr' (by rw [h.len s' _ hr']; omega)
  · intro f
    exact h.reduce f (listRun ops l).2 (I.len s' + 1) s' hr' (by rw [h.len s' _ hr']; omega)

end IterSim

theorem sliceIter_sim (α : Type) : IterSim (sliceIter α) (fun s l => s = l) where
  next := by rintro s l rfl; exact ⟨_, rfl, rfl⟩
  nth := by rintro s l n rfl; exact ⟨_, rfl, rfl⟩
  nextBack := by rintro s l rfl; exact ⟨_, rfl, rfl⟩
  len := by rintro s l rfl; rfl

theorem swIter_sim : IterSim swIter (fun s l => s.map SwEdge.dst = l) where
  next := by
    rintro s l rfl
    cases s with
    | nil => exact ⟨_, rfl, rfl⟩
    | cons e s => exact ⟨_, rfl, rfl⟩
  nth := by
    rintro s l n rfl
    by_cases hn : n ≥ s.length
    · refine ⟨[], ?_, ?_⟩
      · simp [swIter, hn]
      · have : s.length ≤ n + 1 := by omega
        simp [List.drop_eq_nil_of_le, this]
    · refine ⟨s.drop (n + 1), ?_, by simp⟩
      have h1 : n < (s.take (n + 1)).length := by simp; omega
      simp only [swIter, hn, if_false, List.splitAt_eq, Vec.idx_of_lt h1, Res.ok_bind, Res.pure_eq]
      simp [show n < s.length by omega]
  nextBack := by
    rintro s l rfl
    cases hs : s.getLast? with
    | none =>
      have : s = [] := List.getLast?_eq_none_iff.mp hs
      subst this
      exact ⟨_, rfl, rfl⟩
    | some e =>
      refine ⟨s.dropLast, ?_, by simp⟩
      simp [swIter, hs, List.getLast?_map]
  len := by rintro s l rfl; simp [swIter]

/-- The items remaining in an `IterWrapper`. -/
def IterWrapper.items : IterWrapper → List Nat
  | .genericIter l => l
  | .swIter l => l.map SwEdge.dst

theorem wrapperIter_sim : IterSim wrapperIter (fun s l => s.items = l) where
  next := by
    rintro s l rfl
    cases s with
    | genericIter s =>
      obtain ⟨s', e, h⟩ := (sliceIter_sim Nat).next s _ rfl
      exact ⟨.genericIter s', by simp [-Res.bind_eq_ok, wrapperIter, e, IterWrapper.items], h⟩
    | swIter s =>
      obtain ⟨s', e, h⟩ := swIter_sim.next s _ rfl
      exact ⟨.swIter s', by simp [-Res.bind_eq_ok, wrapperIter, e, IterWrapper.items], h⟩
  nth := by
    rintro s l n rfl
    cases s with
    | genericIter s =>
      obtain ⟨s', e, h⟩ := (sliceIter_sim Nat).nth s _ n rfl
      exact ⟨.genericIter s', by simp [-Res.bind_eq_ok, wrapperIter, e, IterWrapper.items], h⟩
    | swIter s =>
      obtain ⟨s', e, h⟩ := swIter_sim.nth s _ n rfl
      exact ⟨.swIter s', by simp [-Res.bind_eq_ok, wrapperIter, e, IterWrapper.items], h⟩
  nextBack := by
    rintro s l rfl
    cases s with
    | genericIter s =>
      obtain ⟨s', e, h⟩ := (sliceIter_sim Nat).nextBack s _ rfl
      exact ⟨.genericIter s', by simp [-Res.bind_eq_ok, wrapperIter, e, IterWrapper.items], h⟩
    | swIter s =>
      obtain ⟨s', e, h⟩ := swIter_sim.nextBack s _ rfl
      exact ⟨.swIter s', by simp only [wrapperIter, e, IterWrapper.items, Res.ok_bind, Res.pure_eq], h⟩
  len := by
    rintro s l rfl
    cases s with
    | genericIter s => rfl
    | swIter s => simp [wrapperIter, swIter, IterWrapper.items]

theorem containedIter_sim {T A : Type} [AdjContainer T A] :
    IterSim (containedIter T A) (fun s l => s.map contained = l) where
  next := by
    rintro s l rfl
    cases s with
    | nil => exact ⟨_, rfl, rfl⟩
    | cons e s => exact ⟨_, rfl, rfl⟩
  nth := by
    rintro s l n rfl
    by_cases hn : n ≥ s.length
    · refine ⟨[], ?_, ?_⟩
      · simp [containedIter, hn]
      · have : s.length ≤ n + 1 := by omega
        simp [List.drop_eq_nil_of_le, this]
    · refine ⟨s.drop (n + 1), ?_, by simp⟩
      have h1 : n < (s.take (n + 1)).length := by simp; omega
      simp only [containedIter, hn, if_false, List.splitAt_eq, Vec.idx_of_lt h1, Res.ok_bind, Res.pure_eq]
      simp [show n < s.length by omega]
  nextBack := by
    rintro s l rfl
    cases hs : s.getLast? with
    | none =>
      have : s = [] := List.getLast?_eq_none_iff.mp hs
      subst this
      exact ⟨_, rfl, rfl⟩
    | some e =>
      refine ⟨s.dropLast, ?_, by simp⟩
      simp [containedIter, hs, List.getLast?_map]
  len := by rintro s l rfl; simp [containedIter]

section
variable {T A β : Type} [AdjContainer T A]

private theorem idx_pick {vs : List A} {pick : Nat → A → β} {i : Nat} {x : β}
    (h : (vs[i]?).map (pick i) = some x) : ∃ c, Vec.idx vs i = .ok c ∧ pick i c = x ∧ vs[i]? = some c := by
  rw [Option.map_eq_some_iff] at h
  obtain ⟨c, hc, e⟩ := h
  obtain ⟨hi, e'⟩ := List.getElem?_eq_some_iff.mp hc
  refine ⟨c, ?_, e, hc⟩
  rw [Vec.idx_of_lt hi, e']

theorem neighbourIter_sim {I : IterImpl S Nat} {R : S → List Nat → Prop} (h : IterSim I R) (vs : List A)
    (pick : Nat → A → β) :
    IterSim (neighbourIter I vs pick)
      (fun s l => ∃ L, R s L ∧ L.map (fun i => (vs[i]?).map (pick i)) = l.map some) where
  next := by
    rintro s l ⟨L, hL, hl⟩
    obtain ⟨s', e, h'⟩ := h.next s L hL
    have hh := congrArg List.head? hl
    rw [List.head?_map, List.head?_map] at hh
    refine ⟨s', ?_, L.tail, h', by rw [List.map_tail, hl, List.map_tail]⟩
    cases hc : L.head? with
    | none =>
      rw [hc] at hh
      have : l.head? = none := by simpa using hh.symm
      simp [-Res.bind_eq_ok, -List.head?_eq_none_iff, neighbourIter, e, hc, this]
    | some i =>
      rw [hc] at hh
      obtain ⟨x, hx, hx'⟩ : ∃ x, l.head? = some x ∧ (vs[i]?).map (pick i) = some x := by
        cases hl' : l.head? with
        | none => rw [hl'] at hh; simp at hh
        | some x => rw [hl'] at hh; exact ⟨x, rfl, by simpa using hh⟩
      obtain ⟨c, e1, e2, _⟩ := idx_pick hx'
      simp [-Res.bind_eq_ok, neighbourIter, e, hc, hx, e1, e2]
  nth := by
    rintro s l n ⟨L, hL, hl⟩
    obtain ⟨s', e, h'⟩ := h.nth s L n hL
    have hh := congrArg (fun l => l[n]?) hl
    simp only [List.getElem?_map] at hh
    refine ⟨s', ?_, L.drop (n + 1), h', by rw [List.map_drop, hl, List.map_drop]⟩
    cases hc : L[n]? with
    | none =>
      rw [hc] at hh
      have : l[n]? = none := by simpa using hh.symm
      simp [-Res.bind_eq_ok, neighbourIter, e, hc, this]
    | some i =>
      rw [hc] at hh
      obtain ⟨x, hx, hx'⟩ : ∃ x, l[n]? = some x ∧ (vs[i]?).map (pick i) = some x := by
        cases hl' : l[n]? with
        | none => rw [hl'] at hh; simp at hh
        | some x => rw [hl'] at hh; exact ⟨x, rfl, by simpa using hh⟩
      obtain ⟨c, e1, e2, _⟩ := idx_pick hx'
      simp [-Res.bind_eq_ok, neighbourIter, e, hc, hx, e1, e2]
  nextBack := by
    rintro s l ⟨L, hL, hl⟩
    obtain ⟨s', e, h'⟩ := h.nextBack s L hL
    have hh := congrArg List.getLast? hl
    rw [List.getLast?_map, List.getLast?_map] at hh
    refine ⟨s', ?_, L.dropLast, h', by rw [List.map_dropLast, hl, List.map_dropLast]⟩
    cases hc : L.getLast? with
    | none =>
      rw [hc] at hh
      have : l.getLast? = none := by simpa using hh.symm
      simp [-Res.bind_eq_ok, -List.getLast?_eq_none_iff, neighbourIter, e, hc, this]
    | some i =>
      rw [hc] at hh
      obtain ⟨x, hx, hx'⟩ : ∃ x, l.getLast? = some x ∧ (vs[i]?).map (pick i) = some x := by
        cases hl' : l.getLast? with
        | none => rw [hl'] at hh; simp at hh
        | some x => rw [hl'] at hh; exact ⟨x, rfl, by simpa using hh⟩
      obtain ⟨c, e1, e2, _⟩ := idx_pick hx'
      simp [-Res.bind_eq_ok, neighbourIter, e, hc, hx, e1, e2]
  len := by
    rintro s l ⟨L, hL, hl⟩
    have := congrArg List.length hl
    simp only [List.length_map] at this
    rw [← this]
    exact h.len s L hL

end

/-! ## What a call leaves behind -/

theorem listStep_item {l : List α} {op : IterOp α} {x : α} (h : (listStep l op).1 = .item (some x)) :
    (x :: (listStep l op).2).Subperm l := by
  cases op with
  | next =>
    simp only [listStep, IterObs.item.injEq] at h
    cases l with
    | nil => simp at h
    | cons y l => simp at h; subst h; exact List.Subperm.refl _
  | nth n =>
    simp only [listStep, IterObs.item.injEq] at h
    obtain ⟨hn, e⟩ := List.getElem?_eq_some_iff.mp h
    simp only [listStep]
    rw [← e, List.getElem_cons_drop]
    exact (List.drop_sublist n l).subperm
  | nextBack =>
    simp only [listStep, IterObs.item.injEq] at h
    obtain ⟨l0, rfl⟩ := List.getLast?_eq_some_iff.mp h
    simp only [listStep, List.dropLast_concat]
    exact (List.perm_append_singleton x l0).symm.subperm
  | nthBack n =>
    simp only [listStep, IterObs.item.injEq] at h
    obtain ⟨hn, e⟩ := List.getElem?_eq_some_iff.mp h
    simp only [listStep]
    refine List.Subperm.trans (l₂ := x :: l.reverse.drop (n + 1)) ?_ ?_
    · exact ((List.reverse_perm _).cons x).subperm
    · rw [← e, List.getElem_cons_drop]
      exact ((List.drop_sublist n l.reverse).subperm).trans (List.reverse_perm l).subperm
  | len => simp [listStep] at h
  | any p => simp [listStep] at h
  | all p => simp [listStep] at h

theorem listStep_rest (l : List α) (op : IterOp α) : (listStep l op).2.Subperm l := by
  cases op with
  | next => exact (List.tail_sublist l).subperm
  | nth n => exact (List.drop_sublist _ l).subperm
  | nextBack => exact (List.dropLast_sublist l).subperm
  | nthBack n =>
    exact (List.reverse_perm _).subperm.trans (((List.drop_sublist _ l.reverse).subperm).trans (List.reverse_perm l).subperm)
  | len => exact List.Subperm.refl _
  | any p => exact ((List.tail_sublist _).trans (List.dropWhile_sublist _)).subperm
  | all p => exact ((List.tail_sublist _).trans (List.dropWhile_sublist _)).subperm

/-! ## Mutable iterators -/

theorem subperm_nodup {α : Type} {l₁ l₂ : List α} (h : l₁.Subperm l₂) (hn : l₂.Nodup) : l₁.Nodup := by
  obtain ⟨l, p, s⟩ := h
  exact p.nodup_iff.mp (s.nodup hn)

theorem subperm_map {α β : Type} (f : α → β) {l₁ l₂ : List α} (h : l₁.Subperm l₂) : (l₁.map f).Subperm (l₂.map f) := by
  obtain ⟨l, p, s⟩ := h
  exact ⟨l.map f, p.map f, s.map f⟩

section
variable {T A : Type} [AdjContainer T A] [LawfulAdj T A]

theorem mutRun_spec {I : IterImpl S Nat} {R : S → List Nat → Prop} (h : IterSim I R) (g : GenericGraph T A) :
    ∀ (ops : List (IterOp (Nat × T) × (T → T))) (vs : List A) (s : S) (L : List Nat) (l : List (Nat × T)), R s L → L.Nodup →
      L.map (fun i => (vs[i]?).map (fun c => (i, contained c))) = l.map some → SameAdj g vs →
      ∃ (vs' : List A) (s' : S), mutRun I ops (vs, s) = .ok ((listRun (ops.map (·.1)) l).1, (vs', s')) ∧ SameAdj g vs' ∧
        WrittenBy ops (listRun (ops.map (·.1)) l).1 (vs.map contained) (vs'.map contained) ∧
        (∀ (k : Nat) (x : Nat × T), (listRun (ops.map (·.1)) l).1[k]? = some (.item (some x)) → x ∈ l)
  | [], vs, s, L, l, _, _, _, hs => ⟨vs, s, rfl, hs, ⟨by simp [listRun], by simp⟩, by simp [listRun]⟩
  | (op, upd) :: ops, vs, s, L, l, hL, hn, hl, hs => by
    have hsim := neighbourIter_sim h vs (fun i (c : A) => (i, contained c))
    obtain ⟨s1, e1, L1, hL1, hl1⟩ := hsim.step s l op ⟨L, hL, hl⟩
    have hfst : ∀ (L : List Nat) (l : List (Nat × T)),
        L.map (fun i => (vs[i]?).map (fun c => (i, contained c))) = l.map some → L = l.map Prod.fst := by
      intro L l hl
      have := congrArg (List.map (Option.map Prod.fst)) hl
      simp only [List.map_map] at this
      have h2 : L.map some = (l.map Prod.fst).map some := by
        rw [List.map_map]
        rw [show (some ∘ Prod.fst : Nat × T → Option Nat) = (Option.map Prod.fst ∘ some) from rfl, ← this]
        apply List.map_congr_left
        intro i hi
        have : (fun i => (vs[i]?).map (fun c : A => (i, contained c))) i ∈ l.map some := by
          rw [← hl]; exact List.mem_map_of_mem hi
        obtain ⟨x, _, hx⟩ := List.mem_map.mp this
        have hx : some x = (vs[i]?).map (fun c : A => (i, contained c)) := hx
        rw [eq_comm, Option.map_eq_some_iff] at hx
        obtain ⟨c, hc, _⟩ := hx
        simp [hc]
      exact List.map_injective_iff.mpr (Option.some_injective _) h2
    have hLf := hfst L l hl
    have hL1f := hfst L1 _ hl1
    have hget : ∀ (i : Nat) (t : T), (i, t) ∈ l → ∃ c, vs[i]? = some c ∧ contained c = t := by
      intro i t hm
      have : some (i, t) ∈ L.map (fun i => (vs[i]?).map (fun c => (i, contained c))) := by
        rw [hl]; exact List.mem_map_of_mem hm
      obtain ⟨j, _, hj⟩ := List.mem_map.mp this
      rw [Option.map_eq_some_iff] at hj
      obtain ⟨c, hc, hj⟩ := hj
      simp only [Prod.mk.injEq] at hj
      obtain ⟨rfl, rfl⟩ := hj
      exact ⟨c, hc, rfl⟩
    have hsub := listStep_rest l op
    have hn1 : L1.Nodup := by
      rw [hL1f]
      exact subperm_nodup (subperm_map Prod.fst hsub) (by rw [← hLf]; exact hn)
    have hno : ∀ (hne : ∀ x, (listStep l op).1 ≠ .item (some x)),
        mutStep I op upd (vs, s) = .ok ((listStep l op).1, (vs, s1)) := by
      intro hne
      unfold mutStep
      rw [show (mutIter I (vs, s).1).step (vs, s).2 op = _ from e1]
      simp only [Res.ok_bind]
      split
      · rename_i heq
        exact absurd heq (hne _)
      · rfl
    by_cases hx : ∃ x, (listStep l op).1 = .item (some x)
    · obtain ⟨⟨i, t⟩, hx⟩ := hx
      have hsp := listStep_item hx
      have him : (i, t) ∈ l := hsp.subset List.mem_cons_self
      obtain ⟨c, hc, hct⟩ := hget i t him
      obtain ⟨hi, hci⟩ := List.getElem?_eq_some_iff.mp hc
      have hnot : i ∉ L1 := by
        have : ((i, t) :: (listStep l op).2).map Prod.fst |>.Nodup := subperm_nodup (subperm_map Prod.fst hsp) (by rw [← hLf]; exact hn)
        rw [List.map_cons, List.nodup_cons, ← hL1f] at this
        exact this.1
      have estep : mutStep I op upd (vs, s) = .ok ((listStep l op).1, (vs.set i (setContained c (upd t)), s1)) := by
        unfold mutStep
        rw [show (mutIter I (vs, s).1).step (vs, s).2 op = _ from e1]
        simp only [Res.ok_bind, hx, Vec.idx_of_lt hi, hci, Res.pure_eq]
      have hl1' : L1.map (fun j => ((vs.set i (setContained c (upd t)))[j]?).map (fun c => (j, contained c))) =
          (listStep l op).2.map some := by
        rw [← hl1]
        apply List.map_congr_left
        intro j hj
        have : i ≠ j := fun e => hnot (e ▸ hj)
        simp [this]
      obtain ⟨vs', s', e2, hs', hw, hmem⟩ := mutRun_spec h g ops (vs.set i (setContained c (upd t))) s1 L1 _ hL1 hn1 hl1'
        (hs.set hc _)
      have hold : ∀ j : Nat, j ≠ i → ((vs.set i (setContained c (upd t))).map contained)[j]? = (vs.map contained)[j]? := by
        intro j hj
        simp [Ne.symm hj]
      have hnew : ((vs.set i (setContained c (upd t))).map contained)[i]? = some (upd t) := by
        simp [hi, LawfulAdj.contained_set]
      have hrest : ∀ (k j : Nat) (u : T),
          (listRun (ops.map (·.1)) (listStep l op).2).1[k]? = some (.item (some (j, u))) → j ≠ i := by
        intro k j u hk e
        have := hmem k _ hk
        apply hnot
        rw [hL1f, ← e]
        exact List.mem_map_of_mem (f := Prod.fst) this
      refine ⟨vs', s', ?_, hs', ⟨?_, ?_⟩, ?_⟩
      · simp only [mutRun, estep, e2, Res.ok_bind, Res.pure_eq, List.map_cons, listRun]
      · intro k j u o hk ho
        cases k with
        | zero =>
          simp only [List.map_cons, listRun, List.getElem?_cons_zero, Option.some.injEq] at hk ho
          rw [hx] at hk
          simp only [IterObs.item.injEq, Option.some.injEq, Prod.mk.injEq] at hk
          obtain ⟨rfl, rfl⟩ := hk
          subst ho
          refine ⟨by simp [hc, hct], ?_⟩
          rw [hw.2 i ?_]
          · exact hnew
          · intro u hm
            obtain ⟨k, hk⟩ := List.getElem?_of_mem hm
            exact hrest k i u hk rfl
        | succ k =>
          simp only [List.map_cons, listRun, List.getElem?_cons_succ] at hk ho
          obtain ⟨w1, w2⟩ := hw.1 k j u o hk ho
          rw [hold j (hrest k j u hk)] at w1
          exact ⟨w1, w2⟩
      · intro j hj
        simp only [List.map_cons, listRun] at hj
        have hji : j ≠ i := by
          rintro rfl
          exact hj t (by rw [hx]; exact List.mem_cons_self)
        rw [hw.2 j (fun u hm => hj u (List.mem_cons_of_mem _ hm)), hold j hji]
      · intro k x hk
        cases k with
        | zero =>
          simp only [List.map_cons, listRun, List.getElem?_cons_zero, Option.some.injEq] at hk
          rw [hx] at hk
          simp only [IterObs.item.injEq, Option.some.injEq] at hk
          subst hk
          exact him
        | succ k =>
          simp only [List.map_cons, listRun, List.getElem?_cons_succ] at hk
          exact hsub.subset (hmem k x hk)
    · have hne : ∀ x, (listStep l op).1 ≠ .item (some x) := fun x e => hx ⟨x, e⟩
      obtain ⟨vs', s', e2, hs', hw, hmem⟩ := mutRun_spec h g ops vs s1 L1 _ hL1 hn1 hl1 hs
      refine ⟨vs', s', ?_, hs', ⟨?_, ?_⟩, ?_⟩
      · simp only [mutRun, hno hne, e2, Res.ok_bind, Res.pure_eq, List.map_cons, listRun]
      · intro k j u o hk ho
        cases k with
        | zero =>
          simp only [List.map_cons, listRun, List.getElem?_cons_zero, Option.some.injEq] at hk
          exact absurd hk (hne _)
        | succ k =>
          simp only [List.map_cons, listRun, List.getElem?_cons_succ] at hk ho
          exact hw.1 k j u o hk ho
      · intro j hj
        simp only [List.map_cons, listRun] at hj
        exact hw.2 j (fun u hm => hj u (List.mem_cons_of_mem _ hm))
      · intro k x hk
        cases k with
        | zero =>
          simp only [List.map_cons, listRun, List.getElem?_cons_zero, Option.some.injEq] at hk
          exact absurd hk (hne _)
        | succ k =>
          simp only [List.map_cons, listRun, List.getElem?_cons_succ] at hk
          exact hsub.subset (hmem k x hk)

/-- No reference is handed out twice. -/
theorem listRun_items_subperm : ∀ (ops : List (IterOp α)) (l : List α),
    (((listRun ops l).1.filterMap (fun o => match o with
      | .item (some x) => some x
      | _ => none)) ++ (listRun ops l).2).Subperm l
  | [], l => by simpa [listRun] using List.Subperm.refl l
  | op :: ops, l => by
    have ih := listRun_items_subperm ops (listStep l op).2
    simp only [listRun]
    by_cases hx : ∃ x, (listStep l op).1 = .item (some x)
    · obtain ⟨x, hx⟩ := hx
      rw [List.filterMap_cons_some (by rw [hx]), List.cons_append]
      exact ((List.subperm_cons x).mpr ih).trans (listStep_item hx)
    · rw [List.filterMap_cons_none]
      · exact ih.trans (listStep_rest l op)
      · split
        · rename_i x heq; exact absurd ⟨x, heq⟩ hx
        · rfl

end

end Verif
