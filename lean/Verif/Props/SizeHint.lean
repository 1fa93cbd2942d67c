import Verif.Props.Traverse

/-!
# C62: size hints of the search iterators, and what happens after the end

An iterator may be asked for its `size_hint` at any moment, also when it is partly consumed or exhausted.
-/

set_option linter.unusedSectionVars false
set_option linter.unusedSimpArgs false

namespace Verif
open AdjContainer GenericGraph

/-- The contract of `std::iter::Iterator::size_hint` together with fusedness, for the iterator `next` started in `s0`
that yields at most `n` items.  After any number `k` of calls the iterator is in some state `s`; running it from
there gives the items of the whole run without the first `k`; their number lies within the hint given in state `s`;
and at the end every further call gives `None`. -/
def HintSound {σ ι : Type} (next : σ → Res (Option ι × σ)) (hint : σ → Nat × Option Nat) (n : Nat) (s0 : σ) : Prop :=
  ∀ fuel, n < fuel → ∃ all send, collect next fuel s0 = .ok (all, send) ∧ (∀ j, advance next j send = .ok send) ∧
    next send = .ok (none, send) ∧
    ∀ k, ∃ s, advance next k s0 = .ok s ∧ collect next fuel s = .ok (all.drop k, send) ∧
      (hint s).1 ≤ (all.drop k).length ∧ ∀ u, (hint s).2 = some u → (all.drop k).length ≤ u

/-- The argument shared by all iterators: `lo` falls by at most one with every item and is zero at the end, and `hi`
bounds the number of items. -/
theorem hintSound_of {σ ι : Type} {next : σ → Res (Option ι × σ)} {hint : σ → Nat × Option Nat} {n : Nat}
    (I : σ → List ι → Prop)
    (hstep : ∀ s L, I s L → (next s = .ok (none, s) ∧ (hint s).1 = 0) ∨
      (∃ x s', next s = .ok (some x, s') ∧ I s' (L ++ [x]) ∧ (hint s).1 ≤ (hint s').1 + 1))
    (hbound : ∀ s L, I s L → L.length ≤ n) (hhi : ∀ s L, I s L → ∀ u, (hint s).2 = some u → n ≤ u)
    {s0 : σ} (h0 : I s0 []) : HintSound next hint n s0 := by
  have adv : ∀ s, next s = .ok (none, s) → ∀ j, advance next j s = .ok s := by
    intro s hs j
    induction j with
    | zero => rfl
    | succ j ih => simp [advance, hs, ih]
  have run : ∀ m s L, I s L → n < m + L.length → ∃ items send, I send (L ++ items) ∧ next send = .ok (none, send) ∧
      (hint s).1 ≤ items.length ∧ ∀ fuel, n < fuel + L.length → collect next fuel s = .ok (items, send) := by
    intro m
    induction m with
    | zero => intro s L hI hm; have := hbound s L hI; omega
    | succ m ih =>
      intro s L hI hm
      rcases hstep s L hI with ⟨h1, h2⟩ | ⟨x, s', h1, h2, h3⟩
      · refine ⟨[], s, by simpa using hI, h1, by simp [h2], ?_⟩
        intro fuel hf
        obtain ⟨f, rfl⟩ : ∃ f, fuel = f + 1 := ⟨fuel - 1, by have := hbound s L hI; omega⟩
        simp [collect, h1]
      · obtain ⟨items, send, i1, i2, i3, i4⟩ := ih s' (L ++ [x]) h2 (by simp; omega)
        refine ⟨x :: items, send, by simpa using i1, i2, by simp; omega, ?_⟩
        intro fuel hf
        obtain ⟨f, rfl⟩ : ∃ f, fuel = f + 1 := ⟨fuel - 1, by have := hbound s L hI; omega⟩
        have := i4 f (by simp; omega)
        simp [collect, h1, this]
  intro fuel hf
  obtain ⟨all, send, i1, i2, i3, i4⟩ := run fuel s0 [] h0 (by simpa using hf)
  refine ⟨all, send, i4 fuel (by simpa using hf), adv _ i2, i2, ?_⟩
  -- the state after `k` calls
  have key : ∀ k s L, I s L → L.length ≤ n → ∀ items, (∀ fuel, n < fuel + L.length → collect next fuel s = .ok (items, send)) →
      ∃ s' L', I s' L' ∧ advance next k s = .ok s' ∧ ∀ fuel, n < fuel → collect next fuel s' = .ok (items.drop k, send) := by
    intro k
    induction k with
    | zero => intro s L hI hL items hc; exact ⟨s, L, hI, rfl, fun fuel hf => by simpa using hc fuel (by omega)⟩
    | succ k ih =>
      intro s L hI hL items hc
      rcases hstep s L hI with ⟨h1, h2⟩ | ⟨x, s', h1, h2, h3⟩
      · have e := hc (n + 1) (by omega)
        simp [collect, h1] at e
        obtain ⟨rfl, rfl⟩ := e
        refine ⟨s, L, hI, adv s h1 _, ?_⟩
        intro fuel hf
        obtain ⟨f, rfl⟩ : ∃ f, fuel = f + 1 := ⟨fuel - 1, by omega⟩
        simp [collect, h1]
      · obtain ⟨items', send', j1, j2, j3, j4⟩ := run (n + 1) s' (L ++ [x]) h2 (by omega)
        have e := hc (n + 1 + 1) (by omega)
        have e' := j4 (n + 1) (by omega)
        rw [collect, h1] at e
        simp [e'] at e
        obtain ⟨rfl, rfl⟩ := e
        obtain ⟨s2, L2, k1, k2, k3⟩ := ih s' (L ++ [x]) h2 (hbound _ _ h2) items' j4
        exact ⟨s2, L2, k1, by simp [advance, h1, k2], by simpa using k3⟩
  intro k
  obtain ⟨s, L, k1, k2, k3⟩ := key k s0 [] h0 (by simp) all i4
  refine ⟨s, k2, k3 fuel hf, ?_, ?_⟩
  · obtain ⟨items', send', j1, j2, j3, j4⟩ := run (n + 1) s L k1 (by omega)
    have e := j4 (n + 1) (by omega)
    rw [k3 (n + 1) (by omega)] at e
    simp only [Res.ok.injEq, Prod.mk.injEq] at e
    rw [e.1]; exact j3
  · intro u hu
    have h1 := hhi s L k1 u hu
    have h2 : all.length ≤ n := by have := hbound _ _ i1; simpa using this
    simp; omega

variable {T A : Type} [AdjContainer T A] [LawfulAdj T A]

theorem visitStack_grow : ∀ (l : List Nat) (handled : List Bool) (q : List Nat) (r),
    visitStack l handled q = .ok r → q.length ≤ r.2.length := by
  intro l
  induction l with
  | nil => intro handled q r hr; simp [visitStack] at hr; rw [← hr]
  | cons i l ih =>
    intro handled q r hr
    by_cases hi : i < handled.length
    · simp only [visitStack, Vec.idx_of_lt hi, Res.ok_bind] at hr
      split at hr
      · rw [Vec.put_of_lt hi] at hr
        simp only [Res.ok_bind] at hr
        have := ih _ _ _ hr
        simp at this; omega
      · exact ih _ _ _ hr
    · simp [visitStack, List.getElem?_eq_none (Nat.le_of_not_lt hi), hi] at hr

theorem visitQueue_grow : ∀ (l : List Nat) (handled : List Bool) (q : List Nat) (r),
    visitQueue l handled q = .ok r → q.length ≤ r.2.length := by
  intro l
  induction l with
  | nil => intro handled q r hr; simp [visitQueue] at hr; rw [← hr]
  | cons i l ih =>
    intro handled q r hr
    by_cases hi : i < handled.length
    · simp only [visitQueue, Vec.idx_of_lt hi, Res.ok_bind] at hr
      split at hr
      · rw [Vec.put_of_lt hi] at hr
        simp only [Res.ok_bind] at hr
        have := ih _ _ _ hr
        simp at this; omega
      · exact ih _ _ _ hr
    · simp [visitQueue, List.getElem?_eq_none (Nat.le_of_not_lt hi), hi] at hr

theorem bfsVisit_grow {vs : List A} {s s' : BfsState} {i : Nat} {q : List Nat} {o : Option (Nat × T × Nat)}
    (hx : bfsVisit vs s i q = .ok (o, s')) : q.length + s.queue1.length ≤ s'.queue0.length + s'.queue1.length := by
  by_cases hi : i < vs.length
  · simp only [bfsVisit, Vec.idx_of_lt hi, Res.ok_bind] at hx
    cases hv : visitQueue (neighbors vs[i]) s.handled s.queue1 with
    | panic => rw [hv] at hx; simp at hx
    | diverge => rw [hv] at hx; simp at hx
    | ok p =>
      rw [hv] at hx
      simp at hx
      have := visitQueue_grow _ _ _ _ hv
      rw [← hx.2]; simp; omega
  · simp [bfsVisit, List.getElem?_eq_none (Nat.le_of_not_lt hi), hi] at hx

theorem bfsNext_grow {vs : List A} {s s' : BfsState} {o : Option (Nat × T × Nat)}
    (hx : bfsNext vs s = .ok (o, s')) :
    s.queue0.length + s.queue1.length ≤ s'.queue0.length + s'.queue1.length + 1 := by
  unfold bfsNext at hx
  split at hx
  · rename_i e; have := bfsVisit_grow hx; rw [e]; simp; omega
  · rename_i e
    split at hx
    · simp at hx; rw [← hx.2]; omega
    · rename_i e'; have := bfsVisit_grow hx; simp at this; rw [e, e']; simp; omega

/-- The states of a depth first search started at `v`, in or out of range. -/
def DfsRun (g : GenericGraph T A) (v : Nat) (s : DfsState) (m : Nat) : Prop :=
  (v < g.nextId ∧ ∃ D : List Nat, D.length = m ∧ DfsI g v s.handled s.stack D) ∨
    (¬ v < g.nextId ∧ m = 0 ∧ s = DfsState.new g v)

theorem DfsRun.init (g : GenericGraph T A) (v : Nat) : DfsRun g v (DfsState.new g v) 0 := by
  by_cases hv : v < g.nextId
  · left
    refine ⟨hv, [], rfl, ?_⟩
    rw [DfsState.new_of_lt hv]; exact DfsI.init g hv
  · exact Or.inr ⟨hv, rfl, rfl⟩

theorem DfsRun.bounds {g : GenericGraph T A} {v : Nat} {s : DfsState} {m : Nat} (h : DfsRun g v s m) :
    m ≤ g.nextId ∧ s.handled.length = g.nextId := by
  rcases h with ⟨_, D, hD, hI⟩ | ⟨hv, rfl, rfl⟩
  · exact ⟨hD ▸ hI.length_le, hI.len⟩
  · rw [DfsState.new_of_ge hv]; simp

theorem DfsRun.step {g : GenericGraph T A} (h : g.WF) {v : Nat} {s : DfsState} {m : Nat} (hr : DfsRun g v s m) :
    (dfsNext g.vertices s = .ok (none, s) ∧ dfsIndexNext g.vertices s = .ok (none, s) ∧ s.stack.length = 0) ∨
    (∃ i t s', dfsNext g.vertices s = .ok (some t, s') ∧ dfsIndexNext g.vertices s = .ok (some (i, t), s') ∧
      DfsRun g v s' (m + 1) ∧ s.stack.length ≤ s'.stack.length + 1) := by
  rcases hr with ⟨hv, D, hD, hI⟩ | ⟨hv, rfl, rfl⟩
  · obtain ⟨handled, stack⟩ := s
    cases stack with
    | nil => exact Or.inl ⟨rfl, rfl, rfl⟩
    | cons index stack =>
      right
      have hlt := h.lt_length (hI.lt (Or.inl List.mem_cons_self))
      obtain ⟨e1, e2⟩ := idx_nbrs hlt
      obtain ⟨handled', stack', e3, e4⟩ := DfsI.step h hI
      refine ⟨index, contained g.vertices[index], ⟨handled', stack'⟩, by simp [dfsNext, e1, e2, e3],
        by simp [dfsIndexNext, e1, e2, e3], Or.inl ⟨hv, D ++ [index], by simp [hD], e4⟩, ?_⟩
      have := visitStack_grow _ _ _ _ e3
      simp at this ⊢; omega
  · left
    rw [DfsState.new_of_ge hv]
    exact ⟨rfl, rfl, rfl⟩

/-- `Dfs` started anywhere: the hint is sound at every moment, and the iterator stays at its end. -/
theorem C62_dfs {g : GenericGraph T A} (h : g.WF) (v : Nat) :
    HintSound (dfsNext g.vertices) dfsSizeHint g.vertexCount (DfsState.new g v) :=
  hintSound_of (fun s L => DfsRun g v s L.length)
    (fun s L hr => by
      rcases hr.step h with ⟨h1, _, h2⟩ | ⟨i, t, s', h1, _, h2, h3⟩
      · exact Or.inl ⟨h1, h2⟩
      · exact Or.inr ⟨t, s', h1, by simpa using h2, h3⟩)
    (fun s L hr => hr.bounds.1)
    (fun s L hr u hu => by simp [dfsSizeHint] at hu; have := hr.bounds.2; show g.nextId ≤ u; omega)
    (DfsRun.init g v)

/-- `DfsWithIndex` started anywhere. -/
theorem C62_dfs_with_index {g : GenericGraph T A} (h : g.WF) (v : Nat) :
    HintSound (dfsIndexNext g.vertices) (dfsIndexSizeHint g.vertices) g.vertexCount (DfsState.new g v) :=
  hintSound_of (fun s L => DfsRun g v s L.length)
    (fun s L hr => by
      rcases hr.step h with ⟨_, h1, h2⟩ | ⟨i, t, s', _, h1, h2, h3⟩
      · exact Or.inl ⟨h1, h2⟩
      · exact Or.inr ⟨(i, t), s', h1, by simpa using h2, h3⟩)
    (fun s L hr => hr.bounds.1)
    (fun s L hr u hu => by
      simp [dfsIndexSizeHint] at hu; have := h.len; show g.nextId ≤ u; omega)
    (DfsRun.init g v)

/-- The states of a breadth first search. -/
def BfsRun (g : GenericGraph T A) (G : SimpleGraph ℕ) (ok : Nat → Prop) (v : Nat) (s : BfsState) (m : Nat) : Prop :=
  (∃ L : List (Nat × T × Nat), L.length = m ∧ BfsI g G ok v s L) ∨ (m = 0 ∧ s = ⟨List.replicate g.nextId false, [], [], 0⟩)

theorem BfsRun.bounds {g : GenericGraph T A} {G : SimpleGraph ℕ} {ok : Nat → Prop} {v : Nat} {s : BfsState} {m : Nat}
    (h : BfsRun g G ok v s m) : m ≤ g.nextId ∧ s.handled.length = g.nextId := by
  rcases h with ⟨D, hD, hI⟩ | ⟨rfl, rfl⟩
  · exact ⟨hD ▸ hI.length_le, hI.len⟩
  · simp

theorem BfsRun.step {g : GenericGraph T A} (h : g.WF) {G : SimpleGraph ℕ} {ok : Nat → Prop}
    (hG : ∀ v w, G.Adj v w ↔ w ∈ g.nbrs v ∧ ok v ∧ ok w) {v : Nat} {s : BfsState} {m : Nat} (hr : BfsRun g G ok v s m) :
    (bfsNext g.vertices s = .ok (none, s) ∧ bfsFilteredNext g.vertices s = .ok (none, s) ∧
      s.queue0 = [] ∧ s.queue1 = []) ∨
    (∃ x s', bfsNext g.vertices s = .ok (some x, s') ∧ bfsFilteredNext g.vertices s = .ok (some x, s') ∧
      BfsRun g G ok v s' (m + 1) ∧
      s.queue0.length + s.queue1.length ≤ s'.queue0.length + s'.queue1.length + 1) := by
  rcases hr with ⟨L, hL, hI⟩ | ⟨rfl, rfl⟩
  · rcases bfsNext_step h hG hI with h1 | ⟨x, s', e1, e2, e3⟩
    · exact Or.inl h1
    · exact Or.inr ⟨x, s', e1, e2, Or.inl ⟨L ++ [x], by simp [hL], e3⟩, bfsNext_grow e1⟩
  · exact Or.inl ⟨rfl, rfl, rfl, rfl⟩

theorem BfsRun.init (g : GenericGraph T A) (v : Nat) :
    BfsRun g g.toSimple (fun _ => True) v (BfsState.new g v) 0 := by
  by_cases hv : v < g.nextId
  · exact Or.inl ⟨[], rfl, BfsI.init hv _⟩
  · exact Or.inr ⟨rfl, BfsState.new_of_ge hv⟩

/-- `Bfs` started anywhere. -/
theorem C62_bfs {g : GenericGraph T A} (h : g.WF) (v : Nat) :
    HintSound (bfsNext g.vertices) (bfsSizeHint g.vertices) g.vertexCount (BfsState.new g v) :=
  hintSound_of (fun s L => BfsRun g g.toSimple (fun _ => True) v s L.length)
    (fun s L hr => by
      rcases hr.step h (hG_true h) with ⟨h1, _, h2, h3⟩ | ⟨x, s', h1, _, h2, h3⟩
      · exact Or.inl ⟨h1, by simp [bfsSizeHint, h2, h3]⟩
      · exact Or.inr ⟨x, s', h1, by simpa using h2, h3⟩)
    (fun s L hr => hr.bounds.1)
    (fun s L hr u hu => by
      simp [bfsSizeHint] at hu; have := h.len; show g.nextId ≤ u; omega)
    (BfsRun.init g v)

/-- `BfsFiltered`, whenever the constructor gives an iterator. -/
theorem C62_bfs_filtered {g : GenericGraph T A} (h : g.WF) (f : T → Nat → Bool) (v : Nat) {s : BfsState}
    (hs : BfsState.newFiltered g v f = .ok (some s)) :
    HintSound (bfsFilteredNext g.vertices) (bfsFilteredSizeHint g.vertices) g.vertexCount s := by
  have hv : Accepted g f v := by
    by_contra hc
    rw [newFiltered_none h hc] at hs; simp at hs
  rw [newFiltered_some h hv] at hs
  simp only [Res.ok.injEq, Option.some.injEq] at hs
  refine hintSound_of (fun s L => BfsRun g (filteredGraph g f) (Accepted g f) v s L.length)
    (fun s L hr => by
      rcases hr.step h (fun v w => by simp [filteredGraph, h.adj_iff]) with ⟨_, h1, h2, h3⟩ | ⟨x, s', _, h1, h2, h3⟩
      · exact Or.inl ⟨h1, by simp [bfsFilteredSizeHint, h2, h3]⟩
      · exact Or.inr ⟨x, s', h1, by simpa using h2, h3⟩)
    (fun s L hr => hr.bounds.1)
    (fun s L hr u hu => by
      simp [bfsFilteredSizeHint] at hu; have := h.len; show g.nextId ≤ u; omega) ?_
  exact Or.inl ⟨[], rfl, hs ▸ BfsI.initFiltered h hv⟩

/-- `BfsMut` started anywhere, whatever the user writes into the vertices. -/
theorem C62_bfs_mut {g : GenericGraph T A} (h : g.WF) (upd : Nat → T → T) (v : Nat) :
    HintSound (bfsMutNext upd) bfsMutSizeHint g.vertexCount (BfsMutState.new g v) := by
  refine hintSound_of (fun s L => SameAdj g s.vertices ∧ BfsRun g g.toSimple (fun _ => True) v s.st L.length)
    ?_ (fun s L hr => hr.2.bounds.1)
    (fun s L hr u hu => by
      simp [bfsMutSizeHint] at hu; have := hr.2.bounds.2; show g.nextId ≤ u; omega)
    ⟨SameAdj.refl g, BfsRun.init g v⟩
  rintro ⟨vs, st, c⟩ L ⟨hs, hr⟩
  rcases hr.step h (hG_true h) with ⟨_, _, h2, h3⟩ | ⟨⟨i, t, d⟩, s', h1, _, h2, h3⟩
  · left
    replace h2 : st.queue0 = [] := h2
    replace h3 : st.queue1 = [] := h3
    have : bfsNext (T := T) vs st = .ok (none, st) := by simp only [bfsNext, h2, h3]
    exact ⟨by simp [bfsMutNext, this], by simp only [bfsMutSizeHint, h2, h3]; rfl⟩
  · right
    obtain ⟨hl, e⟩ := bfsNext_same hs h1
    exact ⟨(i, contained vs[i], d), ⟨vs.set i (setContained vs[i] (upd c (contained vs[i]))), s', c + 1⟩,
      by simp [bfsMutNext, e, Vec.idx_of_lt hl],
      ⟨hs.set (List.getElem?_eq_getElem hl) _, by simpa using h2⟩, h3⟩

/-- The hints of a search of a graph with five vertices, four of them reachable, after 0, 1, 2, 3, 4 calls. -/
example : exTail.WF ∧
    (List.range 5).map (fun k => match advance (bfsNext exTail.vertices) k (BfsState.new exTail 3) with
      | .ok s => bfsSizeHint exTail.vertices s
      | _ => (9, none)) = [(1, some 5), (1, some 5), (2, some 5), (1, some 5), (0, some 5)] :=
  ⟨exTail_wf, by decide⟩

end Verif
