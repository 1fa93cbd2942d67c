import Verif.Props.Topology
import Verif.Lemmas.ErC
import Verif.Lemmas.ErM
import Verif.Model.Delegate

/-!
# Two runs of the same calls
-/

set_option linter.unusedSectionVars false
set_option linter.unusedSimpArgs false

namespace Verif
open AdjContainer GenericGraph

/-- Two computations end in the same way, and if they return, with related values. -/
def Res.Agree {α β : Type} (P : α → β → Prop) : Res α → Res β → Prop
  | .ok a, .ok b => P a b
  | .panic, .panic => True
  | .diverge, .diverge => True
  | _, _ => False

theorem Res.Agree.bind {α β γ δ : Type} {P : α → β → Prop} {Q : γ → δ → Prop} {x : Res α} {y : Res β} {f : α → Res γ}
    {k : β → Res δ} (h : Res.Agree P x y) (hf : ∀ a b, P a b → Res.Agree Q (f a) (k b)) :
    Res.Agree Q (x >>= f) (y >>= k) := by
  cases x <;> cases y <;> first | exact hf _ _ h | exact h | exact h.elim

theorem Res.Agree.mono {α β : Type} {P Q : α → β → Prop} {x : Res α} {y : Res β} (h : Res.Agree P x y)
    (hpq : ∀ a b, P a b → Q a b) : Res.Agree Q x y := by
  cases x <;> cases y <;> first | exact hpq _ _ h | exact h

theorem Res.Agree.refl {α : Type} {P : α → α → Prop} (x : Res α) (h : ∀ a, x = .ok a → P a a) : Res.Agree P x x := by
  cases x
  · exact h _ rfl
  · trivial
  · trivial

theorem Res.Agree.of_eq {α : Type} (x : Res α) : Res.Agree (· = ·) x x := Res.Agree.refl x (fun _ _ => rfl)

section
variable {T A T' A' : Type} [AdjContainer T A] [LawfulAdj T A] [AdjContainer T' A'] [LawfulAdj T' A']

/-- Two valid graphs with `n` vertices and the same edges. -/
structure Like (n : ℕ) (g : GenericGraph T A) (g' : GenericGraph T' A') : Prop where
  wf : g.WF
  wf' : g'.WF
  n1 : g.nextId = n
  n2 : g'.nextId = n
  edges : g'.edges = g.edges

variable {n : ℕ} {g : GenericGraph T A} {g' : GenericGraph T' A'}

theorem Like.same (s : Like n g g') : SameNet g g' := ⟨s.n2.trans s.n1.symm, s.edges⟩

theorem Like.mem (s : Like n g g') (i j : ℕ) : j ∈ g'.nbrs i ↔ j ∈ g.nbrs i := by
  rw [← s.wf.mem_edges, ← s.wf'.mem_edges, s.edges]

theorem Like.of_mem (h : g.WF) (h' : g'.WF) (h1 : g.nextId = n) (h2 : g'.nextId = n)
    (hm : ∀ i j, j ∈ g'.nbrs i ↔ j ∈ g.nbrs i) : Like n g g' :=
  ⟨h, h', h1, h2, h'.edges_eq_of (fun i j => by rw [h.mem_edges, hm])⟩

theorem Like.addEdge (s : Like n g g') (i j : ℕ) :
    Res.Agree (fun p q => q.1 = p.1 ∧ Like n p.2 q.2) (g.addEdge i j) (g'.addEdge i j) := by
  have hn : g'.nextId = g.nextId := s.same.n
  by_cases hv : i < g.nextId ∧ j < g.nextId ∧ i ≠ j
  · by_cases hm : j ∈ g.nbrs i
    · rw [addEdge_exists s.wf hm, addEdge_exists s.wf' ((s.mem i j).mpr hm)]
      exact ⟨rfl, s⟩
    · obtain ⟨g1, a1, a2, a3, _, a5, _⟩ := addEdge_spec s.wf hv.1 hv.2.1 hv.2.2 hm
      obtain ⟨g2, b1, b2, b3, _, b5, _⟩ := addEdge_spec s.wf' (hn ▸ hv.1) (hn ▸ hv.2.1) hv.2.2 (fun h => hm ((s.mem i j).mp h))
      rw [a1, b1]
      exact ⟨rfl, Like.of_mem a2 b2 (a3.trans s.n1) (b3.trans s.n2) (fun k l => by rw [a5, b5, s.mem])⟩
  · rw [addEdge_panic hv, addEdge_panic (by rw [hn]; exact hv)]
    trivial

theorem Like.removeEdge (s : Like n g g') (i j : ℕ) :
    Res.Agree (fun p q => q.1 = p.1 ∧ Like n p.2 q.2) (g.removeEdge i j) (g'.removeEdge i j) := by
  have hn : g'.nextId = g.nextId := s.same.n
  by_cases hv : i < g.nextId ∧ j < g.nextId ∧ i ≠ j
  · by_cases hm : j ∈ g.nbrs i
    · obtain ⟨g1, a1, a2, a3, _, a5, _⟩ := removeEdge_spec s.wf hm
      obtain ⟨g2, b1, b2, b3, _, b5, _⟩ := removeEdge_spec s.wf' ((s.mem i j).mpr hm)
      rw [a1, b1]
      exact ⟨rfl, Like.of_mem a2 b2 (a3.trans s.n1) (b3.trans s.n2) (fun k l => by rw [a5, b5, s.mem])⟩
    · rw [removeEdge_absent s.wf hv.1 hv.2.1 hv.2.2 hm,
        removeEdge_absent s.wf' (hn ▸ hv.1) (hn ▸ hv.2.1) hv.2.2 (fun h => hm ((s.mem i j).mp h))]
      exact ⟨rfl, s⟩
  · rw [removeEdge_panic hv, removeEdge_panic (by rw [hn]; exact hv)]
    trivial

theorem Like.clearEdges (s : Like n g g') : Like n g.clearEdges g'.clearEdges :=
  Like.of_mem (clearEdges_wf s.wf) (clearEdges_wf s.wf') ((clearEdges_nextId g).trans s.n1) ((clearEdges_nextId g').trans s.n2)
    (fun i j => by rw [clearEdges_nbrs s.wf, clearEdges_nbrs s.wf'])

theorem Like.unwrap {p : Except GraphErr Unit × GenericGraph T A} {q : Except GraphErr Unit × GenericGraph T' A'}
    (h : q.1 = p.1 ∧ Like n p.2 q.2) : Res.Agree (Like n) (unwrapOk p) (unwrapOk q) := by
  obtain ⟨p1, p2⟩ := p
  obtain ⟨q1, q2⟩ := q
  obtain ⟨h1, h2⟩ := h
  simp only at h1 h2
  subst h1
  cases q1
  · trivial
  · exact h2

theorem Like.sortAdj (s : Like n g g') : ∃ x, g.sortAdj = .ok x ∧ Like n x g' := by
  obtain ⟨x, a1, a2, a3, _⟩ := sortAdj_spec s.wf
  have t := SameNet.of_topoEq s.wf a2 a3
  exact ⟨x, a1, a2, s.wf', Eq.trans t.n s.n1, s.n2, s.edges.trans t.edges.symm⟩

theorem Like.setAt (s : Like n g g') {i : ℕ} (hi : i < n) (t : T) : ∃ x, g.setAt i t = .ok x ∧ Like n x g' := by
  obtain ⟨x, a1, a2, a3, _, a5, _⟩ := setAt_spec s.wf (s.n1.symm ▸ hi) t
  exact ⟨x, a1, Like.of_mem a2 s.wf' (a3.trans s.n1) s.n2 (fun k l => by rw [a5, s.mem])⟩

end

/-! ## Histories -/

/-- A simulation that ignores the cosmetic calls. -/
theorem runCalls_agree {E C O : Type} {run : E → C → Res (Option O × E)} {cos : C → Bool} {L : E → E → Prop} {keep : C → Prop}
    (hstep : ∀ e e' c, L e e' → cos c = false → Res.Agree (fun p q => q.1 = p.1 ∧ L p.2 q.2) (run e c) (run e' c))
    (hcos : ∀ e e' c, L e e' → cos c = true → keep c → ∃ x, run e c = .ok (none, x) ∧ L x e') :
    ∀ (cs : List C) (e e' : E), L e e' → (∀ c ∈ cs, keep c) →
      Res.Agree (fun p q => q.1 = p.1 ∧ L p.2 q.2) (runCalls run cs e) (runCalls run (cs.filter (fun c => !cos c)) e') := by
  intro cs
  induction cs with
  | nil => intro e e' h _; exact ⟨rfl, h⟩
  | cons c cs ih =>
    intro e e' h hk
    have hk' : ∀ d ∈ cs, keep d := fun d hd => hk d (by simp [hd])
    cases hc : cos c
    · rw [List.filter_cons_of_pos (by simp [hc])]
      simp only [runCalls]
      refine Res.Agree.bind (hstep e e' c h hc) ?_
      rintro ⟨o, x⟩ ⟨o', x'⟩ ⟨h1, h2⟩
      simp only at h1 h2
      subst h1
      refine Res.Agree.bind (ih x x' h2 hk') ?_
      rintro ⟨os, y⟩ ⟨os', y'⟩ ⟨h3, h4⟩
      simp only at h3 h4
      subst h3
      exact ⟨rfl, h4⟩
    · rw [List.filter_cons_of_neg (by simp [hc])]
      obtain ⟨x, a1, a2⟩ := hcos e e' c h hc (hk c (by simp))
      simp only [runCalls, a1, Res.ok_bind]
      have := ih x e' a2 hk'
      revert this
      cases runCalls run cs x <;> cases runCalls run (cs.filter (fun c => !cos c)) e' <;> intro this
      all_goals exact this

end Verif
