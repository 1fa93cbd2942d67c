import Verif.Lemmas.Draws
import Verif.Props.Dog

/-!
# The search for a partner on a fair tape

A round of the search uses one number if it hits the vertex itself and two otherwise.  The pattern "the vertex itself, the partner,
a small number" leads to success whichever way the rounds fall on it.
-/

set_option linter.unusedSectionVars false
set_option linter.unusedSimpArgs false

namespace Verif
open AdjContainer GenericGraph

namespace Dog


variable {T : Type}

theorem findPartner_round {g : SpacialGraph T} (h : g.WF) {node : Nat} (hnode : node < g.nextId) (D : Nat) (r : Stream) :
    (∃ g' v, Linked g node g' v ∧ ∀ fuel, findPartner node D (fuel + 1) g r = .ok (g', (r.skip 1).skip 1)) ∨
    (partOf r.head g.nextId = node ∧ ∀ fuel, findPartner node D (fuel + 1) g r = findPartner node D fuel g (r.skip 1)) ∨
    (partOf r.head g.nextId ≠ node ∧ ∀ fuel, findPartner node D (fuel + 1) g r = findPartner node D fuel g ((r.skip 1).skip 1)) := by
  have hi : partOf r.head g.nextId < g.nextId := partOf_lt _ (by omega)
  have e1 : genRange r g.vertexCount = .ok (partOf r.head g.nextId, r.skip 1) := r.genRange_eq (by show 0 < g.nextId; omega)
  by_cases hne : partOf r.head g.nextId = node
  · refine .inr (.inl ⟨hne, fun fuel => ?_⟩)
    rw [findPartner, e1]
    simp only [Res.ok_bind, degree_some h hi]
    rw [if_neg (not_not.mpr hne)]
  · generalize hq : (((g.nbrs (partOf r.head g.nextId)).length : ℚ) * (1 / (D : ℚ))) = q
    have hc : coinLt (r.skip 1) q = ((coinLt (r.skip 1) q).1, (r.skip 1).skip 1) := rfl
    by_cases hb : (coinLt (r.skip 1) q).1 = true
    · rcases addEdge_any h hnode hi (Ne.symm hne) with ⟨h1, h2⟩ | ⟨h1, g', h2, h3, h4, h5, h6⟩
      · refine .inr (.inr ⟨hne, fun fuel => ?_⟩)
        rw [findPartner, e1]
        simp only [Res.ok_bind, degree_some h hi, hq]
        rw [if_pos hne, hc]
        simp only [hb, if_true, h2, Res.ok_bind]
      · refine .inl ⟨g', partOf r.head g.nextId, ⟨⟨hi, hne, h1, ?_⟩, h3, h4, h6, coords_addEdge h2, h5⟩, fun fuel => ?_⟩
        · intro hnil
          have := coinLt_pos hb
          rw [← hq, hnil] at this
          simp at this
        · rw [findPartner, e1]
          simp only [Res.ok_bind, degree_some h hi, hq]
          rw [if_pos hne, hc]
          simp only [hb, if_true, h2, Res.ok_bind, Res.pure_eq]
    · refine .inr (.inr ⟨hne, fun fuel => ?_⟩)
      rw [findPartner, e1]
      simp only [Res.ok_bind, degree_some h hi, hq]
      rw [if_pos hne, hc]
      simp only [hb]
      rfl

/-- What is to be shown of a search. -/
def Finds (node D : Nat) (g : SpacialGraph T) (r : Stream) : Prop :=
  Eventually (fun fuel => findPartner node D fuel g r) (fun p => p.2.tape = r.tape ∧ ∃ v, Linked g node p.1 v)

theorem Finds.of_eq {node D : Nat} {g : SpacialGraph T} {r r' : Stream} (ht : r'.tape = r.tape)
    (h : ∀ fuel, findPartner node D (fuel + 1) g r = findPartner node D fuel g r') (hf : Finds node D g r') : Finds node D g r := by
  obtain ⟨F, x, k1, k2⟩ := hf
  rw [ht] at k1
  refine ⟨F + 1, x, k1, fun fuel hfuel => ?_⟩
  obtain ⟨fuel, rfl⟩ : ∃ k, fuel = k + 1 := ⟨fuel - 1, by omega⟩
  show findPartner node D (fuel + 1) g r = _
  rw [h]
  exact k2 fuel (by omega)

theorem Finds.of_linked {node D v : Nat} {g g' : SpacialGraph T} {r r' : Stream} (ht : r'.tape = r.tape) (hl : Linked g node g' v)
    (h : ∀ fuel, findPartner node D (fuel + 1) g r = .ok (g', r')) : Finds node D g r := by
  refine ⟨1, (g', r'), ⟨ht, v, hl⟩, fun fuel hfuel => ?_⟩
  obtain ⟨fuel, rfl⟩ : ∃ k, fuel = k + 1 := ⟨fuel - 1, by omega⟩
  exact h fuel

theorem finds_now {g : SpacialGraph T} (h : g.WF) {node : Nat} (hnode : node < g.nextId) {D v : Nat} (hD : 0 < D)
    (hp : Partner g node v) {r : Stream} (h1 : partOf r.head g.nextId = v) (h2 : partOf (r.skip 1).head (2 ^ 53) = 0) :
    Finds node D g r := by
  obtain ⟨p1, p2, p3, p4⟩ := hp
  rcases addEdge_any h hnode p1 (Ne.symm p2) with ⟨k1, _⟩ | ⟨k1, g', k2, k3, k4, k5, k6⟩
  · exact absurd k1 p3
  · refine Finds.of_linked (r' := (r.skip 1).skip 1) rfl ⟨⟨p1, p2, p3, p4⟩, k3, k4, k6, coords_addEdge k2, k5⟩ (fun fuel => ?_)
    have e1 : genRange r g.vertexCount = .ok (v, r.skip 1) := by
      rw [← h1]
      exact r.genRange_eq (by show 0 < g.nextId; omega)
    rw [findPartner, e1]
    simp only [Res.ok_bind, degree_some h p1]
    rw [if_pos p2]
    have hc : coinLt (r.skip 1) (((g.nbrs v).length : ℚ) * (1 / (D : ℚ))) = (true, (r.skip 1).skip 1) := by
      have hg : Rng.genUnit (r.skip 1) = (0, (r.skip 1).skip 1) := by
        show (partOf (r.skip 1).head (2 ^ 53), _) = _
        rw [h2]
      unfold coinLt uniformQ
      rw [hg]
      simp only [Prod.mk.injEq, and_true, decide_eq_true_eq, Nat.zero_div, Nat.cast_zero, zero_div]
      apply mul_pos
      · exact_mod_cast List.length_pos_iff.mpr p4
      · exact one_div_pos.mpr (by exact_mod_cast hD)
    rw [hc]
    simp only [if_true, k2, Res.ok_bind, Res.pure_eq]

theorem finds_within {g : SpacialGraph T} (h : g.WF) {node : Nat} (hnode : node < g.nextId) {D v : Nat} (hD : 0 < D)
    (hp : Partner g node v) : ∀ (δ : ℕ) (r : Stream), partOf (r.tape (r.pos + δ)) g.nextId = node →
      partOf (r.tape (r.pos + δ + 1)) g.nextId = v → partOf (r.tape (r.pos + δ + 2)) (2 ^ 53) = 0 → Finds node D g r := by
  intro δ
  induction δ using Nat.strong_induction_on with
  | _ δ ih =>
    intro r h0 h1 h2
    have at1 : ∀ k, (r.skip 1).pos + k = r.pos + (k + 1) := by intro k; rw [Stream.skip_pos]; omega
    have at2 : ∀ k, ((r.skip 1).skip 1).pos + k = r.pos + (k + 2) := by intro k; rw [Stream.skip_pos, Stream.skip_pos]; omega
    rcases findPartner_round h hnode D r with ⟨g', w, k1, k2⟩ | ⟨k1, k2⟩ | ⟨k1, k2⟩
    · exact Finds.of_linked (r' := (r.skip 1).skip 1) rfl k1 k2
    · refine Finds.of_eq (r' := r.skip 1) rfl k2 ?_
      cases δ with
      | zero =>
        refine finds_now h hnode hD hp ?_ ?_
        · rw [← h1]; rfl
        · rw [← h2]; rfl
      | succ δ =>
        refine ih δ (by omega) (r.skip 1) ?_ ?_ ?_
        · rw [at1, Stream.skip_tape]; exact h0
        · rw [Nat.add_assoc, at1, Stream.skip_tape]; rw [← h1]; congr 2
        · rw [Nat.add_assoc, at1, Stream.skip_tape]; rw [← h2]; congr 2
    · refine Finds.of_eq (r' := (r.skip 1).skip 1) rfl k2 ?_
      match δ, ih, h0, h1, h2 with
      | 0, _, h0, _, _ => exact absurd h0 k1
      | 1, _, _, h1, h2 =>
        refine finds_now h hnode hD hp ?_ ?_
        · rw [← h1]; rfl
        · rw [← h2]; rfl
      | δ + 2, ih, h0, h1, h2 =>
        refine ih δ (by omega) ((r.skip 1).skip 1) ?_ ?_ ?_
        · rw [at2, Stream.skip_tape, Stream.skip_tape]; exact h0
        · rw [Nat.add_assoc, at2, Stream.skip_tape, Stream.skip_tape]; rw [← h1]; congr 2
        · rw [Nat.add_assoc, at2, Stream.skip_tape, Stream.skip_tape]; rw [← h2]; congr 2

theorem findPartner_fair {g : SpacialGraph T} (h : g.WF) {node : Nat} (hnode : node < g.nextId) {D v : Nat} (hD : 0 < D)
    (hp : Partner g node v) {r : Stream} (hω : Fair r.tape) : Finds node D g r := by
  obtain ⟨j, hj⟩ := hω.draws (l := [(g.nextId, node), (g.nextId, v), (2 ^ 53, 0)]) (by simp) (by
    intro d hd
    simp only [List.mem_cons, List.not_mem_nil, or_false] at hd
    rcases hd with rfl | rfl | rfl
    · exact hnode
    · exact hp.1
    · exact Nat.two_pow_pos 53) r.pos
  refine finds_within h hnode hD hp (j * 3) r ?_ ?_ ?_
  · exact hj 0 (by simp)
  · exact hj 1 (by simp)
  · exact hj 2 (by simp)

end Dog
end Verif
