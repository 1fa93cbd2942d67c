import Verif.Spec.Ws
import Verif.Lemmas.EditAll
import Verif.Lemmas.Chain
import Verif.Lemmas.Connect
import Verif.Lemmas.Check
import Verif.Lemmas.Ba
import Verif.Props.Edit
import Mathlib.Tactic.Positivity
import Mathlib.Algebra.Order.Field.Basic

/-!
# Lemmas about the Watts-Strogatz ensemble: representation
-/

set_option linter.unusedSectionVars false
set_option linter.unusedSimpArgs false

namespace Verif
open AdjContainer GenericGraph

namespace Ws
variable {T R : Type} [Rng R]

/-- A stored entry of vertex `i`, `org` telling the original place of every edge. -/
structure EntryOk (org : Sym2 ℕ → Sym2 ℕ) (i : Nat) (z : Nat × OriginalEdge) : Prop where
  pair : z.2.pair = org s(i, z.1)
  flag : z.2.isAtOrigin = true ↔ org s(i, z.1) = s(i, z.1)
  home : z.2.isAtOrigin = true → z.2 = ⟨i, z.1, true⟩

/-- A container with neighbours described by `P`. -/
structure VertOk (P : Nat → Nat → Prop) (org : Sym2 ℕ → Sym2 ℕ) (i : Nat) (c : WSContainer T) : Prop where
  id : c.id = i
  inv : c.dst.length = c.original.length
  nodup : c.dst.Nodup
  adj : ∀ v, v ∈ c.dst ↔ P i v
  entry : ∀ z ∈ c.dst.zip c.original, EntryOk org i z

/-- A network with neighbours described by `P`. -/
structure Raw (n : Nat) (dat : List T) (ec : Nat) (g : WSGraph T) (P : Nat → Nat → Prop) (org : Sym2 ℕ → Sym2 ℕ) : Prop where
  next : g.nextId = n
  data : g.data = dat
  cnt : g.edgeCount = ec
  len : g.vertices.length = n
  vert : ∀ i c, g.vertices[i]? = some c → VertOk P org i c

theorem zip_split (c : WSContainer T) (h : c.dst.length = c.original.length) :
    c.dst = (c.dst.zip c.original).map Prod.fst ∧ c.original = (c.dst.zip c.original).map Prod.snd := by
  constructor
  · rw [List.map_fst_zip (by omega)]
  · rw [List.map_snd_zip (by omega)]

theorem zip_map (Z : List (Nat × OriginalEdge)) : (Z.map Prod.fst).zip (Z.map Prod.snd) = Z := by
  induction Z with
  | nil => rfl
  | cons a Z ih => simp [ih]

theorem Raw.get {n : Nat} {dat : List T} {ec : Nat} {g : WSGraph T} {P : Nat → Nat → Prop} {org : Sym2 ℕ → Sym2 ℕ}
    (h : Raw n dat ec g P org) {i : Nat} (hi : i < n) : ∃ c, g.vertices[i]? = some c :=
  ⟨_, List.getElem?_eq_getElem (by rw [h.len]; exact hi)⟩

theorem Raw.set {n : Nat} {dat : List T} {ec : Nat} {g : WSGraph T} {P P' : Nat → Nat → Prop} {org : Sym2 ℕ → Sym2 ℕ}
    (h : Raw n dat ec g P org) {i : Nat} {c c' : WSContainer T} (hc : g.vertices[i]? = some c) (hnode : c'.node = c.node)
    (ok : VertOk P' org i c') (hP : ∀ u v, u ≠ i → (P' u v ↔ P u v)) :
    Raw n dat ec { g with vertices := g.vertices.set i c' } P' org := by
  refine ⟨h.next, ?_, h.cnt, by simpa using h.len, ?_⟩
  · rw [← h.data]
    unfold GenericGraph.data
    apply List.ext_getElem?
    intro k
    simp only [List.getElem?_map, List.getElem?_set]
    by_cases hk : i = k
    · subst hk
      have hlt : i < g.vertices.length := (List.getElem?_eq_some_iff.mp hc).1
      rw [if_pos rfl, if_pos hlt, hc]
      simp [contained, hnode]
    · rw [if_neg hk]
  · intro k d hd
    rw [List.getElem?_set] at hd
    by_cases hk : i = k
    · subst hk
      have hlt : i < g.vertices.length := (List.getElem?_eq_some_iff.mp hc).1
      rw [if_pos rfl, if_pos hlt] at hd
      cases hd
      exact ok
    · rw [if_neg hk] at hd
      have hv := h.vert k d hd
      exact ⟨hv.id, hv.inv, hv.nodup, fun v => by rw [hP k v (fun e => hk e.symm)]; exact hv.adj v, hv.entry⟩

theorem Raw.congr {n : Nat} {dat : List T} {ec : Nat} {g : WSGraph T} {P P' : Nat → Nat → Prop} {org org' : Sym2 ℕ → Sym2 ℕ}
    (h : Raw n dat ec g P org) (hP : ∀ u v, P' u v ↔ P u v) (ho : ∀ u v, P u v → org' s(u, v) = org s(u, v)) :
    Raw n dat ec g P' org' := by
  refine ⟨h.next, h.data, h.cnt, h.len, fun i c hc => ?_⟩
  have hv := h.vert i c hc
  refine ⟨hv.id, hv.inv, hv.nodup, fun v => by rw [hP]; exact hv.adj v, fun z hz => ?_⟩
  have he := hv.entry z hz
  have : org' s(i, z.1) = org s(i, z.1) := ho _ _ ((hv.adj _).mp (List.of_mem_zip hz).1)
  exact ⟨by rw [this]; exact he.pair, by rw [this]; exact he.flag, he.home⟩

/-! ### Testing the entries of a vertex -/

theorem coin_eq (r : R) (p : ℚ) : coin r p = ((coin r p).1, unitState 1 r) := rfl

theorem unitState_succ (k : Nat) (r : R) : unitState (k + 1) r = unitState k (unitState 1 r) := by
  unfold unitState; rw [Function.iterate_succ_apply]; rfl

theorem unitState_add (k m : Nat) (r : R) : unitState (k + m) r = unitState k (unitState m r) := by
  unfold unitState; rw [Function.iterate_add_apply]

theorem throwAt_succ (p : ℚ) (r : R) (k : Nat) : throwAt p r (k + 1) = throwAt p (unitState 1 r) k := by
  unfold throwAt; rw [unitState_succ]

theorem throwAt_add (p : ℚ) (r : R) (k m : Nat) : throwAt p r (k + m) = throwAt p (unitState m r) k := by
  unfold throwAt; rw [unitState_add]

theorem throwAt_one (p : ℚ) (hp : AllHeads p) (r : R) (k : Nat) : throwAt p r k = true := by
  unfold throwAt coin
  have := Rng.genUnit_lt (unitState k r)
  simp only [decide_eq_true_eq]
  refine le_trans ?_ hp
  refine div_le_div_of_nonneg_right ?_ (by positivity)
  exact_mod_cast Nat.le_sub_one_of_lt this

/-- Number of entries marked as being at their origin. -/
def nfl (A : List (Nat × OriginalEdge)) : Nat := A.countP (fun z => z.2.isAtOrigin)

theorem swapRemove_mid {α : Type} (A B : List α) (a : α) :
    ∃ B', Vec.swapRemove (A ++ a :: B) A.length = .ok (a, A ++ B') ∧ B'.Perm B := by
  rcases List.eq_nil_or_concat B with rfl | ⟨B0, b, rfl⟩
  · refine ⟨[], ?_, List.Perm.refl _⟩
    simp [Vec.swapRemove]
  · refine ⟨b :: B0, ?_, ?_⟩
    · unfold Vec.swapRemove
      have h1 : (A ++ a :: (B0 ++ [b]))[A.length]? = some a := by simp
      have h2 : (A ++ a :: (B0 ++ [b])).getLast? = some b := by
        rw [show A ++ a :: (B0 ++ [b]) = (A ++ a :: B0) ++ [b] by simp, List.getLast?_concat]
      simp only [List.concat_eq_append] at *
      rw [h1, h2]
      simp only [Res.ok.injEq, Prod.mk.injEq, true_and]
      rw [List.set_append_right _ _ (le_refl _)]
      simp only [Nat.sub_self, List.set_cons_zero]
      rw [show A ++ b :: (B0 ++ [b]) = (A ++ b :: B0) ++ [b] by simp, List.dropLast_concat]
    · rw [List.concat_eq_append]
      exact (List.perm_append_singleton b B0).symm

theorem testLoop_spec (p : ℚ) : ∀ (j : Nat) (A B : List (Nat × OriginalEdge)) (rv : List OriginalEdge) (rng : R),
    A.length = j →
    ∃ Z' A' del rng', testLoop p j ((A ++ B).map Prod.fst) ((A ++ B).map Prod.snd) rv rng =
        .ok (Z'.map Prod.fst, Z'.map Prod.snd, rv ++ del.map Prod.snd, rng') ∧
      Z'.Perm (A' ++ B) ∧ (A' ++ del).Perm A ∧ (∀ z ∈ del, z.2.isAtOrigin = true) ∧
      (AllHeads p → ∀ z ∈ A', z.2.isAtOrigin = false) ∧
      (del = [] → Z' = A ++ B ∧ rng' = unitState (nfl A) rng ∧ ∀ k < nfl A, throwAt p rng k = false) ∧
      ((∀ k < nfl A, throwAt p rng k = false) → del = []) := by
  intro j
  induction j with
  | zero =>
    intro A B rv rng hA
    have : A = [] := List.length_eq_zero_iff.mp hA
    subst this
    exact ⟨B, [], [], rng, by simp [testLoop], by simp, by simp, by simp, fun _ => by simp, fun _ => ⟨rfl, rfl, by simp [nfl]⟩,
      fun _ => rfl⟩
  | succ j ih =>
    intro A B rv rng hA
    rcases List.eq_nil_or_concat A with rfl | ⟨A0, a, rfl⟩
    · simp at hA
    rw [List.concat_eq_append] at *
    have hA0 : A0.length = j := by simpa using hA
    have hidx : Vec.idx ((A0 ++ [a] ++ B).map Prod.snd) j = .ok a.2 := by
      apply Vec.idx_of_some
      rw [List.getElem?_map, List.append_assoc, List.getElem?_append_right (by omega)]
      simp [hA0]
    have hnfl : nfl (A0 ++ [a]) = nfl A0 + (if a.2.isAtOrigin then 1 else 0) := by
      simp [nfl, List.countP_append, List.countP_cons]
    have keep : ∀ rng1 : R, ∃ Z' A' del rng', testLoop p j ((A0 ++ [a] ++ B).map Prod.fst) ((A0 ++ [a] ++ B).map Prod.snd) rv rng1 =
        .ok (Z'.map Prod.fst, Z'.map Prod.snd, rv ++ del.map Prod.snd, rng') ∧
        Z'.Perm (A' ++ [a] ++ B) ∧ (A' ++ del).Perm A0 ∧ (∀ z ∈ del, z.2.isAtOrigin = true) ∧
        (AllHeads p → ∀ z ∈ A', z.2.isAtOrigin = false) ∧
        (del = [] → Z' = A0 ++ [a] ++ B ∧ rng' = unitState (nfl A0) rng1 ∧ ∀ k < nfl A0, throwAt p rng1 k = false) ∧
        ((∀ k < nfl A0, throwAt p rng1 k = false) → del = []) := by
      intro rng1
      obtain ⟨Z', A', del, rng', h1, h2, h3, h4, h5, h6, h7⟩ := ih A0 (a :: B) rv rng1 hA0
      refine ⟨Z', A', del, rng', ?_, ?_, h3, h4, h5, ?_, h7⟩
      · rw [← h1]; simp
      · simpa using h2
      · simpa using h6
    rw [testLoop, hidx]
    simp only [Res.ok_bind]
    by_cases hf : a.2.isAtOrigin = true
    · rw [if_pos hf, coin_eq]
      simp only
      by_cases hb : (coin rng p).1 = true
      · rw [if_pos hb]
        obtain ⟨B', hs, hB'⟩ := swapRemove_mid A0 B a
        have hs' : Vec.swapRemove (A0 ++ [a] ++ B) j = .ok (a, A0 ++ B') := by rw [← hA0]; simpa using hs
        rw [Vec.swapRemove_map Prod.snd hs', Vec.swapRemove_map Prod.fst hs']
        simp only [Res.ok_bind]
        obtain ⟨Z', A', del, rng', h1, h2, h3, h4, h5, h6, h7⟩ := ih A0 B' (rv ++ [a.2]) (unitState 1 rng) hA0
        refine ⟨Z', A', a :: del, rng', ?_, h2.trans (List.Perm.append_left _ hB'), ?_, ?_, h5, by simp, ?_⟩
        · rw [h1]; simp
        · refine List.perm_middle.trans ?_
          refine (List.Perm.cons a h3).trans ?_
          exact (List.perm_append_singleton _ _).symm
        · intro z hz
          rcases List.mem_cons.mp hz with rfl | hz
          · exact hf
          · exact h4 z hz
        · intro ht
          have := ht 0 (by rw [hnfl, if_pos hf]; omega)
          rw [show throwAt p rng 0 = (coin rng p).1 from rfl, hb] at this
          cases this
      · rw [if_neg hb]
        obtain ⟨Z', A', del, rng', h1, h2, h3, h4, h5, h6, h7⟩ := keep (unitState 1 rng)
        refine ⟨Z', A' ++ [a], del, rng', h1, h2, ?_, h4, ?_, ?_, ?_⟩
        · rw [List.append_assoc]
          refine (List.Perm.append_left A' (List.perm_append_comm)).trans ?_
          rw [← List.append_assoc]
          exact h3.append_right _
        · intro hp
          exact absurd (throwAt_one p hp rng 0) hb
        · intro hd
          obtain ⟨k1, k2, k3⟩ := h6 hd
          refine ⟨k1, ?_, ?_⟩
          · rw [k2, hnfl, if_pos hf]; exact (unitState_succ _ _).symm
          · intro k hk
            rw [hnfl, if_pos hf] at hk
            cases k with
            | zero => exact Bool.eq_false_iff.mpr hb
            | succ k => rw [throwAt_succ]; exact k3 k (by omega)
        · intro ht
          apply h7
          intro k hk
          rw [← throwAt_succ]
          exact ht (k + 1) (by rw [hnfl, if_pos hf]; omega)
    · rw [if_neg hf]
      obtain ⟨Z', A', del, rng', h1, h2, h3, h4, h5, h6, h7⟩ := keep rng
      rw [hnfl, if_neg hf, Nat.add_zero]
      refine ⟨Z', A' ++ [a], del, rng', h1, h2, ?_, h4, ?_, h6, h7⟩
      · rw [List.append_assoc]
        refine (List.Perm.append_left A' (List.perm_append_comm)).trans ?_
        rw [← List.append_assoc]
        exact h3.append_right _
      · intro hp z hz
        rcases List.mem_append.mp hz with hz | hz
        · exact h5 hp z hz
        · rw [List.mem_singleton.mp hz]; exact Bool.eq_false_iff.mpr hf

/-- Coins can be scripted: some numbers let the loop run through. -/
theorem testLoop_run (p : ℚ) : ∀ (j : Nat) (tos : List Nat) (ori rv : List OriginalEdge), j ≤ ori.length →
    tos.length = ori.length →
    ∃ ds a b c, ∀ rest, testLoop p j tos ori rv (⟨ds ++ rest⟩ : Script) = .ok (a, b, c, ⟨rest⟩) := by
  intro j
  induction j with
  | zero => intro tos ori rv _ _; exact ⟨[], tos, ori, rv, fun rest => rfl⟩
  | succ j ih =>
    intro tos ori rv hj hl
    obtain ⟨l1, s1, p1⟩ := Vec.swapRemove_of_lt (l := ori) (i := j) (by omega)
    obtain ⟨l2, s2, p2⟩ := Vec.swapRemove_of_lt (l := tos) (i := j) (by omega)
    have q1 := p1.length_eq
    have q2 := p2.length_eq
    simp only [List.length_cons] at q1 q2
    have hidx : Vec.idx ori j = .ok ori[j] := Vec.idx_of_lt (by omega)
    by_cases hf : ori[j].isAtOrigin = true
    · have hstate : ∀ rest, unitState 1 (⟨0 :: rest⟩ : Script) = ⟨rest⟩ := fun rest => rfl
      by_cases hb : (coin (⟨[0]⟩ : Script) p).1 = true
      · obtain ⟨ds, a, b, c, h⟩ := ih l2 l1 (rv ++ [ori[j]]) (by omega) (by omega)
        refine ⟨0 :: ds, a, b, c, fun rest => ?_⟩
        have hb' : (coin (⟨0 :: ds ++ rest⟩ : Script) p).1 = true := hb
        rw [testLoop, hidx]
        simp only [Res.ok_bind]
        rw [if_pos hf, coin_eq]
        simp only
        rw [if_pos hb', s1, s2]
        simp only [Res.ok_bind]
        rw [List.cons_append, hstate]
        exact h rest
      · obtain ⟨ds, a, b, c, h⟩ := ih tos ori rv (by omega) hl
        refine ⟨0 :: ds, a, b, c, fun rest => ?_⟩
        have hb' : ¬ (coin (⟨0 :: ds ++ rest⟩ : Script) p).1 = true := hb
        rw [testLoop, hidx]
        simp only [Res.ok_bind]
        rw [if_pos hf, coin_eq]
        simp only
        rw [if_neg hb', List.cons_append, hstate]
        exact h rest
    · obtain ⟨ds, a, b, c, h⟩ := ih tos ori rv (by omega) hl
      refine ⟨ds, a, b, c, fun rest => ?_⟩
      rw [testLoop, hidx]
      simp only [Res.ok_bind]
      rw [if_neg hf]
      exact h rest

end Ws
end Verif
