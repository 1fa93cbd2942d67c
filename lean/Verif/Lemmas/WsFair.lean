import Verif.Lemmas.Draws
import Verif.Lemmas.Ws5

/-!
# Watts-Strogatz on a fair tape

Every search for a free pair ends.
-/

set_option linter.unusedSectionVars false
set_option linter.unusedSimpArgs false

namespace Verif
open AdjContainer

namespace Ws

variable {T : Type} [Node T]

theorem pickPair_within {n : Nat} {dat : List T} {ec : Nat} {g : WSGraph T} {E : Finset (Sym2 ℕ)} {org : Sym2 ℕ → Sym2 ℕ}
    (h : Raw n dat ec g (fun u v => s(u, v) ∈ E) org) (hn : n < 2 ^ 32) (o : OriginalEdge) {a b : Nat} (hf : Free n E o a b) :
    ∀ (j : Nat) (r : Stream), partOf (r.tape (r.pos + j * 2 + 0)) n = a → partOf (r.tape (r.pos + j * 2 + 1)) n = b →
      ∃ a' b' r', Free n E o a' b' ∧ r'.tape = r.tape ∧ ∀ fuel, j + 1 ≤ fuel → pickPair g o fuel r = .ok (a', b', r') := by
  have hn0 : 0 < n := by have := hf.1; omega
  intro j
  induction j with
  | zero =>
    intro r h1 h2
    refine ⟨a, b, r.skip 1 |>.skip 1, hf, rfl, ?_⟩
    intro fuel hfuel
    obtain ⟨fuel, rfl⟩ : ∃ k, fuel = k + 1 := ⟨fuel - 1, by omega⟩
    have e1 : genRange r n = .ok (a, r.skip 1) := by
      rw [r.genRange_eq hn0, ← h1]; rfl
    have e2 : genRange (r.skip 1) n = .ok (b, (r.skip 1).skip 1) := by
      rw [(r.skip 1).genRange_eq hn0, ← h2]; rfl
    rcases pickPair_succ h hn o fuel e1 e2 with ⟨_, he⟩ | ⟨hc, _⟩
    · exact he
    · exact absurd hf hc
  | succ j ih =>
    intro r h1 h2
    have e1 := r.genRange_eq hn0
    have e2 := (r.skip 1).genRange_eq hn0
    by_cases hc : Free n E o (partOf r.head n) (partOf (r.skip 1).head n)
    · refine ⟨_, _, (r.skip 1).skip 1, hc, rfl, ?_⟩
      intro fuel hfuel
      obtain ⟨fuel, rfl⟩ : ∃ k, fuel = k + 1 := ⟨fuel - 1, by omega⟩
      rcases pickPair_succ h hn o fuel e1 e2 with ⟨_, he⟩ | ⟨hc', _⟩
      · exact he
      · exact absurd hc hc'
    · obtain ⟨a', b', r', k1, k2, k3⟩ := ih ((r.skip 1).skip 1)
        (by rw [← h1]; simp only [Stream.skip_tape, Stream.skip_pos]; congr 2; omega)
        (by rw [← h2]; simp only [Stream.skip_tape, Stream.skip_pos]; congr 2; omega)
      refine ⟨a', b', r', k1, k2, ?_⟩
      intro fuel hfuel
      obtain ⟨fuel, rfl⟩ : ∃ k, fuel = k + 1 := ⟨fuel - 1, by omega⟩
      rcases pickPair_succ h hn o fuel e1 e2 with ⟨hc', _⟩ | ⟨_, he⟩
      · exact absurd hc' hc
      · rw [he]; exact k3 fuel (by omega)

theorem addAll_fair {n d : Nat} (hn : n < 2 ^ 32) (hd : 2 * d + 2 ≤ n) {dat : List T} {ω : ℕ → ℝ} (hω : Fair ω) :
    ∀ (l : List OriginalEdge) {g : WSGraph T} {E : Finset (Sym2 ℕ)} {org : Sym2 ℕ → Sym2 ℕ} {r : Stream}, r.tape = ω →
    J n d dat g E org ((l.map OriginalEdge.pair : List (Sym2 ℕ)) : Multiset (Sym2 ℕ)) →
    Eventually (fun fuel => l.foldlM (addRandomEdge fuel) (g, r))
      (fun x => x.2.tape = ω ∧ ∃ E' org', J n d dat x.1 E' org' 0) := by
  intro l
  induction l with
  | nil => intro g E org r hr h; exact Eventually.pure ⟨hr, E, org, h⟩
  | cons o l ih =>
    intro g E org r hr h
    have h' : J n d dat g E org (o.pair ::ₘ ((l.map OriginalEdge.pair : List (Sym2 ℕ)) : Multiset (Sym2 ℕ))) := h
    obtain ⟨a, b, hf⟩ := free_exists hd h'
    obtain ⟨j, hj⟩ := hω.draws (l := [(n, a), (n, b)]) (by simp) (by
      intro d hd
      simp only [List.mem_cons, List.not_mem_nil, or_false] at hd
      rcases hd with rfl | rfl
      · exact hf.1
      · exact hf.2.1) r.pos
    obtain ⟨a', b', r', k1, k2, k3⟩ := pickPair_within h.raw hn o hf j r
      (by rw [hr]; exact hj 0 (by simp)) (by rw [hr]; exact hj 1 (by simp))
    have hstep : Eventually (fun fuel => addRandomEdge fuel (g, r) o) (fun x => x.2.tape = ω ∧ ∃ E' org',
        J n d dat x.1 E' org' ((l.map OriginalEdge.pair : List (Sym2 ℕ)) : Multiset (Sym2 ℕ))) := by
      obtain ⟨g1, e1, e2⟩ := addRandomEdge_of_pick h' (k3 (j + 1) (le_refl _)) k1
      refine ⟨j + 1, (g1, r'), ⟨k2.trans hr, _, _, e2⟩, ?_⟩
      intro fuel hfuel
      rw [← e1]
      unfold addRandomEdge
      simp only
      rw [k3 fuel hfuel, k3 (j + 1) (le_refl _)]
    have := Eventually.bind (k := fun fuel x => l.foldlM (addRandomEdge fuel) x) hstep
      (Q := fun x => x.2.tape = ω ∧ ∃ E' org', J n d dat x.1 E' org' 0) (by
        rintro ⟨g1, r1⟩ ⟨h1, E', org', h2⟩
        exact ih h1 h2)
    simpa only [List.foldlM_cons] using this

theorem testLoop_tape {p : ℚ} : ∀ (k : ℕ) (tos : List ℕ) (orig rew : List OriginalEdge) (r : Stream)
    {x : List ℕ × List OriginalEdge × List OriginalEdge × Stream}, testLoop p k tos orig rew r = .ok x → x.2.2.2.tape = r.tape := by
  intro k
  induction k with
  | zero => intro tos orig rew r x h; rw [testLoop] at h; cases h; rfl
  | succ k ih =>
    intro tos orig rew r x h
    rw [testLoop] at h
    obtain ⟨o, _, h⟩ := Res.bind_eq_ok.mp h
    split at h
    · rw [show coin r p = ((coin r p).1, r.skip 1) from rfl] at h
      simp only at h
      split at h
      · obtain ⟨_, _, h⟩ := Res.bind_eq_ok.mp h
        obtain ⟨_, _, h⟩ := Res.bind_eq_ok.mp h
        exact (ih _ _ _ _ h).trans rfl
      · exact (ih _ _ _ _ h).trans rfl
    · exact ih _ _ _ _ h

theorem removeStage_tape {p : ℚ} {g : WSGraph T} {r : Stream} {i : ℕ} {x : WSGraph T × List OriginalEdge × Stream}
    (h : removeStage p g r i = .ok x) : x.2.2.tape = r.tape := by
  unfold removeStage at h
  obtain ⟨c, _, h⟩ := Res.bind_eq_ok.mp h
  obtain ⟨_, _, h⟩ := Res.bind_eq_ok.mp h
  obtain ⟨y, hy, h⟩ := Res.bind_eq_ok.mp h
  obtain ⟨_, _, h⟩ := Res.bind_eq_ok.mp h
  simp only [Res.pure_eq, Res.ok.injEq] at h
  subst h
  exact testLoop_tape _ _ _ _ _ hy

theorem rewireBody_fair {p : ℚ} {n d : Nat} (hn : n < 2 ^ 32) (hd : 2 * d + 2 ≤ n) {dat : List T} {ω : ℕ → ℝ} (hω : Fair ω)
    {g : WSGraph T} {r : Stream} (hr : r.tape = ω)
    {E : Finset (Sym2 ℕ)} {org : Sym2 ℕ → Sym2 ℕ} (h : J n d dat g E org 0) {i : Nat} (hi : i < n) :
    Eventually (fun fuel => rewireBody p fuel (g, r) i) (fun x => x.2.tape = ω ∧ ∃ E' org', J n d dat x.1 E' org' 0) := by
  obtain ⟨g1, rewire, rng1, D, a1, a2, a3, a4, a5, a6, a7, a8⟩ := removeStage_spec (p := p) h hi r
  have hJ : J n d dat g1 (E \ D) org ((rewire.map OriginalEdge.pair : List (Sym2 ℕ)) : Multiset (Sym2 ℕ)) := by rw [a5]; exact a4
  have := addAll_fair hn hd hω rewire ((removeStage_tape a1).trans hr) hJ
  unfold rewireBody
  simp only [a1, Res.ok_bind]
  exact this

theorem loop_fair {p : ℚ} {n d : Nat} (hn : n < 2 ^ 32) (hd : 2 * d + 2 ≤ n) {dat : List T} {ω : ℕ → ℝ} (hω : Fair ω)
    {g0 : WSGraph T} {r : Stream} (hr : r.tape = ω) {E : Finset (Sym2 ℕ)} {org : Sym2 ℕ → Sym2 ℕ} (h : J n d dat g0 E org 0) :
    Eventually (fun fuel => (List.range n).foldlM (rewireBody p fuel) (g0, r))
      (fun x => x.2.tape = ω ∧ ∃ E' org', J n d dat x.1 E' org' 0) := by
  refine Eventually.foldlM (I := fun _ x => x.2.tape = ω ∧ ∃ E' org', J n d dat x.1 E' org' 0) (List.range n) (g0, r) 0
    ⟨hr, E, org, h⟩ ?_
  rintro i hi ⟨g, r⟩ ⟨h1, E', org', h2⟩
  rw [List.getElem_range]
  exact rewireBody_fair hn hd hω h1 h2 (by simpa using hi)

end Ws
end Verif
