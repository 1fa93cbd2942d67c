import Verif.Lemmas.Ws2

/-!
# Lemmas about the Watts-Strogatz ensemble: inserting the removed edges, the loop of `randomize`
-/

set_option linter.unusedSectionVars false
set_option linter.unusedSimpArgs false

namespace Verif
open AdjContainer GenericGraph

namespace Ws
variable {T R : Type} [Rng R]

theorem asU32_eq {n : Nat} (h : n < 2 ^ 32) : asU32 n = n := Nat.mod_eq_of_lt h

theorem adj_test {n : Nat} {dat : List T} {ec : Nat} {g : WSGraph T} {E : Finset (Sym2 ℕ)} {org : Sym2 ℕ → Sym2 ℕ}
    (h : Raw n dat ec g (fun u v => s(u, v) ∈ E) org) {a : Nat} (ha : a < n) (b : Nat) :
    ∃ c, Vec.idx g.vertices a = .ok c ∧ (isAdjacent c b = true ↔ s(a, b) ∈ E) := by
  obtain ⟨c, hc⟩ := h.get ha
  refine ⟨c, Vec.idx_of_some hc, ?_⟩
  rw [← (h.vert a c hc).adj b]
  exact WSContainer.isAdjacent_iff c b

/-- The pairs `add_random_edge` may choose. -/
def Free (n : Nat) (E : Finset (Sym2 ℕ)) (o : OriginalEdge) (a b : Nat) : Prop :=
  a < n ∧ b < n ∧ a ≠ b ∧ s(a, b) ≠ o.pair ∧ s(a, b) ∉ E

theorem skip_iff (o : OriginalEdge) (a b : Nat) :
    (a == b || (a == o.from_ && b == o.dst) || (a == o.dst && b == o.from_)) = true ↔ a = b ∨ s(a, b) = o.pair := by
  unfold OriginalEdge.pair
  rw [Sym2.eq_iff]
  simp only [Bool.or_eq_true, Bool.and_eq_true, beq_iff_eq]
  tauto

theorem pickPair_succ {n : Nat} {dat : List T} {ec : Nat} {g : WSGraph T} {E : Finset (Sym2 ℕ)} {org : Sym2 ℕ → Sym2 ℕ}
    (h : Raw n dat ec g (fun u v => s(u, v) ∈ E) org) (hn : n < 2 ^ 32) (o : OriginalEdge) (fuel : Nat) {rng r1 r2 : R} {a b : Nat}
    (e1 : genRange rng n = .ok (a, r1)) (e2 : genRange r1 n = .ok (b, r2)) :
    (Free n E o a b ∧ pickPair g o (fuel + 1) rng = .ok (a, b, r2)) ∨
    (¬ Free n E o a b ∧ pickPair g o (fuel + 1) rng = pickPair g o fuel r2) := by
  have ha := (genRange_eq_ok e1).2.1
  have hb := (genRange_eq_ok e2).2.1
  rw [pickPair]
  have : asU32 g.vertexCount = n := by
    show asU32 g.nextId = n
    rw [h.next, asU32_eq hn]
  rw [this, e1]
  simp only [Res.ok_bind]
  rw [e2]
  simp only [Res.ok_bind]
  by_cases hs : (a == b || (a == o.from_ && b == o.dst) || (a == o.dst && b == o.from_)) = true
  · rw [if_pos hs]
    refine .inr ⟨fun hf => ?_, rfl⟩
    rcases (skip_iff o a b).mp hs with h' | h'
    · exact hf.2.2.1 h'
    · exact hf.2.2.2.1 h'
  · rw [if_neg hs]
    obtain ⟨c, hc1, hc2⟩ := adj_test h ha b
    rw [hc1]
    simp only [Res.ok_bind]
    have hs' := mt (skip_iff o a b).mpr hs
    by_cases hadj : isAdjacent c b = true
    · rw [if_pos hadj]
      exact .inr ⟨fun hf => hf.2.2.2.2 (hc2.mp hadj), rfl⟩
    · rw [if_neg hadj]
      exact .inl ⟨⟨ha, hb, fun e => hs' (.inl e), fun e => hs' (.inr e), fun e => hadj (hc2.mpr e)⟩, rfl⟩

theorem pickPair_spec {n : Nat} {dat : List T} {ec : Nat} {g : WSGraph T} {E : Finset (Sym2 ℕ)} {org : Sym2 ℕ → Sym2 ℕ}
    (h : Raw n dat ec g (fun u v => s(u, v) ∈ E) org) (hn : n < 2 ^ 32) (hn0 : 0 < n) (o : OriginalEdge) :
    ∀ (fuel : Nat) (rng : R), (pickPair g o fuel rng).wp (fun x => Free n E o x.1 x.2.1) True := by
  intro fuel
  induction fuel with
  | zero => intro rng; exact trivial
  | succ fuel ih =>
    intro rng
    obtain ⟨a, r1, e1, _⟩ := genRange_ok rng hn0
    obtain ⟨b, r2, e2, _⟩ := genRange_ok r1 hn0
    rcases pickPair_succ h hn o fuel e1 e2 with ⟨hf, he⟩ | ⟨_, he⟩
    · rw [he]; exact hf
    · rw [he]; exact ih r2

theorem createEdge_spec {n : Nat} {dat : List T} {ec : Nat} {g : WSGraph T} {E : Finset (Sym2 ℕ)} {org : Sym2 ℕ → Sym2 ℕ}
    (h : Raw n dat ec g (fun u v => s(u, v) ∈ E) org) {o : OriginalEdge} {a b : Nat} (hf : Free n E o a b) :
    ∃ g', createEdge g a b o = .ok g' ∧
      Raw n dat ec g' (fun u v => s(u, v) ∈ insert s(a, b) E) (Function.update org s(a, b) o.pair) := by
  obtain ⟨ha, hb, hab, hpair, hE⟩ := hf
  obtain ⟨ca, hca⟩ := h.get ha
  obtain ⟨cb, hcb⟩ := h.get hb
  set org' := Function.update org s(a, b) o.pair with horg
  have horg_ab : org' s(a, b) = o.pair := by rw [horg, Function.update_self]
  have h0 : Raw n dat ec g (fun u v => s(u, v) ∈ E) org' := by
    refine h.congr (fun _ _ => Iff.rfl) ?_
    intro u v huv
    rw [horg, Function.update_of_ne]
    rintro he
    rw [he] at huv
    exact hE huv
  have va := h0.vert a ca hca
  have vb := h0.vert b cb hcb
  have h1 := h0.set (P' := fun u v => s(u, v) ∈ E ∨ (u = a ∧ v = b)) hca
    (c' := { ca with dst := ca.dst ++ [b], original := ca.original ++ [o.setOriginFalse] }) rfl
    ⟨va.id, by simp [va.inv], by
        show (ca.dst ++ [b]).Nodup
        rw [List.nodup_append]
        refine ⟨va.nodup, by simp, ?_⟩
        intro x hx y hy hxy
        rw [List.mem_singleton] at hy
        subst hxy; subst hy
        exact hE ((va.adj x).mp hx), (by
        intro v
        show v ∈ ca.dst ++ [b] ↔ _
        rw [List.mem_append, va.adj, List.mem_singleton]
        simp), (by
        intro z hz
        simp only at hz
        rw [List.zip_append va.inv] at hz
        rcases List.mem_append.mp hz with hz | hz
        · exact va.entry z hz
        · simp at hz
          subst hz
          refine ⟨?_, ?_, by simp [OriginalEdge.setOriginFalse]⟩
          · show _ = org' s(a, b)
            rw [horg_ab]; rfl
          · show false = true ↔ org' s(a, b) = s(a, b)
            rw [horg_ab]
            simp [Ne.symm hpair])⟩
    (by intro u v hu; simp [hu])
  have hcb' : (g.vertices.set a { ca with dst := ca.dst ++ [b], original := ca.original ++ [o.setOriginFalse] })[b]? = some cb := by
    rw [List.getElem?_set, if_neg hab, hcb]
  have h2 := h1.set (P' := fun u v => s(u, v) ∈ insert s(a, b) E) hcb'
    (c' := { cb with dst := cb.dst ++ [a], original := cb.original ++ [o.setOriginFalse.swapDirection] }) rfl
    ⟨vb.id, by simp [vb.inv], by
        show (cb.dst ++ [a]).Nodup
        rw [List.nodup_append]
        refine ⟨vb.nodup, by simp, ?_⟩
        intro x hx y hy hxy
        rw [List.mem_singleton] at hy
        subst hxy; subst hy
        exact hE (by rw [Sym2.eq_swap]; exact (vb.adj x).mp hx), (by
        intro v
        show v ∈ cb.dst ++ [a] ↔ _
        rw [List.mem_append, vb.adj, List.mem_singleton, Finset.mem_insert, Sym2.eq_iff]
        constructor
        · rintro (h' | rfl)
          · exact .inr h'
          · exact .inl (.inr ⟨rfl, rfl⟩)
        · rintro ((⟨h', _⟩ | ⟨_, h'⟩) | h')
          · exact absurd h'.symm hab
          · exact .inr h'
          · exact .inl h'), (by
        intro z hz
        simp only at hz
        rw [List.zip_append vb.inv] at hz
        rcases List.mem_append.mp hz with hz | hz
        · exact vb.entry z hz
        · simp at hz
          subst hz
          refine ⟨?_, ?_, by simp [OriginalEdge.setOriginFalse, OriginalEdge.swapDirection]⟩
          · show _ = org' s(b, a)
            rw [Sym2.eq_swap (a := b), horg_ab]
            exact Sym2.eq_swap
          · show false = true ↔ org' s(b, a) = s(b, a)
            rw [Sym2.eq_swap (a := b), horg_ab]
            simp [Ne.symm hpair])⟩
    (by
      intro u v hu
      rw [Finset.mem_insert, Sym2.eq_iff]
      constructor
      · rintro ((⟨rfl, rfl⟩ | ⟨h', _⟩) | h')
        · exact .inr ⟨rfl, rfl⟩
        · exact absurd h' hu
        · exact .inl h'
      · rintro (h' | ⟨rfl, rfl⟩)
        · exact .inr h'
        · exact .inl (.inl ⟨rfl, rfl⟩))
  refine ⟨_, ?_, h2⟩
  unfold createEdge get2
  have d1 : decide (a < g.nextId) = true := by simp [h.next, ha]
  have d2 : decide (b < g.nextId) = true := by simp [h.next, hb]
  rw [d1, d2, show (a != b) = true by simp [hab]]
  simp only [Bool.and_self, Res.assert_true, Res.ok_bind]
  rw [Vec.idx_of_some hca, Vec.idx_of_some hcb]
  rfl

theorem pair_swap (o : OriginalEdge) : o.swapDirection.pair = o.pair := Sym2.eq_swap

theorem Free.swap {n : Nat} {E : Finset (Sym2 ℕ)} {o : OriginalEdge} {a b : Nat} (h : Free n E o a b) :
    Free n E o.swapDirection b a := by
  obtain ⟨h1, h2, h3, h4, h5⟩ := h
  refine ⟨h2, h1, h3.symm, ?_, ?_⟩
  · rw [pair_swap, Sym2.eq_swap]; exact h4
  · rw [Sym2.eq_swap]; exact h5

theorem addRandomEdge_of_pick {n d : Nat} {dat : List T} {g : WSGraph T} {E : Finset (Sym2 ℕ)} {org : Sym2 ℕ → Sym2 ℕ}
    {Pm : Multiset (Sym2 ℕ)} {o : OriginalEdge} (h : J n d dat g E org (o.pair ::ₘ Pm)) {fuel : Nat} {rng r' : R} {a b : Nat}
    (hp : pickPair g o fuel rng = .ok (a, b, r')) (hf : Free n E o a b) :
    ∃ g', addRandomEdge fuel (g, rng) o = .ok (g', r') ∧
      J n d dat g' (insert s(a, b) E) (Function.update org s(a, b) o.pair) Pm := by
  have fin : ∀ g', Raw n dat (n * d) g' (fun u v => s(u, v) ∈ insert s(a, b) E) (Function.update org s(a, b) o.pair) →
      J n d dat g' (insert s(a, b) E) (Function.update org s(a, b) o.pair) Pm := by
    intro g' hr
    refine ⟨hr, ?_, ?_⟩
    · intro u v huv
      rcases Finset.mem_insert.mp huv with h' | h'
      · rcases Sym2.eq_iff.mp h' with ⟨rfl, rfl⟩ | ⟨rfl, rfl⟩
        · exact ⟨hf.1, hf.2.1, hf.2.2.1⟩
        · exact ⟨hf.2.1, hf.1, hf.2.2.1.symm⟩
      · exact h.lt u v h'
    · rw [Finset.insert_val_of_notMem hf.2.2.2.2, Multiset.map_cons, Function.update_self, ← h.ms]
      have : E.val.map (Function.update org s(a, b) o.pair) = E.val.map org := by
        apply Multiset.map_congr rfl
        intro e he
        rw [Function.update_of_ne]
        rintro rfl
        exact hf.2.2.2.2 he
      rw [this, Multiset.cons_add, Multiset.add_cons]
  unfold addRandomEdge
  simp only
  rw [hp]
  simp only [Res.ok_bind]
  by_cases hc : (a == o.dst || b == o.from_) = true
  · rw [if_pos hc]
    obtain ⟨g', e1, e2⟩ := createEdge_spec h.raw hf.swap
    rw [e1]
    refine ⟨g', rfl, fin g' ?_⟩
    rw [pair_swap, Sym2.eq_swap (a := b)] at e2
    exact e2
  · rw [if_neg hc]
    obtain ⟨g', e1, e2⟩ := createEdge_spec h.raw hf
    rw [e1]
    exact ⟨g', rfl, fin g' e2⟩

/-- What inserting a list of edges did. -/
structure Added (E : Finset (Sym2 ℕ)) (org : Sym2 ℕ → Sym2 ℕ) (E' : Finset (Sym2 ℕ)) (org' : Sym2 ℕ → Sym2 ℕ) (k : Nat) : Prop where
  sub : E ⊆ E'
  same : ∀ e ∈ E, org' e = org e
  fresh : ∀ e ∈ E', e ∉ E → org' e ≠ e
  card : E'.card = E.card + k

theorem Added.refl (E : Finset (Sym2 ℕ)) (org : Sym2 ℕ → Sym2 ℕ) : Added E org E org 0 :=
  ⟨Finset.Subset.refl _, fun _ _ => rfl, fun _ h1 h2 => absurd h1 h2, rfl⟩

theorem Added.step {E : Finset (Sym2 ℕ)} {org : Sym2 ℕ → Sym2 ℕ} {E' : Finset (Sym2 ℕ)} {org' : Sym2 ℕ → Sym2 ℕ} {k : Nat}
    {e o : Sym2 ℕ} (he : e ∉ E) (ho : e ≠ o) (h : Added (insert e E) (Function.update org e o) E' org' k) :
    Added E org E' org' (k + 1) := by
  refine ⟨(Finset.subset_insert _ _).trans h.sub, ?_, ?_, ?_⟩
  · intro x hx
    rw [h.same x (Finset.mem_insert_of_mem hx), Function.update_of_ne]
    rintro rfl; exact he hx
  · intro x hx hx'
    by_cases hxe : x = e
    · subst hxe
      rw [h.same x (Finset.mem_insert_self _ _), Function.update_self]
      exact ho.symm
    · exact h.fresh x hx (by rw [Finset.mem_insert]; tauto)
  · rw [h.card, Finset.card_insert_of_notMem he]; omega

theorem addAll_spec {n d : Nat} (hn : n < 2 ^ 32) (hn0 : 0 < n) {dat : List T} {fuel : Nat} : ∀ (l : List OriginalEdge)
    {g : WSGraph T} {E : Finset (Sym2 ℕ)} {org : Sym2 ℕ → Sym2 ℕ} (rng : R),
    J n d dat g E org ((l.map OriginalEdge.pair : List (Sym2 ℕ)) : Multiset (Sym2 ℕ)) →
    (l.foldlM (addRandomEdge fuel) (g, rng)).wp (fun x => ∃ E' org', J n d dat x.1 E' org' 0 ∧ Added E org E' org' l.length) True := by
  intro l
  induction l with
  | nil =>
    intro g E org rng h
    exact ⟨E, org, h, Added.refl E org⟩
  | cons o l ih =>
    intro g E org rng h
    rw [List.foldlM_cons]
    have h' : J n d dat g E org (o.pair ::ₘ ((l.map OriginalEdge.pair : List (Sym2 ℕ)) : Multiset (Sym2 ℕ))) := h
    have hp := pickPair_spec h.raw hn hn0 o fuel rng
    rcases hx : pickPair g o fuel rng with ⟨a, b, r'⟩ | _ | _
    · rw [hx] at hp
      have hf : Free n E o a b := hp
      obtain ⟨g', e1, e2⟩ := addRandomEdge_of_pick h' hx hf
      rw [e1]
      refine Res.wp_mono (ih r' e2) ?_ id
      rintro ⟨g2, r2⟩ ⟨E', org', k1, k2⟩
      exact ⟨E', org', k1, k2.step hf.2.2.2.2 hf.2.2.2.1⟩
    · rw [hx] at hp
      exact hp.elim
    · unfold addRandomEdge
      simp only
      rw [hx]
      exact trivial

/-- What the treatment of vertex `i` did. -/
structure Step (p : ℚ) (i : Nat) (E : Finset (Sym2 ℕ)) (org : Sym2 ℕ → Sym2 ℕ) (E' : Finset (Sym2 ℕ)) (org' : Sym2 ℕ → Sym2 ℕ)
    (D : Finset (Sym2 ℕ)) : Prop where
  sub : D ⊆ E
  home : ∀ e ∈ D, org e = e ∧ i ∈ e
  all : AllHeads p → ∀ e ∈ E \ D, i ∈ e → org e ≠ e
  add : Added (E \ D) org E' org' D.card

theorem rewireBody_spec {p : ℚ} {n d : Nat} (hn : n < 2 ^ 32) {dat : List T} {fuel : Nat} {g : WSGraph T}
    {E : Finset (Sym2 ℕ)} {org : Sym2 ℕ → Sym2 ℕ} (h : J n d dat g E org 0) {i : Nat} (hi : i < n) (rng : R) :
    (rewireBody p fuel (g, rng) i).wp (fun x => ∃ E' org' D, J n d dat x.1 E' org' 0 ∧ Step p i E org E' org' D ∧
      (D = ∅ → x.1 = g ∧ x.2 = unitState (nfl (WSGraph.entries g i)) rng ∧
        ∀ k < nfl (WSGraph.entries g i), throwAt p rng k = false) ∧
      ((∀ k < nfl (WSGraph.entries g i), throwAt p rng k = false) → D = ∅)) True := by
  obtain ⟨g1, rewire, rng1, D, a1, a2, a3, a4, a5, a6, a7, a8⟩ := removeStage_spec (p := p) h hi rng
  unfold rewireBody
  simp only
  rw [a1]
  simp only [Res.ok_bind]
  have hJ : J n d dat g1 (E \ D) org ((rewire.map OriginalEdge.pair : List (Sym2 ℕ)) : Multiset (Sym2 ℕ)) := by rw [a5]; exact a4
  have hcard : rewire.length = D.card := by
    rw [Finset.card_def, ← a5, Multiset.coe_card, List.length_map]
  have hempty : D = ∅ → rewire = [] := by
    rintro rfl; exact List.length_eq_zero_iff.mp (by rw [hcard]; rfl)
  have hempty' : rewire = [] → D = ∅ := by
    intro hr; rw [hr] at hcard; exact Finset.card_eq_zero.mp hcard.symm
  by_cases hr : rewire = []
  · subst hr
    obtain ⟨b1, b2, b3⟩ := a7 rfl
    have := addAll_spec hn (by omega) (fuel := fuel) [] rng1 hJ
    obtain ⟨E', org', k1, k2⟩ : ∃ E' org', J n d dat g1 E' org' 0 ∧ Added (E \ D) org E' org' 0 := this
    refine ⟨E', org', D, k1, ⟨a2, a3, a6, by rw [← hcard]; exact k2⟩, fun _ => ⟨b1, b2, b3⟩, fun ht => hempty' (a8 ht)⟩
  · refine Res.wp_mono (addAll_spec hn (by omega) rewire rng1 hJ) ?_ id
    rintro ⟨g2, rng2⟩ ⟨E', org', k1, k2⟩
    refine ⟨E', org', D, k1, ⟨a2, a3, a6, by rw [← hcard]; exact k2⟩, fun he => absurd (hempty he) hr,
      fun ht => hempty' (a8 ht)⟩

/-- Number of edges away from their origin. -/
def moved (E : Finset (Sym2 ℕ)) (org : Sym2 ℕ → Sym2 ℕ) : Nat := (E.filter (fun e => org e ≠ e)).card

theorem Step.moved {p : ℚ} {i : Nat} {E : Finset (Sym2 ℕ)} {org : Sym2 ℕ → Sym2 ℕ} {E' : Finset (Sym2 ℕ)} {org' : Sym2 ℕ → Sym2 ℕ}
    {D : Finset (Sym2 ℕ)} (h : Step p i E org E' org' D) : moved E' org' = moved E org + D.card := by
  unfold Ws.moved
  have h1 : E'.filter (fun e => org' e ≠ e) = E.filter (fun e => org e ≠ e) ∪ (E' \ (E \ D)) := by
    ext e
    simp only [Finset.mem_filter, Finset.mem_union, Finset.mem_sdiff, not_and, not_not]
    constructor
    · rintro ⟨k1, k2⟩
      by_cases hE : e ∈ E \ D
      · rw [h.add.same e hE] at k2
        exact .inl ⟨(Finset.mem_sdiff.mp hE).1, k2⟩
      · refine .inr ⟨k1, fun hE' => ?_⟩
        by_contra hD
        exact hE (Finset.mem_sdiff.mpr ⟨hE', hD⟩)
    · rintro (⟨k1, k2⟩ | ⟨k1, k2⟩)
      · have hD : e ∉ D := fun hD => k2 (h.home e hD).1
        have hE := Finset.mem_sdiff.mpr ⟨k1, hD⟩
        exact ⟨h.add.sub hE, by rw [h.add.same e hE]; exact k2⟩
      · refine ⟨k1, h.add.fresh e k1 ?_⟩
        intro hE
        exact (Finset.mem_sdiff.mp hE).2 (k2 (Finset.mem_sdiff.mp hE).1)
  rw [h1, Finset.card_union_of_disjoint, Finset.card_sdiff_of_subset h.add.sub, h.add.card]
  · omega
  · rw [Finset.disjoint_left]
    intro e he he'
    obtain ⟨k1, k2⟩ := Finset.mem_filter.mp he
    have hD : e ∉ D := fun hD => k2 (h.home e hD).1
    exact (Finset.mem_sdiff.mp he').2 (Finset.mem_sdiff.mpr ⟨k1, hD⟩)

end Ws
end Verif
