import Verif.Lemmas.Bicon4

/-!
# Counting connected components while parts of the edges are added

For C21: how the sum of the entries of `vertex_biconnected_components` compares with the sizes of the biconnected components.
-/

set_option linter.unusedSectionVars false
set_option linter.unusedSimpArgs false

namespace Verif
open AdjContainer Classical

/-- Number of connected components among the vertices below `n`. -/
noncomputable def compCount (H : SimpleGraph ℕ) (n : ℕ) : ℕ := ((Finset.range n).image H.connectedComponentMk).card

/-- A path in the larger graph either stays in the smaller graph or reaches `V` in the smaller graph. -/
theorem reach_or_hit {H H' : SimpleGraph ℕ} {V : Finset ℕ} (hadj : ∀ a b, H'.Adj a b → H.Adj a b ∨ (a ∈ V ∧ b ∈ V)) {a b : ℕ}
    (h : H'.Reachable a b) : H.Reachable a b ∨ ∃ p ∈ V, H.Reachable a p := by
  rw [SimpleGraph.reachable_iff_reflTransGen] at h
  induction h with
  | refl => exact Or.inl (SimpleGraph.Reachable.refl _)
  | @tail b c _ h2 ih =>
    rcases ih with ih | ih
    · rcases hadj b c h2 with h3 | ⟨h3, _⟩
      · exact Or.inl (ih.trans h3.reachable)
      · exact Or.inr ⟨b, h3, ih⟩
    · exact Or.inr ih

/-- Adding edges between the vertices of `V` merges at most `|V| - 1` times. -/
theorem compCount_merge {H H' : SimpleGraph ℕ} {V : Finset ℕ} {n : ℕ} (hle : H ≤ H')
    (hadj : ∀ a b, H'.Adj a b → H.Adj a b ∨ (a ∈ V ∧ b ∈ V)) (hV : V ⊆ Finset.range n) (hne : V.Nonempty) :
    compCount H n + 1 ≤ compCount H' n + (V.image H.connectedComponentMk).card := by
  set U := (Finset.range n).filter (fun a => ∀ p ∈ V, ¬ H.Reachable a p) with hU
  have hsub : (Finset.range n).image H.connectedComponentMk ⊆ V.image H.connectedComponentMk ∪ U.image H.connectedComponentMk := by
    intro c hc
    rw [Finset.mem_image] at hc
    obtain ⟨a, ha, rfl⟩ := hc
    rw [Finset.mem_union]
    by_cases h : ∃ p ∈ V, H.Reachable a p
    · obtain ⟨p, hp, h⟩ := h
      exact Or.inl (Finset.mem_image.mpr ⟨p, hp, SimpleGraph.ConnectedComponent.sound h.symm⟩)
    · refine Or.inr (Finset.mem_image_of_mem _ ?_)
      rw [hU, Finset.mem_filter]
      exact ⟨ha, fun p hp hr => h ⟨p, hp, hr⟩⟩
  have h1 : compCount H n ≤ (V.image H.connectedComponentMk).card + (U.image H.connectedComponentMk).card :=
    (Finset.card_le_card hsub).trans (Finset.card_union_le _ _)
  have h2 : (U.image H.connectedComponentMk).card ≤ (U.image H'.connectedComponentMk).card := by
    refine Finset.card_le_card_of_injOn (fun c => c.map (SimpleGraph.Hom.ofLE hle)) ?_ ?_
    · intro c hc
      rw [Finset.mem_coe, Finset.mem_image] at hc
      obtain ⟨a, ha, rfl⟩ := hc
      exact Finset.mem_coe.mpr (Finset.mem_image.mpr ⟨a, ha, rfl⟩)
    · intro c hc c' hc' hcc
      rw [Finset.mem_coe, Finset.mem_image] at hc hc'
      obtain ⟨a, ha, rfl⟩ := hc
      obtain ⟨b, _, rfl⟩ := hc'
      have hr : H'.Reachable a b := SimpleGraph.ConnectedComponent.exact hcc
      rw [hU, Finset.mem_filter] at ha
      rcases reach_or_hit hadj hr with h | ⟨p, hp, h⟩
      · exact SimpleGraph.ConnectedComponent.sound h
      · exact absurd h (ha.2 p hp)
  obtain ⟨p0, hp0⟩ := hne
  have h3 : (U.image H'.connectedComponentMk).card + 1 ≤ compCount H' n := by
    have hnot : H'.connectedComponentMk p0 ∉ U.image H'.connectedComponentMk := by
      intro hc
      rw [Finset.mem_image] at hc
      obtain ⟨a, ha, hap⟩ := hc
      rw [hU, Finset.mem_filter] at ha
      have hr : H'.Reachable a p0 := SimpleGraph.ConnectedComponent.exact hap
      rcases reach_or_hit hadj hr with h | ⟨p, hp, h⟩
      · exact ha.2 p0 hp0 h
      · exact ha.2 p hp h
    rw [← Finset.card_insert_of_notMem hnot]
    apply Finset.card_le_card
    intro c hc
    rw [Finset.mem_insert] at hc
    rcases hc with rfl | hc
    · exact Finset.mem_image_of_mem _ (hV hp0)
    · rw [Finset.mem_image] at hc
      obtain ⟨a, ha, rfl⟩ := hc
      exact Finset.mem_image_of_mem _ (Finset.mem_filter.mp ha).1
  omega

/-- The graph formed by the edges of some parts. -/
def graphOf (parts : List (List (ℕ × ℕ))) : SimpleGraph ℕ :=
  SimpleGraph.fromEdgeSet {e | e ∈ parts.flatten.map (fun e => s(e.1, e.2))}

theorem graphOf_adj {parts : List (List (ℕ × ℕ))} {a b : ℕ} :
    (graphOf parts).Adj a b ↔ (∃ c ∈ parts, s(a, b) ∈ c.map (fun e => s(e.1, e.2))) ∧ a ≠ b := by
  rw [graphOf, SimpleGraph.fromEdgeSet_adj]
  simp only [Set.mem_ofPred_eq, List.mem_map, List.mem_flatten]
  constructor
  · rintro ⟨⟨e, ⟨c, hc, he⟩, heq⟩, hne⟩
    exact ⟨⟨c, hc, e, he, heq⟩, hne⟩
  · rintro ⟨⟨c, hc, e, he, heq⟩, hne⟩
    exact ⟨⟨e, ⟨c, hc, he⟩, heq⟩, hne⟩

theorem mem_endPoints {c : List (ℕ × ℕ)} {a b : ℕ} (h : s(a, b) ∈ c.map (fun e => s(e.1, e.2))) : a ∈ endPoints c ∧ b ∈ endPoints c := by
  rw [List.mem_map] at h
  obtain ⟨e, he, heq⟩ := h
  rw [endPoints, List.mem_toFinset, List.mem_toFinset, List.mem_flatMap, List.mem_flatMap]
  rcases Sym2.eq_iff.mp heq with ⟨rfl, rfl⟩ | ⟨rfl, rfl⟩
  · exact ⟨⟨e, he, by simp⟩, ⟨e, he, by simp⟩⟩
  · exact ⟨⟨e, he, by simp⟩, ⟨e, he, by simp⟩⟩

theorem graphOf_cons_le (c : List (ℕ × ℕ)) (l : List (List (ℕ × ℕ))) : graphOf l ≤ graphOf (c :: l) := by
  intro a b h
  rw [graphOf_adj] at h ⊢
  obtain ⟨⟨d, hd, h1⟩, h2⟩ := h
  exact ⟨⟨d, List.mem_cons_of_mem _ hd, h1⟩, h2⟩

theorem graphOf_cons_adj {c : List (ℕ × ℕ)} {l : List (List (ℕ × ℕ))} {a b : ℕ} (h : (graphOf (c :: l)).Adj a b) :
    (graphOf l).Adj a b ∨ (a ∈ endPoints c ∧ b ∈ endPoints c) := by
  rw [graphOf_adj] at h
  obtain ⟨⟨d, hd, h1⟩, h2⟩ := h
  rcases List.mem_cons.mp hd with rfl | hd
  · exact Or.inr (mem_endPoints h1)
  · exact Or.inl (graphOf_adj.mpr ⟨⟨d, hd, h1⟩, h2⟩)

theorem graphOf_perm {l l' : List (List (ℕ × ℕ))} (h : l.Perm l') : graphOf l = graphOf l' := by
  ext a b
  simp only [graphOf_adj, h.mem_iff]

theorem endPoints_nonempty {c : List (ℕ × ℕ)} (h : c ≠ []) : (endPoints c).Nonempty := by
  obtain ⟨e, l, rfl⟩ := List.exists_cons_of_ne_nil h
  exact ⟨e.1, by simp [endPoints]⟩

theorem compCount_nil (n : ℕ) : compCount (graphOf []) n = n := by
  rw [compCount, Finset.card_image_of_injective, Finset.card_range]
  intro a b hab
  have hr : (graphOf []).Reachable a b := SimpleGraph.ConnectedComponent.exact hab
  rw [SimpleGraph.reachable_iff_reflTransGen] at hr
  induction hr with
  | refl => rfl
  | tail _ h2 => exact absurd h2 (by simp [graphOf_adj])

/-- However the edges are divided into nonempty parts: the numbers of end points sum to at least the number of vertices plus the
number of parts minus the number of connected components. -/
theorem parts_sum_ge {n : ℕ} : ∀ {parts : List (List (ℕ × ℕ))}, (∀ c ∈ parts, c ≠ []) → (∀ c ∈ parts, endPoints c ⊆ Finset.range n) →
    n + parts.length ≤ compCount (graphOf parts) n + (parts.map (fun c => (endPoints c).card)).sum
  | [], _, _ => by simp [compCount_nil]
  | c :: l, h1, h2 => by
    have ih := parts_sum_ge (parts := l) (fun d hd => h1 d (List.mem_cons_of_mem _ hd)) (fun d hd => h2 d (List.mem_cons_of_mem _ hd))
    have hm := compCount_merge (graphOf_cons_le c l) (fun a b => graphOf_cons_adj) (h2 c (by simp)) (endPoints_nonempty (h1 c (by simp)))
    have hc := Finset.card_image_le (s := endPoints c) (f := (graphOf l).connectedComponentMk)
    simp only [List.length_cons, List.map_cons, List.sum_cons]
    omega

/-- If the sum is as small as it can be, no two vertices of a part are joined by a path outside of the part. -/
theorem parts_tight {n : ℕ} {l1 l2 : List (List (ℕ × ℕ))} {c : List (ℕ × ℕ)} (h1 : ∀ d ∈ l1 ++ c :: l2, d ≠ [])
    (h2 : ∀ d ∈ l1 ++ c :: l2, endPoints d ⊆ Finset.range n)
    (ht : ((l1 ++ c :: l2).map (fun c => (endPoints c).card)).sum + compCount (graphOf (l1 ++ c :: l2)) n = n + (l1 ++ c :: l2).length) :
    ∀ u ∈ endPoints c, ∀ v ∈ endPoints c, (graphOf (l1 ++ l2)).Reachable u v → u = v := by
  have hp : (l1 ++ c :: l2).Perm (c :: (l1 ++ l2)) := List.perm_middle
  rw [graphOf_perm hp, (hp.map _).sum_eq, hp.length_eq, List.length_cons, List.map_cons, List.sum_cons] at ht
  have hsub : ∀ d ∈ l1 ++ l2, d ∈ l1 ++ c :: l2 := by
    intro d hd
    rw [List.mem_append] at hd ⊢
    rcases hd with hd | hd
    · exact Or.inl hd
    · exact Or.inr (List.mem_cons_of_mem _ hd)
  have hr := parts_sum_ge (n := n) (parts := l1 ++ l2) (fun d hd => h1 d (hsub d hd)) (fun d hd => h2 d (hsub d hd))
  have hm := compCount_merge (n := n) (graphOf_cons_le c (l1 ++ l2)) (fun a b => graphOf_cons_adj) (h2 c (by simp))
    (endPoints_nonempty (h1 c (by simp)))
  have hc := Finset.card_image_le (s := endPoints c) (f := (graphOf (l1 ++ l2)).connectedComponentMk)
  have heq : ((endPoints c).image (graphOf (l1 ++ l2)).connectedComponentMk).card = (endPoints c).card := by omega
  have hinj := Finset.card_image_iff.mp heq
  intro u hu v hv huv
  exact hinj hu hv (SimpleGraph.ConnectedComponent.sound huv)

/-- If the sum is as small as it can be, all edges of a biconnected set are in one part. -/
theorem parts_block {n : ℕ} {l1 l2 : List (List (ℕ × ℕ))} {c : List (ℕ × ℕ)} (h1 : ∀ d ∈ l1 ++ c :: l2, d ≠ [])
    (h2 : ∀ d ∈ l1 ++ c :: l2, endPoints d ⊆ Finset.range n)
    (ht : ((l1 ++ c :: l2).map (fun c => (endPoints c).card)).sum + compCount (graphOf (l1 ++ c :: l2)) n = n + (l1 ++ c :: l2).length)
    {B : Finset ℕ} (hB : BiSet (graphOf (l1 ++ c :: l2)) B) {a b : ℕ} (ha : a ∈ B) (hb : b ∈ B)
    (hne : a ≠ b) (hab : s(a, b) ∈ c.map (fun e => s(e.1, e.2))) :
    ∀ x ∈ B, ∀ y ∈ B, (graphOf (l1 ++ c :: l2)).Adj x y → s(x, y) ∈ c.map (fun e => s(e.1, e.2)) := by
  have htight := parts_tight h1 h2 ht
  set G := graphOf (l1 ++ c :: l2) with hG
  have hout : ∀ x y, G.Adj x y → s(x, y) ∉ c.map (fun e => s(e.1, e.2)) → (graphOf (l1 ++ l2)).Adj x y := by
    intro x y hxy hn
    rw [hG, graphOf_adj] at hxy
    obtain ⟨⟨d, hd, h3⟩, h4⟩ := hxy
    rw [graphOf_adj]
    refine ⟨⟨d, ?_, h3⟩, h4⟩
    rw [List.mem_append, List.mem_cons] at hd
    rw [List.mem_append]
    rcases hd with hd | rfl | hd
    · exact Or.inl hd
    · exact absurd h3 hn
    · exact Or.inr hd
  -- at a vertex with one edge in the part all edges are in the part
  have hstep : ∀ x ∈ B, ∀ y ∈ B, s(x, y) ∈ c.map (fun e => s(e.1, e.2)) → x ≠ y → ∀ z ∈ B, G.Adj x z →
      s(x, z) ∈ c.map (fun e => s(e.1, e.2)) := by
    intro x hx y hy hxy hne z hz hxz
    by_contra hn
    have hj := hB.joined_erase (w := x) hz hy hxz.ne' (Ne.symm hne)
    have key : ∀ z, Joined G (B.erase x) z y → ∃ w ∈ endPoints c, w ≠ x ∧ (graphOf (l1 ++ l2)).Reachable z w := by
      intro z hz
      induction hz using Relation.ReflTransGen.head_induction_on with
      | refl => exact ⟨y, (mem_endPoints hxy).2, Ne.symm hne, SimpleGraph.Reachable.refl _⟩
      | @head z z' h3 _ ih =>
        by_cases hzc : z ∈ endPoints c
        · exact ⟨z, hzc, (Finset.mem_erase.mp h3.2.1).1, SimpleGraph.Reachable.refl _⟩
        · obtain ⟨w, hw, hwx, hr⟩ := ih
          exact ⟨w, hw, hwx, (hout z z' h3.1 (fun h => hzc (mem_endPoints h).1)).reachable.trans hr⟩
    obtain ⟨w, hw, hwx, hr⟩ := key z hj
    exact hwx (htight x (mem_endPoints hxy).1 w hw ((hout x z hxz hn).reachable.trans hr)).symm
  have hall : ∀ x, Joined G B a x → ∃ y ∈ B, s(x, y) ∈ c.map (fun e => s(e.1, e.2)) ∧ x ≠ y := by
    intro x hx
    induction hx with
    | refl => exact ⟨b, hb, hab, hne⟩
    | @tail x x' _ h3 ih =>
      obtain ⟨y, hy, hxy, hxn⟩ := ih
      have h4 := hstep x h3.2.1 y hy hxy hxn x' h3.2.2 h3.1
      exact ⟨x, h3.2.1, by rw [Sym2.eq_swap]; exact h4, h3.1.ne'⟩
  intro x hx y hy hxy
  obtain ⟨z, hz, hxz, hne⟩ := hall x (hB.conn.joined ha hx)
  exact hstep x hx z hz hxz hne y hy hxy

/-- A tree-like decomposition: every vertex reaches one that belongs to no set except as an anchor. -/
theorem TreeLike.reach_root {G : SimpleGraph ℕ} {done : List (ℕ × Finset ℕ)} (h : TreeLike G done) :
    ∀ (l pre : List (ℕ × Finset ℕ)), done = pre ++ l → ∀ v, (∀ d ∈ pre, v ∉ d.2) →
      ∃ w, (∀ d ∈ done, w ∉ d.2) ∧ G.Reachable v w
  | [], pre, he, v, hv => by
    rw [List.append_nil] at he
    exact ⟨v, he ▸ hv, SimpleGraph.Reachable.refl _⟩
  | d :: l, pre, he, v, hv => by
    have he' : done = (pre ++ [d]) ++ l := by rw [he]; simp
    by_cases hvd : v ∈ d.2
    · have hd : d ∈ done := by rw [he]; simp
      obtain ⟨w, hw, hr⟩ := reach_root h l (pre ++ [d]) he' d.1 (by
        intro d' hd'
        rw [List.mem_append, List.mem_singleton] at hd'
        rcases hd' with hd' | rfl
        · have hl := h.later
          rw [he, List.pairwise_append] at hl
          exact hl.2.2 d' hd' d (by simp)
        · exact h.self d' hd)
      refine ⟨w, hw, SimpleGraph.Reachable.trans ?_ hr⟩
      have hj := (h.bi d hd).conn.joined (a := v) (b := d.1) (Finset.mem_insert_of_mem hvd) (Finset.mem_insert_self _ _)
      rw [SimpleGraph.reachable_iff_reflTransGen]
      exact Relation.ReflTransGen.mono (fun _ _ (h : _ ∧ _ ∧ _) => h.1) _ _ hj
    · refine reach_root h l (pre ++ [d]) he' v ?_
      intro d' hd'
      rw [List.mem_append, List.mem_singleton] at hd'
      rcases hd' with hd' | rfl
      · exact hv d' hd'
      · exact hvd

theorem card_union_disjoint : ∀ {l : List (Finset ℕ)}, l.Pairwise Disjoint → (l.foldr (· ∪ ·) ∅).card = (l.map Finset.card).sum
  | [], _ => rfl
  | s :: l, h => by
    rw [List.pairwise_cons] at h
    rw [List.foldr_cons, List.map_cons, List.sum_cons, Finset.card_union_of_disjoint, card_union_disjoint h.2]
    rw [Finset.disjoint_left]
    intro x hx hx'
    have : ∀ l : List (Finset ℕ), x ∈ l.foldr (· ∪ ·) ∅ → ∃ t ∈ l, x ∈ t := by
      intro l
      induction l with
      | nil => simp
      | cons t l ih =>
        intro h
        rw [List.foldr_cons, Finset.mem_union] at h
        rcases h with h | h
        · exact ⟨t, by simp, h⟩
        · obtain ⟨t', h1, h2⟩ := ih h
          exact ⟨t', List.mem_cons_of_mem _ h1, h2⟩
    obtain ⟨t, ht, hxt⟩ := this l hx'
    exact Finset.disjoint_left.mp (h.1 t ht) hx hxt

theorem mem_foldr_union {x : ℕ} : ∀ {l : List (Finset ℕ)}, x ∈ l.foldr (· ∪ ·) ∅ ↔ ∃ t ∈ l, x ∈ t
  | [] => by simp
  | t :: l => by
    rw [List.foldr_cons, Finset.mem_union, mem_foldr_union (l := l)]
    simp

/-- The sizes of the biconnected components sum to at most the number of vertices plus their number minus the number of connected
components. -/
theorem TreeLike.sum_le {G : SimpleGraph ℕ} {done : List (ℕ × Finset ℕ)} (h : TreeLike G done) {n : ℕ}
    (hn : ∀ a b, G.Adj a b → a < n) :
    (done.map (fun d => (insert d.1 d.2).card)).sum + compCount G n ≤ n + done.length := by
  set U := (done.map Prod.snd).foldr (· ∪ ·) ∅ with hU
  have hdisj : (done.map Prod.snd).Pairwise Disjoint := by
    rw [List.pairwise_map]
    exact h.disj
  have hcard := card_union_disjoint hdisj
  rw [← hU] at hcard
  have hlt : ∀ a b, G.Reachable a b → a < n → b < n := by
    intro a b hr ha
    rw [SimpleGraph.reachable_iff_reflTransGen] at hr
    cases hr with
    | refl => exact ha
    | tail _ h2 => exact hn _ _ h2.symm
  have hUn : U ⊆ Finset.range n := by
    intro x hx
    rw [hU, mem_foldr_union] at hx
    obtain ⟨t, ht, hxt⟩ := hx
    rw [List.mem_map] at ht
    obtain ⟨d, hd, rfl⟩ := ht
    rw [Finset.mem_range]
    have hxd : x ≠ d.1 := fun e => h.self d hd (e ▸ hxt)
    obtain ⟨u, w, huw, _, _, hu, _⟩ := ((h.bi d hd).conn.joined (a := x) (b := d.1) (Finset.mem_insert_of_mem hxt)
      (Finset.mem_insert_self _ _)).exit (P := fun z => z = x) rfl (Ne.symm hxd)
    subst hu
    exact hn _ _ huw
  have hcomp : compCount G n ≤ (Finset.range n \ U).card := by
    rw [compCount]
    refine le_trans (Finset.card_le_card ?_) (Finset.card_image_le (s := Finset.range n \ U) (f := G.connectedComponentMk))
    intro c hc
    rw [Finset.mem_image] at hc
    obtain ⟨v, hv, rfl⟩ := hc
    obtain ⟨w, hw, hr⟩ := h.reach_root done [] rfl v (by simp)
    refine Finset.mem_image.mpr ⟨w, ?_, SimpleGraph.ConnectedComponent.sound hr.symm⟩
    rw [Finset.mem_sdiff, Finset.mem_range, hU, mem_foldr_union]
    refine ⟨hlt v w hr (Finset.mem_range.mp hv), ?_⟩
    rintro ⟨t, ht, hwt⟩
    rw [List.mem_map] at ht
    obtain ⟨d, hd, rfl⟩ := ht
    exact hw d hd hwt
  rw [Finset.card_sdiff_of_subset hUn, Finset.card_range] at hcomp
  have hUc := Finset.card_le_card hUn
  rw [Finset.card_range] at hUc
  have hsum : ∀ l : List (ℕ × Finset ℕ), (∀ d ∈ l, d.1 ∉ d.2) →
      (l.map (fun d => (insert d.1 d.2).card)).sum = ((l.map Prod.snd).map Finset.card).sum + l.length := by
    intro l
    induction l with
    | nil => simp
    | cons d l ih =>
      intro hl
      have := ih (fun d hd => hl d (List.mem_cons_of_mem _ hd))
      simp only [List.map_cons, List.sum_cons, List.length_cons, this, Finset.card_insert_of_notMem (hl d (by simp))]
      omega
  rw [hsum done h.self, ← hcard]
  omega

/-- More edges, fewer components. -/
theorem compCount_anti {H H' : SimpleGraph ℕ} (hle : H ≤ H') (n : ℕ) : compCount H' n ≤ compCount H n := by
  rw [compCount, compCount]
  refine Finset.card_le_card_of_surjOn (fun c => c.map (SimpleGraph.Hom.ofLE hle)) ?_
  intro c hc
  rw [Finset.mem_coe, Finset.mem_image] at hc
  obtain ⟨a, ha, rfl⟩ := hc
  exact ⟨H.connectedComponentMk a, Finset.mem_coe.mpr (Finset.mem_image_of_mem _ ha), rfl⟩

/-- The lower bound for sets of at least two vertices that cover the edges. -/
theorem sets_sum_ge {G : SimpleGraph ℕ} {n : ℕ} {l : List (Finset ℕ)} (h2 : ∀ S ∈ l, 2 ≤ S.card) (hn : ∀ S ∈ l, S ⊆ Finset.range n)
    (hcover : ∀ a b, G.Adj a b → ∃ S ∈ l, a ∈ S ∧ b ∈ S) : n + l.length ≤ compCount G n + (l.map Finset.card).sum := by
  have hend : ∀ S : Finset ℕ, endPoints S.offDiag.toList ⊆ S := by
    intro S x hx
    rw [endPoints, List.mem_toFinset, List.mem_flatMap] at hx
    obtain ⟨e, he, hx⟩ := hx
    rw [Finset.mem_toList, Finset.mem_offDiag] at he
    simp only [List.mem_cons, List.not_mem_nil, or_false] at hx
    rcases hx with rfl | rfl
    · exact he.1
    · exact he.2.1
  have hge := parts_sum_ge (n := n) (parts := l.map (fun S => S.offDiag.toList)) (by
      intro c hc
      rw [List.mem_map] at hc
      obtain ⟨S, hS, rfl⟩ := hc
      obtain ⟨a, ha, b, hb, hab⟩ := Finset.one_lt_card.mp (show 1 < S.card from h2 S hS)
      exact List.ne_nil_of_mem (a := (a, b)) (Finset.mem_toList.mpr (Finset.mem_offDiag.mpr ⟨ha, hb, hab⟩)))
    (by
      intro c hc
      rw [List.mem_map] at hc
      obtain ⟨S, hS, rfl⟩ := hc
      exact (hend S).trans (hn S hS))
  have hle : G ≤ graphOf (l.map (fun S => S.offDiag.toList)) := by
    intro a b hab
    obtain ⟨S, hS, ha, hb⟩ := hcover a b hab
    rw [graphOf_adj]
    refine ⟨⟨_, List.mem_map.mpr ⟨S, hS, rfl⟩, ?_⟩, hab.ne⟩
    exact List.mem_map.mpr ⟨(a, b), Finset.mem_toList.mpr (Finset.mem_offDiag.mpr ⟨ha, hb, hab.ne⟩), rfl⟩
  have hanti := compCount_anti hle n
  have hsum : ((l.map (fun S => S.offDiag.toList)).map (fun c => (endPoints c).card)).sum ≤ (l.map Finset.card).sum := by
    rw [List.map_map]
    exact List.sum_le_sum (fun S _ => Finset.card_le_card (hend S))
  rw [List.length_map] at hge
  omega

end Verif
