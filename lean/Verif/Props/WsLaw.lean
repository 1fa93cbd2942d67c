import Verif.Props.Ws

/-!
# C65: `randomize` of the Watts-Strogatz ensemble as a function of the draws
-/

set_option linter.unusedSectionVars false
set_option linter.unusedSimpArgs false

namespace Verif
open AdjContainer GenericGraph

variable {T R : Type} [Rng R]

/-! ## Specification -/

/-- A coin is thrown for each element of the first list, in that order; the second list are the elements with heads. -/
inductive Thrown {α : Type} (p : ℚ) : R → List α → List α → R → Prop
  | nil (r : R) : Thrown p r [] [] r
  | heads {r r' r'' : R} {x : α} {l D : List α} : coin r p = (true, r') → Thrown p r' l D r'' → Thrown p r (x :: l) (x :: D) r''
  | tails {r r' r'' : R} {x : α} {l D : List α} : coin r p = (false, r') → Thrown p r' l D r'' → Thrown p r (x :: l) D r''

/-- Pairs of vertices are drawn until one is met that is neither a loop nor the edge `o` nor in `E`. -/
inductive PairDrawn (n : ℕ) (E : Finset (Sym2 ℕ)) (o : Sym2 ℕ) : R → Sym2 ℕ → R → Prop
  | accept {r r1 r2 : R} {a b : ℕ} : genRange r n = .ok (a, r1) → genRange r1 n = .ok (b, r2) →
      a ≠ b → s(a, b) ≠ o → s(a, b) ∉ E → PairDrawn n E o r s(a, b) r2
  | reject {r r1 r2 r3 : R} {a b : ℕ} {e : Sym2 ℕ} : genRange r n = .ok (a, r1) → genRange r1 n = .ok (b, r2) →
      (a = b ∨ s(a, b) = o ∨ s(a, b) ∈ E) → PairDrawn n E o r2 e r3 → PairDrawn n E o r e r3

/-- The removed edges are put back one after the other, each at a freshly drawn place; `org` tells where an edge was on the
ring. -/
inductive PutBack (n : ℕ) : Finset (Sym2 ℕ) → (Sym2 ℕ → Sym2 ℕ) → R → List (Sym2 ℕ) → Finset (Sym2 ℕ) → (Sym2 ℕ → Sym2 ℕ) → R → Prop
  | nil (E : Finset (Sym2 ℕ)) (org : Sym2 ℕ → Sym2 ℕ) (r : R) : PutBack n E org r [] E org r
  | cons {E E' : Finset (Sym2 ℕ)} {org org' : Sym2 ℕ → Sym2 ℕ} {r r' r'' : R} {o e : Sym2 ℕ} {l : List (Sym2 ℕ)} :
      PairDrawn n E o r e r' → PutBack n (insert e E) (Function.update org e o) r' l E' org' r'' →
      PutBack n E org r (o :: l) E' org' r''

/-- The vertices are treated one after the other: a coin is thrown for every edge of the vertex that is still in its place on the
ring, those with heads are removed and then put back elsewhere. -/
inductive Rewires (p : ℚ) (n : ℕ) :
    Finset (Sym2 ℕ) → (Sym2 ℕ → Sym2 ℕ) → R → List ℕ → Finset (Sym2 ℕ) → (Sym2 ℕ → Sym2 ℕ) → R → Prop
  | nil (E : Finset (Sym2 ℕ)) (org : Sym2 ℕ → Sym2 ℕ) (r : R) : Rewires p n E org r [] E org r
  | cons {E E1 E2 : Finset (Sym2 ℕ)} {org org1 org2 : Sym2 ℕ → Sym2 ℕ} {r r1 r2 r3 : R} {i : ℕ} {vs : List ℕ}
      {L D : List (Sym2 ℕ)} : L.Nodup → (∀ e, e ∈ L ↔ e ∈ E ∧ org e = e ∧ i ∈ e) → Thrown p r L D r1 →
      PutBack n (E \ D.toFinset) org r1 D E1 org1 r2 → Rewires p n E1 org1 r2 vs E2 org2 r3 →
      Rewires p n E org r (i :: vs) E2 org2 r3

/-! ## Proof -/

namespace Ws

theorem Thrown.map {α β : Type} (f : α → β) {p : ℚ} {r r' : R} {l D : List α} (h : Thrown p r l D r') :
    Thrown p r (l.map f) (D.map f) r' := by
  induction h with
  | nil => exact .nil _
  | heads h1 _ ih => exact .heads h1 ih
  | tails h1 _ ih => exact .tails h1 ih

theorem testLoop_thrown (p : ℚ) : ∀ (j : Nat) (A B : List (Nat × OriginalEdge)) (rv : List OriginalEdge) (rng : R),
    A.length = j → ∃ (Z' : List (Nat × OriginalEdge)) (D : List OriginalEdge) (rng' : R), testLoop p j ((A ++ B).map Prod.fst) ((A ++ B).map Prod.snd) rv rng =
        .ok (Z'.map Prod.fst, Z'.map Prod.snd, rv ++ D, rng') ∧
      Thrown p rng ((A.map Prod.snd).reverse.filter (·.isAtOrigin)) D rng' := by
  intro j
  induction j with
  | zero =>
    intro A B rv rng hA
    have : A = [] := List.length_eq_zero_iff.mp hA
    subst this
    exact ⟨B, [], rng, by simp [testLoop], .nil _⟩
  | succ j ih =>
    intro A B rv rng hA
    rcases List.eq_nil_or_concat A with rfl | ⟨A0, a, rfl⟩
    · simp at hA
    rw [List.concat_eq_append] at *
    have hA0 : A0.length = j := by simpa using hA
    have hidx : Vec.idx ((A0 ++ [a] ++ B).map Prod.snd) j = .ok a.2 := by
      apply Vec.idx_of_some
      rw [List.getElem?_map, List.append_assoc, List.getElem?_append_right (by omega)]
      simp [hA0]
    have hlist : (((A0 ++ [a]).map Prod.snd).reverse.filter (·.isAtOrigin)) =
        ((if a.2.isAtOrigin then [a.2] else []) ++ ((A0.map Prod.snd).reverse.filter (·.isAtOrigin))) := by
      simp only [List.map_append, List.map_cons, List.map_nil, List.reverse_append, List.reverse_cons, List.reverse_nil,
        List.nil_append, List.singleton_append, List.filter_cons]
      split <;> rfl
    rw [hlist, testLoop, hidx]
    simp only [Res.ok_bind]
    have keep : ∀ rng1 : R, ∃ (Z' : List (Nat × OriginalEdge)) (D : List OriginalEdge) (rng' : R), testLoop p j ((A0 ++ [a] ++ B).map Prod.fst) ((A0 ++ [a] ++ B).map Prod.snd) rv rng1 =
        .ok (Z'.map Prod.fst, Z'.map Prod.snd, rv ++ D, rng') ∧
        Thrown p rng1 ((A0.map Prod.snd).reverse.filter (·.isAtOrigin)) D rng' := by
      intro rng1
      have := ih A0 (a :: B) rv rng1 hA0
      rwa [show A0 ++ a :: B = A0 ++ [a] ++ B by simp] at this
    by_cases ho : a.2.isAtOrigin = true
    · rw [if_pos ho, if_pos ho]
      rcases hcoin : coin rng p with ⟨b, rng1⟩
      cases b with
      | false =>
        simp only [Bool.false_eq_true, if_false]
        obtain ⟨Z', D, rng', h1, h2⟩ := keep rng1
        exact ⟨Z', D, rng', h1, .tails hcoin h2⟩
      | true =>
        simp only [if_true]
        obtain ⟨B', s1, s2⟩ := swapRemove_mid A0 B a
        rw [hA0, show A0 ++ a :: B = A0 ++ [a] ++ B by simp] at s1
        have t1 := Vec.swapRemove_map Prod.fst s1
        have t2 := Vec.swapRemove_map Prod.snd s1
        rw [t2]
        simp only [Res.ok_bind]
        rw [t1]
        simp only [Res.ok_bind]
        obtain ⟨Z', D, rng', h1, h2⟩ := ih A0 B' (rv ++ [a.2]) rng1 hA0
        exact ⟨Z', a.2 :: D, rng', by rw [h1]; simp, .heads hcoin h2⟩
    · rw [if_neg ho, if_neg ho]
      obtain ⟨Z', D, rng', h1, h2⟩ := keep rng
      exact ⟨Z', D, rng', h1, h2⟩

/-- The edges of vertex `i` that are at their origin, in the order in which `randomize` throws the coins. -/
def homeList (g : WSGraph T) (i : Nat) : List (Sym2 ℕ) :=
  (((WSGraph.entries g i).map Prod.snd).reverse.filter (·.isAtOrigin)).map OriginalEdge.pair

theorem removeStage_thrown_list {p : ℚ} {n d : Nat} {dat : List T} {g : WSGraph T} {E : Finset (Sym2 ℕ)} {org : Sym2 ℕ → Sym2 ℕ}
    (h : J n d dat g E org 0) {i : Nat} (hi : i < n) (rng : R) :
    ∃ g' rewire rng', removeStage p g rng i = .ok (g', rewire, rng') ∧
      J n d dat g' (E \ (rewire.map OriginalEdge.pair).toFinset) org
        ((rewire.map OriginalEdge.pair : List (Sym2 ℕ)) : Multiset (Sym2 ℕ)) ∧
      (homeList g i).Nodup ∧ (∀ e, e ∈ homeList g i ↔ e ∈ E ∧ org e = e ∧ i ∈ e) ∧ Thrown p rng (homeList g i) (rewire.map OriginalEdge.pair) rng' := by
  obtain ⟨g1, rewire, rng1, D, a1, a2, a3, a4, a5, a6, a7, a8⟩ := removeStage_spec (p := p) h hi rng
  obtain ⟨c, hc⟩ := h.raw.get hi
  have hv := h.raw.vert i c hc
  obtain ⟨z1, z2⟩ := zip_split c hv.inv
  have hlen : (c.dst.zip c.original).length = c.original.length := by rw [List.length_zip, hv.inv]; simp
  have hlist : homeList g i = (c.original.reverse.filter (·.isAtOrigin)).map OriginalEdge.pair := by
    unfold homeList
    rw [show WSGraph.entries g i = c.dst.zip c.original by simp [WSGraph.entries, hc], ← z2]
  rw [hlist]
  obtain ⟨Z', D', rng', t1, t2⟩ := testLoop_thrown p _ (c.dst.zip c.original) [] [] rng hlen
  simp only [List.append_nil, List.nil_append] at t1 t2
  rw [← z1, ← z2] at t1
  rw [← z2] at t2
  have hD : D = (rewire.map OriginalEdge.pair).toFinset := by
    apply Finset.val_injective
    rw [List.toFinset_val, ← a5, List.dedup_eq_self.mpr]
    have : (((rewire.map OriginalEdge.pair : List (Sym2 ℕ)) : Multiset (Sym2 ℕ))).Nodup := by rw [a5]; exact D.nodup
    exact this
  have hrw : rewire = D' ∧ rng1 = rng' := by
    unfold removeStage at a1
    rw [Vec.idx_of_some hc] at a1
    simp only [Res.ok_bind] at a1
    rw [show (c.original.length == c.dst.length) = true by simp [hv.inv]] at a1
    simp only [Res.assert_true, Res.ok_bind] at a1
    rw [t1] at a1
    simp only [Res.ok_bind, Res.bind_eq_ok, Res.pure_eq, Res.ok.injEq, Prod.mk.injEq] at a1
    obtain ⟨_, _, _, b1, b2⟩ := a1
    exact ⟨b1.symm, b2.symm⟩
  obtain ⟨rfl, rfl⟩ := hrw
  refine ⟨g1, rewire, rng1, a1, by rw [← hD, a5]; exact a4, ?_, ?_, Thrown.map OriginalEdge.pair t2⟩
  · have hmap : (c.original.reverse.filter (·.isAtOrigin)).map OriginalEdge.pair =
        ((c.dst.zip c.original).reverse.filter (fun z => z.2.isAtOrigin)).map (fun z => s(i, z.1)) := by
      conv => lhs; rw [z2, ← List.map_reverse, List.filter_map, List.map_map]
      apply List.map_congr_left
      intro z hz
      obtain ⟨k1, k2⟩ := List.mem_filter.mp hz
      have he := hv.entry z (List.mem_reverse.mp k1)
      show z.2.pair = s(i, z.1)
      rw [he.pair]
      exact he.flag.mp k2
    rw [hmap]
    have hnd : ((c.dst.zip c.original).map (fun z => s(i, z.1))).Nodup := by
      have : (c.dst.zip c.original).map (fun z => s(i, z.1)) = c.dst.map (fun v => s(i, v)) := by
        conv => rhs; rw [z1, List.map_map]
        rfl
      rw [this]
      exact hv.nodup.map (fun a b hab => Sym2.congr_right.mp hab)
    exact List.Nodup.sublist (List.filter_sublist.map _) (by
      rw [List.map_reverse]; exact List.nodup_reverse.mpr hnd)
  · intro e
    rw [List.mem_map]
    constructor
    · rintro ⟨o, ho, rfl⟩
      obtain ⟨k1, k2⟩ := List.mem_filter.mp ho
      rw [List.mem_reverse, z2, List.mem_map] at k1
      obtain ⟨z, hz, rfl⟩ := k1
      have he := hv.entry z hz
      have hf := he.flag.mp k2
      rw [he.pair, hf, hf]
      exact ⟨(hv.adj _).mp (List.of_mem_zip hz).1, rfl, by simp⟩
    · rintro ⟨h1, h2, h3⟩
      obtain ⟨v, rfl⟩ := Sym2.mem_iff_exists.mp h3
      have hvd : v ∈ c.dst := (hv.adj v).mpr h1
      rw [z1] at hvd
      obtain ⟨z, hz, rfl⟩ := List.mem_map.mp hvd
      have he := hv.entry z hz
      refine ⟨z.2, List.mem_filter.mpr ⟨?_, he.flag.mpr h2⟩, by rw [he.pair, h2]⟩
      rw [List.mem_reverse, z2]
      exact List.mem_map_of_mem hz

theorem removeStage_thrown {p : ℚ} {n d : Nat} {dat : List T} {g : WSGraph T} {E : Finset (Sym2 ℕ)} {org : Sym2 ℕ → Sym2 ℕ}
    (h : J n d dat g E org 0) {i : Nat} (hi : i < n) (rng : R) :
    ∃ g' rewire rng' L, removeStage p g rng i = .ok (g', rewire, rng') ∧
      J n d dat g' (E \ (rewire.map OriginalEdge.pair).toFinset) org
        ((rewire.map OriginalEdge.pair : List (Sym2 ℕ)) : Multiset (Sym2 ℕ)) ∧
      L.Nodup ∧ (∀ e, e ∈ L ↔ e ∈ E ∧ org e = e ∧ i ∈ e) ∧ Thrown p rng L (rewire.map OriginalEdge.pair) rng' := by
  obtain ⟨g', rewire, rng', h1⟩ := removeStage_thrown_list (p := p) h hi rng
  exact ⟨g', rewire, rng', _, h1⟩

theorem pickPair_drawn {n : Nat} {dat : List T} {ec : Nat} {g : WSGraph T} {E : Finset (Sym2 ℕ)} {org : Sym2 ℕ → Sym2 ℕ}
    (h : Raw n dat ec g (fun u v => s(u, v) ∈ E) org) (hn : n < 2 ^ 32) (hn0 : 0 < n) (o : OriginalEdge) :
    ∀ (fuel : Nat) (rng : R) (a b : ℕ) (r' : R), pickPair g o fuel rng = .ok (a, b, r') →
      PairDrawn n E o.pair rng s(a, b) r' ∧ Free n E o a b := by
  intro fuel
  induction fuel with
  | zero => intro rng a b r' he; simp [pickPair] at he
  | succ fuel ih =>
    intro rng a b r' he
    obtain ⟨x, r1, e1, hx⟩ := genRange_ok rng hn0
    obtain ⟨y, r2, e2, hy⟩ := genRange_ok r1 hn0
    rcases pickPair_succ h hn o fuel e1 e2 with ⟨hf, he'⟩ | ⟨hf, he'⟩
    · rw [he'] at he
      simp only [Res.ok.injEq, Prod.mk.injEq] at he
      obtain ⟨rfl, rfl, rfl⟩ := he
      exact ⟨.accept e1 e2 hf.2.2.1 hf.2.2.2.1 hf.2.2.2.2, hf⟩
    · rw [he'] at he
      obtain ⟨k1, k2⟩ := ih r2 a b r' he
      refine ⟨.reject e1 e2 ?_ k1, k2⟩
      by_contra hc
      simp only [not_or] at hc
      exact hf ⟨hx, hy, hc.1, hc.2.1, hc.2.2⟩

theorem addAll_putBack {n d : Nat} (hn : n < 2 ^ 32) (hn0 : 0 < n) {dat : List T} {fuel : Nat} : ∀ (l : List OriginalEdge)
    {g : WSGraph T} {E : Finset (Sym2 ℕ)} {org : Sym2 ℕ → Sym2 ℕ} (rng : R) (st : WSGraph T × R),
    J n d dat g E org ((l.map OriginalEdge.pair : List (Sym2 ℕ)) : Multiset (Sym2 ℕ)) →
    l.foldlM (addRandomEdge fuel) (g, rng) = .ok st →
    ∃ E' org', J n d dat st.1 E' org' 0 ∧ PutBack n E org rng (l.map OriginalEdge.pair) E' org' st.2 := by
  intro l
  induction l with
  | nil =>
    intro g E org rng st h he
    simp only [List.foldlM_nil, Res.pure_eq, Res.ok.injEq] at he
    subst he
    exact ⟨E, org, h, .nil _ _ _⟩
  | cons o l ih =>
    intro g E org rng st h he
    rw [List.foldlM_cons] at he
    have h' : J n d dat g E org (o.pair ::ₘ ((l.map OriginalEdge.pair : List (Sym2 ℕ)) : Multiset (Sym2 ℕ))) := h
    rcases hx : pickPair g o fuel rng with ⟨a, b, r'⟩ | _ | _
    · obtain ⟨hd, hf⟩ := pickPair_drawn h.raw hn hn0 o fuel rng a b r' hx
      obtain ⟨g', e1, e2⟩ := addRandomEdge_of_pick h' hx hf
      rw [e1, Res.ok_bind] at he
      obtain ⟨E', org', k1, k2⟩ := ih r' st e2 he
      exact ⟨E', org', k1, .cons hd k2⟩
    · unfold addRandomEdge at he
      simp only [hx] at he
      cases he
    · unfold addRandomEdge at he
      simp only [hx] at he
      cases he

theorem loop_rewires {p : ℚ} {n d : Nat} (hn : n < 2 ^ 32) {dat : List T} {fuel : Nat} : ∀ (vs : List ℕ)
    {g : WSGraph T} {E : Finset (Sym2 ℕ)} {org : Sym2 ℕ → Sym2 ℕ} (rng : R) (st : WSGraph T × R), (∀ i ∈ vs, i < n) →
    J n d dat g E org 0 → vs.foldlM (rewireBody p fuel) (g, rng) = .ok st →
    ∃ E' org', J n d dat st.1 E' org' 0 ∧ Rewires p n E org rng vs E' org' st.2 := by
  intro vs
  induction vs with
  | nil =>
    intro g E org rng st _ h he
    simp only [List.foldlM_nil, Res.pure_eq, Res.ok.injEq] at he
    subst he
    exact ⟨E, org, h, .nil _ _ _⟩
  | cons i vs ih =>
    intro g E org rng st hvs h he
    rw [List.foldlM_cons] at he
    have hi := hvs i (by simp)
    obtain ⟨g1, rewire, r1, L, a1, a2, a3, a4, a5⟩ := removeStage_thrown (p := p) h hi rng
    unfold rewireBody at he
    simp only [a1, Res.ok_bind] at he
    rcases hx : rewire.foldlM (addRandomEdge fuel) (g1, r1) with ⟨g2, r2⟩ | _ | _
    · rw [hx, Res.ok_bind] at he
      obtain ⟨E1, org1, b1, b2⟩ := addAll_putBack hn (by omega) rewire r1 (g2, r2) a2 hx
      obtain ⟨E2, org2, c1, c2⟩ := ih r2 st (fun j hj => hvs j (by simp [hj])) b1 he
      exact ⟨E2, org2, c1, .cons a3 a4 a5 b2 c2⟩
    · rw [hx] at he; cases he
    · rw [hx] at he; cases he

end Ws

/-- Every run of `randomize` that returns is, whatever the network was before, this procedure on the ring: for each vertex in turn a
coin is thrown for every edge still at its origin; the edges with heads are removed, and then each is put back at a pair of vertices
drawn uniformly among the pairs, drawing again while the pair is a loop, an edge or the origin of the edge. -/
theorem C65_ws_randomize_law {e e' : Ws T R} (h : e.graph.WF) (hd : 2 * e.neighborDistance + 1 ≤ e.graph.vertexCount)
    (hn : e.graph.vertexCount < 2 ^ 32) {fuel : Nat} (he : e.randomize fuel = .ok e') :
    ∃ E org, Rewires e.rewireProb e.graph.vertexCount (ringSet e.graph.vertexCount e.neighborDistance) id e.rng
        (List.range e.graph.vertexCount) E org e'.rng ∧ e'.graph.edges = E ∧
      ∀ u, ∀ z ∈ WSGraph.entries e'.graph u, z.2.pair = org s(u, z.1) := by
  obtain ⟨g0, h1, h2, h3, h4, h5⟩ := Ws.start h hd hn
  unfold Ws.randomize at he
  rw [h1] at he
  simp only [Res.ok_bind] at he
  have hlen : g0.vertexCount = e.graph.nextId := h2
  rw [hlen] at he
  rcases hx : (List.range e.graph.nextId).foldlM (Ws.rewireBody e.rewireProb fuel) (g0, e.rng) with ⟨g, r⟩ | _ | _
  · rw [hx] at he
    simp only [Res.ok_bind, Res.pure_eq, Res.ok.injEq] at he
    subst he
    obtain ⟨E, org, k1, k2⟩ := Ws.loop_rewires hn (List.range e.graph.nextId) e.rng (g, r)
      (fun i hi => List.mem_range.mp hi) h4 hx
    exact ⟨E, org, k2, (k1.wf hd).2, fun u z hz => (k1.entry hz).1.pair⟩
  · rw [hx] at he; cases he
  · rw [hx] at he; cases he

/-- The same for the network that `new` returns. -/
theorem C65_ws_new_law [Node T] {fuel n d : Nat} (hn : n < 2 ^ 32) {p : ℚ} {rng : R} {e : Ws T R}
    (he : Ws.new fuel n d p rng = .ok (.ok e)) :
    2 * d + 1 ≤ n ∧ e.graph.vertexCount = n ∧ ∃ E org, Rewires p n (ringSet n d) id rng (List.range n) E org e.rng ∧
      e.graph.edges = E ∧ ∀ u, ∀ z ∈ WSGraph.entries e.graph u, z.2.pair = org s(u, z.1) := by
  have hd : 2 * d + 1 ≤ n := by
    by_contra hc
    unfold Ws.new at he
    rw [if_pos (by omega)] at he
    simp at he
  obtain ⟨g0, a1, a2, a3, a4⟩ := Ws.new_eq (T := T) fuel n d hd hn p rng
  rw [a4] at he
  rcases hx : Ws.randomize fuel (⟨g0, p, rng, d⟩ : Ws T R) with e' | _ | _
  · rw [hx] at he
    simp only [Res.ok_bind, Res.ok.injEq, Except.ok.injEq] at he
    subst he
    have h1 := ((C45_ws_randomize (e := (⟨g0, p, rng, d⟩ : Ws T R)) a1 (by rw [a2]; exact hd) (by rw [a2]; exact hn) fuel).2 _ hx).2.1
    obtain ⟨E, org, h2⟩ := C65_ws_randomize_law (e := (⟨g0, p, rng, d⟩ : Ws T R)) a1 (by rw [a2]; exact hd) (by rw [a2]; exact hn) hx
    simp only [a2] at h1 h2
    exact ⟨hd, h1, E, org, h2⟩
  · rw [hx] at he; cases he
  · rw [hx] at he; cases he

/-- There are runs that return, for instance with six vertices of four neighbours each and a coin that always shows heads. -/
example : ∃ (fuel : Nat) (rng : Script) (e : Ws Nat Script), Ws.new fuel 6 2 1 rng = .ok (.ok e) :=
  (C46_ws_returns_iff 6 2 (by decide) (by decide) 1).mpr (Or.inl (by decide))

end Verif
