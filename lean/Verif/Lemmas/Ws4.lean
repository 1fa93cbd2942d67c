import Verif.Lemmas.Ws3
import Verif.Spec.Pairs

/-!
# Lemmas about the Watts-Strogatz ensemble: the initial ring, the final network
-/

set_option linter.unusedSectionVars false
set_option linter.unusedSimpArgs false

namespace Verif
open AdjContainer GenericGraph

namespace Ws
variable {T R : Type} [Rng R]

/-- All entries are at their origin. -/
def Home (g : WSGraph T) : Prop :=
  ∀ (i : Nat) (c : WSContainer T), g.vertices[i]? = some c → ∀ z ∈ c.dst.zip c.original, z.2 = ⟨i, z.1, true⟩

theorem addEdge_home {g g' : WSGraph T} (h : g.WF) (hn : g.nextId < 2 ^ 32) (hh : Home g) {i j : Nat} {r : Except GraphErr Unit}
    (e : g.addEdge i j = .ok (r, g')) : Home g' := by
  by_cases hv : i < g.nextId ∧ j < g.nextId ∧ i ≠ j
  · obtain ⟨hi, hj, hij⟩ := hv
    by_cases hex : j ∈ g.nbrs i
    · rw [addEdge_exists h hex] at e
      simp at e; obtain ⟨rfl, rfl⟩ := e
      exact hh
    · obtain ⟨a, b, ha, hb, hget⟩ := get2_of_lt h.len hi hj hij
      have ida : a.id = i := h.ids _ _ ha
      have idb : b.id = j := h.ids _ _ hb
      have inva : a.dst.length = a.original.length := h.inv a (List.mem_of_getElem? ha)
      have invb : b.dst.length = b.original.length := h.inv b (List.mem_of_getElem? hb)
      have hnadj : a.isAdjacent b.id = false := by
        rw [Bool.eq_false_iff]
        intro hc
        rw [WSContainer.isAdjacent_iff, idb] at hc
        exact hex (by rw [nbrs_of_some ha]; exact hc)
      have hpush : push a b = .ok (.ok (),
          { a with dst := a.dst ++ [j], original := a.original ++ [⟨i, j, true⟩] },
          { b with dst := b.dst ++ [i], original := b.original ++ [⟨j, i, true⟩] }) := by
        show WSContainer.push a b = _
        unfold WSContainer.push
        rw [hnadj, ida, idb, asU32_eq (show i < 2 ^ 32 by omega), asU32_eq (show j < 2 ^ 32 by omega)]
        rfl
      unfold GenericGraph.addEdge at e
      rw [hget] at e
      simp only [Res.ok_bind] at e
      rw [hpush] at e
      simp only [Res.ok_bind, Res.pure_eq, Res.ok.injEq, Prod.mk.injEq] at e
      obtain ⟨_, rfl⟩ := e
      intro k c hc
      have hla : i < g.vertices.length := by rw [h.len]; exact hi
      have hlb : j < g.vertices.length := by rw [h.len]; exact hj
      simp only [put2] at hc
      rw [List.getElem?_set] at hc
      by_cases hjk : j = k
      · subst hjk
        rw [if_pos rfl, if_pos (by simpa using hlb)] at hc
        cases hc
        intro z hz
        simp only at hz
        rw [List.zip_append invb] at hz
        rcases List.mem_append.mp hz with hz | hz
        · exact hh _ _ hb z hz
        · simp at hz; subst hz; rfl
      · rw [if_neg hjk, List.getElem?_set] at hc
        by_cases hik : i = k
        · subst hik
          rw [if_pos rfl, if_pos hla] at hc
          cases hc
          intro z hz
          simp only at hz
          rw [List.zip_append inva] at hz
          rcases List.mem_append.mp hz with hz | hz
          · exact hh _ _ ha z hz
          · simp at hz; subst hz; rfl
        · rw [if_neg hik] at hc
          exact hh k c hc
  · rw [addEdge_panic hv] at e; cases e

theorem initRingInner_home {n i : Nat} : ∀ (l : List Nat) {g g' : WSGraph T} {r : Except GraphErr Unit}, g.WF →
    g.nextId < 2 ^ 32 → Home g → initRingInner n i l g = .ok (r, g') → Home g' := by
  intro l
  induction l with
  | nil => intro g g' r h hn hh e; simp [initRingInner] at e; obtain ⟨rfl, rfl⟩ := e; exact hh
  | cons a l ih =>
    intro g g' r h hn hh e
    rw [initRingInner] at e
    simp only [Res.bind_eq_ok] at e
    obtain ⟨⟨r1, g1⟩, e1, e2⟩ := e
    obtain ⟨w1, w2, w3, w4⟩ := addEdge_wp h e1
    have hh1 := addEdge_home h hn hh e1
    cases r1 with
    | error er => simp at e2; obtain ⟨rfl, rfl⟩ := e2; exact hh1
    | ok u => exact ih w1 (by rw [w2]; exact hn) hh1 e2

theorem initRingOuter_home {n d : Nat} : ∀ (l : List Nat) {g g' : WSGraph T} {r : Except GraphErr Unit}, g.WF →
    g.nextId < 2 ^ 32 → Home g → initRingOuter n d l g = .ok (r, g') → Home g' := by
  intro l
  induction l with
  | nil => intro g g' r h hn hh e; simp [initRingOuter] at e; obtain ⟨rfl, rfl⟩ := e; exact hh
  | cons a l ih =>
    intro g g' r h hn hh e
    rw [initRingOuter] at e
    simp only [Res.bind_eq_ok] at e
    obtain ⟨⟨r1, g1⟩, e1, e2⟩ := e
    obtain ⟨w1, w2, w3, w4⟩ := initRingInner_wp _ h e1
    have hh1 := initRingInner_home _ h hn hh e1
    cases r1 with
    | error er => simp at e2; obtain ⟨rfl, rfl⟩ := e2; exact hh1
    | ok u => exact ih w1 (by rw [w2]; exact hn) hh1 e2

theorem initRing_home {d : Nat} {g g' : WSGraph T} {r : Except GraphErr Unit} (h : g.WF) (hn : g.nextId < 2 ^ 32)
    (e : g.initRing d = .ok (r, g')) : Home g' := by
  refine initRingOuter_home _ (clearEdges_wf h) (by rw [clearEdges_nextId]; exact hn) ?_ e
  intro i c hc z hz
  have h1 : g.clearEdges.nbrs i = [] := clearEdges_nbrs h i
  rw [nbrs_of_some hc] at h1
  have h2 : c.dst = [] := h1
  rw [h2] at hz
  simp at hz

theorem mem_ringSet {n d u v : Nat} : s(u, v) ∈ ringSet n d ↔
    ∃ x a, x < n ∧ 1 ≤ a ∧ a ≤ d ∧ ((u = x ∧ v = (x + a) % n) ∨ (v = x ∧ u = (x + a) % n)) := by
  unfold ringSet
  rw [Finset.mem_image]
  constructor
  · rintro ⟨⟨x, a⟩, hp, he⟩
    rw [Finset.mem_product, Finset.mem_range, Finset.mem_Icc] at hp
    refine ⟨x, a, hp.1, hp.2.1, hp.2.2, ?_⟩
    rcases Sym2.eq_iff.mp he with ⟨h1, h2⟩ | ⟨h1, h2⟩
    · exact .inl ⟨h1.symm, h2.symm⟩
    · exact .inr ⟨h1.symm, h2.symm⟩
  · rintro ⟨x, a, h1, h2, h3, h4⟩
    refine ⟨(x, a), ?_, ?_⟩
    · rw [Finset.mem_product, Finset.mem_range, Finset.mem_Icc]; exact ⟨h1, h2, h3⟩
    · rcases h4 with ⟨rfl, rfl⟩ | ⟨rfl, rfl⟩
      · rfl
      · exact Sym2.eq_swap

theorem ringSet_iff {n d u v : Nat} (hd : 2 * d + 1 ≤ n) :
    s(u, v) ∈ ringSet n d ↔ u < n ∧ v < n ∧ u ≠ v ∧ circDist n u v ≤ d := by
  rw [mem_ringSet, ring_adj_iff hd]

theorem start {g : WSGraph T} (h : g.WF) {d : Nat} (hd : 2 * d + 1 ≤ g.nextId) (hn : g.nextId < 2 ^ 32) :
    ∃ g0, g.initRing d = .ok (.ok (), g0) ∧ g0.nextId = g.nextId ∧ g0.WF ∧
      J g.nextId d g.data g0 (ringSet g.nextId d) id 0 ∧
      ∀ i < g.nextId, nfl (WSGraph.entries g0 i) = 2 * d := by
  obtain ⟨g0, h1, h2, h3, h4, h5, h6⟩ := initRing_inv h hd
  have hh := initRing_home h hn h1
  have hdeg : ∀ i < g.nextId, (g0.nbrs i).length = 2 * d := by
    obtain ⟨g0', k1, _, _, _, _, _, k7⟩ := C07_init_ring h d hd
    rw [h1] at k1
    simp only [Res.ok.injEq, Prod.mk.injEq, true_and] at k1
    subst k1
    intro i hi
    have := k7 i hi
    obtain ⟨c, hc⟩ : ∃ c, g0.vertices[i]? = some c := ⟨_, List.getElem?_eq_getElem (by rw [h2.len, h3]; exact hi)⟩
    rw [nbrs_of_some hc]
    simp only [GenericGraph.degree, hc] at this
    exact Option.some.inj this
  refine ⟨g0, h1, h3, h2, ⟨⟨h3, h4, h5, by rw [h2.len, h3], ?_⟩, ?_, ?_⟩, ?_⟩
  · intro i c hc
    have hnb : g0.nbrs i = c.dst := nbrs_of_some hc
    refine ⟨h2.ids _ _ hc, h2.inv c (List.mem_of_getElem? hc), by rw [← hnb]; exact h2.nodup i, ?_, ?_⟩
    · intro v
      rw [← hnb, h6, mem_ringSet]
    · intro z hz
      have := hh i c hc z hz
      refine ⟨?_, ?_, fun _ => this⟩
      · rw [this]; rfl
      · rw [this]; simp
  · intro u v huv
    rw [ringSet_iff hd] at huv
    exact ⟨huv.1, huv.2.1, huv.2.2.1⟩
  · simp
  · intro i hi
    obtain ⟨c, hc⟩ : ∃ c, g0.vertices[i]? = some c := ⟨_, List.getElem?_eq_getElem (by rw [h2.len, h3]; exact hi)⟩
    have hinv : c.dst.length = c.original.length := h2.inv c (List.mem_of_getElem? hc)
    have : WSGraph.entries g0 i = c.dst.zip c.original := by simp [WSGraph.entries, hc]
    rw [this]
    unfold nfl
    rw [List.countP_eq_length.mpr, List.length_zip, ← hdeg i hi, nbrs_of_some hc]
    · show min c.dst.length c.original.length = c.dst.length
      omega
    · intro z hz
      rw [hh i c hc z hz]

theorem ringSet_card {n d : Nat} (hd : 2 * d + 1 ≤ n) : (ringSet n d).card = n * d := by
  have h : (GenericGraph.new n : Graph Nat).WF := new_wf n
  obtain ⟨g0, h1, h2, h3, h4, h5, h6⟩ := initRing_inv h (d := d) hd
  have h3' : g0.nextId = n := h3
  rw [show n * d = g0.edgeCount from h5.symm, h2.edgeCount_eq_card]
  congr 1
  ext e
  induction e using Sym2.ind with
  | h u v => rw [h2.mem_edges, h6, mem_ringSet]; rfl

theorem J.card {n d : Nat} {dat : List T} {g : WSGraph T} {E : Finset (Sym2 ℕ)} {org : Sym2 ℕ → Sym2 ℕ} {Pm : Multiset (Sym2 ℕ)}
    (h : J n d dat g E org Pm) (hd : 2 * d + 1 ≤ n) : E.card + Pm.card = n * d := by
  rw [← ringSet_card hd, Finset.card_def (s := ringSet n d), ← h.ms]
  simp

/-- The degree sum of an adjacency relation given by a set of edges. -/
theorem degree_sum {n : Nat} {E : Finset (Sym2 ℕ)} {nb : Nat → List Nat} (hnd : ∀ i, (nb i).Nodup)
    (hadj : ∀ i < n, ∀ j, j ∈ nb i ↔ s(i, j) ∈ E) (hlt : ∀ u v, s(u, v) ∈ E → u < n ∧ v < n ∧ u ≠ v) :
    ∑ i ∈ Finset.range n, (nb i).length = 2 * E.card := by
  have h0 : ∀ i ∈ Finset.range n, (nb i).length = (E.filter (fun e => i ∈ e)).card := by
    intro i hi
    rw [Finset.mem_range] at hi
    have : E.filter (fun e => i ∈ e) = (nb i).toFinset.image (fun j => s(i, j)) := by
      ext e
      rw [Finset.mem_filter, Finset.mem_image]
      constructor
      · rintro ⟨h1, h2⟩
        obtain ⟨w, rfl⟩ := Sym2.mem_iff_exists.mp h2
        exact ⟨w, List.mem_toFinset.mpr ((hadj i hi w).mpr h1), rfl⟩
      · rintro ⟨w, h1, rfl⟩
        exact ⟨(hadj i hi w).mp (List.mem_toFinset.mp h1), Sym2.mem_mk_left _ _⟩
    rw [this, Finset.card_image_of_injective, List.toFinset_card_of_nodup (hnd i)]
    intro a b hab
    exact Sym2.congr_right.mp hab
  rw [Finset.sum_congr rfl h0]
  have h2 := Finset.sum_card_bipartiteAbove_eq_sum_card_bipartiteBelow (s := Finset.range n) (t := E) (fun i e => i ∈ e)
  simp only [Finset.bipartiteAbove, Finset.bipartiteBelow] at h2
  rw [h2]
  have h3 : ∀ e ∈ E, ((Finset.range n).filter (fun i => i ∈ e)).card = 2 := by
    intro e he
    induction e using Sym2.ind with
    | h i j =>
      obtain ⟨k1, k2, k3⟩ := hlt i j he
      have : (Finset.range n).filter (fun k => k ∈ s(i, j)) = {i, j} := by
        ext k
        simp only [Finset.mem_filter, Finset.mem_range, Sym2.mem_iff, Finset.mem_insert, Finset.mem_singleton]
        constructor
        · exact fun h => h.2
        · rintro (rfl | rfl)
          · exact ⟨k1, .inl rfl⟩
          · exact ⟨k2, .inr rfl⟩
      rw [this, Finset.card_pair k3]
  rw [Finset.sum_congr rfl h3]
  simp; omega

theorem J.wf {n d : Nat} {dat : List T} {g : WSGraph T} {E : Finset (Sym2 ℕ)} {org : Sym2 ℕ → Sym2 ℕ}
    (h : J n d dat g E org 0) (hd : 2 * d + 1 ≤ n) : g.WF ∧ g.edges = E := by
  have hr := h.raw
  have hadj : ∀ i < n, ∀ j, j ∈ g.nbrs i ↔ s(i, j) ∈ E := by
    intro i hi j
    obtain ⟨c, hc⟩ := hr.get hi
    rw [nbrs_of_some hc]
    exact (hr.vert i c hc).adj j
  have hnil : ∀ i, ¬ i < n → g.nbrs i = [] := fun i hi => nbrs_of_ge (by rw [hr.len]; omega)
  have hadj' : ∀ i j, j ∈ g.nbrs i ↔ s(i, j) ∈ E := by
    intro i j
    by_cases hi : i < n
    · exact hadj i hi j
    · rw [hnil i hi]
      simp only [List.not_mem_nil, false_iff]
      exact fun hc => hi (h.lt i j hc).1
  have hnd : ∀ i, (g.nbrs i).Nodup := by
    intro i
    by_cases hi : i < n
    · obtain ⟨c, hc⟩ := hr.get hi
      rw [nbrs_of_some hc]
      exact (hr.vert i c hc).nodup
    · rw [hnil i hi]; simp
  have hcard := h.card hd
  have hwf : g.WF := by
    refine ⟨by rw [hr.len, hr.next], fun i c hc => (hr.vert i c hc).id, ?_, ?_, ?_, hnd, ?_, ?_⟩
    · intro c hc
      obtain ⟨i, hi⟩ := List.getElem?_of_mem hc
      exact (hr.vert i c hi).inv
    · intro i j hj
      rw [hr.next]; exact (h.lt i j ((hadj' i j).mp hj)).2.1
    · intro i hi
      exact (h.lt i i ((hadj' i i).mp hi)).2.2 rfl
    · intro i j hj
      rw [hadj', Sym2.eq_swap, ← hadj']; exact hj
    · rw [hr.next, hr.cnt, degree_sum hnd hadj h.lt]
      simp at hcard
      rw [hcard]
  refine ⟨hwf, ?_⟩
  ext e
  induction e using Sym2.ind with
  | h u v => rw [hwf.mem_edges, hadj']

theorem J.entry {n d : Nat} {dat : List T} {g : WSGraph T} {E : Finset (Sym2 ℕ)} {org : Sym2 ℕ → Sym2 ℕ} {Pm : Multiset (Sym2 ℕ)}
    (h : J n d dat g E org Pm) {u : Nat} {z : Nat × OriginalEdge} (hz : z ∈ WSGraph.entries g u) :
    EntryOk org u z ∧ s(u, z.1) ∈ E := by
  unfold WSGraph.entries at hz
  cases hc : g.vertices[u]? with
  | none => rw [hc] at hz; simp at hz
  | some c =>
    rw [hc] at hz
    have hv := h.raw.vert u c hc
    exact ⟨hv.entry z hz, (hv.adj _).mp (List.of_mem_zip hz).1⟩

theorem J.exists_entry {n d : Nat} {dat : List T} {g : WSGraph T} {E : Finset (Sym2 ℕ)} {org : Sym2 ℕ → Sym2 ℕ}
    {Pm : Multiset (Sym2 ℕ)} (h : J n d dat g E org Pm) {u v : Nat} (he : s(u, v) ∈ E) :
    ∃ o, (v, o) ∈ WSGraph.entries g u := by
  obtain ⟨c, hc⟩ := h.raw.get (h.lt u v he).1
  have hv := h.raw.vert u c hc
  have : v ∈ c.dst := (hv.adj v).mpr he
  rw [(zip_split c hv.inv).1] at this
  obtain ⟨⟨v', o⟩, hz, rfl⟩ := List.mem_map.mp this
  exact ⟨o, by simpa [WSGraph.entries, hc] using hz⟩

theorem J.valid {n d : Nat} {dat : List T} {g : WSGraph T} {E : Finset (Sym2 ℕ)} {org : Sym2 ℕ → Sym2 ℕ}
    (h : J n d dat g E org 0) (hd : 2 * d + 1 ≤ n) : WsValid d g := by
  obtain ⟨hwf, hedges⟩ := h.wf hd
  have hms := h.ms
  rw [add_zero] at hms
  have hvc : g.vertexCount = n := h.raw.next
  have hring : ∀ e, e ∈ ringSet n d ↔ ∃ x ∈ E, org x = e := by
    intro e
    rw [← Finset.mem_val, ← hms, Multiset.mem_map]
    rfl
  have hinj : ∀ x ∈ E, ∀ y ∈ E, org x = org y → x = y := by
    intro x hx y hy hxy
    have hnd : (E.val.map org).Nodup := by rw [hms]; exact (ringSet n d).nodup
    exact Multiset.inj_on_of_nodup_map hnd x hx y hy hxy
  refine ⟨hwf, by rw [hvc]; exact h.raw.cnt, ?_, ?_, ?_, ?_, ?_⟩
  · intro u z hz
    obtain ⟨k1, _⟩ := h.entry hz
    rw [k1.flag, k1.pair]
  · intro u z hz z' hz' hzu
    obtain ⟨k1, _⟩ := h.entry hz
    obtain ⟨k2, _⟩ := h.entry hz'
    rw [k1.pair, k2.pair, hzu, Sym2.eq_swap]
  · intro u z hz
    obtain ⟨k1, k2⟩ := h.entry hz
    rw [hvc, k1.pair, hring]
    exact ⟨_, k2, rfl⟩
  · intro r hr
    rw [hvc, hring] at hr
    obtain ⟨x, hx, rfl⟩ := hr
    induction x using Sym2.ind with
    | h u v =>
      obtain ⟨o, ho⟩ := h.exists_entry hx
      exact ⟨u, (v, o), ho, (h.entry ho).1.pair⟩
  · intro u z hz u' z' hz' he
    obtain ⟨k1, k2⟩ := h.entry hz
    obtain ⟨k3, k4⟩ := h.entry hz'
    rw [k1.pair, k3.pair] at he
    exact hinj _ k2 _ k4 he

/-! ### The loop over the vertices -/

/-- State of `randomize` after the first `i` vertices. -/
structure Prog (p : ℚ) (n d : Nat) (dat : List T) (g0 : WSGraph T) (rng0 : R) (i : Nat) (st : WSGraph T × R)
    (E : Finset (Sym2 ℕ)) (org : Sym2 ℕ → Sym2 ℕ) : Prop where
  j : J n d dat st.1 E org 0
  quiet : moved E org = 0 → st.1 = g0 ∧ st.2 = unitState (2 * d * i) rng0 ∧ ∀ k < 2 * d * i, throwAt p rng0 k = false
  tails : (∀ k < 2 * d * i, throwAt p rng0 k = false) → moved E org = 0
  past : AllHeads p → ∀ e ∈ E, org e = e → ∀ x ∈ e, i ≤ x
  future : ∀ e ∈ ringSet n d, (∀ x ∈ e, i ≤ x) → e ∈ E ∧ org e = e

theorem Prog.next {p : ℚ} {n d : Nat} {dat : List T} {g0 : WSGraph T} {rng0 : R} {i : Nat} {st : WSGraph T × R}
    {E : Finset (Sym2 ℕ)} {org : Sym2 ℕ → Sym2 ℕ} (h : Prog p n d dat g0 rng0 i st E org) (hn : n < 2 ^ 32) (hi : i < n)
    (hfl : nfl (WSGraph.entries g0 i) = 2 * d) (fuel : Nat) :
    (rewireBody p fuel st i).wp (fun st' => ∃ E' org', Prog p n d dat g0 rng0 (i + 1) st' E' org') True := by
  obtain ⟨g, rng⟩ := st
  refine Res.wp_mono (rewireBody_spec hn h.j hi rng) ?_ id
  rintro ⟨g', rng'⟩ ⟨E', org', D, a1, a2, a3, a4⟩
  have hm := a2.moved
  have hmul : 2 * d * (i + 1) = 2 * d + 2 * d * i := by ring
  refine ⟨E', org', a1, ?_, ?_, ?_, ?_⟩
  · intro h0
    have hD : D = ∅ := Finset.card_eq_zero.mp (by omega)
    obtain ⟨b1, b2, b3⟩ := h.quiet (by omega)
    obtain ⟨c1, c2, c3⟩ := a3 hD
    simp only at b1 b2 c1 c2 ⊢
    subst b1
    rw [hfl] at c2 c3
    refine ⟨c1, ?_, ?_⟩
    · rw [c2, b2, hmul, unitState_add]
    · intro k hk
      by_cases hk' : k < 2 * d * i
      · exact b3 k hk'
      · have := c3 (k - 2 * d * i) (by omega)
        rw [b2, ← throwAt_add] at this
        rwa [show k - 2 * d * i + 2 * d * i = k by omega] at this
  · intro ht
    have h0 := h.tails (fun k hk => ht k (by omega))
    obtain ⟨b1, b2, b3⟩ := h.quiet h0
    simp only at b1 b2
    subst b1
    have hD : D = ∅ := by
      apply a4
      rw [hfl]
      intro k hk
      rw [b2, ← throwAt_add]
      exact ht _ (by omega)
    rw [hm, hD, h0]; rfl
  · intro hp e he ho x hx
    have hE : e ∈ E \ D := by
      by_contra hc
      exact a2.add.fresh e he hc ho
    rw [a2.add.same e hE] at ho
    have h1 := h.past hp e (Finset.mem_sdiff.mp hE).1 ho x hx
    have h2 : x ≠ i := by
      rintro rfl
      exact a2.all hp e hE hx ho
    omega
  · intro e he hx
    obtain ⟨k1, k2⟩ := h.future e he (fun x hx' => by have := hx x hx'; omega)
    have hD : e ∉ D := by
      intro hD
      have := hx i (a2.home e hD).2
      omega
    have hE := Finset.mem_sdiff.mpr ⟨k1, hD⟩
    exact ⟨a2.add.sub hE, by rw [a2.add.same e hE]; exact k2⟩

theorem Prog.zero (p : ℚ) {n d : Nat} {dat : List T} {g0 : WSGraph T} (rng0 : R) (h : J n d dat g0 (ringSet n d) id 0) :
    Prog p n d dat g0 rng0 0 (g0, rng0) (ringSet n d) id :=
  ⟨h, fun _ => ⟨rfl, rfl, by simp⟩, fun _ => by simp [Ws.moved], by simp, fun e he _ => ⟨he, rfl⟩⟩

theorem range_split {n x : Nat} {pre post : List Nat} (h : List.range n = pre ++ x :: post) : x = pre.length ∧ x < n := by
  have h1 : (List.range n)[pre.length]? = some x := by rw [h]; simp
  have h2 : pre.length < n := by
    have := congrArg List.length h
    simp at this; omega
  rw [List.getElem?_range h2] at h1
  have := Option.some.inj h1
  omega

theorem loop_spec {p : ℚ} {n d : Nat} {dat : List T} {g0 : WSGraph T} (h : J n d dat g0 (ringSet n d) id 0) (hn : n < 2 ^ 32)
    (hfl : ∀ i < n, nfl (WSGraph.entries g0 i) = 2 * d) (fuel : Nat) (rng0 : R) {m : Nat} (hm : m ≤ n) :
    ((List.range m).foldlM (rewireBody p fuel) (g0, rng0)).wp (fun st => ∃ E org, Prog p n d dat g0 rng0 m st E org) True := by
  have := foldlM_wp (f := rewireBody (T := T) (R := R) p fuel) (List.range m)
    (fun pre st => ∃ E org, Prog p n d dat g0 rng0 pre.length st E org) (by
      rintro pre x post st hl ⟨E, org, hP⟩
      obtain ⟨rfl, hx⟩ := range_split hl
      have := hP.next hn (by omega) (hfl _ (by omega)) fuel
      simpa using this) (s := (g0, rng0)) ⟨_, _, Prog.zero p rng0 h⟩
  simpa using this

end Ws
end Verif
