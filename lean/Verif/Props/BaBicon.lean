import Verif.Props.BaCore
import Verif.Props.SwPieces
import Verif.Props.BiconSum

/-!
# C117: networks that no single failure cuts apart
-/

set_option linter.unusedSectionVars false
set_option linter.unusedSimpArgs false

namespace Verif
open AdjContainer GenericGraph

/-! ## Proof -/

theorem Joined.le {G G' : SimpleGraph ℕ} {K : Finset ℕ} {a b : ℕ} (h : Joined G K a b) (hG : G ≤ G') : Joined G' K a b :=
  Relation.ReflTransGen.mono (fun _ _ (h : _ ∧ _ ∧ _) => ⟨hG h.1, h.2⟩) _ _ h

/-- A vertex with two neighbours in a biconnected set extends it. -/
theorem BiSet.insert {G G' : SimpleGraph ℕ} {S : Finset ℕ} (h : BiSet G S) (hG : G ≤ G') {j a b : ℕ} (ha : a ∈ S) (hb : b ∈ S) (hab : a ≠ b)
    (hja : G'.Adj j a) (hjb : G'.Adj j b) : BiSet G' (insert j S) := by
  have core : ∀ (K : Finset ℕ) (c : ℕ), c ∈ K → G'.Adj j c → (∀ x ∈ K, ∀ y ∈ K, Joined G' K x y) →
      ∀ x ∈ Insert.insert j K, ∀ y ∈ Insert.insert j K, Joined G' (Insert.insert j K) x y := by
    intro K c hc hjc hK
    have hto : ∀ x ∈ Insert.insert j K, Joined G' (Insert.insert j K) c x := by
      intro x hx
      rcases Finset.mem_insert.mp hx with rfl | hx
      · exact Joined.edge hjc.symm (Finset.mem_insert_of_mem hc) (Finset.mem_insert_self _ _)
      · exact (hK c hc x hx).mono (Finset.subset_insert _ _)
    exact fun x hx y hy => (hto x hx).symm.trans (hto y hy)
  refine ⟨h.two.trans (Finset.card_le_card (Finset.subset_insert _ _)), ?_, ?_⟩
  · rw [connOn_iff]
    exact core S a ha hja (fun x hx y hy => (h.conn.joined hx hy).le hG)
  · intro v hv
    rw [connOn_iff]
    by_cases hvj : v = j
    · subst hvj
      intro x hx y hy
      rw [Finset.mem_erase, Finset.mem_insert] at hx hy
      rcases hx with ⟨hx1, hx2 | hx2⟩
      · exact absurd hx2 hx1
      rcases hy with ⟨hy1, hy2 | hy2⟩
      · exact absurd hy2 hy1
      refine ((h.joined_erase hx2 hy2 hx1 hy1).le hG).mono ?_
      exact Finset.erase_subset_erase _ (Finset.subset_insert _ _)
    · rw [Finset.erase_insert_of_ne (Ne.symm hvj)]
      obtain ⟨c, hc, hcv, hjc⟩ : ∃ c ∈ S, c ≠ v ∧ G'.Adj j c := by
        by_cases hav : a = v
        · exact ⟨b, hb, fun h => hab (hav.trans h.symm), hjb⟩
        · exact ⟨a, ha, hav, hja⟩
      refine core (S.erase v) c (Finset.mem_erase.mpr ⟨hcv, hc⟩) hjc ?_
      intro x hx y hy
      rw [Finset.mem_erase] at hx hy
      exact (h.joined_erase hx.2 hy.2 hx.1 hy.1).le hG

theorem Grows.biSet {E0 E : Finset (Sym2 ℕ)} {m : ℕ} {pre : List ℕ} (h : Grows E0 m pre E) (hm : 2 ≤ m) {V : Finset ℕ}
    (hV : ∀ e ∈ E0, ∀ v ∈ e, v ∈ V) (hB : BiSet (SimpleGraph.fromEdgeSet (E0 : Set (Sym2 ℕ))) V) :
    BiSet (SimpleGraph.fromEdgeSet (E : Set (Sym2 ℕ))) (V ∪ pre.toFinset) := by
  induction h with
  | start => simpa using hB
  | @grow pre E j S hg hj hS hSe ih =>
    obtain ⟨a, ha, b, hb, hab⟩ := Finset.one_lt_card.mp (by omega : 1 < S.card)
    have hin : ∀ c ∈ S, c ∈ V ∪ pre.toFinset := by
      intro c hc
      obtain ⟨e, he, hce⟩ := hSe c hc
      rw [Finset.mem_union, List.mem_toFinset]
      rcases hg.endpoint he hce with h | ⟨e0, h0, h1⟩
      · exact .inr h
      · exact .inl (hV e0 h0 c h1)
    have hadj : ∀ c ∈ S,
        (SimpleGraph.fromEdgeSet ((E ∪ S.image (fun v => s(j, v)) : Finset (Sym2 ℕ)) : Set (Sym2 ℕ))).Adj j c := by
      intro c hc
      rw [SimpleGraph.fromEdgeSet_adj]
      refine ⟨by exact_mod_cast Finset.mem_union_right _ (Finset.mem_image_of_mem _ hc), ?_⟩
      rintro rfl
      obtain ⟨e, he, hce⟩ := hSe j hc
      exact hj e he hce
    have heq : V ∪ (pre ++ [j]).toFinset = Insert.insert j (V ∪ pre.toFinset) := by
      ext x
      simp only [Finset.mem_union, List.mem_toFinset, List.mem_append, List.mem_singleton, Finset.mem_insert]
      tauto
    rw [heq]
    exact ih.insert (SimpleGraph.fromEdgeSet_mono (by exact_mod_cast Finset.subset_union_left)) (hin a ha) (hin b hb) hab
      (hadj a ha) (hadj b hb)

section
variable {T A : Type} [AdjContainer T A] [LawfulAdj T A]

theorem BiSet.lt {g : GenericGraph T A} (h : g.WF) {S : Finset ℕ} (hS : BiSet g.toSimple S) : S ⊆ Finset.range g.vertexCount := by
  intro x hx
  obtain ⟨a, ha, b, hb, hab⟩ := Finset.one_lt_card.mp (show 1 < S.card from hS.two)
  obtain ⟨y, hy, hxy⟩ : ∃ y ∈ S, y ≠ x := by
    by_cases hax : a = x
    · exact ⟨b, hb, fun e => hab (hax.trans e.symm)⟩
    · exact ⟨a, ha, hax⟩
  obtain ⟨u, w, huw, _, _, hu, _⟩ := (hS.conn.joined hx hy).exit (P := fun z => z = x) rfl hxy
  subst hu
  exact Finset.mem_range.mpr (h.mem_lt (h.mem_edges.mpr (h.adj_iff.mp huw))).1

theorem whole_block_iff {g : GenericGraph T A} (h : g.WF) :
    g.vertexBiconnectedComponents false = .ok [g.vertexCount] ↔ BiSet g.toSimple (Finset.range g.vertexCount) := by
  constructor
  · intro hr
    obtain ⟨r, a1, _, a2, _⟩ := C21_count_partial h
    rw [hr, Res.ok.injEq] at a1
    subst a1
    obtain ⟨S, hS⟩ := Set.ncard_eq_one.mp a2.symm
    have hS' : ∀ S', Block g.toSimple S' ↔ S' = S := fun S' => by
      have := Set.ext_iff.mp hS S'
      simpa using this
    have hc := C21_single_block h hS'
    rw [hr, Res.ok.injEq, List.cons.injEq] at hc
    have hB := ((hS' S).mpr rfl).1
    have : S = Finset.range g.vertexCount :=
      Finset.eq_of_subset_of_card_le (hB.lt h) (by rw [Finset.card_range, hc.1])
    rwa [this] at hB
  · intro hB
    have := C21_single_block h (S := Finset.range g.vertexCount) (fun S' => by
      constructor
      · rintro ⟨h1, h2⟩
        exact (h2 _ hB (h1.lt h)).symm
      · rintro rfl
        exact ⟨hB, fun S' h1 h2 => Finset.Subset.antisymm (h1.lt h) h2⟩)
    rwa [Finset.card_range] at this

/-! ## Theorems -/

/-- **When `vertex_biconnected_components` returns one entry, the vertex count.** Exactly if there are two vertices or more, the network
is connected, and it stays so without any one vertex: for all `u` and `w` different from `v` there is a path from `u` to `w` around `v`.
Here the sizes are right, whatever the order of the adjacency lists. -/
theorem C117_whole_iff {g : GenericGraph T A} (h : g.WF) :
    g.vertexBiconnectedComponents false = .ok [g.vertexCount] ↔
      2 ≤ g.vertexCount ∧ (∀ u w, u < g.vertexCount → w < g.vertexCount → g.toSimple.Reachable u w) ∧
      ∀ v u w, u < g.vertexCount → w < g.vertexCount → u ≠ v → w ≠ v → ∃ p : g.toSimple.Walk u w, v ∉ p.support := by
  have hback : ∀ {K : Finset ℕ} {u w : ℕ}, Joined g.toSimple K u w → u ∈ K → ∃ p : g.toSimple.Walk u w, ∀ x ∈ p.support, x ∈ K := by
    intro K u w hj hu
    induction hj with
    | refl => exact ⟨SimpleGraph.Walk.nil, by simpa using hu⟩
    | @tail y z _ h2 ih =>
      obtain ⟨p, hp⟩ := ih
      refine ⟨p.concat h2.1, fun x hx => ?_⟩
      rw [SimpleGraph.Walk.support_concat, List.mem_append, List.mem_singleton] at hx
      rcases hx with hx | rfl
      · exact hp x hx
      · exact h2.2.2
  have hforth : ∀ {K : Finset ℕ} {u w : ℕ} (p : g.toSimple.Walk u w), (∀ x ∈ p.support, x ∈ K) → Joined g.toSimple K u w := by
    intro K u w p
    induction p with
    | nil => exact fun _ => Joined.refl _
    | @cons u x w hadj p ih =>
      intro hp
      have hx : ∀ z ∈ p.support, z ∈ K := fun z hz => hp z (by rw [SimpleGraph.Walk.support_cons]; exact List.mem_cons_of_mem _ hz)
      exact (Joined.edge hadj (hp u (by simp)) (hx x (by simp))).trans (ih hx)
  have hin : ∀ {u w : ℕ} (p : g.toSimple.Walk u w), u < g.vertexCount → ∀ x ∈ p.support, x < g.vertexCount := by
    intro u w p
    induction p with
    | nil => intro hu x hx; simp at hx; omega
    | @cons u y w hadj p ih =>
      intro hu x hx
      rw [SimpleGraph.Walk.support_cons, List.mem_cons] at hx
      rcases hx with rfl | hx
      · exact hu
      · exact ih (h.mem_lt (h.mem_edges.mpr (h.adj_iff.mp hadj))).2.1 x hx
  rw [whole_block_iff h]
  constructor
  · intro hB
    refine ⟨by simpa using hB.two, fun u w hu hw => ?_, fun v u w hu hw huv hwv => ?_⟩
    · obtain ⟨p, _⟩ := hback (hB.conn.joined (Finset.mem_range.mpr hu) (Finset.mem_range.mpr hw)) (Finset.mem_range.mpr hu)
      exact ⟨p⟩
    · obtain ⟨p, hp⟩ := hback (hB.joined_erase (Finset.mem_range.mpr hu) (Finset.mem_range.mpr hw) huv hwv)
        (Finset.mem_erase.mpr ⟨huv, Finset.mem_range.mpr hu⟩)
      exact ⟨p, fun hv => (Finset.mem_erase.mp (hp v hv)).1 rfl⟩
  · rintro ⟨h2, hc, hd⟩
    refine ⟨by simpa using h2, ?_, fun v hv => ?_⟩
    · rw [connOn_iff]
      intro u hu w hw
      rw [Finset.mem_range] at hu hw
      obtain ⟨p⟩ := hc u w hu hw
      exact hforth p (fun x hx => Finset.mem_range.mpr (hin p hu x hx))
    · rw [connOn_iff]
      intro u hu w hw
      rw [Finset.mem_erase, Finset.mem_range] at hu hw
      obtain ⟨p, hp⟩ := hd v u w hu.2 hw.2 hu.1 hw.1
      exact hforth p (fun x hx => Finset.mem_erase.mpr ⟨fun hxv => hp (hxv ▸ hx), Finset.mem_range.mpr (hin p hu.2 x hx)⟩)

/-- **What it implies.** A network with three vertices or more that is biconnected as a whole is connected, every vertex has two
neighbours or more, there are no leaves and at least as many edges as vertices, and `q_core(2)` is everything. -/
theorem C117_measures {g : GenericGraph T A} (h : g.WF) (hn : 3 ≤ g.vertexCount)
    (hb : g.vertexBiconnectedComponents false = .ok [g.vertexCount]) :
    g.isConnected = .ok (some true) ∧ g.connectedComponents = .ok [g.vertexCount] ∧ (∀ v d, g.degree v = some d → 2 ≤ d) ∧
      g.leafCount = 0 ∧ g.vertexCount ≤ g.edgeCount ∧ g.qCore 2 = .ok (some g.vertexCount) ∧
      g.vertexBiconnectedComponents true = .ok [g.vertexCount] := by
  have hB := (whole_block_iff h).mp hb
  obtain ⟨_, hreach, _⟩ := (C117_whole_iff h).mp hb
  have hlen : ∀ v, v < g.nextId → 2 ≤ (g.nbrs v).length := by
    intro v hv
    have hvr : v ∈ Finset.range g.vertexCount := Finset.mem_range.mpr hv
    have hcard : ∀ S : Finset ℕ, S.card < g.vertexCount → ∃ w ∈ Finset.range g.vertexCount, w ∉ S := by
      intro S hS
      exact Finset.exists_mem_notMem_of_card_lt_card (by rw [Finset.card_range]; exact hS)
    obtain ⟨u, hu, huv⟩ := hcard {v} (by rw [Finset.card_singleton]; omega)
    rw [Finset.mem_singleton] at huv
    obtain ⟨x, c, hxc, _, _, rfl, hcv⟩ := (hB.conn.joined hvr hu).exit (P := fun z => z = v) rfl huv
    obtain ⟨w, hw, hwn⟩ := hcard {x, c} (lt_of_le_of_lt Finset.card_le_two (by omega))
    rw [Finset.mem_insert, Finset.mem_singleton, not_or] at hwn
    obtain ⟨x', y, hxy, _, hy, rfl, _⟩ := (hB.joined_erase hvr hw (Ne.symm hcv) hwn.2).exit (P := fun z => z = x) rfl hwn.1
    have hyc : y ≠ c := (Finset.mem_erase.mp hy).1
    rw [← List.toFinset_card_of_nodup (h.nodup x'), ← Finset.card_pair hyc]
    apply Finset.card_le_card
    intro z hz
    rw [Finset.mem_insert, Finset.mem_singleton] at hz
    rw [List.mem_toFinset]
    rcases hz with rfl | rfl
    · exact h.adj_iff.mp hxy
    · exact h.adj_iff.mp hxc
  have hdeg : ∀ v d, g.degree v = some d → 2 ≤ d := by
    intro v d hd
    have hv : v < g.nextId := by
      by_contra hge
      rw [GenericGraph.degree, List.getElem?_eq_none (by rw [h.len]; omega)] at hd
      cases hd
    rw [BiInv.degree_nbrs h hv, Option.some.injEq] at hd
    rw [← hd]
    exact hlen v hv
  have hconn : g.isConnected = .ok (some true) := by
    obtain ⟨r, hr1, _, hr2, _⟩ := C15_is_connected h
    rw [hr1, hr2.mpr ⟨by omega, hreach⟩]
  obtain ⟨R, hR, hcore⟩ := C113_core_min_degree h (le_refl 2) (by omega : 0 < g.vertexCount) hdeg
  have hR1 : R = [g.vertexCount] := by
    obtain ⟨b, R', d, k1, k2, _, k3⟩ := C76_connected h (by omega : 0 < g.vertexCount)
    rw [hR] at k2
    cases k2
    rw [hconn] at k1
    cases k1
    tauto
  subst hR1
  refine ⟨hconn, hR, hdeg, ?_, ?_, hcore, ?_⟩
  · unfold GenericGraph.leafCount
    rw [List.length_eq_zero_iff, List.filter_eq_nil_iff]
    intro a ha hc
    obtain ⟨i, hi, rfl⟩ := List.mem_iff_getElem.mp ha
    have := hdeg i (AdjContainer.degree g.vertices[i]) (by rw [GenericGraph.degree, List.getElem?_eq_getElem hi, Option.map_some])
    rw [beq_iff_eq] at hc
    omega
  · have h1 := h.count
    have h2 := Finset.card_nsmul_le_sum (Finset.range g.nextId) (fun v => (g.nbrs v).length) 2 (fun v hv => hlen v (Finset.mem_range.mp hv))
    rw [Finset.card_range, smul_eq_mul] at h2
    show g.nextId ≤ g.edgeCount
    omega
  · rw [C21_alternative g hb, List.filter_cons_of_pos (by rw [decide_eq_true_eq]; omega), List.filter_nil]

/-- More edges between the same vertices do no harm. -/
theorem C117_more_edges {T' A' : Type} [AdjContainer T' A'] [LawfulAdj T' A'] {g : GenericGraph T A} {g' : GenericGraph T' A'} (h : g.WF)
    (h' : g'.WF) (hn : g'.vertexCount = g.vertexCount) (hE : g.edges ⊆ g'.edges)
    (hb : g.vertexBiconnectedComponents false = .ok [g.vertexCount]) : g'.vertexBiconnectedComponents false = .ok [g'.vertexCount] := by
  have hG : g.toSimple ≤ g'.toSimple := by
    intro a b hab
    exact h'.adj_iff.mpr (h'.mem_edges.mp (hE (h.mem_edges.mpr (h.adj_iff.mp hab))))
  rw [C117_whole_iff h']
  rw [C117_whole_iff h] at hb
  obtain ⟨h1, h2, h3⟩ := hb
  rw [hn]
  refine ⟨h1, fun u w hu hw => (h2 u w hu hw).mono hG, fun v u w hu hw huv hwv => ?_⟩
  obtain ⟨p, hp⟩ := h3 v u w hu hw huv hwv
  refine ⟨p.mapLe hG, ?_⟩
  rw [SimpleGraph.Walk.support_map]
  simpa using hp

end

variable {T R : Type} [Rng R]

/-- **Growth keeps it.** With `m ≥ 2`, if `vertex_biconnected_components(false)` of the source is the single entry `vertex_count`, then so it is for
the grown network. -/
theorem C117_ba_biconnected {e e' : Ba T R} (hv : e.Valid) (hm : 2 ≤ e.m) {fuel : ℕ} (he : e.randomize fuel = .ok e')
    (hb : e.source.vertexBiconnectedComponents false = .ok [e.source.vertexCount]) :
    e'.graph.vertexBiconnectedComponents false = .ok [e'.graph.vertexCount] := by
  have hB := (whole_block_iff hv.source).mp hb
  have hE : 1 ≤ e.source.edgeCount := by
    obtain ⟨a, ha, b, hb, hab⟩ := Finset.one_lt_card.mp (show 1 < (Finset.range e.source.vertexCount).card from hB.two)
    obtain ⟨u, w, huw, _⟩ := (hB.conn.joined ha hb).exit (P := fun z => z = a) rfl (Ne.symm hab)
    rw [hv.source.edgeCount_eq_card]
    exact Finset.card_pos.mpr ⟨s(u, w), (hv.source.mem_edges).mpr (hv.source.adj_iff.mp huw)⟩
  obtain ⟨h1, h2, h3, h4, h5, h6, order, hp, hg⟩ := (C44_ba_randomize hv hE fuel).2 e' he
  rw [whole_block_iff h1.graph, toSimple_eq_fromEdgeSet h1.graph]
  rw [toSimple_eq_fromEdgeSet hv.source] at hB
  have := hg.biSet hm (V := Finset.range e.source.vertexCount) (by
    intro e0 he0 v hve
    obtain ⟨w, rfl⟩ := Sym2.mem_iff_exists.mp hve
    exact Finset.mem_range.mpr (hv.source.mem_lt he0).1) hB
  have heq : Finset.range e.source.vertexCount ∪ order.toFinset = Finset.range e'.graph.vertexCount := by
    ext x
    have hle : e.source.vertexCount ≤ e.graph.vertexCount := hv.le
    rw [Finset.mem_union, List.mem_toFinset, hp.mem_iff, List.mem_range'_1, Finset.mem_range, Finset.mem_range, h5]
    omega
  rwa [heq] at this

/-- **`new`** with `m ≥ 2`: no single vertex can be taken out such that the others fall apart. -/
theorem C117_ba_new [Node T] {n m s fuel : ℕ} {r : R} {e : Ba T R} (h : Ba.new fuel n r m s = .ok e) (hm : 2 ≤ m) :
    e.graph.vertexBiconnectedComponents false = .ok [n] ∧
    ∀ v u w, u < n → w < n → u ≠ v → w ≠ v → ∃ p : e.graph.toSimple.Walk u w, v ∉ p.support := by
  obtain ⟨hpan, _, hok⟩ := C44_ba_new (T := T) n r m s fuel
  obtain ⟨b1, b2, _⟩ := hok e h
  have hcond : 2 ≤ s ∧ s < n := by
    by_contra hc
    rw [hpan.mpr hc] at h
    cases h
  obtain ⟨hs, hn⟩ := hcond
  obtain ⟨g, h1, h2, h3, h4, h5, h6⟩ := completeGraph_spec (T := T) (n := s) (by omega)
  have heq : (Ba.new fuel n r m s : Res (Ba T R)) =
      Ba.randomize fuel { source := g, graph := GenericGraph.new n, rng := r, m, weights := List.replicate n 0 } := by
    simp [-Res.bind_eq_ok, Ba.new, hs, hn, h1]
  have hv : Ba.Valid ({ source := g, graph := GenericGraph.new n, rng := r, m, weights := List.replicate n 0 } : Ba T R) :=
    ⟨h2, new_wf _, by show g.nextId ≤ n; omega, by simp [GenericGraph.new, vertexCount]⟩
  obtain ⟨g', k1, _, _, _, _, k2, _⟩ := C78_complete (T := T) s hs
  rw [h1, Res.ok.injEq] at k1
  subst k1
  rw [heq] at h
  have hvc : g.vertexCount = s := h3
  have := C117_ba_biconnected hv hm h (by show g.vertexBiconnectedComponents false = .ok [g.vertexCount]; rw [hvc]; exact k2)
  have h7 := ((C117_whole_iff b1.graph).mp this).2.2
  rw [b2] at this h7
  exact ⟨this, h7⟩

/-- A triangle grown to five vertices, with `m = 2` and with `m = 1`. -/
example : (exBaTriangle [0, 2, 4, 7]).Valid ∧ 2 ≤ (exBaTriangle []).m ∧
    (exBaTriangle []).source.vertexBiconnectedComponents false = .ok [(exBaTriangle []).source.vertexCount] ∧
    ((exBaTriangle [0, 2, 4, 7]).randomize 9).bind (fun e => .ok (e.graph.vertexBiconnectedComponents false)) = .ok (.ok [5]) ∧
    (({ exBaTriangle [0, 2] with m := 1 } : Ba Nat Script).randomize 9).bind (fun e => .ok (e.graph.vertexBiconnectedComponents false)) =
      .ok (.ok [3, 2, 2]) :=
  ⟨⟨GenericGraph.wf_of_check _ (fun _ _ => trivial) (by decide), new_wf _, by decide, rfl⟩, by decide, by decide, by decide, by decide⟩

/-- A ring of four vertices, with and without a chord. -/
example : (exGraph 4 [[1, 3], [0, 2], [1, 3], [2, 0]]).WF ∧ 3 ≤ (exGraph 4 [[1, 3], [0, 2], [1, 3], [2, 0]]).vertexCount ∧
    (exGraph 4 [[1, 3], [0, 2], [1, 3], [2, 0]]).vertexBiconnectedComponents false = .ok [4] ∧
    (exGraph 5 [[1, 3, 2], [0, 2], [1, 3, 0], [2, 0]]).WF ∧
    (exGraph 5 [[1, 3, 2], [0, 2], [1, 3, 0], [2, 0]]).vertexBiconnectedComponents false = .ok [4] :=
  ⟨GenericGraph.wf_of_check _ (fun _ _ => trivial) (by decide), by decide, by decide,
    GenericGraph.wf_of_check _ (fun _ _ => trivial) (by decide), by decide⟩

example : ((Ba.new 9 6 ⟨[0, 3, 6, 9, 1, 5]⟩ 2 4 : Res (Ba Nat Script))).bind (fun e => .ok (e.graph.vertexBiconnectedComponents false)) =
    .ok (.ok [6]) := by decide

end Verif
