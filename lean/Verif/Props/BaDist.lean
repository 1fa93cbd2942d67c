import Verif.Props.BaCore

/-!
# C116: distances, the diameter and triangles of Barabási-Albert networks
-/

set_option linter.unusedSectionVars false
set_option linter.unusedSimpArgs false

namespace Verif
open AdjContainer GenericGraph

variable {T R : Type} [Rng R]

/-! ## Proof -/

namespace Grows

variable {E0 E : Finset (Sym2 ℕ)} {m : Nat} {pre : List Nat}

/-- A vertex attached to one vertex shortens no way. -/
theorem walk_one (h : Grows E0 m pre E) (hm : m ≤ 1) {u v : ℕ} (hu : u ∉ pre) (hv : v ∉ pre)
    (p : (SimpleGraph.fromEdgeSet (E : Set (Sym2 ℕ))).Walk u v) :
    ∃ p' : (SimpleGraph.fromEdgeSet (E0 : Set (Sym2 ℕ))).Walk u v, p'.length ≤ p.length := by
  induction h with
  | start => exact ⟨p, le_refl _⟩
  | @grow pre E j S _ hj hS _ ih =>
    have huj : u ≠ j := fun h => hu (by simp [h])
    have hvj : v ≠ j := fun h => hv (by simp [h])
    obtain ⟨c, hc⟩ : ∃ c, ∀ x ∈ S, x = c := by
      rcases Finset.card_le_one_iff_subset_singleton.mp (by omega : S.card ≤ 1) with ⟨c, hc⟩
      exact ⟨c, fun x hx => Finset.mem_singleton.mp (hc hx)⟩
    have key : ∀ {x y : ℕ} (p : (SimpleGraph.fromEdgeSet ((E ∪ S.image (fun v => s(j, v)) : Finset (Sym2 ℕ)) : Set (Sym2 ℕ))).Walk x y),
        ∃ p' : (SimpleGraph.fromEdgeSet (E : Set (Sym2 ℕ))).Walk (if x = j then c else x) (if y = j then c else y), p'.length ≤ p.length := by
      intro x y p
      induction p with
      | nil => exact ⟨SimpleGraph.Walk.nil, Nat.zero_le _⟩
      | @cons x y z hadj p ih' =>
        obtain ⟨p', hp'⟩ := ih'
        rw [SimpleGraph.Walk.length_cons]
        rw [SimpleGraph.fromEdgeSet_adj] at hadj
        obtain ⟨h1, hne⟩ := hadj
        have h1 : s(x, y) ∈ E ∪ S.image (fun v => s(j, v)) := by exact_mod_cast h1
        rcases Finset.mem_union.mp h1 with h2 | h2
        · have hx : x ≠ j := fun h => hj _ h2 (by simp [h])
          have hy : y ≠ j := fun h => hj _ h2 (by simp [h])
          have hxy : (SimpleGraph.fromEdgeSet (E : Set (Sym2 ℕ))).Adj (if x = j then c else x) (if y = j then c else y) := by
            rw [if_neg hx, if_neg hy, SimpleGraph.fromEdgeSet_adj]
            exact ⟨by exact_mod_cast h2, hne⟩
          exact ⟨SimpleGraph.Walk.cons hxy p', by rw [SimpleGraph.Walk.length_cons]; omega⟩
        · obtain ⟨w, hw, h3⟩ := Finset.mem_image.mp h2
          have hwc := hc w hw
          subst hwc
          have heq : (if x = j then w else x) = (if y = j then w else y) := by
            rcases Sym2.eq_iff.mp h3 with ⟨rfl, rfl⟩ | ⟨rfl, rfl⟩
            · rw [if_pos rfl, if_neg (Ne.symm hne)]
            · rw [if_pos rfl, if_neg hne]
          exact ⟨p'.copy heq.symm rfl, by rw [SimpleGraph.Walk.length_copy]; omega⟩
    obtain ⟨p', hp'⟩ := key p
    obtain ⟨p'', hp''⟩ := ih (fun h => hu (by simp [h])) (fun h => hv (by simp [h]))
      (p'.copy (if_neg huj) (if_neg hvj))
    rw [SimpleGraph.Walk.length_copy] at hp''
    exact ⟨p'', hp''.trans hp'⟩

/-- A new vertex lengthens the longest way by one at most. -/
theorem walk_long (h : Grows E0 m pre E) (hm : 1 ≤ m) {V : Set ℕ} {d : ℕ} (hV : ∀ e ∈ E0, ∀ v ∈ e, v ∈ V)
    (hd : ∀ u ∈ V, ∀ v ∈ V, ∃ p : (SimpleGraph.fromEdgeSet (E0 : Set (Sym2 ℕ))).Walk u v, p.length ≤ d) :
    ∀ u, (u ∈ V ∨ u ∈ pre) → ∀ v, (v ∈ V ∨ v ∈ pre) →
      ∃ p : (SimpleGraph.fromEdgeSet (E : Set (Sym2 ℕ))).Walk u v, p.length ≤ d + pre.length := by
  induction h with
  | start =>
    intro u hu v hv
    simp only [List.not_mem_nil, or_false] at hu hv
    exact hd u hu v hv
  | @grow pre E j S hg hj hS hSe ih =>
    have hle : SimpleGraph.fromEdgeSet (E : Set (Sym2 ℕ)) ≤
        SimpleGraph.fromEdgeSet ((E ∪ S.image (fun v => s(j, v)) : Finset (Sym2 ℕ)) : Set (Sym2 ℕ)) :=
      SimpleGraph.fromEdgeSet_mono (by exact_mod_cast Finset.subset_union_left)
    have old : ∀ u, (u ∈ V ∨ u ∈ pre) → ∀ v, (v ∈ V ∨ v ∈ pre) →
        ∃ p : (SimpleGraph.fromEdgeSet ((E ∪ S.image (fun v => s(j, v)) : Finset (Sym2 ℕ)) : Set (Sym2 ℕ))).Walk u v,
          p.length ≤ d + pre.length := by
      intro u hu v hv
      obtain ⟨p, hp⟩ := ih u hu v hv
      exact ⟨p.mapLe hle, by rw [SimpleGraph.Walk.length_map]; exact hp⟩
    obtain ⟨c, hc⟩ := Finset.card_pos.mp (by omega : 0 < S.card)
    have hcV : c ∈ V ∨ c ∈ pre := by
      obtain ⟨e, he, hce⟩ := hSe c hc
      rcases hg.endpoint he hce with h | ⟨e0, h0, h1⟩
      · exact .inr h
      · exact .inl (hV e0 h0 c h1)
    have hjc : (SimpleGraph.fromEdgeSet ((E ∪ S.image (fun v => s(j, v)) : Finset (Sym2 ℕ)) : Set (Sym2 ℕ))).Adj j c := by
      rw [SimpleGraph.fromEdgeSet_adj]
      refine ⟨by exact_mod_cast Finset.mem_union_right _ (Finset.mem_image_of_mem _ hc), ?_⟩
      rintro rfl
      obtain ⟨e, he, hce⟩ := hSe j hc
      exact hj e he hce
    have hlast : ∀ u, (u ∈ V ∨ u ∈ pre ++ [j]) → (u ∈ V ∨ u ∈ pre) ∨ u = j := by
      intro u hu
      rcases hu with hu | hu
      · exact .inl (.inl hu)
      · rcases List.mem_append.mp hu with hu | hu
        · exact .inl (.inr hu)
        · exact .inr (List.mem_singleton.mp hu)
    have new : ∀ v, (v ∈ V ∨ v ∈ pre) →
        ∃ p : (SimpleGraph.fromEdgeSet ((E ∪ S.image (fun v => s(j, v)) : Finset (Sym2 ℕ)) : Set (Sym2 ℕ))).Walk j v,
          p.length ≤ d + pre.length + 1 := by
      intro v hv
      obtain ⟨p, hp⟩ := old c hcV v hv
      exact ⟨SimpleGraph.Walk.cons hjc p, by rw [SimpleGraph.Walk.length_cons]; omega⟩
    intro u hu v hv
    rw [List.length_append, List.length_singleton, ← Nat.add_assoc]
    rcases hlast u hu with hu' | rfl
    · rcases hlast v hv with hv' | rfl
      · obtain ⟨p, hp⟩ := old u hu' v hv'
        exact ⟨p, by omega⟩
      · obtain ⟨p, hp⟩ := new u hu'
        exact ⟨p.reverse, by rw [SimpleGraph.Walk.length_reverse]; exact hp⟩
    · rcases hlast v hv with hv | rfl
      · exact new v hv
      · exact ⟨SimpleGraph.Walk.nil, Nat.zero_le _⟩

end Grows

/-! ## Theorems -/

/-- **Distances.** The growth lengthens no way between two vertices of the source; with `m = 1` it shortens none either. -/
theorem C116_ba_distances {e e' : Ba T R} (hv : e.Valid) (hE : 1 ≤ e.source.edgeCount) {fuel : ℕ} (he : e.randomize fuel = .ok e')
    {u v : ℕ} (hu : u < e.source.vertexCount) (hw : v < e.source.vertexCount) :
    (e.source.toSimple.Reachable u v → e'.graph.toSimple.Reachable u v ∧ e'.graph.toSimple.dist u v ≤ e.source.toSimple.dist u v) ∧
    (e.m ≤ 1 → (e'.graph.toSimple.Reachable u v ↔ e.source.toSimple.Reachable u v) ∧
      e'.graph.toSimple.dist u v = e.source.toSimple.dist u v) := by
  obtain ⟨h1, h2, h3, h4, h5, h6, order, hp, hg⟩ := (C44_ba_randomize hv hE fuel).2 e' he
  have hG : e.source.toSimple ≤ e'.graph.toSimple := by
    rw [toSimple_eq_fromEdgeSet hv.source, toSimple_eq_fromEdgeSet h1.graph]
    exact SimpleGraph.fromEdgeSet_mono (by exact_mod_cast hg.subset)
  have up : e.source.toSimple.Reachable u v → e'.graph.toSimple.Reachable u v ∧
      e'.graph.toSimple.dist u v ≤ e.source.toSimple.dist u v := by
    intro hr
    obtain ⟨p, hp⟩ := hr.exists_walk_length_eq_dist
    refine ⟨hr.mono hG, ?_⟩
    have := SimpleGraph.dist_le (p.mapLe hG)
    rw [SimpleGraph.Walk.length_map] at this
    omega
  refine ⟨up, fun hm => ?_⟩
  have hout : ∀ x, x < e.source.vertexCount → x ∉ order := by
    intro x hx hxo
    rw [hp.mem_iff, List.mem_range'_1] at hxo
    omega
  have down : e'.graph.toSimple.Reachable u v → e.source.toSimple.Reachable u v ∧
      e.source.toSimple.dist u v ≤ e'.graph.toSimple.dist u v := by
    rw [toSimple_eq_fromEdgeSet hv.source, toSimple_eq_fromEdgeSet h1.graph]
    intro hr
    obtain ⟨p, hp⟩ := hr.exists_walk_length_eq_dist
    obtain ⟨p', hp'⟩ := hg.walk_one hm (hout u hu) (hout v hw) p
    exact ⟨⟨p'⟩, (SimpleGraph.dist_le p').trans (by omega)⟩
  refine ⟨⟨fun h => (down h).1, fun h => (up h).1⟩, ?_⟩
  by_cases hr : e.source.toSimple.Reachable u v
  · exact le_antisymm (up hr).2 (down (up hr).1).2
  · rw [SimpleGraph.dist_eq_zero_of_not_reachable hr, SimpleGraph.dist_eq_zero_of_not_reachable (fun h => hr (down h).1)]

/-- **The diameter.** From a connected source and with `m ≥ 1` every new vertex adds at most one to the diameter; with `m = 1` the
diameter never becomes smaller than that of the source. -/
theorem C116_ba_diameter {e e' : Ba T R} (hv : e.Valid) (hE : 1 ≤ e.source.edgeCount) (hm : 1 ≤ e.m) {fuel : ℕ}
    (he : e.randomize fuel = .ok e') {d : ℕ} (hd : e.source.diameter = .ok (some d)) :
    ∃ d', e'.graph.diameter = .ok (some d') ∧ d' ≤ d + (e'.graph.vertexCount - e.source.vertexCount) ∧ (e.m = 1 → d ≤ d') := by
  obtain ⟨h1, h2, h3, h4, h5, h6, order, hp, hg⟩ := (C44_ba_randomize hv hE fuel).2 e' he
  obtain ⟨_, _, _, hall⟩ := C44_ba_structure hv hE he
  have hle : e.source.vertexCount ≤ e'.graph.vertexCount := by rw [h5]; exact hv.le
  have hconn : 0 < e.source.vertexCount ∧
      ∀ v w, v < e.source.vertexCount → w < e.source.vertexCount → e.source.toSimple.Reachable v w := by
    constructor
    · by_contra h0
      rw [C18_diameter_none hv.source (.inl (by omega))] at hd
      cases hd
    · intro v w hv' hw
      by_contra hc
      rw [C18_diameter_none hv.source (.inr ⟨v, w, hv', hw, hc⟩)] at hd
      cases hd
  obtain ⟨d0, a1, a2, x, y, hx, hy, a3⟩ := C18_diameter hv.source hconn.1 hconn.2
  rw [hd] at a1
  cases a1
  obtain ⟨d', b1, b2, x', y', hx', hy', b3⟩ := C18_diameter h1.graph (by omega)
    (fun v w hv' hw => hall hconn.2 hm v w (by omega) (by omega))
  refine ⟨d', b1, ?_, fun hm1 => ?_⟩
  · have hlen : order.length = e'.graph.vertexCount - e.source.vertexCount := by
      rw [hp.length_eq, List.length_range', h5]
    have hmem : ∀ z, z < e'.graph.vertexCount → z ∈ {z | z < e.source.vertexCount} ∨ z ∈ order := by
      intro z hz
      by_cases hzs : z < e.source.vertexCount
      · exact .inl hzs
      · right
        rw [hp.mem_iff, List.mem_range'_1]
        omega
    obtain ⟨p, hp'⟩ := hg.walk_long hm (V := {z | z < e.source.vertexCount}) (d := d) (by
        intro e0 he0 z hz
        obtain ⟨w, rfl⟩ := Sym2.mem_iff_exists.mp hz
        exact (hv.source.mem_lt he0).1) (by
        intro a ha b hb
        have hr := hconn.2 a b ha hb
        have hle := a2 a b ha hb
        rw [toSimple_eq_fromEdgeSet hv.source] at hr hle
        obtain ⟨p, hp⟩ := hr.exists_walk_length_eq_dist
        exact ⟨p, by omega⟩) x' (hmem x' hx') y' (hmem y' hy')
    rw [← b3, toSimple_eq_fromEdgeSet h1.graph]
    exact (SimpleGraph.dist_le p).trans (by omega)
  · rw [← a3, ← ((C116_ba_distances hv hE he hx hy).2 (by omega)).2]
    exact b2 x y (by omega) (by omega)

/-- **Eccentricities.** With `m = 1` no `longest_shortest_path_from_index` becomes smaller. -/
theorem C116_ba_eccentricity {e e' : Ba T R} (hv : e.Valid) (hE : 1 ≤ e.source.edgeCount) (hm : e.m ≤ 1) {fuel : ℕ}
    (he : e.randomize fuel = .ok e') {v d : ℕ} (hd : e.source.longestShortestPathFromIndex v = .ok (some d)) :
    ∃ d', e'.graph.longestShortestPathFromIndex v = .ok (some d') ∧ d ≤ d' := by
  obtain ⟨h1, h2, h3, h4, h5, h6, order, hp, hg⟩ := (C44_ba_randomize hv hE fuel).2 e' he
  have hle : e.source.vertexCount ≤ e'.graph.vertexCount := by rw [h5]; exact hv.le
  have hvs : v < e.source.vertexCount := by
    by_contra hc
    rw [(C19_eccentricity hv.source v).1 (by omega)] at hd
    cases hd
  obtain ⟨d0, a1, ⟨w, a2, a3⟩, _⟩ := (C19_eccentricity hv.source v).2 hvs
  rw [hd] at a1
  cases a1
  obtain ⟨d', b1, _, b2⟩ := (C19_eccentricity h1.graph v).2 (by omega)
  refine ⟨d', b1, ?_⟩
  by_cases hwv : w = v
  · subst hwv
    rw [← a3, SimpleGraph.dist_self]
    exact Nat.zero_le _
  · have hws : w < e.source.vertexCount := by
      obtain ⟨z, hz⟩ := a2.symm.exists_isPath
      cases z with
      | nil => exact absurd rfl hwv
      | cons hadj _ => exact (hv.source.mem_lt ((hv.source.mem_edges).mpr (hv.source.adj_iff.mp hadj))).1
    obtain ⟨c1, c2⟩ := C116_ba_distances hv hE he hvs hws
    rw [← a3, ← (c2 hm).2]
    exact b2 w (c1 a2).1

/-- **Triangles.** The numerator of `transitivity` counts triangles, its denominator the paths of length two.  The growth loses neither,
and with `m = 1` it closes no triangle: the numerator stays what it was for the source. -/
theorem C116_ba_triangles {e e' : Ba T R} (hv : e.Valid) (hE : 1 ≤ e.source.edgeCount) {fuel : ℕ} (he : e.randomize fuel = .ok e') :
    ∃ c p c' p', e.source.transitivity = .ok (c, p) ∧ e'.graph.transitivity = .ok (c', p') ∧ c ≤ c' ∧ p ≤ p' ∧ (e.m ≤ 1 → c' = c) := by
  classical
  obtain ⟨h1, h2, h3, h4, h5, h6, order, hp, hg⟩ := (C44_ba_randomize hv hE fuel).2 e' he
  obtain ⟨_, hadj, _, _⟩ := C44_ba_structure hv hE he
  have hle : e.source.vertexCount ≤ e'.graph.vertexCount := by rw [h5]; exact hv.le
  have hG : e.source.toSimple ≤ e'.graph.toSimple := by
    rw [toSimple_eq_fromEdgeSet hv.source, toSimple_eq_fromEdgeSet h1.graph]
    exact SimpleGraph.fromEdgeSet_mono (by exact_mod_cast hg.subset)
  refine ⟨_, _, _, _, C24_transitivity hv.source, C24_transitivity h1.graph, ?_, ?_, fun hm => ?_⟩
  · apply Finset.card_le_card
    intro t ht
    simp only [Finset.mem_filter, Finset.mem_product, Finset.mem_range] at ht ⊢
    obtain ⟨⟨k1, k2, k3⟩, k4, k5, k6, k7⟩ := ht
    exact ⟨⟨by omega, by omega, by omega⟩, hG k4, hG k5, k6, hG k7⟩
  · apply Finset.card_le_card
    intro t ht
    simp only [Finset.mem_filter, Finset.mem_product, Finset.mem_range] at ht ⊢
    obtain ⟨⟨k1, k2, k3⟩, k4, k5, k6⟩ := ht
    exact ⟨⟨by omega, by omega, by omega⟩, hG k4, hG k5, k6⟩
  · congr 1
    ext ⟨a, b, c⟩
    simp only [Finset.mem_filter, Finset.mem_product, Finset.mem_range]
    constructor
    · rintro ⟨⟨k1, k2, k3⟩, k4, k5, k6, k7⟩
      have hin : ∀ x ∈ ({a, b, c} : Finset ℕ), x < e.source.vertexCount := by
        intro x hx
        by_contra hge
        have hxn : x < e'.graph.vertexCount := by
          simp only [Finset.mem_insert, Finset.mem_singleton] at hx
          rcases hx with rfl | rfl | rfl <;> assumption
        refine hg.not_mem_core (q := 2) (by omega) (K := {a, b, c}) ?_ x ?_ hx
        · have hmem : ∀ {y z}, e'.graph.toSimple.Adj y z → s(y, z) ∈ e'.graph.edges :=
            fun h => (h1.graph.mem_edges).mpr (h1.graph.adj_iff.mp h)
          have two : ∀ {K : Finset ℕ} {y z z'}, z ∈ K → z' ∈ K → z ≠ z' → e'.graph.toSimple.Adj y z → e'.graph.toSimple.Adj y z' →
              2 ≤ (K.filter (fun w => s(y, w) ∈ e'.graph.edges)).card := by
            intro K y z z' hz hz' hne g1 g2
            rw [← Finset.card_pair hne]
            apply Finset.card_le_card
            intro w hw
            rw [Finset.mem_insert, Finset.mem_singleton] at hw
            rw [Finset.mem_filter]
            rcases hw with rfl | rfl
            · exact ⟨hz, hmem g1⟩
            · exact ⟨hz', hmem g2⟩
          intro y hy
          simp only [Finset.mem_insert, Finset.mem_singleton] at hy
          rcases hy with rfl | rfl | rfl
          · exact two (by simp) (by simp) k5.ne k4 k7
          · exact two (by simp) (by simp) k6 k4.symm k5
          · exact two (by simp) (by simp) k4.ne k7.symm k5.symm
        · rw [hp.mem_iff, List.mem_range'_1]
          omega
      have ha := hin a (by simp)
      have hb := hin b (by simp)
      have hc := hin c (by simp)
      exact ⟨⟨ha, hb, hc⟩, (hadj a b ha hb).mp k4, (hadj b c hb hc).mp k5, k6, (hadj a c ha hc).mp k7⟩
    · rintro ⟨⟨k1, k2, k3⟩, k4, k5, k6, k7⟩
      exact ⟨⟨by omega, by omega, by omega⟩, hG k4, hG k5, k6, hG k7⟩

theorem exPath4_wf : (exGraph 3 [[1], [0, 2], [1, 3], [2]]).WF := GenericGraph.wf_of_check _ (fun _ _ => trivial) (by decide)

/-- A path of four vertices with two more to come. -/
def exBaPath (m : ℕ) (draws : List Nat) : Ba Nat Script :=
  { source := exGraph 3 [[1], [0, 2], [1, 3], [2]], graph := GenericGraph.new 6, rng := ⟨draws⟩, m := m, weights := List.replicate 6 0 }

/-- With `m = 1` the diameter can grow by one for each new vertex or stay; with `m = 2` it can shrink, and triangles appear. -/
example : (∀ m l, (exBaPath m l).Valid) ∧ 1 ≤ (exBaPath 1 []).source.edgeCount ∧ (exBaPath 1 []).source.diameter = .ok (some 3) ∧
    ((exBaPath 1 [0, 7]).randomize 9).bind (fun e => .ok (e.graph.diameter, e.graph.transitivity)) = .ok (.ok (some 5), .ok (0, 8)) ∧
    ((exBaPath 1 [1, 1]).randomize 9).bind (fun e => .ok e.graph.diameter) = .ok (.ok (some 3)) ∧
    ((exBaPath 2 [0, 5, 0, 5]).randomize 9).bind (fun e => .ok (e.graph.diameter)) = .ok (.ok (some 2)) ∧
    ((exBaPath 2 [0, 1, 0, 2]).randomize 9).bind (fun e => .ok e.graph.transitivity) = .ok (.ok (12, 24)) :=
  ⟨fun _ _ => ⟨exPath4_wf, new_wf _, (by decide : 4 ≤ 6), rfl⟩,
    by decide, by decide, by decide, by decide, by decide, by decide⟩

end Verif
