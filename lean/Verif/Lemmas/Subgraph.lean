import Verif.Lemmas.Connect
import Verif.Model.Subgraph
import Mathlib.Combinatorics.SimpleGraph.DegreeSum

/-!
# The induced subgraph
-/

set_option linter.unusedSectionVars false
set_option linter.unusedSimpArgs false

namespace Verif
open AdjContainer GenericGraph

variable {T A : Type} [AdjContainer T A] [LawfulAdj T A]

/-- Handshake lemma for symmetric duplicate free neighbour lists. -/
theorem even_sum_length (n : Nat) (f : Nat → List Nat) (hlt : ∀ i j, j ∈ f i → j < n) (hirr : ∀ i, i ∉ f i)
    (hnd : ∀ i, (f i).Nodup) (hs : ∀ i j, j ∈ f i → i ∈ f j) : 2 ∣ ∑ i ∈ Finset.range n, (f i).length := by
  classical
  let G : SimpleGraph (Fin n) :=
    { Adj := fun a b => b.val ∈ f a.val
      symm := ⟨fun a b h => hs _ _ h⟩
      loopless := ⟨fun a h => hirr _ h⟩ }
  have hdeg : ∀ a : Fin n, G.degree a = (f a.val).length := by
    intro a
    rw [← List.toFinset_card_of_nodup (hnd a.val), ← SimpleGraph.card_neighborFinset_eq_degree]
    refine Finset.card_bij (fun b _ => b.val) ?_ ?_ ?_
    · intro b hb; simpa [G] using hb
    · intro b _ c _ h; exact Fin.ext h
    · intro b hb
      simp at hb
      exact ⟨⟨b, hlt _ _ hb⟩, by simpa [G] using hb, rfl⟩
  have h := G.sum_degrees_eq_twice_card_edges
  rw [Finset.sum_congr rfl (fun a _ => hdeg a), ← Fin.sum_univ_eq_sum_range (fun i => (f i).length) n] at *
  exact ⟨_, h⟩

theorem dedupAdj_mem : ∀ (l : List Nat) (x : Nat), x ∈ dedupAdj l ↔ x ∈ l := by
  intro l
  induction l using dedupAdj.induct with
  | case1 => simp [dedupAdj]
  | case2 a => simp [dedupAdj]
  | case3 b l ih => intro x; simp [dedupAdj, ih]
  | case4 a b l hne ih => intro x; simp [dedupAdj, hne, ih]

theorem dedupAdj_sorted : ∀ (l : List Nat), l.Pairwise (· ≤ ·) → (dedupAdj l).Pairwise (· < ·) := by
  intro l
  induction l using dedupAdj.induct with
  | case1 => simp [dedupAdj]
  | case2 a => simp [dedupAdj]
  | case3 b l ih => intro h; simp only [dedupAdj, if_true]; exact ih (List.pairwise_cons.mp h).2
  | case4 a b l hne ih =>
    intro h
    simp only [dedupAdj, hne, if_false]
    obtain ⟨h1, h2⟩ := List.pairwise_cons.mp h
    rw [List.pairwise_cons]
    refine ⟨?_, ih h2⟩
    intro x hx
    rw [dedupAdj_mem] at hx
    obtain ⟨h3, _⟩ := List.pairwise_cons.mp h2
    have hab := h1 b (by simp)
    rcases List.mem_cons.mp hx with rfl | hx
    · omega
    · have := h3 x hx; omega

theorem idxOf?_eq_some {L : List Nat} (hnd : L.Nodup) {n k : Nat} : L.idxOf? n = some k ↔ L[k]? = some n := by
  rw [List.idxOf?_eq_some_iff]
  constructor
  · rintro ⟨h, h1, h2⟩; rw [List.getElem?_eq_getElem h, h1]
  · intro h
    obtain ⟨hk, h1⟩ := List.getElem?_eq_some_iff.mp h
    refine ⟨hk, h1, ?_⟩
    intro j hj hc
    have := (List.Nodup.getElem_inj_iff hnd).mp (hc.trans h1.symm)
    omega

theorem mapM_ok_of {α β : Type} {f : α → Res β} {h : α → β} : ∀ (l : List α), (∀ x ∈ l, f x = .ok (h x)) →
    l.mapM f = .ok (l.map h) := by
  intro l
  induction l with
  | nil => intro _; rfl
  | cons x l ih =>
    intro hl
    rw [List.mapM_cons, hl x (by simp), ih (fun y hy => hl y (by simp [hy]))]
    rfl

/-- The neighbour list of the `k`-th vertex of the subgraph. -/
theorem mem_filterMap_idx {L l : List Nat} (hnd : L.Nodup) (b : Nat) :
    b ∈ l.filterMap (fun n => L.idxOf? n) ↔ ∃ n, L[b]? = some n ∧ n ∈ l := by
  simp only [List.mem_filterMap, idxOf?_eq_some hnd]
  constructor
  · rintro ⟨n, h1, h2⟩; exact ⟨n, h2, h1⟩
  · rintro ⟨n, h1, h2⟩; exact ⟨n, h2, h1⟩

theorem clonedSubgraph_spec {g : GenericGraph T A} (h : g.WF) {nodeList : List Nat} (hne : nodeList ≠ [])
    (hlt : ∀ v ∈ nodeList, v < g.nextId) :
    ∃ (L : List Nat) (g' : Graph T), g.clonedSubgraph nodeList = .ok (some g') ∧ L.Pairwise (· < ·) ∧
      (∀ v, v ∈ L ↔ v ∈ nodeList) ∧ g'.WF ∧ g'.nextId = L.length ∧
      (∀ k v : Nat, L[k]? = some v → g'.data[k]? = g.data[v]?) ∧
      (∀ a b v w : Nat, L[a]? = some v → L[b]? = some w → (b ∈ g'.nbrs a ↔ w ∈ g.nbrs v)) := by
  set S := sortBy (fun a => a) nodeList with hS
  have hperm : S.Perm nodeList := sortBy_perm _ _
  have hsort : S.Pairwise (· ≤ ·) := by simpa using sortBy_sorted (fun a : Nat => a) nodeList
  have hSne : S ≠ [] := by
    intro hc; rw [hc] at hperm; exact hne hperm.symm.eq_nil
  obtain ⟨last, hlast⟩ : ∃ x, S.getLast? = some x := ⟨S.getLast hSne, List.getLast?_eq_some_getLast hSne⟩
  have hlastlt : last < g.nextId := hlt last (hperm.mem_iff.mp (List.mem_of_getLast? hlast))
  set L := dedupAdj S with hL
  have hLs : L.Pairwise (· < ·) := dedupAdj_sorted S hsort
  have hnd : L.Nodup := hLs.imp (fun h => Nat.ne_of_lt h)
  have hmem : ∀ v, v ∈ L ↔ v ∈ nodeList := fun v => by rw [hL, dedupAdj_mem]; exact hperm.mem_iff
  have hLlt : ∀ (k v : Nat), L[k]? = some v → v < g.nextId := fun k v hk => hlt v ((hmem v).mp (List.mem_of_getElem? hk))
  -- the vertices
  let mk : Nat × Nat → NodeContainer T := fun p =>
    { id := p.2, adj := (g.nbrs p.1).filterMap (fun n => L.idxOf? n),
      node := if hp : p.1 < g.vertices.length then contained g.vertices[p.1] else contained (g.vertices[0]'(by
        rw [h.len]; omega)) }
  have hmap : L.zipIdx.mapM (subgraphVertex g L) = .ok (L.zipIdx.map mk) := by
    apply mapM_ok_of
    rintro ⟨v, k⟩ hvk
    have hv : v < g.vertices.length := by
      rw [h.len]
      exact hlt v ((hmem v).mp (by
        have := List.fst_mem_of_mem_zipIdx hvk; exact this))
    simp [subgraphVertex, GenericGraph.container, Vec.idx_of_lt hv, mk, nbrs_getElem hv, hv]
  set vs := L.zipIdx.map mk with hvs
  have hvsl : vs.length = L.length := by simp [hvs]
  have hvget : ∀ (k v : Nat), L[k]? = some v → vs[k]? = some (mk (v, k)) := by
    intro k v hk
    simp [hvs, hk]
  let g' : Graph T := { nextId := vs.length, edgeCount := (vs.map (fun c => AdjContainer.degree c)).sum / 2, vertices := vs }
  have hnb : ∀ (k v : Nat), L[k]? = some v → g'.nbrs k = (g.nbrs v).filterMap (fun n => L.idxOf? n) := by
    intro k v hk
    rw [nbrs_of_some (g := g') (hvget k v hk)]; rfl
  have hnb0 : ∀ k, L[k]? = none → g'.nbrs k = [] := by
    intro k hk
    have : vs[k]? = none := by
      rw [List.getElem?_eq_none_iff, hvsl]; simpa using hk
    simp [GenericGraph.nbrs, g', this]
  have hadj : ∀ a b v w : Nat, L[a]? = some v → L[b]? = some w → (b ∈ g'.nbrs a ↔ w ∈ g.nbrs v) := by
    intro a b v w ha hb
    rw [hnb a v ha, mem_filterMap_idx hnd, hb]
    constructor
    · rintro ⟨n, h1, h2⟩; simp at h1; subst h1; exact h2
    · intro hw; exact ⟨w, rfl, hw⟩
  have hdest : ∀ a b, b ∈ g'.nbrs a → ∃ v w, L[a]? = some v ∧ L[b]? = some w ∧ w ∈ g.nbrs v := by
    intro a b hb
    cases ha : L[a]? with
    | none => rw [hnb0 a ha] at hb; simp at hb
    | some v =>
      rw [hnb a v ha, mem_filterMap_idx hnd] at hb
      obtain ⟨n, h1, h2⟩ := hb
      exact ⟨v, n, rfl, h1, h2⟩
  have hlt' : ∀ i j, j ∈ g'.nbrs i → j < vs.length := by
    intro i j hj
    obtain ⟨v, w, _, h2, _⟩ := hdest i j hj
    rw [hvsl]; exact (List.getElem?_eq_some_iff.mp h2).1
  have hirr : ∀ i, i ∉ g'.nbrs i := by
    intro i hi
    obtain ⟨v, w, h1, h2, h3⟩ := hdest i i hi
    rw [h1] at h2; simp at h2; subst h2; exact h.irrefl v h3
  have hnd' : ∀ i, (g'.nbrs i).Nodup := by
    intro i
    cases ha : L[i]? with
    | none => rw [hnb0 i ha]; simp
    | some v =>
      rw [hnb i v ha]
      apply (h.nodup v).filterMap
      intro n n' k hk hk'
      have e1 := (idxOf?_eq_some hnd).mp hk
      have e2 := (idxOf?_eq_some hnd).mp hk'
      rw [e1] at e2; simpa using e2
  have hsym : ∀ i j, j ∈ g'.nbrs i → i ∈ g'.nbrs j := by
    intro i j hj
    obtain ⟨v, w, h1, h2, h3⟩ := hdest i j hj
    exact (hadj j i w v h2 h1).mpr (h.symm v w h3)
  have hsum : (vs.map (fun c => AdjContainer.degree c)).sum = ∑ i ∈ Finset.range vs.length, (g'.nbrs i).length := by
    rw [← list_sum_range]
    congr 1
    apply List.ext_getElem
    · simp
    · intro i h1 h2
      simp only [List.length_map] at h1
      simp [LawfulAdj.degree_eq, nbrs_getElem (g := g') h1]
      rfl
  have hwf : g'.WF :=
    { len := rfl
      ids := by
        intro i a ha
        have hi : i < L.length := by rw [← hvsl]; exact (List.getElem?_eq_some_iff.mp ha).1
        have := hvget i _ (List.getElem?_eq_getElem hi)
        have ha' : vs[i]? = some a := ha
        rw [this] at ha'
        simp at ha'; subst ha'; rfl
      inv := fun _ _ => trivial
      lt := hlt'
      irrefl := hirr
      nodup := hnd'
      symm := hsym
      count := by
        show ∑ i ∈ Finset.range vs.length, (g'.nbrs i).length = 2 * ((vs.map (fun c => AdjContainer.degree c)).sum / 2)
        rw [hsum]
        obtain ⟨m, hm⟩ := even_sum_length vs.length g'.nbrs hlt' hirr hnd' hsym
        rw [hm]; omega }
  refine ⟨L, g', ?_, hLs, hmem, hwf, hvsl, ?_, hadj⟩
  · unfold GenericGraph.clonedSubgraph
    simp only [← hS, hlast, GenericGraph.vertexCount, ge_iff_le, show ¬ g.nextId ≤ last by omega, if_false, ← hL, hmap, Res.ok_bind]
    rfl
  · intro k v hk
    have hv : v < g.vertices.length := by rw [h.len]; exact hLlt k v hk
    show (vs.map contained)[k]? = (g.vertices.map contained)[v]?
    rw [List.getElem?_map, hvget k v hk, List.getElem?_map, List.getElem?_eq_getElem hv]
    simp [mk, hv]
    rfl

theorem clonedSubgraph_none {g : GenericGraph T A} {nodeList : List Nat}
    (hbad : nodeList = [] ∨ ∃ v ∈ nodeList, g.nextId ≤ v) : g.clonedSubgraph nodeList = .ok none := by
  set S := sortBy (fun a => a) nodeList with hS
  have hperm : S.Perm nodeList := sortBy_perm _ _
  have hsort : S.Pairwise (· ≤ ·) := by simpa using sortBy_sorted (fun a : Nat => a) nodeList
  unfold GenericGraph.clonedSubgraph
  simp only [← hS]
  cases hlast : S.getLast? with
  | none => rfl
  | some last =>
    rcases hbad with hbad | ⟨v, hv, hge⟩
    · subst hbad; simp [hS, sortBy] at hlast
    · have hvS := hperm.mem_iff.mpr hv
      have hle : v ≤ last := by
        have hSne : S ≠ [] := by rintro hc; rw [hc] at hvS; simp at hvS
        have hl : S.getLast hSne = last := by
          rw [List.getLast?_eq_some_getLast hSne] at hlast; simpa using hlast
        rw [← List.dropLast_append_getLast hSne, List.pairwise_append] at hsort
        rw [← List.dropLast_append_getLast hSne, hl] at hvS
        rcases List.mem_append.mp hvS with hx | hx
        · have := hsort.2.2 v hx (S.getLast hSne) (by simp)
          rw [hl] at this; exact this
        · simp at hx; omega
      have : g.vertexCount ≤ last := by
        have : g.nextId ≤ last := by omega
        exact this
      simp [this]

end Verif
