import Verif.Lemmas.Bicon3

/-!
# The loop of `vertex_biconnected_components`
-/

set_option linter.unusedSectionVars false
set_option linter.unusedSimpArgs false

namespace Verif
open AdjContainer

theorem getD_set_update {α : Type} (l : List α) {i : ℕ} (hi : i < l.length) (v d : α) :
    (fun x => (l.set i v).getD x d) = Function.update (fun x => l.getD x d) i v := by
  funext x
  by_cases h : x = i
  · subst h
    simp [List.getD, hi]
  · rw [Function.update_of_ne h]
    simp [List.getD, List.getElem?_set_ne (Ne.symm h)]

theorem idx_getD {α : Type} (l : List α) {i : ℕ} (hi : i < l.length) (d : α) : Vec.idx l i = .ok (l.getD i d) := by
  rw [Vec.idx_of_lt hi]
  simp [List.getD, hi]

/-- Two vertices of one of the sets. -/
def Cov (F : List Frame) (done : List (ℕ × Finset ℕ)) (a b : ℕ) : Prop :=
  (∃ d ∈ done, a ∈ insert d.1 d.2 ∧ b ∈ insert d.1 d.2) ∨ ∃ f ∈ F, a ∈ f.set ∧ b ∈ f.set

theorem Cov.mono {F F' : List Frame} {done : List (ℕ × Finset ℕ)} {a b : ℕ} (h : Cov F done a b)
    (hF : ∀ f ∈ F, ∃ f' ∈ F', f.set ⊆ f'.set) : Cov F' done a b := by
  rcases h with h | ⟨f, hf, h1, h2⟩
  · exact Or.inl h
  · obtain ⟨f', hf', hs⟩ := hF f hf
    exact Or.inr ⟨f', hf', hs h1, hs h2⟩

namespace BiState
variable {T A : Type} [AdjContainer T A] [LawfulAdj T A]

/-- Low point, depth and the `handled` flag as functions. -/
abbrev lo (s : BiState T A) : ℕ → ℕ := fun x => s.low.getD x 0
abbrev nu (s : BiState T A) : ℕ → ℕ := fun x => s.number.getD x 0
abbrev hd (s : BiState T A) : ℕ → Bool := fun x => s.handled.getD x false

/-- The edges already removed from the graph. -/
abbrev used (s : BiState T A) : List (Sym2 ℕ) := (s.edgeStack ++ s.components.flatten).map (fun e => s(e.1, e.2))

end BiState

variable {T A : Type} [AdjContainer T A] [LawfulAdj T A]

/-- Invariant of the loop: `p` is the search path, `F` its frames and `done` the finished biconnected sets. -/
structure BiInv (g0 : GenericGraph T A) (s : BiState T A) (p : List ℕ) (F : List Frame) (done : List (ℕ × Finset ℕ)) : Prop where
  wf : s.graph.WF
  nid : s.graph.nextId = g0.nextId
  len1 : s.low.length = g0.nextId
  len2 : s.number.length = g0.nextId
  len3 : s.handled.length = g0.nextId
  stack : s.vertexStack = p.reverse
  path : PathInv p s.nu
  low : LowInv p s.lo s.nu
  hp : ∀ x ∈ p, s.hd x = true
  fin : ∀ v, s.hd v = true → v ∉ p → s.graph.nbrs v = []
  es : EsInv p s.lo s.nu s.edgeStack
  esH : ∀ e ∈ s.edgeStack, s.hd e.1 = true ∧ s.hd e.2 = true
  fr : FrInv g0.toSimple p s.lo s.nu F
  segH : ∀ f ∈ F, ∀ x ∈ f.seg, s.hd x = true
  doneH : ∀ d ∈ done, ∀ x ∈ d.2, s.hd x = true
  tl : TreeLike g0.toSimple done
  dF : ∀ d ∈ done, ∀ f ∈ F, ∀ x ∈ d.2, x ∉ f.seg
  dp : ∀ d ∈ done, ∀ x ∈ p, x ∉ d.2
  nd : s.used.Nodup
  union : ∀ e, e ∈ g0.edges ↔ e ∈ s.graph.edges ∨ e ∈ s.used
  dis : ∀ e ∈ s.graph.edges, e ∉ s.used
  cov : ∀ e ∈ s.edgeStack ++ s.components.flatten, Cov F done e.1 e.2
  cnt : s.components.length = done.length
  ne : ∀ c ∈ s.components, c ≠ []

/-- The number of remaining steps. -/
def BiState.measure (s : BiState T A) : ℕ := s.graph.edgeCount + s.vertexStack.length + s.handled.count false

namespace BiInv
variable {g0 : GenericGraph T A} {s : BiState T A} {p q : List ℕ} {F : List Frame} {done : List (ℕ × Finset ℕ)}

theorem hd_lt (h : BiInv g0 s p F done) {x : ℕ} (hx : s.hd x = true) : x < g0.nextId := by
  by_contra hc
  have : s.handled[x]? = none := List.getElem?_eq_none (by rw [h.len3]; omega)
  simp [BiState.hd, List.getD, this] at hx

theorem count_set_true : ∀ (l : List Bool) (i : ℕ), l.getD i false = false → i < l.length → (l.set i true).count false + 1 = l.count false
  | [], i, _, hi => by simp at hi
  | b :: l, 0, h, _ => by
    simp at h
    subst h
    simp
  | b :: l, i + 1, h, hi => by
    have := count_set_true l i (by simpa using h) (by simpa using hi)
    rw [List.set_cons_succ, List.count_cons, List.count_cons]
    omega

/-- The first branch of the loop. -/
theorem forward {top : ℕ} (h0 : g0.WF) (h : BiInv g0 s (q ++ [top]) F done) (hdeg : s.graph.nbrs top ≠ []) :
    ∃ s' p' F', GenericGraph.biForward s top = .ok s' ∧ BiInv g0 s' p' F' done ∧ s'.measure + 1 = s.measure ∧ p' ≠ [] ∧
      ∀ x, s.hd x = true → s'.hd x = true := by
  have htopm : top ∈ q ++ [top] := by simp
  have htopn : top < g0.nextId := h.hd_lt (h.hp top htopm)
  have htl : top < s.graph.vertices.length := by rw [h.wf.len, h.nid]; exact htopn
  obtain ⟨hc1, hc2⟩ := idx_nbrs htl
  obtain ⟨y, l, hyl⟩ := List.exists_cons_of_ne_nil hdeg
  have hy : y ∈ s.graph.nbrs top := by rw [hyl]; simp
  have hfirst : getAdjFirst s.graph.vertices[top] = some y := by
    rw [LawfulAdj.getAdjFirst_eq, hc2, hyl]; rfl
  have hedge : s(top, y) ∈ s.graph.edges := h.wf.mem_edges.mpr hy
  obtain ⟨g', hr, hwf', hnid', hec, hedges, _⟩ := GenericGraph.removeEdge_edges h.wf hedge
  have hedge0 : s(top, y) ∈ g0.edges := (h.union _).mpr (Or.inl hedge)
  have hadj : g0.toSimple.Adj top y := h0.adj_iff.mpr (h0.mem_edges.mp hedge0)
  have hyn : y < g0.nextId := by rw [← h.nid]; exact h.wf.lt _ _ hy
  have hyt : y ≠ top := hadj.ne'
  have hnb : ∀ v, s.graph.nbrs v = [] → g'.nbrs v = [] := by
    intro v hv
    rw [List.eq_nil_iff_forall_not_mem]
    intro u hu
    rw [← hwf'.mem_edges, hedges, Finset.mem_erase, h.wf.mem_edges, hv] at hu
    simp at hu
  have hunion : ∀ e, e ∈ g0.edges ↔ e ∈ g'.edges ∨ e ∈ s(top, y) :: s.used := by
    intro e
    rw [h.union, hedges, Finset.mem_erase, List.mem_cons]
    by_cases he : e = s(top, y)
    · subst he; simp [hedge]
    · simp [he]
  have hdis : ∀ e ∈ g'.edges, e ∉ s(top, y) :: s.used := by
    intro e he
    rw [hedges, Finset.mem_erase] at he
    rw [List.mem_cons, not_or]
    exact ⟨he.1, h.dis e he.2⟩
  have hnd : (s(top, y) :: s.used).Nodup := List.nodup_cons.mpr ⟨h.dis _ hedge, h.nd⟩
  have hstack : s.vertexStack = top :: q.reverse := by rw [h.stack]; simp
  rw [GenericGraph.biForward]
  have hcont : s.graph.container top = .ok s.graph.vertices[top] := hc1
  rw [hcont, Res.ok_bind, hfirst]
  simp only [Res.unwrap, Res.ok_bind, hr]
  rw [idx_getD _ (by rw [h.len3]; exact hyn) false, Res.ok_bind]
  by_cases hh : s.handled.getD y false = true
  · -- an edge to a vertex of the path
    rw [hh]
    simp only [Bool.not_true, Bool.false_eq_true, if_false]
    rw [idx_getD _ (by rw [h.len2]; exact hyn) 0, Res.ok_bind, idx_getD _ (by rw [h.len1]; exact htopn) 0, Res.ok_bind]
    have hyp : y ∈ q ++ [top] := by
      by_contra hc
      have := h.fin y hh hc
      have h2 := h.wf.symm _ _ hy
      rw [this] at h2
      simp at h2
    have hyq : y ∈ q := by
      rcases List.mem_append.mp hyp with hm | hm
      · exact hm
      · simp at hm; exact absurd hm hyt
    have hlt := h.path.pop.lt hyq
    have htop := h.path.last
    have hlt2 : s.nu y + 1 < q.length := by
      by_contra hc
      obtain ⟨above, below, h1, _⟩ := h.es.tree y hyp top htopm (by omega)
      have : s(top, y) ∈ s.used := by
        rw [BiState.used, List.mem_map]
        exact ⟨(y, top), by rw [h1]; simp, Sym2.eq_swap⟩
      exact h.dis _ hedge this
    obtain ⟨F', hF1, hF2, hF3, hF4⟩ := h.fr.back h.path hyq hlt2 hadj.symm
    have hE := h.es.back (w := y) h.path (by omega)
    have hqpos : q ≠ [] := fun e => by rw [e] at hyq; simp at hyq
    have common : ∀ low : List ℕ, low.length = g0.nextId →
        (fun x => low.getD x 0) = Function.update s.lo top (min (s.lo top) (s.nu y)) →
        BiInv g0 ⟨g', low, s.number, s.handled, (top, y) :: s.edgeStack, s.vertexStack, s.components⟩ (q ++ [top]) F' done := by
      intro low hlen hlow
      refine ⟨hwf', hnid'.trans h.nid, hlen, h.len2, h.len3, h.stack, h.path, ?_, h.hp, ?_, ?_, ?_, ?_, ?_, h.doneH, h.tl, ?_, h.dp,
        hnd, hunion, hdis, ?_, h.cnt, h.ne⟩
      · intro x hx
        show (fun x => low.getD x 0) x ≤ _
        rw [hlow]
        have := h.low x hx
        by_cases hxt : x = top
        · subst hxt
          rw [Function.update_self]
          show _ ≤ s.nu x - 1
          omega
        · rw [Function.update_of_ne hxt]; exact this
      · intro v hv hvp
        exact hnb v (h.fin v hv hvp)
      · have : EsInv (q ++ [top]) (fun x => low.getD x 0) s.nu ((top, y) :: s.edgeStack) := by rw [hlow]; exact hE
        exact this
      · intro e he
        rcases List.mem_cons.mp he with rfl | he
        · exact ⟨h.hp top htopm, hh⟩
        · exact h.esH e he
      · have : FrInv g0.toSimple (q ++ [top]) (fun x => low.getD x 0) s.nu F' := by rw [hlow]; exact hF1
        exact this
      · intro f hf x hx
        obtain ⟨f2, hf2, hx2⟩ := hF4 f hf x hx
        exact h.segH f2 hf2 x hx2
      · intro d hd f hf x hx hxf
        obtain ⟨f2, hf2, hx2⟩ := hF4 f hf x hxf
        exact h.dF d hd f2 hf2 x hx hx2
      · intro e he
        rw [List.cons_append] at he
        rcases List.mem_cons.mp he with rfl | he
        · obtain ⟨f, hf, h1, h2⟩ := hF3
          exact Or.inr ⟨f, hf, h2, h1⟩
        · exact (h.cov e he).mono hF2
    by_cases hcmp : s.number.getD y 0 < s.low.getD top 0
    · rw [if_pos hcmp, Vec.put_of_lt (by rw [h.len1]; exact htopn), Res.ok_bind]
      refine ⟨_, q ++ [top], F', rfl, common _ (by rw [List.length_set]; exact h.len1) ?_, ?_, by simp, fun x hx => hx⟩
      · rw [getD_set_update _ (by rw [h.len1]; exact htopn)]
        congr 1
        show s.number.getD y 0 = min (s.low.getD top 0) (s.number.getD y 0)
        omega
      · simp only [BiState.measure]; omega
    · rw [if_neg hcmp]
      refine ⟨_, q ++ [top], F', rfl, common _ h.len1 ?_, ?_, by simp, fun x hx => hx⟩
      · have : min (s.lo top) (s.nu y) = s.lo top := by
          show min (s.low.getD top 0) (s.number.getD y 0) = s.low.getD top 0
          omega
        rw [this, Function.update_eq_self]
      · simp only [BiState.measure]; omega
  · -- a new vertex
    have hh : s.handled.getD y false = false := by simpa using hh
    rw [hh]
    simp only [Bool.not_false, if_true]
    have hyp : y ∉ q ++ [top] := by
      intro hc
      have := h.hp y hc
      rw [BiState.hd] at this
      rw [this] at hh
      exact absurd hh (by simp)
    have hyF : ∀ f ∈ F, y ∉ f.seg := by
      intro f hf hm
      have := h.segH f hf y hm
      rw [BiState.hd] at this
      rw [this] at hh
      exact absurd hh (by simp)
    have hyE : ∀ e ∈ s.edgeStack, e.1 ≠ y ∧ e.2 ≠ y := by
      intro e he
      obtain ⟨h1, h2⟩ := h.esH e he
      rw [BiState.hd] at h1 h2
      constructor
      · rintro rfl; rw [h1] at hh; exact absurd hh (by simp)
      · rintro rfl; rw [h2] at hh; exact absurd hh (by simp)
    have hlen : s.vertexStack.length = q.length + 1 := by rw [hstack]; simp
    rw [Vec.put_of_lt (by rw [h.len2]; exact hyn), Res.ok_bind, idx_getD _ (by rw [List.length_set, h.len2]; exact htopn) 0, Res.ok_bind,
      Vec.put_of_lt (by rw [h.len1]; exact hyn), Res.ok_bind, Vec.put_of_lt (by rw [h.len3]; exact hyn), Res.ok_bind]
    have hnu : (fun x => (s.number.set y s.vertexStack.length).getD x 0) = Function.update s.nu y (q.length + 1) := by
      rw [getD_set_update _ (by rw [h.len2]; exact hyn), hlen]
    have hnt : (s.number.set y s.vertexStack.length).getD top 0 = s.nu top := by
      have := congrFun hnu top
      rw [this, Function.update_of_ne (Ne.symm hyt)]
    rw [hnt]
    have hlo : (fun x => (s.low.set y (s.nu top)).getD x 0) = Function.update s.lo y (s.nu top) :=
      getD_set_update _ (by rw [h.len1]; exact hyn) _ _
    have hhd : (fun x => (s.handled.set y true).getD x false) = Function.update s.hd y true :=
      getD_set_update _ (by rw [h.len3]; exact hyn) _ _
    have hhd' : ∀ x, s.hd x = true → (s.handled.set y true).getD x false = true := by
      intro x hx
      have := congrFun hhd x
      rw [this]
      by_cases hxy : x = y
      · subst hxy; simp
      · rw [Function.update_of_ne hxy]; exact hx
    have hhy : (s.handled.set y true).getD y false = true := by
      have := congrFun hhd y
      simpa using this
    refine ⟨_, q ++ [top] ++ [y], ⟨q.length + 1, top, {y}⟩ :: F, rfl, ?_, ?_, by simp, hhd'⟩
    · refine ⟨hwf', hnid'.trans h.nid, ?_, ?_, ?_, ?_, ?_, ?_, ?_, ?_, ?_, ?_, ?_, ?_, ?_, h.tl, ?_, ?_,
        hnd, hunion, hdis, ?_, h.cnt, h.ne⟩
      · simp only [List.length_set]; exact h.len1
      · simp only [List.length_set]; exact h.len2
      · simp only [List.length_set]; exact h.len3
      · simp only [h.stack]
        simp
      · show PathInv _ (fun x => (s.number.set y s.vertexStack.length).getD x 0)
        rw [hnu]
        have := h.path.push hyp
        simpa using this
      · show LowInv _ (fun x => (s.low.set y (s.nu top)).getD x 0) (fun x => (s.number.set y s.vertexStack.length).getD x 0)
        rw [hnu, hlo]
        intro x hx
        by_cases hxy : x = y
        · subst hxy
          rw [Function.update_self, Function.update_self]
          have := h.path.last
          omega
        · rw [Function.update_of_ne hxy, Function.update_of_ne hxy]
          apply h.low
          rcases List.mem_append.mp hx with hx | hx
          · exact hx
          · simp at hx; exact absurd hx hxy
      · intro x hx
        rcases List.mem_append.mp hx with hx | hx
        · exact hhd' x (h.hp x hx)
        · rw [List.mem_singleton] at hx
          subst hx
          exact hhy
      · intro v hv hvp
        have h1 := congrFun hhd v
        have hv' : (s.handled.set y true).getD v false = true := hv
        rw [h1] at hv'
        rw [List.mem_append, not_or, List.mem_singleton] at hvp
        rw [Function.update_of_ne hvp.2] at hv'
        exact hnb v (h.fin v hv' hvp.1)
      · show EsInv _ (fun x => (s.low.set y (s.nu top)).getD x 0) (fun x => (s.number.set y s.vertexStack.length).getD x 0) _
        rw [hnu, hlo]
        exact h.es.push h.path h.low hyp hyE
      · intro e he
        rcases List.mem_cons.mp he with rfl | he
        · exact ⟨hhd' _ (h.hp top htopm), hhy⟩
        · exact ⟨hhd' _ (h.esH e he).1, hhd' _ (h.esH e he).2⟩
      · show FrInv _ _ (fun x => (s.low.set y (s.nu top)).getD x 0) (fun x => (s.number.set y s.vertexStack.length).getD x 0) _
        rw [hnu, hlo]
        exact h.fr.push h.path hyp hyF hadj
      · intro f hf x hx
        rcases List.mem_cons.mp hf with rfl | hf
        · rw [Finset.mem_singleton] at hx
          subst hx
          exact hhy
        · exact hhd' _ (h.segH f hf x hx)
      · intro d hd x hx
        exact hhd' _ (h.doneH d hd x hx)
      · intro d hd f hf x hx
        rcases List.mem_cons.mp hf with rfl | hf
        · intro hxy
          rw [Finset.mem_singleton] at hxy
          subst hxy
          have := h.doneH d hd x hx
          rw [BiState.hd] at this
          rw [this] at hh
          exact absurd hh (by simp)
        · exact h.dF d hd f hf x hx
      · intro d hd x hx hxd
        rcases List.mem_append.mp hx with hx | hx
        · exact h.dp d hd x hx hxd
        · rw [List.mem_singleton] at hx
          subst hx
          have := h.doneH d hd x hxd
          rw [BiState.hd] at this
          rw [this] at hh
          exact absurd hh (by simp)
      · intro e he
        rw [List.cons_append] at he
        rcases List.mem_cons.mp he with rfl | he
        · exact Or.inr ⟨_, List.mem_cons_self, by simp [Frame.set], by simp [Frame.set]⟩
        · exact (h.cov e he).mono (fun f hf => ⟨f, List.mem_cons_of_mem _ hf, Finset.Subset.refl _⟩)
    · have := count_set_true s.handled y hh (by rw [h.len3]; exact hyn)
      simp only [BiState.measure, List.length_cons]
      omega

/-- The second branch of the loop. -/
theorem backward {top next : ℕ} {q' : List ℕ} (h : BiInv g0 s (q ++ [top]) F done) (hq : q = q' ++ [next])
    (hdeg : s.graph.nbrs top = []) :
    ∃ s' F' done', GenericGraph.biBackward s top next q.reverse = .ok s' ∧ BiInv g0 s' q F' done' ∧ s'.measure + 1 = s.measure ∧
      ∀ x, s.hd x = true → s'.hd x = true := by
  have htopm : top ∈ q ++ [top] := by simp
  have hnextq : next ∈ q := by rw [hq]; simp
  have hnextm : next ∈ q ++ [top] := by simp [hnextq]
  have htopn : top < g0.nextId := h.hd_lt (h.hp top htopm)
  have hnextn : next < g0.nextId := h.hd_lt (h.hp next hnextm)
  have htop := h.path.last
  have hpos : 1 ≤ q.length := by rw [hq]; simp
  have hnext : s.nu next = q.length - 1 := by
    have := h.path.pop
    rw [hq] at this
    rw [this.last, hq]
    simp
  have hsub : ∀ x ∈ q, x ∈ q ++ [top] := fun x hx => by simp [hx]
  have hlow := h.low top htopm
  have hfin : ∀ v, s.hd v = true → v ∉ q → s.graph.nbrs v = [] := by
    intro v hv hvq
    by_cases hvt : v = top
    · subst hvt; exact hdeg
    · exact h.fin v hv (by simp [hvq, hvt])
  have hst : s.vertexStack.length = q.length + 1 := by rw [h.stack]; simp
  rw [GenericGraph.biBackward]
  simp only
  rw [idx_getD _ (by rw [h.len1]; exact htopn) 0, Res.ok_bind, idx_getD _ (by rw [h.len2]; exact hnextn) 0, Res.ok_bind]
  have e1 : s.low.getD top 0 = s.lo top := rfl
  have e2 : s.number.getD next 0 = s.nu next := rfl
  have e3 : s.low.getD next 0 = s.lo next := rfl
  rw [e1, e2, hnext]
  by_cases hc : s.lo top = q.length - 1
  · rw [if_pos hc]
    rw [popEdges_spec _ (fun e he => by
      rw [h.len2]
      exact ⟨h.hd_lt (h.esH e he).1, h.hd_lt (h.esH e he).2⟩), Res.ok_bind]
    obtain ⟨hE, hne⟩ := h.es.close h.path h.low hpos hc
    simp only
    have hemp : (s.edgeStack.takeWhile (EsInv.keepEdge (fun x => s.number.getD x 0) (q.length - 1))).isEmpty = false := by
      rw [List.isEmpty_eq_false_iff]
      exact hne
    rw [hemp]
    simp only [Bool.not_false, if_true]
    obtain ⟨f, F', hF, hfb, hfr⟩ := h.fr.close h.path hpos hc
    have hfF : f ∈ F := by rw [hF]; simp
    have hsubF : ∀ g ∈ F', g ∈ F := fun g hg => by rw [hF]; simp [hg]
    have hdisjF : ∀ g ∈ F', ∀ x ∈ f.seg, x ∉ g.seg := by
      have hd := h.fr.disj
      rw [hF, List.pairwise_cons] at hd
      intro g hg x hx
      exact Finset.disjoint_left.mp (hd.1 g hg) hx
    have hperm : List.Perm
        (s.edgeStack.dropWhile (EsInv.keepEdge s.nu (q.length - 1)) ++ (s.components ++
          [s.edgeStack.takeWhile (EsInv.keepEdge s.nu (q.length - 1))]).flatten) (s.edgeStack ++ s.components.flatten) := by
      conv_rhs => rw [← List.takeWhile_append_dropWhile (p := EsInv.keepEdge s.nu (q.length - 1)) (l := s.edgeStack)]
      rw [List.flatten_append, List.flatten_singleton, List.append_assoc]
      rw [← List.append_assoc]
      exact List.perm_append_comm
    have hpermU := hperm.map (fun e : ℕ × ℕ => s(e.1, e.2))
    refine ⟨_, F', done ++ [(f.anchor, f.seg)], rfl, ?_, ?_, fun x hx => hx⟩
    · refine ⟨h.wf, h.nid, h.len1, h.len2, h.len3, rfl, h.path.pop, fun x hx => h.low x (hsub x hx), fun x hx => h.hp x (hsub x hx),
        hfin, hE, ?_, hfr, fun g hg => h.segH g (hsubF g hg), ?_, ?_, ?_, ?_, ?_, ?_, ?_, ?_, ?_, ?_⟩
      · intro e he
        exact h.esH e ((List.dropWhile_sublist _).subset he)
      · intro d hd x hx
        rcases List.mem_append.mp hd with hd | hd
        · exact h.doneH d hd x hx
        · rw [List.mem_singleton] at hd
          subst hd
          exact h.segH f hfF x hx
      · refine ⟨?_, ?_, ?_, ?_⟩
        · rw [List.pairwise_append]
          refine ⟨h.tl.disj, List.pairwise_singleton _ _, ?_⟩
          intro d hd e he
          rw [List.mem_singleton] at he
          subst he
          rw [Finset.disjoint_left]
          exact h.dF d hd f hfF
        · rw [List.pairwise_append]
          refine ⟨h.tl.later, List.pairwise_singleton _ _, ?_⟩
          intro d hd e he
          rw [List.mem_singleton] at he
          subst he
          exact h.dp d hd _ (h.fr.anchor f hfF).1
        · intro d hd
          rcases List.mem_append.mp hd with hd | hd
          · exact h.tl.self d hd
          · rw [List.mem_singleton] at hd
            subst hd
            exact h.fr.noanchor hfF hfF (Nat.le_refl _)
        · intro d hd
          rcases List.mem_append.mp hd with hd | hd
          · exact h.tl.bi d hd
          · rw [List.mem_singleton] at hd
            subst hd
            exact h.fr.bi f hfF
      · intro d hd g hg x hx
        rcases List.mem_append.mp hd with hd | hd
        · exact h.dF d hd g (hsubF g hg) x hx
        · rw [List.mem_singleton] at hd
          subst hd
          exact hdisjF g hg x hx
      · intro d hd x hx
        rcases List.mem_append.mp hd with hd | hd
        · exact h.dp d hd x (hsub x hx)
        · rw [List.mem_singleton] at hd
          subst hd
          have := h.path.pop.lt hx
          exact h.fr.above (hsub x hx) hfF (by omega)
      · exact hpermU.nodup_iff.mpr h.nd
      · intro e
        rw [h.union]
        exact or_congr_right hpermU.mem_iff.symm
      · intro e he hm
        exact h.dis e he (hpermU.mem_iff.mp hm)
      · intro e he
        rcases h.cov e (hperm.mem_iff.mp he) with ⟨d, hd, h1⟩ | ⟨g, hg, h1⟩
        · exact Or.inl ⟨d, by simp [hd], h1⟩
        · rw [hF] at hg
          rcases List.mem_cons.mp hg with rfl | hg
          · exact Or.inl ⟨_, List.mem_append_right _ List.mem_cons_self, h1⟩
          · exact Or.inr ⟨g, hg, h1⟩
      · simp only [List.length_append, List.length_singleton]
        rw [h.cnt]
      · intro c hcm
        rcases List.mem_append.mp hcm with hcm | hcm
        · exact h.ne c hcm
        · rw [List.mem_singleton] at hcm
          subst hcm
          exact hne
    · simp only [BiState.measure, List.length_reverse]
      omega
  · rw [if_neg hc]
    have hlt : s.lo top < q.length - 1 := by omega
    rw [idx_getD _ (by rw [h.len1]; exact hnextn) 0, Res.ok_bind]
    rw [e3]
    have common : ∀ low : List ℕ, low.length = g0.nextId →
        (fun x => low.getD x 0) = Function.update s.lo next (min (s.lo next) (s.lo top)) →
        BiInv g0 ⟨s.graph, low, s.number, s.handled, s.edgeStack, q.reverse, s.components⟩ q F done := by
      intro low hlen hlw
      refine ⟨h.wf, h.nid, hlen, h.len2, h.len3, rfl, h.path.pop, ?_, fun x hx => h.hp x (hsub x hx), hfin, ?_, h.esH, ?_, h.segH,
        h.doneH, h.tl, h.dF, fun d hd x hx => h.dp d hd x (hsub x hx), h.nd, h.union, h.dis, h.cov, h.cnt, h.ne⟩
      · intro x hx
        show (fun x => low.getD x 0) x ≤ _
        rw [hlw]
        have := h.low x (hsub x hx)
        by_cases hxt : x = next
        · subst hxt
          rw [Function.update_self]
          show _ ≤ s.nu x - 1
          omega
        · rw [Function.update_of_ne hxt]; exact this
      · show EsInv _ (fun x => low.getD x 0) _ _
        rw [hlw]
        exact h.es.keep hq h.path hlt
      · show FrInv _ _ (fun x => low.getD x 0) _ _
        rw [hlw]
        exact h.fr.keep hq h.path hlt
    by_cases hcmp : s.lo top < s.lo next
    · rw [if_pos hcmp, Vec.put_of_lt (by rw [h.len1]; exact hnextn), Res.ok_bind]
      refine ⟨_, F, done, rfl, common _ (by rw [List.length_set]; exact h.len1) ?_, ?_, fun x hx => hx⟩
      · rw [getD_set_update _ (by rw [h.len1]; exact hnextn)]
        congr 1
        omega
      · simp only [BiState.measure, List.length_reverse]; omega
    · rw [if_neg hcmp]
      refine ⟨_, F, done, rfl, common _ h.len1 ?_, ?_, fun x hx => hx⟩
      · have : min (s.lo next) (s.lo top) = s.lo next := by omega
        rw [this, Function.update_eq_self]
      · simp only [BiState.measure, List.length_reverse]; omega

theorem frInv_nil {G : SimpleGraph ℕ} {lo nu : ℕ → ℕ} : FrInv G [] lo nu [] where
  sorted := List.Pairwise.nil
  bases i := by
    simp only [List.not_mem_nil, false_and, exists_false, false_iff]
    rintro ⟨h1, h2, -⟩
    simp at h2
  anchor := by simp
  bi := by simp
  path := by simp
  disj := List.Pairwise.nil
  root := by simp

/-- The last vertex of the path is taken. -/
theorem finish {top : ℕ} (h : BiInv g0 s [top] F done) (hdeg : s.graph.nbrs top = []) :
    BiInv g0 { s with vertexStack := [] } [] [] done := by
  have hes := h.es.short (by simp)
  have hF : F = [] := by
    rw [List.eq_nil_iff_forall_not_mem]
    intro f hf
    have h1 := h.fr.base_pos hf
    have h2 := h.fr.base_lt hf
    simp at h2
    omega
  refine ⟨h.wf, h.nid, h.len1, h.len2, h.len3, rfl, ?_, ?_, by simp, ?_, ⟨fun _ => hes, by simp⟩, h.esH, frInv_nil, by simp, h.doneH, h.tl,
    by simp, by simp, h.nd, h.union, h.dis, ?_, h.cnt, h.ne⟩
  · intro t x hx; simp at hx
  · intro x hx; simp at hx
  · intro v hv _
    by_cases hvt : v = top
    · subst hvt; exact hdeg
    · exact h.fin v hv (by simpa using hvt)
  · intro e he
    have := h.cov e he
    rwa [hF] at this

theorem degree_nbrs {g : GenericGraph T A} (h : g.WF) {i : ℕ} (hi : i < g.nextId) : g.degree i = some (g.nbrs i).length := by
  have hl : i < g.vertices.length := by rw [h.len]; exact hi
  rw [GenericGraph.degree, List.getElem?_eq_getElem hl]
  simp only [Option.map_some]
  rw [LawfulAdj.degree_eq, (idx_nbrs hl).2]

/-- The `while` loop ends with an empty path. -/
theorem loop (h0 : g0.WF) : ∀ (fuel : ℕ) (s : BiState T A) (p : List ℕ) (F : List Frame) (done : List (ℕ × Finset ℕ)),
    BiInv g0 s p F done → p ≠ [] → s.measure < fuel →
    ∃ s' done', GenericGraph.biLoop fuel s = .ok s' ∧ BiInv g0 s' [] [] done' ∧ ∀ x, s.hd x = true → s'.hd x = true
  | 0, s, p, F, done, _, _, hf => by omega
  | fuel + 1, s, p, F, done, h, hp, hf => by
    obtain ⟨q, top, rfl⟩ : ∃ q top, p = q ++ [top] := ⟨p.dropLast, p.getLast hp, (List.dropLast_append_getLast hp).symm⟩
    have hstack : s.vertexStack = top :: q.reverse := by rw [h.stack]; simp
    have htopn : top < g0.nextId := h.hd_lt (h.hp top (by simp))
    rw [GenericGraph.biLoop, hstack]
    simp only
    rw [degree_nbrs h.wf (by rw [h.nid]; exact htopn)]
    simp only [Res.unwrap, Res.ok_bind]
    by_cases hd : s.graph.nbrs top = []
    · rw [hd]
      simp only [List.length_nil, gt_iff_lt, Nat.lt_irrefl, if_false]
      by_cases hq : q = []
      · subst hq
        exact ⟨_, done, rfl, h.finish hd, fun x hx => hx⟩
      · obtain ⟨q', next, hq'⟩ : ∃ q' next, q = q' ++ [next] := ⟨q.dropLast, q.getLast hq, (List.dropLast_append_getLast hq).symm⟩
        obtain ⟨s', F', done', h1, h2, h3, h4⟩ := h.backward hq' hd
        have hrev : q.reverse = next :: q'.reverse := by rw [hq']; simp
        obtain ⟨s'', done'', h5, h6, h7⟩ := loop h0 fuel s' q F' done' h2 hq (by omega)
        refine ⟨s'', done'', ?_, h6, fun x hx => h7 x (h4 x hx)⟩
        rw [hrev] at h1 ⊢
        simp only
        rw [h1, Res.ok_bind, h5]
    · have hpos : (s.graph.nbrs top).length > 0 := List.length_pos_iff.mpr hd
      rw [if_pos hpos]
      obtain ⟨s', p', F', h1, h2, h3, h4, h5⟩ := h.forward h0 hd
      obtain ⟨s'', done'', h6, h7, h8⟩ := loop h0 fuel s' p' F' done h2 h4 (by omega)
      refine ⟨s'', done'', ?_, h7, fun x hx => h8 x (h5 x hx)⟩
      rw [h1, Res.ok_bind, h6]

theorem edgeCount_le (h0 : g0.WF) (h : BiInv g0 s p F done) : s.graph.edgeCount ≤ g0.edgeCount := by
  rw [h0.edgeCount_eq_card, h.wf.edgeCount_eq_card]
  apply Finset.card_le_card
  intro e he
  exact (h.union e).mpr (Or.inl he)

/-- One pivot. -/
theorem pivot (h0 : g0.WF) (h : BiInv g0 s [] [] done) {v : ℕ} (hv : v < g0.nextId) :
    ∃ s' done', GenericGraph.biPivot (g0.edgeCount + g0.nextId + 1) s v = .ok s' ∧ BiInv g0 s' [] [] done' ∧
      (∀ x, s.hd x = true → s'.hd x = true) ∧ s'.hd v = true := by
  rw [GenericGraph.biPivot, idx_getD _ (by rw [h.len3]; exact hv) false, Res.ok_bind]
  by_cases hh : s.handled.getD v false = true
  · rw [hh]
    exact ⟨s, done, rfl, h, fun x hx => hx, hh⟩
  · have hh : s.handled.getD v false = false := by simpa using hh
    rw [hh]
    simp only [Bool.false_eq_true, if_false]
    rw [Vec.put_of_lt (by rw [h.len1]; exact hv), Res.ok_bind, Vec.put_of_lt (by rw [h.len2]; exact hv), Res.ok_bind,
      Vec.put_of_lt (by rw [h.len3]; exact hv), Res.ok_bind]
    have hes := h.es.short (by simp)
    have hst : s.vertexStack = [] := by rw [h.stack]; rfl
    have hnu : (fun x => (s.number.set v 0).getD x 0) = Function.update s.nu v 0 := getD_set_update _ (by rw [h.len2]; exact hv) _ _
    have hlo : (fun x => (s.low.set v 0).getD x 0) = Function.update s.lo v 0 := getD_set_update _ (by rw [h.len1]; exact hv) _ _
    have hhd : (fun x => (s.handled.set v true).getD x false) = Function.update s.hd v true :=
      getD_set_update _ (by rw [h.len3]; exact hv) _ _
    have hnv : (s.number.set v 0).getD v 0 = 0 := by
      have := congrFun hnu v
      simpa using this
    have hlv : (s.low.set v 0).getD v 0 = 0 := by
      have := congrFun hlo v
      simpa using this
    have hhv : (s.handled.set v true).getD v false = true := by
      have := congrFun hhd v
      simpa using this
    have hhd' : ∀ x, s.hd x = true → (s.handled.set v true).getD x false = true := by
      intro x hx
      have := congrFun hhd x
      rw [this]
      by_cases hxy : x = v
      · subst hxy; simp
      · rw [Function.update_of_ne hxy]; exact hx
    have hnot : ∀ x, s.hd x = true → x ≠ v := by
      rintro x hx rfl
      rw [BiState.hd] at hx
      rw [hx] at hh
      exact absurd hh (by simp)
    have hinv : BiInv g0 (⟨s.graph, s.low.set v 0, s.number.set v 0, s.handled.set v true, s.edgeStack, v :: s.vertexStack,
        s.components⟩ : BiState T A) [v] [] done := by
      refine ⟨h.wf, h.nid, ?_, ?_, ?_, ?_, ?_, ?_, ?_, ?_, ⟨fun _ => hes, ?_⟩, ?_, FrInv.empty hnv, by simp,
        fun d hd x hx => hhd' x (h.doneH d hd x hx), h.tl, by simp, ?_, h.nd, h.union, h.dis, h.cov, h.cnt, h.ne⟩
      · simp only [List.length_set]; exact h.len1
      · simp only [List.length_set]; exact h.len2
      · simp only [List.length_set]; exact h.len3
      · simp [hst]
      · intro t x hx
        have ht : t = 0 := by
          have := (List.getElem?_eq_some_iff.mp hx).1
          simpa using this
        subst ht
        simp at hx
        subst hx
        exact hnv
      · intro x hx
        rw [List.mem_singleton] at hx
        subst hx
        show (s.low.set x 0).getD x 0 ≤ _
        rw [hlv]
        exact Nat.zero_le _
      · intro x hx
        rw [List.mem_singleton] at hx
        subst hx
        exact hhv
      · intro w hw hwp
        rw [List.mem_singleton] at hwp
        have h1 := congrFun hhd w
        have hw' : (s.handled.set v true).getD w false = true := hw
        rw [h1, Function.update_of_ne hwp] at hw'
        exact h.fin w hw' (by simp)
      · intro a ha b hb hab
        rw [List.mem_singleton] at ha hb
        subst ha; subst hb
        omega
      · intro e he
        exact ⟨hhd' _ (h.esH e he).1, hhd' _ (h.esH e he).2⟩
      · intro d hd x hx hxd
        rw [List.mem_singleton] at hx
        subst hx
        exact hnot x (h.doneH d hd x hxd) rfl
    have hm : BiState.measure (⟨s.graph, s.low.set v 0, s.number.set v 0, s.handled.set v true, s.edgeStack, v :: s.vertexStack,
        s.components⟩ : BiState T A) < g0.edgeCount + g0.nextId + 1 := by
      have h1 := h.edgeCount_le h0
      have h2 := count_set_true s.handled v hh (by rw [h.len3]; exact hv)
      have h3 : s.handled.count false ≤ s.handled.length := List.count_le_length
      rw [h.len3] at h3
      simp only [BiState.measure, hst, List.length_cons, List.length_nil]
      omega
    obtain ⟨s', done', h1, h2, h3⟩ := loop h0 _ _ _ _ _ hinv (by simp) hm
    exact ⟨s', done', h1, h2, fun x hx => h3 x (hhd' x hx), h3 v hhv⟩

/-- All pivots. -/
theorem pivots (h0 : g0.WF) : ∀ (l : List ℕ) (s : BiState T A) (done : List (ℕ × Finset ℕ)), BiInv g0 s [] [] done →
    (∀ v ∈ l, v < g0.nextId) →
    ∃ s' done', l.foldlM (GenericGraph.biPivot (g0.edgeCount + g0.nextId + 1)) s = .ok s' ∧ BiInv g0 s' [] [] done' ∧
      (∀ x, s.hd x = true → s'.hd x = true) ∧ ∀ v ∈ l, s'.hd v = true
  | [], s, done, h, _ => ⟨s, done, rfl, h, fun x hx => hx, by simp⟩
  | v :: l, s, done, h, hl => by
    obtain ⟨s1, done1, h1, h2, h3, h4⟩ := h.pivot h0 (hl v (by simp))
    obtain ⟨s2, done2, h5, h6, h7, h8⟩ := pivots h0 l s1 done1 h2 (fun w hw => hl w (List.mem_cons_of_mem _ hw))
    refine ⟨s2, done2, ?_, h6, fun x hx => h7 x (h3 x hx), ?_⟩
    · rw [List.foldlM_cons, h1]
      exact h5
    · intro w hw
      rcases List.mem_cons.mp hw with rfl | hw
      · exact h7 w h4
      · exact h8 w hw

end BiInv

/-- The components found: a partition of the edges with as many parts as there are biconnected components. -/
theorem biComponents_tree {g : GenericGraph T A} (h : g.WF) :
    ∃ comps, g.biComponents = .ok comps ∧ (∀ c ∈ comps, c ≠ []) ∧ (comps.flatten.map (fun e => s(e.1, e.2))).Nodup ∧
      (∀ e, e ∈ g.edges ↔ e ∈ comps.flatten.map (fun e => s(e.1, e.2))) ∧
      ∃ done : List (ℕ × Finset ℕ), TreeLike g.toSimple done ∧
        (∀ a b, g.toSimple.Adj a b → ∃ d ∈ done, a ∈ insert d.1 d.2 ∧ b ∈ insert d.1 d.2) ∧ comps.length = done.length := by
  have hinit : BiInv g (⟨g, List.replicate g.nextId 0, List.replicate g.nextId 0, List.replicate g.nextId false, [], [], []⟩ : BiState T A)
      [] [] [] := by
    refine ⟨h, rfl, by simp, by simp, by simp, rfl, ?_, ?_, by simp, ?_, ⟨fun _ => rfl, by simp⟩, by simp, BiInv.frInv_nil, by simp, by simp,
      ⟨by simp, by simp, by simp, by simp⟩, by simp, by simp, by simp, by simp, by simp, by simp, rfl, by simp⟩
    · intro t x hx; simp at hx
    · intro x hx; simp at hx
    · intro v hv
      exfalso
      simp [BiState.hd, List.getD, List.getElem?_replicate] at hv
      split at hv <;> simp at hv
  obtain ⟨s, done, h1, h2, _, h4⟩ := BiInv.pivots h (List.range g.nextId) _ _ hinit (fun v hv => List.mem_range.mp hv)
  have hes := h2.es.short (by simp)
  have hempty : ∀ e, e ∉ s.graph.edges := by
    intro e he
    obtain ⟨i, j, hi, hj, rfl⟩ := GenericGraph.mem_edges_iff.mp he
    rw [h2.nid] at hi
    rw [h2.fin i (h4 i (List.mem_range.mpr hi)) (by simp)] at hj
    simp at hj
  have hused : s.used = s.components.flatten.map (fun e => s(e.1, e.2)) := by
    rw [BiState.used, hes]; rfl
  have hmem : ∀ e, e ∈ g.edges ↔ e ∈ s.components.flatten.map (fun e => s(e.1, e.2)) := by
    intro e
    rw [h2.union, ← hused]
    simp [hempty e]
  have hcover : ∀ a b, g.toSimple.Adj a b → ∃ d ∈ done, a ∈ insert d.1 d.2 ∧ b ∈ insert d.1 d.2 := by
    intro a b hab
    have h5 := (hmem s(a, b)).mp (h.mem_edges.mpr (h.adj_iff.mp hab))
    rw [List.mem_map] at h5
    obtain ⟨e, he, heq⟩ := h5
    have h6 := h2.cov e (by rw [hes]; exact he)
    rcases h6 with ⟨d, hd, h7, h8⟩ | ⟨f, hf, _⟩
    · rcases Sym2.eq_iff.mp heq with ⟨rfl, rfl⟩ | ⟨rfl, rfl⟩
      · exact ⟨d, hd, h7, h8⟩
      · exact ⟨d, hd, h8, h7⟩
    · simp at hf
  refine ⟨s.components, ?_, h2.ne, hused ▸ h2.nd, hmem, done, h2.tl, hcover, h2.cnt⟩
  rw [GenericGraph.biComponents]
  simp only [GenericGraph.vertexCount]
  rw [h1]
  rfl

/-- The same with the list of the biconnected components. -/
theorem biComponents_spec {g : GenericGraph T A} (h : g.WF) :
    ∃ comps, g.biComponents = .ok comps ∧ (∀ c ∈ comps, c ≠ []) ∧ (comps.flatten.map (fun e => s(e.1, e.2))).Nodup ∧
      (∀ e, e ∈ g.edges ↔ e ∈ comps.flatten.map (fun e => s(e.1, e.2))) ∧
      ∃ blocks : List (Finset ℕ), blocks.Nodup ∧ (∀ S, Block g.toSimple S ↔ S ∈ blocks) ∧
        (∀ S, BiSet g.toSimple S → ∃ B ∈ blocks, S ⊆ B) ∧ comps.length = blocks.length := by
  obtain ⟨comps, h1, h2, h3, h4, done, htl, hcover, hcnt⟩ := biComponents_tree h
  obtain ⟨hb1, hb2⟩ := htl.blocks hcover
  refine ⟨comps, h1, h2, h3, h4, _, hb2, hb1, ?_, ?_⟩
  · intro S hS
    obtain ⟨d, hd, hsub⟩ := htl.subset hcover hS
    exact ⟨_, List.mem_map.mpr ⟨d, hd, rfl⟩, hsub⟩
  · rw [List.length_map, hcnt]

end Verif
