import Verif.Props.Config
import Verif.Lemmas.Switch
import Mathlib.Tactic.FieldSimp

/-!
# The Markov chain of the configuration model: detailed balance and irreducibility
-/

set_option linter.unusedSectionVars false
set_option linter.unusedSimpArgs false

namespace Verif
open AdjContainer GenericGraph

variable {T : Type}

/-! ## One step as a function of the draws -/

/-- The edges after a step that drew the edges `n j` and `k l`. -/
def exchanged (E : Finset (Sym2 ℕ)) (n j k l : ℕ) : Finset (Sym2 ℕ) :=
  if n = k ∨ j = l ∨ s(n, k) ∈ E ∨ s(j, l) ∈ E then E
  else ((insert s(j, l) (insert s(n, k) E)).erase s(n, j)).erase s(k, l)

theorem exchanged_of {E : Finset (Sym2 ℕ)} {n j k l : ℕ} (hl : Switch.Loopless E) (nj : s(n, j) ∈ E) (kl : s(k, l) ∈ E) {F : Finset (Sym2 ℕ)}
    (hne : E ≠ F) : exchanged E n j k l = F ↔ Switch.SwAt E F n j k l := by
  unfold exchanged
  constructor
  · split
    · intro h; exact absurd h hne
    · rename_i hc
      simp only [not_or] at hc
      obtain ⟨h1, h2, h3, h4⟩ := hc
      have d1 : n ≠ j := by rintro rfl; exact hl _ nj
      have d6 : k ≠ l := by rintro rfl; exact hl _ kl
      have d3 : n ≠ l := by rintro rfl; exact h3 (Sym2.eq_swap ▸ kl)
      have d4 : j ≠ k := by rintro rfl; exact h3 nj
      rintro rfl
      refine ⟨nj, kl, h3, h4, d1, h1, d3, d4, h2, d6, fun x => ?_⟩
      simp only [Finset.mem_erase, Finset.mem_insert]
      constructor
      · tauto
      · rintro (h | rfl | rfl)
        · tauto
        · simp only [ne_eq, Sym2.eq_iff]; refine ⟨by omega, by omega, by simp⟩
        · simp only [ne_eq, Sym2.eq_iff]; refine ⟨by omega, by omega, by simp⟩
  · intro h
    rw [if_neg]
    · ext x
      rw [h.mem]
      have := h.d1; have := h.d2; have := h.d3; have := h.d4; have := h.d5; have := h.d6
      simp only [Finset.mem_erase, Finset.mem_insert]
      constructor
      · tauto
      · rintro (h | rfl | rfl)
        · tauto
        · simp only [ne_eq, Sym2.eq_iff]; refine ⟨by omega, by omega, by simp⟩
        · simp only [ne_eq, Sym2.eq_iff]; refine ⟨by omega, by omega, by simp⟩
    · simp only [not_or]
      exact ⟨h.d2, h.d5, h.nk, h.jl⟩

theorem WF.loopless {g : Graph T} (h : g.WF) : Switch.Loopless g.edges := fun _ hv => (h.mem_lt hv).2.2 rfl

/-- The second position drawn. -/
def secondPos (d : ℕ × ℕ) : ℕ := if d.2 < d.1 then d.2 else d.2 + 1

theorem secondPos_lt {n : ℕ} {d : ℕ × ℕ} (h1 : d.1 < n) (h2 : d.2 < n - 1) : secondPos d < n := by
  unfold secondPos; split <;> omega

theorem chooseTwo_script {l : List Nat} {i j : Nat} (rest : List Nat) (hi : i < l.length) (hj : j < l.length - 1) :
    chooseTwo (⟨i :: j :: rest⟩ : Script) l = .ok ([l.getD i 0, l.getD (secondPos (i, j)) 0], ⟨rest⟩) := by
  have h2 : ¬ l.length < 2 := by omega
  unfold chooseTwo
  rw [if_neg h2]
  unfold drawTwoFromRange
  rw [script_genRange hi]
  simp only [Res.ok_bind]
  rw [Res.sub_of_le (by omega)]
  simp only [Res.ok_bind]
  rw [script_genRange hj]
  simp only [Res.ok_bind]
  have hs := secondPos_lt (d := (i, j)) hi hj
  unfold secondPos at hs ⊢
  simp only at hs ⊢
  split
  · rename_i hc
    rw [if_pos hc] at hs
    simp only [Res.pure_eq, Res.ok_bind, Vec.idx_of_lt hi, Vec.idx_of_lt hs, List.getD, hi, hs, List.getElem?_eq_getElem, Option.getD_some]
  · rename_i hc
    rw [if_neg hc] at hs
    simp only [Res.pure_eq, Res.ok_bind, Vec.idx_of_lt hi, Vec.idx_of_lt hs, List.getD, hi, hs, List.getElem?_eq_getElem, Option.getD_some]

theorem drawVertices_script {l : List Nat} {i j : Nat} (fuel : Nat) (rest : List Nat) (hi : i < l.length) (hj : j < l.length - 1) :
    Config.drawVertices (fuel + 1) (⟨i :: j :: rest⟩ : Script) l =
      if l.getD i 0 = l.getD (secondPos (i, j)) 0 then Config.drawVertices fuel (⟨rest⟩ : Script) l
      else .ok ((l.getD i 0, l.getD (secondPos (i, j)) 0), ⟨rest⟩) := by
  conv => lhs; unfold Config.drawVertices
  rw [chooseTwo_script rest hi hj]
  simp only [Res.ok_bind, Vec.idx, List.getElem?_cons_zero, List.getElem?_cons_succ, beq_iff_eq, Res.pure_eq]

/-- A step with prescribed draws that chooses two different vertices. -/
theorem Config.mStep_script {e : Config T Script} (h : e.Inv) {i j u v : Nat} (fuel : Nat)
    (hi : i < e.backup.length) (hj : j < e.backup.length - 1)
    (hab : e.backup.getD i 0 ≠ e.backup.getD (secondPos (i, j)) 0)
    (hu : u < (e.graph.nbrs (e.backup.getD i 0)).length)
    (hv : v < (e.graph.nbrs (e.backup.getD (secondPos (i, j)) 0)).length) :
    ∃ s g, (∀ rest, Config.mStep (fuel + 1) ({ e with rng := ⟨i :: j :: u :: v :: rest⟩ } : Config T Script) =
        .ok (s, { e with graph := g, rng := ⟨rest⟩ })) ∧
      (∀ rng, ({ e with graph := g, rng := rng } : Config T Script).Inv) ∧
      g.edges = exchanged e.graph.edges (e.backup.getD i 0) (e.graph.nbrs (e.backup.getD i 0))[u]
        (e.backup.getD (secondPos (i, j)) 0) (e.graph.nbrs (e.backup.getD (secondPos (i, j)) 0))[v] := by
  generalize hn : e.backup.getD i 0 = n at *
  generalize hk : e.backup.getD (secondPos (i, j)) 0 = k at *
  have hnm : n ∈ e.backup := by rw [← hn]; simp only [List.getD, hi, List.getElem?_eq_getElem, Option.getD_some]; exact List.getElem_mem _
  have hkm : k ∈ e.backup := by
    have := secondPos_lt (d := (i, j)) hi hj
    rw [← hk]; simp only [List.getD, this, List.getElem?_eq_getElem, Option.getD_some]; exact List.getElem_mem _
  obtain ⟨_, hn2⟩ := h.deg_count hnm
  obtain ⟨_, hk2⟩ := h.deg_count hkm
  have vn := h.wf.lt_length hn2
  have vk := h.wf.lt_length hk2
  have en := nbrs_getElem vn
  have ek := nbrs_getElem vk
  have cn : ∀ rest, chooseOne (⟨u :: v :: rest⟩ : Script) (e.graph.vertices[n]).adj = .ok ((e.graph.nbrs n)[u], ⟨v :: rest⟩) := by
    intro rest
    have hu' : u < (e.graph.vertices[n]).adj.length := by rw [en] at hu; exact hu
    unfold chooseOne
    rw [script_genRange hu']
    simp only [Res.ok_bind, Vec.idx_of_lt hu', Res.pure_eq, Res.ok.injEq, Prod.mk.injEq, and_true]
    congr 1
    exact en.symm
  have ck : ∀ rest, chooseOne (⟨v :: rest⟩ : Script) (e.graph.vertices[k]).adj = .ok ((e.graph.nbrs k)[v], ⟨rest⟩) := by
    intro rest
    have hv' : v < (e.graph.vertices[k]).adj.length := by rw [ek] at hv; exact hv
    unfold chooseOne
    rw [script_genRange hv']
    simp only [Res.ok_bind, Vec.idx_of_lt hv', Res.pure_eq, Res.ok.injEq, Prod.mk.injEq, and_true]
    congr 1
    exact ek.symm
  have dv : ∀ rest, Config.drawVertices (fuel + 1) (⟨i :: j :: u :: v :: rest⟩ : Script) e.backup =
      .ok ((n, k), ⟨u :: v :: rest⟩) := by
    intro rest
    rw [drawVertices_script fuel _ hi hj, hn, hk, if_neg hab]
  have hnj : s(n, (e.graph.nbrs n)[u]) ∈ e.graph.edges := by rw [h.wf.mem_edges]; exact List.getElem_mem _
  have hkl : s(k, (e.graph.nbrs k)[v]) ∈ e.graph.edges := by rw [h.wf.mem_edges]; exact List.getElem_mem _
  generalize (e.graph.nbrs n)[u] = a at *
  generalize (e.graph.nbrs k)[v] = b at *
  obtain ⟨_, hj', dnj⟩ := h.wf.mem_lt hnj
  obtain ⟨_, hl', dkl⟩ := h.wf.mem_lt hkl
  have keep : ∀ {g : Graph T}, g.WF → g.nextId = e.graph.nextId → g.edges = e.graph.edges → ∀ rng,
      ({ e with graph := g, rng := rng } : Config T Script).Inv := by
    intro g hg hgn hge rng
    exact h.of_graph hg hgn (fun v => by rw [hg.deg_eq, h.wf.deg_eq, hge])
  by_cases hc : (k == n || a == b) = true
  · refine ⟨.error, e.graph, fun rest => ?_, keep h.wf rfl rfl, ?_⟩
    · unfold Config.mStep
      simp only [dv rest, Vec.idx_of_lt vn, Vec.idx_of_lt vk, Res.ok_bind, cn rest, ck rest, hc, if_true]
      rfl
    · have : n = k ∨ a = b ∨ s(n, k) ∈ e.graph.edges ∨ s(a, b) ∈ e.graph.edges := by
        simp only [Bool.or_eq_true, beq_iff_eq] at hc
        rcases hc with hc | hc
        · exact .inl hc.symm
        · exact .inr (.inl hc)
      unfold exchanged
      rw [if_pos this]
  · have hjl : a ≠ b := by intro hc'; exact hc (by simp [hc'])
    rcases addEdge_any h.wf hn2 hk2 hab with ⟨hex, a1⟩ | ⟨hnew, g1, a1, a2, a3, a4, a5⟩
    · refine ⟨.error, e.graph, fun rest => ?_, keep h.wf rfl rfl, ?_⟩
      · unfold Config.mStep
        simp only [dv rest, Vec.idx_of_lt vn, Vec.idx_of_lt vk, Res.ok_bind, cn rest, ck rest, hc, if_false, a1]
        rfl
      · unfold exchanged
        rw [if_pos (.inr (.inr (.inl hex)))]
    · have hnl : n ≠ b := by rintro rfl; exact hnew (Sym2.eq_swap ▸ hkl)
      have hjk : a ≠ k := by rintro rfl; exact hnew hnj
      rcases addEdge_any a2 (by rw [a3]; exact hj') (by rw [a3]; exact hl') hjl with ⟨hex, b1⟩ | ⟨hnew2, g2, b1, b2, b3, b4, b5⟩
      · obtain ⟨g3, d1, d2, d3, _, d5, d6⟩ := removeEdge_edges a2 (i := n) (j := k) (by rw [a4]; simp)
        have de : g3.edges = e.graph.edges := by rw [d5, a4, Finset.erase_insert hnew]
        refine ⟨.error, g3, fun rest => ?_, keep d2 (by rw [d3, a3]) de, ?_⟩
        · unfold Config.mStep
          simp only [dv rest, Vec.idx_of_lt vn, Vec.idx_of_lt vk, Res.ok_bind, cn rest, ck rest, hc, if_false, a1, b1, d1, unwrapOk]
          rfl
        · have : s(a, b) ∈ e.graph.edges := by
            rw [a4, Finset.mem_insert, Sym2.eq_iff] at hex
            rcases hex with hex | hex
            · omega
            · exact hex
          unfold exchanged
          rw [if_pos (.inr (.inr (.inr this)))]
          exact de
      · obtain ⟨g3, d1, d2, d3, _, d5, d6⟩ := removeEdge_edges b2 (i := n) (j := a) (by rw [b4, a4]; simp [hnj])
        obtain ⟨g4, f1, f2, f3, _, f5, f6⟩ := removeEdge_edges d2 (i := k) (j := b) (by
          rw [d5, b4, a4, Finset.mem_erase]
          refine ⟨?_, Finset.mem_insert_of_mem (Finset.mem_insert_of_mem hkl)⟩
          rw [Ne, Sym2.eq_iff]; omega)
        have hjl' : s(a, b) ∉ e.graph.edges := fun hc => hnew2 (by rw [a4]; exact Finset.mem_insert_of_mem hc)
        have hsw : Config.Swapped e.graph g4 n a k b :=
          ⟨hnj, hkl, hnew, hjl', hab, hjl, by rw [f5, d5, b4, a4]⟩
        refine ⟨.added (n, a) (k, b), g4, fun rest => ?_, fun rng => h.of_graph f2 (by rw [f3, d3, b3, a3]) (hsw.deg h.wf f2), ?_⟩
        · unfold Config.mStep
          simp only [dv rest, Vec.idx_of_lt vn, Vec.idx_of_lt vk, Res.ok_bind, cn rest, ck rest, hc, if_false, a1, b1, d1, f1, unwrapOk]
          rfl
        · unfold exchanged
          rw [if_neg (by simp only [not_or]; exact ⟨hab, hjl, hnew, hjl'⟩)]
          exact hsw.edges

/-! ## Irreducibility -/

theorem Config.Inv.mem_backup {e : Config T Script} (h : e.Inv) {v w : Nat} (hv : s(v, w) ∈ e.graph.edges) : v ∈ e.backup := by
  rw [h.wf.mem_edges] at hv
  have h0 := List.length_pos_of_mem hv
  have hlt : v < e.graph.nextId := (h.wf.mem_lt (h.wf.mem_edges.mpr hv)).1
  have h1 := ((degreeVec_eq_iff h.wf e.degreeVec).mp h.deg).2 v hlt
  rw [← List.count_pos_iff, h.halves v, ← h1]
  exact h0

theorem Config.Base.withRng {e : Config T Script} (h : e.Base) (r : Script) : ({ e with rng := r } : Config T Script).Base :=
  ⟨h.wf, h.n, h.halves⟩

/-- Every two edges that start at different vertices are chosen for suitable draws. -/
theorem Config.mStep_of_edges {e : Config T Script} (h : e.Inv) {n j k l : ℕ} (hnj : s(n, j) ∈ e.graph.edges)
    (hkl : s(k, l) ∈ e.graph.edges) (hnk : n ≠ k) (fuel : Nat) :
    ∃ (d : List Nat) (s : ConfigStep) (g : Graph T),
      (∀ rest, Config.mStep (fuel + 1) ({ e with rng := ⟨d ++ rest⟩ } : Config T Script) =
        .ok (s, { e with graph := g, rng := ⟨rest⟩ })) ∧
      (∀ rng, ({ e with graph := g, rng := rng } : Config T Script).Inv) ∧ g.edges = exchanged e.graph.edges n j k l := by
  obtain ⟨i, hi, hni⟩ := List.getElem_of_mem (h.mem_backup hnj)
  obtain ⟨i', hi', hki⟩ := List.getElem_of_mem (h.mem_backup hkl)
  have hii : i ≠ i' := by rintro rfl; exact hnk (hni.symm.trans hki)
  have hj : (if i' < i then i' else i' - 1) < e.backup.length - 1 := by split <;> omega
  have hsp : secondPos (i, if i' < i then i' else i' - 1) = i' := by
    unfold secondPos
    by_cases hc : i' < i
    · simp [hc]
    · simp only [hc, if_false]
      rw [if_neg (by omega)]; omega
  have gn : e.backup.getD i 0 = n := by simp only [List.getD, hi, List.getElem?_eq_getElem, Option.getD_some]; exact hni
  have gk : e.backup.getD i' 0 = k := by simp only [List.getD, hi', List.getElem?_eq_getElem, Option.getD_some]; exact hki
  obtain ⟨u, hu, huj⟩ := List.getElem_of_mem (h.wf.mem_edges.mp hnj)
  obtain ⟨v, hv, hvl⟩ := List.getElem_of_mem (h.wf.mem_edges.mp hkl)
  obtain ⟨s, g, a1, a2, a6⟩ := Config.mStep_script h fuel hi hj (by rw [hsp, gn, gk]; exact hnk)
    (u := u) (v := v) (by rw [gn]; exact hu) (by rw [hsp, gk]; exact hv)
  refine ⟨[i, if i' < i then i' else i' - 1, u, v], s, g, a1, a2, ?_⟩
  rw [a6]
  simp only [hsp, gn, gk, huj, hvl]

/-- Every switch is the result of one step for suitable draws. -/
theorem Config.mStep_of_switch {e : Config T Script} (h : e.Inv) {F : Finset (Sym2 ℕ)} {n j k l : ℕ}
    (hs : Switch.SwAt e.graph.edges F n j k l) (fuel : Nat) :
    ∃ (d : List Nat) (s : ConfigStep) (g : Graph T),
      (∀ rest, Config.mStep (fuel + 1) ({ e with rng := ⟨d ++ rest⟩ } : Config T Script) =
        .ok (s, { e with graph := g, rng := ⟨rest⟩ })) ∧
      (∀ rng, ({ e with graph := g, rng := rng } : Config T Script).Inv) ∧ g.edges = F := by
  have hne : e.graph.edges ≠ F := by
    intro hc
    have : s(n, k) ∈ F := by rw [hs.mem]; simp
    exact hs.nk (hc ▸ this)
  rw [← (exchanged_of (WF.loopless h.wf) hs.nj hs.kl hne).mpr hs]
  exact Config.mStep_of_edges h hs.nj hs.kl hs.d2 fuel

theorem nb_edges {g : Graph T} (h : g.WF) (v : Nat) : (Switch.nb g.edges v).card = (g.nbrs v).length := by
  have : Switch.nb g.edges v = (g.nbrs v).toFinset := by
    ext w
    rw [Switch.mem_nb, List.mem_toFinset, h.mem_edges]
  rw [this, List.toFinset_card_of_nodup (h.nodup v)]

/-- **The chain of the configuration model is irreducible**: from every valid state every graph with the prescribed degrees is
reached by some number of steps for suitable draws (with any bound on the number of redraws per step). -/
theorem C56_config_irreducible {e : Config T Script} (h : e.Inv) {g : Graph T} (hg : Realises g e.degreeVec) (fuel : Nat) :
    ∃ k draws steps e', mSteps (Config.mStep (fuel + 1)) k ({ e with rng := ⟨draws⟩ } : Config T Script) = .ok (steps, e') ∧
      e'.Inv ∧ e'.graph.edges = g.edges := by
  obtain ⟨hw, hd⟩ := realises_iff.mp hg
  have hreach : Switch.Reach e.graph.edges g.edges := by
    apply Switch.connected _ rfl (WF.loopless h.wf) (WF.loopless hw)
    intro w
    rw [nb_edges h.wf, nb_edges hw]
    obtain ⟨l1, d1⟩ := (degreeVec_eq_iff h.wf e.degreeVec).mp h.deg
    obtain ⟨l2, d2⟩ := (degreeVec_eq_iff hw e.degreeVec).mp hd
    by_cases hlt : w < e.degreeVec.length
    · rw [d1 w (by rw [l1]; exact hlt), d2 w (by rw [l2]; exact hlt)]
    · rw [nbrs_of_ge (by rw [h.wf.len, l1]; omega), nbrs_of_ge (by rw [hw.len, l2]; omega)]
  clear hg hw hd
  generalize hE : e.graph.edges = E at hreach
  induction hreach using Relation.ReflTransGen.head_induction_on generalizing e with
  | refl => exact ⟨0, [], [], _, rfl, ⟨h.toBase.withRng ⟨[]⟩, h.deg⟩, hE⟩
  | head h1 _ ih =>
    obtain ⟨n, j, k, l, h1⟩ := h1
    rw [← hE] at h1
    obtain ⟨d, s, g1, a1, a2, a3⟩ := Config.mStep_of_switch h h1 fuel
    obtain ⟨m, draws, steps, e', b1, b2, b3⟩ := ih (e := ({ e with graph := g1 } : Config T Script)) (a2 e.rng) a3
    refine ⟨m + 1, d ++ draws, s :: steps, e', ?_, b2, b3⟩
    unfold mSteps
    rw [a1 draws]
    simp only [Res.ok_bind]
    have b1' : mSteps (Config.mStep (fuel + 1)) m ({ e with graph := g1, rng := ⟨draws⟩ } : Config T Script) = .ok (steps, e') := b1
    rw [b1']
    rfl

/-! ## Detailed balance -/

/-- The degree of the vertex at a position of the vector of halves. -/
def Config.degAt (e : Config T Script) (pos : ℕ) : ℕ := e.degreeVec.getD (e.backup.getD pos 0) 0

/-- The weight of the transition from the present graph to the edges `S` in one round of `m_step`: the two positions (`d.1`, `d.2`)
in the vector of halves are equally likely; given them, each of the pairs of adjacent vertices is equally likely.  A round that
draws the same vertex twice is repeated by the code and contributes nothing here (`mStep 1` does not return then). -/
noncomputable def Config.stepWeight (e : Config T Script) (S : Finset (Sym2 ℕ)) : ℚ :=
  open Classical in
  ∑ d ∈ Finset.range e.backup.length ×ˢ Finset.range (e.backup.length - 1),
    (((Finset.range (e.degAt d.1) ×ˢ Finset.range (e.degAt (secondPos d))).filter (fun c =>
      ∃ s e', Config.mStep 1 ({ e with rng := ⟨[d.1, d.2, c.1, c.2]⟩ } : Config T Script) = .ok (s, e') ∧ e'.graph.edges = S)).card : ℚ) /
      (e.degAt d.1 * e.degAt (secondPos d))

/-- The number of equally likely draws of two positions with different vertices. -/
def Config.rounds (e : Config T Script) : ℕ :=
  ((Finset.range e.backup.length ×ˢ Finset.range (e.backup.length - 1)).filter (fun d =>
    e.backup.getD d.1 0 ≠ e.backup.getD (secondPos d) 0)).card

/-- Sum over two different positions. -/
theorem sum_draws (n : ℕ) (F : ℕ → ℕ → ℚ) (hF : ∀ i, F i i = 0) :
    ∑ d ∈ Finset.range n ×ˢ Finset.range (n - 1), F d.1 (secondPos d) = ∑ i ∈ Finset.range n, ∑ j ∈ Finset.range n, F i j := by
  rw [Finset.sum_product]
  apply Finset.sum_congr rfl
  intro i hi
  rw [Finset.mem_range] at hi
  rw [← Finset.sum_erase (Finset.range n) (hF i)]
  apply Finset.sum_nbij (fun j => secondPos (i, j))
  · intro j hj
    rw [Finset.mem_range] at hj
    rw [Finset.mem_erase, Finset.mem_range]
    refine ⟨?_, secondPos_lt hi hj⟩
    unfold secondPos; simp only; split <;> omega
  · intro j _ j' _ h
    unfold secondPos at h
    simp only at h
    split at h <;> split at h <;> omega
  · intro j hj
    rw [Finset.mem_coe, Finset.mem_erase, Finset.mem_range] at hj
    refine ⟨if j < i then j else j - 1, ?_, ?_⟩
    · rw [Finset.mem_coe, Finset.mem_range]; split <;> omega
    · unfold secondPos
      by_cases hc : j < i
      · simp [hc]
      · simp only [hc, if_false]; rw [if_neg (by omega)]; omega
  · intro j _; rfl

/-- Sum over positions of a list as a sum over its values. -/
theorem sum_positions (l : List ℕ) (n : ℕ) (hl : ∀ v ∈ l, v < n) (f : ℕ → ℚ) :
    ∑ i ∈ Finset.range l.length, f (l.getD i 0) = ∑ a ∈ Finset.range n, (l.count a : ℚ) * f a := by
  induction l with
  | nil => simp
  | cons x l ih =>
    rw [List.length_cons, Finset.sum_range_succ']
    simp only [List.getD_cons_succ, List.getD_cons_zero]
    rw [ih (fun v hv => hl v (List.mem_cons_of_mem _ hv))]
    have hx : x ∈ Finset.range n := Finset.mem_range.mpr (hl x (by simp))
    rw [← Finset.add_sum_erase _ _ hx, ← Finset.add_sum_erase (a := x) _ (fun a => ((x :: l).count a : ℚ) * f a) hx]
    rw [List.count_cons_self]
    have : ∑ a ∈ (Finset.range n).erase x, ((x :: l).count a : ℚ) * f a = ∑ a ∈ (Finset.range n).erase x, (l.count a : ℚ) * f a := by
      apply Finset.sum_congr rfl
      intro a ha
      rw [List.count_cons_of_ne (Finset.ne_of_mem_erase ha).symm]
    rw [this]
    push_cast
    ring

open Classical in
/-- The pairs of oriented edges (starting at `a` and `b`) whose exchange leads to `S`. -/
noncomputable def partners (n : ℕ) (E S : Finset (Sym2 ℕ)) (a b : ℕ) : Finset (ℕ × ℕ) :=
  (Finset.range n ×ˢ Finset.range n).filter (fun c => a ≠ b ∧ s(a, c.1) ∈ E ∧ s(b, c.2) ∈ E ∧ exchanged E a c.1 b c.2 = S)

theorem Config.mStep_diverge {e : Config T Script} {i j : Nat} (rest : List Nat) (hi : i < e.backup.length)
    (hj : j < e.backup.length - 1) (hab : e.backup.getD i 0 = e.backup.getD (secondPos (i, j)) 0) :
    Config.mStep 1 ({ e with rng := ⟨i :: j :: rest⟩ } : Config T Script) = .diverge := by
  unfold Config.mStep
  simp only
  rw [drawVertices_script 0 _ hi hj, if_pos hab]
  rfl

theorem Config.Inv.nbrs_length {e : Config T Script} (h : e.Inv) (v : ℕ) : (e.graph.nbrs v).length = e.degreeVec.getD v 0 := by
  obtain ⟨l1, d1⟩ := (degreeVec_eq_iff h.wf e.degreeVec).mp h.deg
  by_cases hlt : v < e.degreeVec.length
  · exact d1 v (by rw [l1]; exact hlt)
  · rw [nbrs_of_ge (by rw [h.wf.len, l1]; omega), getD_ge (by omega)]; rfl

theorem Config.round_card {e : Config T Script} (h : e.Inv) (S : Finset (Sym2 ℕ)) {d : ℕ × ℕ} (h1 : d.1 < e.backup.length)
    (h2 : d.2 < e.backup.length - 1) :
    (open Classical in ((Finset.range (e.degAt d.1) ×ˢ Finset.range (e.degAt (secondPos d))).filter (fun c =>
      ∃ s e', Config.mStep 1 ({ e with rng := ⟨[d.1, d.2, c.1, c.2]⟩ } : Config T Script) = .ok (s, e') ∧ e'.graph.edges = S)).card) =
    (partners e.graph.nextId e.graph.edges S (e.backup.getD d.1 0) (e.backup.getD (secondPos d) 0)).card := by
  classical
  obtain ⟨i, j⟩ := d
  simp only at h1 h2 ⊢
  have hda : e.degAt i = (e.graph.nbrs (e.backup.getD i 0)).length := by rw [h.nbrs_length]; rfl
  have hdb : e.degAt (secondPos (i, j)) = (e.graph.nbrs (e.backup.getD (secondPos (i, j)) 0)).length := by
    rw [h.nbrs_length]; rfl
  by_cases hab : e.backup.getD i 0 = e.backup.getD (secondPos (i, j)) 0
  · rw [Finset.card_eq_zero.mpr, Finset.card_eq_zero.mpr]
    · rw [Finset.eq_empty_iff_forall_notMem]
      intro c hc
      unfold partners at hc
      exact (Finset.mem_filter.mp hc).2.1 hab
    · rw [Finset.eq_empty_iff_forall_notMem]
      intro c hc
      obtain ⟨s, e', h3, _⟩ := (Finset.mem_filter.mp hc).2
      rw [Config.mStep_diverge _ h1 h2 hab] at h3
      simp at h3
  · have hkey : ∀ u v (hu : u < e.degAt i) (hv : v < e.degAt (secondPos (i, j))),
        (∃ s e', Config.mStep 1 ({ e with rng := ⟨[i, j, u, v]⟩ } : Config T Script) = .ok (s, e') ∧ e'.graph.edges = S) ↔
        exchanged e.graph.edges (e.backup.getD i 0) ((e.graph.nbrs (e.backup.getD i 0))[u]'(hda ▸ hu))
          (e.backup.getD (secondPos (i, j)) 0) ((e.graph.nbrs (e.backup.getD (secondPos (i, j)) 0))[v]'(hdb ▸ hv)) = S := by
      intro u v hu hv
      obtain ⟨s, g, a1, _, a3⟩ := Config.mStep_script h 0 h1 h2 hab (u := u) (v := v) (hda ▸ hu) (hdb ▸ hv)
      rw [← a3, show Config.mStep 1 ({ e with rng := ⟨[i, j, u, v]⟩ } : Config T Script) = _ from a1 []]
      constructor
      · rintro ⟨s', e', h3, h4⟩
        simp only [Res.ok.injEq, Prod.mk.injEq] at h3
        rw [← h4, ← h3.2]
      · intro h4
        exact ⟨_, _, rfl, h4⟩
    generalize hn : e.backup.getD i 0 = n at *
    generalize hk : e.backup.getD (secondPos (i, j)) 0 = k at *
    apply Finset.card_bij' (fun c _ => ((e.graph.nbrs n).getD c.1 0, (e.graph.nbrs k).getD c.2 0))
      (fun c _ => ((e.graph.nbrs n).idxOf c.1, (e.graph.nbrs k).idxOf c.2))
    · rintro ⟨u, v⟩ hc
      rw [Finset.mem_filter, Finset.mem_product, Finset.mem_range, Finset.mem_range] at hc
      obtain ⟨⟨hu, hv⟩, hc⟩ := hc
      simp only at hu hv hc
      rw [hkey u v hu hv] at hc
      rw [hda] at hu
      rw [hdb] at hv
      simp only [partners, Finset.mem_filter, Finset.mem_product, Finset.mem_range, List.getD, hu, hv, List.getElem?_eq_getElem,
        Option.getD_some]
      have e1 : s(n, (e.graph.nbrs n)[u]) ∈ e.graph.edges := by rw [h.wf.mem_edges]; exact List.getElem_mem _
      have e2 : s(k, (e.graph.nbrs k)[v]) ∈ e.graph.edges := by rw [h.wf.mem_edges]; exact List.getElem_mem _
      exact ⟨⟨(h.wf.mem_lt e1).2.1, (h.wf.mem_lt e2).2.1⟩, hab, e1, e2, hc⟩
    · rintro ⟨x, y⟩ hc
      simp only [partners, Finset.mem_filter, Finset.mem_product, Finset.mem_range] at hc
      obtain ⟨_, _, e1, e2, hc⟩ := hc
      rw [h.wf.mem_edges] at e1 e2
      have hu := List.idxOf_lt_length_of_mem e1
      have hv := List.idxOf_lt_length_of_mem e2
      rw [Finset.mem_filter, Finset.mem_product, Finset.mem_range, Finset.mem_range]
      refine ⟨⟨by rw [hda]; exact hu, by rw [hdb]; exact hv⟩, ?_⟩
      simp only
      rw [hkey _ _ (by rw [hda]; exact hu) (by rw [hdb]; exact hv)]
      simp only [List.getElem_idxOf]
      exact hc
    · rintro ⟨u, v⟩ hc
      rw [Finset.mem_filter, Finset.mem_product, Finset.mem_range, Finset.mem_range] at hc
      obtain ⟨⟨hu, hv⟩, hc⟩ := hc
      simp only at hu hv
      rw [hda] at hu
      rw [hdb] at hv
      simp only [List.getD, hu, hv, List.getElem?_eq_getElem, Option.getD_some, Prod.mk.injEq]
      exact ⟨List.Nodup.idxOf_getElem (h.wf.nodup n) _ hu, List.Nodup.idxOf_getElem (h.wf.nodup k) _ hv⟩
    · rintro ⟨x, y⟩ hc
      simp only [partners, Finset.mem_filter, Finset.mem_product, Finset.mem_range] at hc
      obtain ⟨_, _, e1, e2, hc⟩ := hc
      rw [h.wf.mem_edges] at e1 e2
      have hu := List.idxOf_lt_length_of_mem e1
      have hv := List.idxOf_lt_length_of_mem e2
      simp only [List.getD, hu, hv, List.getElem?_eq_getElem, Option.getD_some, List.getElem_idxOf]

theorem partners_diag (n : ℕ) (E S : Finset (Sym2 ℕ)) (a : ℕ) : (partners n E S a a).card = 0 := by
  rw [Finset.card_eq_zero, Finset.eq_empty_iff_forall_notMem]
  intro c hc
  unfold partners at hc
  exact (Finset.mem_filter.mp hc).2.1 rfl

theorem Config.stepWeight_eq {e : Config T Script} (h : e.Inv) (S : Finset (Sym2 ℕ)) :
    Config.stepWeight e S = ∑ a ∈ Finset.range e.graph.nextId, ∑ b ∈ Finset.range e.graph.nextId,
      ((partners e.graph.nextId e.graph.edges S a b).card : ℚ) := by
  classical
  let f : ℕ → ℕ → ℚ := fun a b => ((partners e.graph.nextId e.graph.edges S a b).card : ℚ) /
    (e.degreeVec.getD a 0 * e.degreeVec.getD b 0)
  have h1 : Config.stepWeight e S = ∑ d ∈ Finset.range e.backup.length ×ˢ Finset.range (e.backup.length - 1),
      (fun i j => f (e.backup.getD i 0) (e.backup.getD j 0)) d.1 (secondPos d) := by
    unfold Config.stepWeight
    apply Finset.sum_congr rfl
    intro d hd
    rw [Finset.mem_product, Finset.mem_range, Finset.mem_range] at hd
    rw [Config.round_card h S hd.1 hd.2]
    rfl
  have hlt : ∀ v ∈ e.backup, v < e.graph.nextId := fun v hv => by rw [h.n]; exact h.halves.lt hv
  rw [h1, sum_draws e.backup.length (fun i j => f (e.backup.getD i 0) (e.backup.getD j 0)) (fun i => by simp [f, partners_diag])]
  have h2 : ∀ i, ∑ j ∈ Finset.range e.backup.length, f (e.backup.getD i 0) (e.backup.getD j 0) =
      ∑ b ∈ Finset.range e.graph.nextId, (e.backup.count b : ℚ) * f (e.backup.getD i 0) b :=
    fun i => sum_positions e.backup e.graph.nextId hlt (f (e.backup.getD i 0))
  simp only [h2]
  rw [sum_positions e.backup e.graph.nextId hlt (fun a => ∑ b ∈ Finset.range e.graph.nextId, (e.backup.count b : ℚ) * f a b)]
  apply Finset.sum_congr rfl
  intro a _
  rw [Finset.mul_sum]
  apply Finset.sum_congr rfl
  intro b _
  simp only [f, h.halves a, h.halves b]
  by_cases hz : (partners e.graph.nextId e.graph.edges S a b).card = 0
  · rw [hz]; simp
  · obtain ⟨c, hc⟩ := Finset.card_pos.mp (Nat.pos_of_ne_zero hz)
    unfold partners at hc
    rw [Finset.mem_filter] at hc
    obtain ⟨_, _, e1, e2, _⟩ := hc
    rw [h.wf.mem_edges] at e1 e2
    have d1 := List.length_pos_of_mem e1
    have d2 := List.length_pos_of_mem e2
    rw [h.nbrs_length] at d1 d2
    have d1' : (e.degreeVec.getD a 0 : ℚ) ≠ 0 := by exact_mod_cast d1.ne'
    have d2' : (e.degreeVec.getD b 0 : ℚ) ≠ 0 := by exact_mod_cast d2.ne'
    field_simp

/-- All quadruples of vertices that switch `E` to `F`. -/
theorem partners_sum (n : ℕ) (E F : Finset (Sym2 ℕ)) :
    ∑ a ∈ Finset.range n, ∑ b ∈ Finset.range n, (partners n E F a b).card =
      (open Classical in (((Finset.range n ×ˢ Finset.range n) ×ˢ (Finset.range n ×ˢ Finset.range n)).filter (fun q =>
        q.1.1 ≠ q.1.2 ∧ s(q.1.1, q.2.1) ∈ E ∧ s(q.1.2, q.2.2) ∈ E ∧ exchanged E q.1.1 q.2.1 q.1.2 q.2.2 = F)).card) := by
  classical
  rw [Finset.card_filter, Finset.sum_product, Finset.sum_product]
  apply Finset.sum_congr rfl
  intro a _
  apply Finset.sum_congr rfl
  intro b _
  unfold partners
  rw [Finset.card_filter]

theorem partners_symm (n : ℕ) {E F : Finset (Sym2 ℕ)} (hE : Switch.Loopless E) (hF : Switch.Loopless F) :
    ∑ a ∈ Finset.range n, ∑ b ∈ Finset.range n, (partners n E F a b).card =
      ∑ a ∈ Finset.range n, ∑ b ∈ Finset.range n, (partners n F E a b).card := by
  classical
  by_cases hEF : E = F
  · rw [hEF]
  rw [partners_sum, partners_sum]
  have hmem : ∀ {A B : Finset (Sym2 ℕ)}, Switch.Loopless A → A ≠ B → ∀ a j b l,
      (a ≠ b ∧ s(a, j) ∈ A ∧ s(b, l) ∈ A ∧ exchanged A a j b l = B) ↔ Switch.SwAt A B a j b l := by
    intro A B hA hAB a j b l
    constructor
    · rintro ⟨_, h2, h3, h4⟩; exact (exchanged_of hA h2 h3 hAB).mp h4
    · intro h; exact ⟨h.d2, h.nj, h.kl, (exchanged_of hA h.nj h.kl hAB).mpr h⟩
  refine Finset.card_bij' (fun q _ => ((q.1.1, q.2.1), (q.1.2, q.2.2))) (fun q _ => ((q.1.1, q.2.1), (q.1.2, q.2.2))) ?_ ?_
    (fun _ _ => rfl) (fun _ _ => rfl)
  · rintro ⟨⟨a, b⟩, ⟨j, l⟩⟩ hq
    simp only [Finset.mem_filter, Finset.mem_product, Finset.mem_range, hmem hE hEF] at hq
    simp only [Finset.mem_filter, Finset.mem_product, Finset.mem_range, hmem hF (Ne.symm hEF)]
    exact ⟨⟨⟨hq.1.1.1, hq.1.2.1⟩, hq.1.1.2, hq.1.2.2⟩, hq.2.symm⟩
  · rintro ⟨⟨a, b⟩, ⟨j, l⟩⟩ hq
    simp only [Finset.mem_filter, Finset.mem_product, Finset.mem_range, hmem hF (Ne.symm hEF)] at hq
    simp only [Finset.mem_filter, Finset.mem_product, Finset.mem_range, hmem hE hEF]
    exact ⟨⟨⟨hq.1.1.1, hq.1.2.1⟩, hq.1.1.2, hq.1.2.2⟩, hq.2.symm⟩

theorem Config.rounds_eq {e : Config T Script} (h : e.Base) :
    (e.rounds : ℚ) = ∑ a ∈ Finset.range e.degreeVec.length, (e.degreeVec.getD a 0 : ℚ) *
      ∑ b ∈ Finset.range e.degreeVec.length, (e.degreeVec.getD b 0 : ℚ) * (if a ≠ b then 1 else 0) := by
  have hlt : ∀ v ∈ e.backup, v < e.degreeVec.length := fun v hv => h.halves.lt hv
  unfold Config.rounds
  rw [Finset.card_filter]
  push_cast
  rw [sum_draws _ (fun i j => if e.backup.getD i 0 ≠ e.backup.getD j 0 then (1 : ℚ) else 0) (fun i => by simp)]
  have h2 : ∀ i, ∑ j ∈ Finset.range e.backup.length, (if e.backup.getD i 0 ≠ e.backup.getD j 0 then (1 : ℚ) else 0) =
      ∑ b ∈ Finset.range e.degreeVec.length, (e.backup.count b : ℚ) * (if e.backup.getD i 0 ≠ b then 1 else 0) :=
    fun i => sum_positions e.backup e.degreeVec.length hlt (fun b => if e.backup.getD i 0 ≠ b then 1 else 0)
  simp only [h2]
  rw [sum_positions e.backup e.degreeVec.length hlt
    (fun a => ∑ b ∈ Finset.range e.degreeVec.length, (e.backup.count b : ℚ) * (if a ≠ b then 1 else 0))]
  simp only [h.halves _]

/-- **Detailed balance**: between any two graphs with the prescribed degrees the chain moves equally often in both directions, so
the uniform distribution is stationary.  The number of equally likely rounds is the same for both. -/
theorem C56_config_detailed_balance {e e' : Config T Script} (h : e.Inv) (h' : e'.Inv) (hd : e'.degreeVec = e.degreeVec) :
    Config.stepWeight e e'.graph.edges = Config.stepWeight e' e.graph.edges ∧ e.rounds = e'.rounds := by
  have hn : e'.graph.nextId = e.graph.nextId := by rw [h'.n, h.n, hd]
  refine ⟨?_, ?_⟩
  · rw [Config.stepWeight_eq h, Config.stepWeight_eq h', hn]
    exact_mod_cast partners_symm e.graph.nextId (WF.loopless h.wf) (WF.loopless h'.wf)
  · have h1 := Config.rounds_eq h.toBase
    have h2 := Config.rounds_eq h'.toBase
    rw [hd] at h2
    exact_mod_cast h1.trans h2.symm

/-- The weights of all possible outcomes add up to the number of rounds, so `stepWeight / rounds` are the transition
probabilities. -/
theorem C56_config_total_weight {e : Config T Script} (h : e.Inv) {A : Finset (Finset (Sym2 ℕ))}
    (hA : ∀ rng s e', Config.mStep 1 ({ e with rng := rng } : Config T Script) = .ok (s, e') → e'.graph.edges ∈ A) :
    ∑ S ∈ A, Config.stepWeight e S = e.rounds := by
  classical
  rw [Config.rounds_eq h.toBase]
  simp only [Config.stepWeight_eq h]
  rw [Finset.sum_comm, ← h.n]
  apply Finset.sum_congr rfl
  intro a _
  rw [Finset.sum_comm, Finset.mul_sum]
  apply Finset.sum_congr rfl
  intro b _
  by_cases hab : a = b
  · subst hab
    simp [partners_diag]
  · have hfib := Finset.card_eq_sum_card_fiberwise (s := ((Finset.range e.graph.nextId ×ˢ Finset.range e.graph.nextId).filter
      (fun c => s(a, c.1) ∈ e.graph.edges ∧ s(b, c.2) ∈ e.graph.edges))) (t := A)
      (f := fun c => exchanged e.graph.edges a c.1 b c.2) (by
        intro c hc
        have hc' := (Finset.mem_filter.mp (Finset.mem_coe.mp hc)).2
        obtain ⟨d, s, g, b1, _, b3⟩ := Config.mStep_of_edges h hc'.1 hc'.2 hab 0
        have := hA _ _ _ (b1 [])
        simp only at this
        rw [b3] at this
        exact this)
    have hcard : ((Finset.range e.graph.nextId ×ˢ Finset.range e.graph.nextId).filter
        (fun c => s(a, c.1) ∈ e.graph.edges ∧ s(b, c.2) ∈ e.graph.edges)).card =
        e.degreeVec.getD a 0 * e.degreeVec.getD b 0 := by
      rw [← h.nbrs_length, ← h.nbrs_length, ← nb_edges h.wf, ← nb_edges h.wf, ← Finset.card_product]
      congr 1
      ext c
      simp only [Finset.mem_filter, Finset.mem_product, Finset.mem_range, Switch.mem_nb, and_iff_right_iff_imp]
      rintro ⟨h1, h2⟩
      exact ⟨(h.wf.mem_lt h1).2.1, (h.wf.mem_lt h2).2.1⟩
    rw [hcard] at hfib
    rw [if_pos hab, mul_one]
    have hpart : ∀ S, (partners e.graph.nextId e.graph.edges S a b).card =
        (((Finset.range e.graph.nextId ×ˢ Finset.range e.graph.nextId).filter
        (fun c => s(a, c.1) ∈ e.graph.edges ∧ s(b, c.2) ∈ e.graph.edges)).filter
          (fun c => exchanged e.graph.edges a c.1 b c.2 = S)).card := by
      intro S
      unfold partners
      rw [Finset.filter_filter]
      congr 1
      ext c
      simp only [Finset.mem_filter]
      tauto
    simp only [hpart]
    exact_mod_cast hfib.symm

/-- The hypotheses are met by the path `0-1-2-3` and another realisation of its degrees. -/
example : (exConfigPath []).Inv ∧ ∃ e' : Config Nat Script, e'.Inv ∧ e'.degreeVec = (exConfigPath []).degreeVec ∧
    Realises e'.graph (exConfigPath []).degreeVec ∧ e'.graph.edges ≠ (exConfigPath []).graph.edges := by
  have hh : IsHalves [1, 2, 2, 1] [0, 1, 1, 2, 2, 3] := halves_init [1, 2, 2, 1]
  have hw : (exGraph 3 [[2], [2, 3], [0, 1], [1]]).WF := wf_of_check _ (fun _ _ => trivial) (by decide)
  refine ⟨exConfigPath_inv [], ⟨exGraph 3 [[2], [2, 3], [0, 1], [1]], [1, 2, 2, 1], ⟨[]⟩, [], [0, 1, 1, 2, 2, 3]⟩, ⟨⟨hw, rfl, hh⟩,
    show (exGraph 3 [[2], [2, 3], [0, 1], [1]]).degreeVec = [1, 2, 2, 1] by decide⟩, rfl, ?_, ?_⟩
  · exact realises_iff.mpr ⟨hw, by decide⟩
  · show (exGraph 3 [[2], [2, 3], [0, 1], [1]]).edges ≠ exPath.edges
    decide

end Verif
