import Verif.Lemmas.Lump
import Verif.Lemmas.Indep
import Verif.Props.ConfigBalance
import Mathlib.Data.Finset.Powerset
import Mathlib.Data.Finset.Sigma

/-!
# C66, continued: the chain of the configuration model converges
-/

set_option linter.unusedSectionVars false
set_option linter.unusedSimpArgs false

namespace Verif
open AdjContainer GenericGraph

variable {T : Type}

/-- The draws of the round of `m_step` that is not repeated: two positions in the vector of halves with different vertices, and an
adjacent vertex of each of the two. -/
def Config.stepDraws (e : Config T Script) : Finset (Σ _ : ℕ × ℕ, ℕ × ℕ) :=
  ((Finset.range e.backup.length ×ˢ Finset.range (e.backup.length - 1)).filter (fun d =>
    e.backup.getD d.1 0 ≠ e.backup.getD (secondPos d) 0)).sigma
    (fun d => Finset.range (e.degAt d.1) ×ˢ Finset.range (e.degAt (secondPos d)))

/-- Their probabilities: the pairs of positions are equally likely, and then the adjacent vertices. -/
def Config.stepProb (e : Config T Script) (d : Σ _ : ℕ × ℕ, ℕ × ℕ) : ℚ :=
  1 / e.rounds * (1 / e.degAt d.1.1) * (1 / e.degAt (secondPos d.1))

/-- The state after one `m_step` with the given draws. -/
def Config.stepWith (e : Config T Script) (d : Σ _ : ℕ × ℕ, ℕ × ℕ) : Res (Config T Script) := do
  let (_, e') ← Config.mStep 1 ({ e with rng := ⟨[d.1.1, d.1.2, d.2.1, d.2.2]⟩ } : Config T Script)
  return e'

theorem Config.stepWith_eq_ok {e e' : Config T Script} {d : Σ _ : ℕ × ℕ, ℕ × ℕ} : e.stepWith d = .ok e' ↔
    ∃ s, Config.mStep 1 ({ e with rng := ⟨[d.1.1, d.1.2, d.2.1, d.2.2]⟩ } : Config T Script) = .ok (s, e') := by
  unfold Config.stepWith
  constructor
  · intro h
    simp only [Res.bind_eq_ok, Prod.exists, Res.pure_eq, Res.ok.injEq] at h
    obtain ⟨s, e'', k1, rfl⟩ := h
    exact ⟨s, k1⟩
  · rintro ⟨s, h⟩
    rw [h]; rfl

theorem Config.mem_stepDraws {e : Config T Script} {i j u v : ℕ} : (⟨(i, j), (u, v)⟩ : Σ _ : ℕ × ℕ, ℕ × ℕ) ∈ e.stepDraws ↔
    i < e.backup.length ∧ j < e.backup.length - 1 ∧ e.backup.getD i 0 ≠ e.backup.getD (secondPos (i, j)) 0 ∧ u < e.degAt i ∧
      v < e.degAt (secondPos (i, j)) := by
  simp only [Config.stepDraws, Finset.mem_sigma, Finset.mem_filter, Finset.mem_product, Finset.mem_range, and_assoc]

theorem Config.degAt_pos {e : Config T Script} (h : e.Base) {i : ℕ} (hi : i < e.backup.length) : 0 < e.degAt i := by
  unfold Config.degAt
  rw [← h.halves, List.count_pos_iff]
  simp only [List.getD, hi, List.getElem?_eq_getElem, Option.getD_some]
  exact List.getElem_mem _

theorem Config.pr_eq {e : Config T Script} (h : e.Inv) (S : Finset (Sym2 ℕ)) :
    Markov.pr Config.stepDraws Config.stepProb Config.stepWith (fun e => e.graph.edges) e S = Config.stepWeight e S / e.rounds := by
  classical
  unfold Markov.pr Config.stepDraws Config.stepWeight
  rw [Finset.sum_filter, Finset.sum_sigma, Finset.sum_div]
  rw [Finset.sum_filter]
  refine Finset.sum_congr rfl (fun d hd => ?_)
  rw [Finset.mem_product, Finset.mem_range, Finset.mem_range] at hd
  split
  · rename_i hne
    have hcond : ∀ c : ℕ × ℕ, (∃ e', e.stepWith ⟨d, c⟩ = .ok e' ∧ e'.graph.edges = S) ↔
        ∃ s e', Config.mStep 1 ({ e with rng := ⟨[d.1, d.2, c.1, c.2]⟩ } : Config T Script) = .ok (s, e') ∧ e'.graph.edges = S := by
      intro c
      constructor
      · rintro ⟨e', k1, k2⟩
        obtain ⟨s, k⟩ := Config.stepWith_eq_ok.mp k1
        exact ⟨s, e', k, k2⟩
      · rintro ⟨s, e', k1, k2⟩
        exact ⟨e', Config.stepWith_eq_ok.mpr ⟨s, k1⟩, k2⟩
    simp only [hcond]
    simp only [Config.stepProb]
    rw [← Finset.sum_filter, Finset.sum_const, nsmul_eq_mul]
    have p1 : (e.degAt d.1 : ℚ) ≠ 0 := by exact_mod_cast (Config.degAt_pos h.toBase hd.1).ne'
    have p2 : (e.degAt (secondPos d) : ℚ) ≠ 0 := by
      exact_mod_cast (Config.degAt_pos h.toBase (secondPos_lt hd.1 hd.2)).ne'
    rw [div_div, mul_comm (e.degAt d.1 * e.degAt (secondPos d) : ℚ)]
    simp only [one_div, div_eq_mul_inv, mul_inv]
    ring
  · rename_i hne
    rw [not_not] at hne
    rw [Config.round_card h S hd.1 hd.2, hne, partners_diag]
    simp

theorem Config.rounds_pos {e : Config T Script} (h : e.Inv) (he : 0 < e.graph.edgeCount) : 0 < e.rounds ∧
    ∃ a b, s(a, b) ∈ e.graph.edges := by
  rw [h.wf.edgeCount_eq_card] at he
  obtain ⟨x, hx⟩ := Finset.card_pos.mp he
  induction x using Sym2.ind with
  | _ a b =>
    refine ⟨?_, a, b, hx⟩
    obtain ⟨i, hi, hai⟩ := List.getElem_of_mem (h.mem_backup hx)
    obtain ⟨i', hi', hbi⟩ := List.getElem_of_mem (h.mem_backup (Sym2.eq_swap ▸ hx : s(b, a) ∈ e.graph.edges))
    have hab : a ≠ b := (h.wf.mem_lt hx).2.2
    have hii : i ≠ i' := by rintro rfl; exact hab (hai.symm.trans hbi)
    have hj : (if i' < i then i' else i' - 1) < e.backup.length - 1 := by split <;> omega
    have hsp : secondPos (i, if i' < i then i' else i' - 1) = i' := by
      unfold secondPos
      by_cases hc : i' < i
      · simp [hc]
      · simp only [hc, if_false]
        rw [if_neg (by omega)]; omega
    unfold Config.rounds
    refine Finset.card_pos.mpr ⟨(i, if i' < i then i' else i' - 1), ?_⟩
    rw [Finset.mem_filter, Finset.mem_product, Finset.mem_range, Finset.mem_range, hsp]
    refine ⟨⟨hi, hj⟩, ?_⟩
    simp only [List.getD, hi, hi', List.getElem?_eq_getElem, Option.getD_some]
    rw [hai, hbi]; exact hab

/-- Every two edges that start at different vertices are drawn with positive probability. -/
theorem Config.possible_exchange {V : Config T Script → Prop} {e : Config T Script} (he : V e) (h : e.Inv) {n j k l : ℕ}
    (hnj : s(n, j) ∈ e.graph.edges) (hkl : s(k, l) ∈ e.graph.edges) (hnk : n ≠ k) :
    Markov.Possible V Config.stepDraws Config.stepWith (fun e => e.graph.edges) e.graph.edges (exchanged e.graph.edges n j k l) := by
  obtain ⟨i, hi, hni⟩ := List.getElem_of_mem (h.mem_backup hnj)
  obtain ⟨i', hi', hki⟩ := List.getElem_of_mem (h.mem_backup hkl)
  have hii : i ≠ i' := by rintro rfl; exact hnk (hni.symm.trans hki)
  have hj : (if i' < i then i' else i' - 1) < e.backup.length - 1 := by split <;> omega
  have hsp : secondPos (i, if i' < i then i' else i' - 1) = i' := by
    unfold secondPos
    by_cases hc : i' < i
    · simp [hc]
    · simp only [hc, if_false]
      rw [if_neg (by omega)]; omega
  have gn : e.backup.getD i 0 = n := by simp only [List.getD, hi, List.getElem?_eq_getElem, Option.getD_some]; exact hni
  have gk : e.backup.getD i' 0 = k := by simp only [List.getD, hi', List.getElem?_eq_getElem, Option.getD_some]; exact hki
  obtain ⟨u, hu, huj⟩ := List.getElem_of_mem (h.wf.mem_edges.mp hnj)
  obtain ⟨v, hv, hvl⟩ := List.getElem_of_mem (h.wf.mem_edges.mp hkl)
  obtain ⟨s, g, a1, a2, a6⟩ := Config.mStep_script h 0 hi hj (by rw [hsp, gn, gk]; exact hnk)
    (u := u) (v := v) (by rw [gn]; exact hu) (by rw [hsp, gk]; exact hv)
  refine ⟨e, he, rfl, ⟨(i, if i' < i then i' else i' - 1), (u, v)⟩, ?_, _, Config.stepWith_eq_ok.mpr ⟨s, a1 []⟩, ?_⟩
  · rw [Config.mem_stepDraws]
    refine ⟨hi, hj, by rw [hsp, gn, gk]; exact hnk, ?_, ?_⟩
    · unfold Config.degAt; rw [gn, ← h.nbrs_length]; exact hu
    · unfold Config.degAt; rw [hsp, gk, ← h.nbrs_length]; exact hv
  · show g.edges = _
    rw [a6]
    simp only [hsp, gn, gk, huj, hvl]

/-- Two graphs with the same degrees are connected by switches. -/
theorem switch_reach {g g' : Graph T} {ds : List ℕ} (h : Realises g ds) (h' : Realises g' ds) : Switch.Reach g.edges g'.edges := by
  obtain ⟨hw, hd⟩ := realises_iff.mp h
  obtain ⟨hw', hd'⟩ := realises_iff.mp h'
  apply Switch.connected _ rfl (WF.loopless hw) (WF.loopless hw')
  intro w
  rw [nb_edges hw, nb_edges hw']
  obtain ⟨l1, d1⟩ := (degreeVec_eq_iff hw ds).mp hd
  obtain ⟨l2, d2⟩ := (degreeVec_eq_iff hw' ds).mp hd'
  by_cases hlt : w < ds.length
  · rw [d1 w (by rw [l1]; exact hlt), d2 w (by rw [l2]; exact hlt)]
  · rw [nbrs_of_ge (by rw [hw.len, l1]; omega), nbrs_of_ge (by rw [hw'.len, l2]; omega)]

open Classical in
/-- The edge sets of the graphs with the given degrees. -/
noncomputable def configStates (T : Type) (ds : List ℕ) : Finset (Finset (Sym2 ℕ)) :=
  ((pairSet ds.length).powerset).filter (fun S => ∃ g : Graph T, Realises g ds ∧ g.edges = S)

theorem mem_configStates {ds : List ℕ} {S : Finset (Sym2 ℕ)} :
    S ∈ configStates T ds ↔ ∃ g : Graph T, Realises g ds ∧ g.edges = S := by
  classical
  unfold configStates
  rw [Finset.mem_filter, Finset.mem_powerset, and_iff_right_iff_imp]
  rintro ⟨g, g1, rfl⟩
  rw [← show g.nextId = ds.length from g1.2.1]
  exact edges_sub_pairSet g1.1

theorem Config.ergodic {ds : List ℕ} (hpos : ∃ d ∈ ds, 0 < d) {e₀ : Config T Script} (w₀ : e₀.Inv) (d₀ : e₀.degreeVec = ds) :
    Markov.Ergodic (fun e : Config T Script => e.Inv ∧ e.degreeVec = ds) Config.stepDraws Config.stepProb Config.stepWith
      (fun e => e.graph.edges) (configStates T ds) (fun _ => 1) := by
  classical
  let Ω := configStates T ds
  have hΩ : ∀ S, S ∈ Ω ↔ ∃ g : Graph T, Realises g ds ∧ g.edges = S := fun S => mem_configStates
  let V : Config T Script → Prop := fun e => e.Inv ∧ e.degreeVec = ds
  let obs : Config T Script → Finset (Sym2 ℕ) := fun e => e.graph.edges
  have hreal : ∀ e, V e → Realises e.graph ds := by
    rintro e ⟨h1, h2⟩
    exact realises_iff.mpr ⟨h1.wf, h1.deg.trans h2⟩
  have hstate : ∀ g : Graph T, Realises g ds → V { e₀ with graph := g } := by
    intro g hg
    obtain ⟨g1, g2⟩ := realises_iff.mp hg
    refine ⟨⟨⟨g1, ?_, w₀.halves⟩, g2.trans d₀.symm⟩, d₀⟩
    show g.nextId = e₀.degreeVec.length
    rw [d₀]
    exact hg.2.1
  have hedge : ∀ e, V e → 0 < e.graph.edgeCount := by
    rintro e ⟨h1, h2⟩
    obtain ⟨d, hd, hd0⟩ := hpos
    rw [← h2] at hd
    obtain ⟨v, hv, rfl⟩ := List.getElem_of_mem hd
    have : 0 < (e.graph.nbrs v).length := by
      rw [h1.nbrs_length]
      simpa [List.getD, hv] using hd0
    obtain ⟨w, hw⟩ := List.exists_mem_of_length_pos this
    rw [h1.wf.edgeCount_eq_card]
    exact Finset.card_pos.mpr ⟨s(v, w), h1.wf.mem_edges.mpr hw⟩
  have hbal : ∀ e e', V e → V e' → Markov.pr Config.stepDraws Config.stepProb Config.stepWith obs e (obs e') =
      Markov.pr Config.stepDraws Config.stepProb Config.stepWith obs e' (obs e) := by
    rintro e e' ⟨h1, h2⟩ ⟨h1', h2'⟩
    obtain ⟨b1, b2⟩ := C56_config_detailed_balance h1 h1' (h2'.trans h2.symm)
    rw [Config.pr_eq h1, Config.pr_eq h1', b2]
    show Config.stepWeight e e'.graph.edges / _ = Config.stepWeight e' e.graph.edges / _
    rw [b1]
  have hl : Markov.LumpedW V Config.stepDraws Config.stepProb Config.stepWith obs Ω := by
    refine ⟨?_, ?_, ?_, fun e he => (hΩ _).mpr ⟨e.graph, hreal e he, rfl⟩, ?_, ?_⟩
    · intro e he
      have hr : (e.rounds : ℚ) ≠ 0 := by exact_mod_cast (Config.rounds_pos he.1 (hedge e he)).1.ne'
      unfold Config.stepDraws
      rw [Finset.sum_sigma]
      have : ∀ d ∈ (Finset.range e.backup.length ×ˢ Finset.range (e.backup.length - 1)).filter (fun d =>
          e.backup.getD d.1 0 ≠ e.backup.getD (secondPos d) 0),
          ∑ c ∈ Finset.range (e.degAt d.1) ×ˢ Finset.range (e.degAt (secondPos d)), e.stepProb ⟨d, c⟩ = 1 / (e.rounds : ℚ) := by
        intro d hd
        rw [Finset.mem_filter, Finset.mem_product, Finset.mem_range, Finset.mem_range] at hd
        simp only [Config.stepProb]
        rw [Finset.sum_const, nsmul_eq_mul, Finset.card_product, Finset.card_range, Finset.card_range]
        have p1 : (e.degAt d.1 : ℚ) ≠ 0 := by exact_mod_cast (Config.degAt_pos he.1.toBase hd.1.1).ne'
        have p2 : (e.degAt (secondPos d) : ℚ) ≠ 0 := by
          exact_mod_cast (Config.degAt_pos he.1.toBase (secondPos_lt hd.1.1 hd.1.2)).ne'
        push_cast
        field_simp
      rw [Finset.sum_congr rfl this, Finset.sum_const, nsmul_eq_mul, mul_one_div]
      exact div_self hr
    · rintro e he ⟨⟨i, j⟩, u, v⟩ hd
      rw [Config.mem_stepDraws] at hd
      have hr : (0 : ℚ) < e.rounds := by exact_mod_cast (Config.rounds_pos he.1 (hedge e he)).1
      have p1 : (0 : ℚ) < e.degAt i := by exact_mod_cast Config.degAt_pos he.1.toBase hd.1
      have p2 : (0 : ℚ) < e.degAt (secondPos (i, j)) := by
        exact_mod_cast Config.degAt_pos he.1.toBase (secondPos_lt (d := (i, j)) hd.1 hd.2.1)
      show 0 < 1 / (e.rounds : ℚ) * (1 / e.degAt i) * (1 / e.degAt (secondPos (i, j)))
      positivity
    · rintro e ⟨h1, h2⟩ ⟨⟨i, j⟩, u, v⟩ hd
      rw [Config.mem_stepDraws] at hd
      obtain ⟨q1, q2, q3, q4, q5⟩ := hd
      obtain ⟨s, g, a1, a2, _⟩ := Config.mStep_script h1 0 q1 q2 q3 (u := u) (v := v)
        (by rw [h1.nbrs_length]; exact q4) (by rw [h1.nbrs_length]; exact q5)
      exact ⟨_, Config.stepWith_eq_ok.mpr ⟨s, a1 []⟩, a2 _, h2⟩
    · intro S hS
      obtain ⟨g, g1, rfl⟩ := (hΩ S).mp hS
      exact ⟨_, hstate g g1, rfl⟩
    · intro e e' he he' ho S hS
      obtain ⟨g, g1, rfl⟩ := (hΩ S).mp hS
      have k1 := hbal e _ he (hstate g g1)
      have k2 := hbal e' _ he' (hstate g g1)
      rw [← ho] at k2
      exact k1.trans k2.symm
  have hr₀ := hreal e₀ ⟨w₀, d₀⟩
  have hpath : ∀ S, S ∈ Ω → Relation.ReflTransGen (Markov.Possible V Config.stepDraws Config.stepWith obs) S e₀.graph.edges := by
    intro S hS
    have hreach : Switch.Reach S e₀.graph.edges := by
      obtain ⟨g, g1, rfl⟩ := (hΩ S).mp hS
      exact switch_reach g1 hr₀
    induction hreach using Relation.ReflTransGen.head_induction_on with
    | refl => exact .refl
    | head h1 _ ih =>
      obtain ⟨g, g1, rfl⟩ := (hΩ _).mp hS
      obtain ⟨n, j, k, l, h1⟩ := h1
      have hV := hstate g g1
      rename_i F _
      have hne : g.edges ≠ F := by
        intro hc
        have : s(n, k) ∈ F := by rw [h1.mem]; simp
        exact h1.nk (hc ▸ this)
      have hp := Config.possible_exchange (V := V) hV hV.1 h1.nj h1.kl h1.d2
      have hx := (exchanged_of (WF.loopless g1.1) h1.nj h1.kl hne).mpr h1
      rw [show exchanged ({ e₀ with graph := g } : Config T Script).graph.edges n j k l = F from hx] at hp
      exact .head hp (ih (hl.P_pos hp).2.1)
  have hself : Markov.Possible V Config.stepDraws Config.stepWith obs e₀.graph.edges e₀.graph.edges := by
    obtain ⟨_, a, b, hab⟩ := Config.rounds_pos w₀ (hedge e₀ ⟨w₀, d₀⟩)
    have hp := Config.possible_exchange (V := V) ⟨w₀, d₀⟩ w₀ hab (Sym2.eq_swap ▸ hab : s(b, a) ∈ e₀.graph.edges) (w₀.wf.mem_lt hab).2.2
    have hx : exchanged e₀.graph.edges a b b a = e₀.graph.edges := by
      unfold exchanged
      rw [if_pos (.inr (.inr (.inl hab)))]
    rwa [hx] at hp
  have hmem₀ : e₀.graph.edges ∈ Ω := (hΩ _).mpr ⟨_, hr₀, rfl⟩
  have hcard : (0 : ℚ) < Ω.card := by exact_mod_cast Finset.card_pos.mpr ⟨_, hmem₀⟩
  exact hl.ergodic (w := fun _ => 1) (fun _ _ => by norm_num)
    (by rw [Finset.sum_const, nsmul_eq_mul, mul_one]; exact hcard)
    (by
      intro e e' he he'
      rw [one_mul, one_mul, hbal e e' he he'])
    hmem₀ (.inl hself) hpath

/-- The chain of `m_step` of `ConfigurationModel` converges, from every graph with the prescribed degrees, to the uniform
distribution on the set `Ω` of all graphs with these degrees. -/
theorem C66_config_converges {ds : List ℕ} (hpos : ∃ d ∈ ds, 0 < d) :
    ∃ Ω : Finset (Finset (Sym2 ℕ)), (∀ S, S ∈ Ω ↔ ∃ g : Graph T, Realises g ds ∧ g.edges = S) ∧
      ∀ ε : ℚ, 0 < ε → ∃ t₀, ∀ t, t₀ ≤ t → ∀ e : Config T Script, e.Inv → e.degreeVec = ds →
        ∀ g : Graph T, Realises g ds →
          |lawAfterW Config.stepDraws Config.stepProb Config.stepWith (fun e => e.graph.edges) t e g.edges - 1 / (Ω.card : ℚ)| < ε := by
  refine ⟨configStates T ds, fun S => mem_configStates, fun ε hε => ?_⟩
  by_cases hex : ∃ e : Config T Script, e.Inv ∧ e.degreeVec = ds
  swap
  · exact ⟨0, fun t _ e h1 h2 => absurd ⟨e, h1, h2⟩ hex⟩
  obtain ⟨e₀, w₀, d₀⟩ := hex
  obtain ⟨t₀, ht⟩ := (Config.ergodic hpos w₀ d₀).converges hε
  refine ⟨t₀, fun t hle e h1 h2 g g1 => ?_⟩
  have := ht t hle e ⟨h1, h2⟩ g.edges (mem_configStates.mpr ⟨g, g1, rfl⟩)
  rwa [Finset.sum_const, nsmul_eq_mul, mul_one] at this

/-- Why `Config.stepDraws` leaves out the positions with equal vertices: a round that draws them is repeated with the following
draws and changes nothing. -/
theorem C66_config_round_repeated {e : Config T Script} {i j : ℕ} (hi : i < e.backup.length) (hj : j < e.backup.length - 1)
    (hsame : e.backup.getD i 0 = e.backup.getD (secondPos (i, j)) 0) (fuel : ℕ) (rest : List ℕ) :
    Config.mStep (fuel + 1) ({ e with rng := ⟨i :: j :: rest⟩ } : Config T Script) =
      Config.mStep fuel ({ e with rng := ⟨rest⟩ } : Config T Script) := by
  unfold Config.mStep
  simp only [drawVertices_script fuel rest hi hj, hsame, if_true]

/-- The hypotheses are met by the path `0-1-2-3`; the halves at the positions 1 and 2 belong to the same vertex. -/
example : (∃ d ∈ [1, 2, 2, 1], 0 < d) ∧ (exConfigPath []).Inv ∧ (exConfigPath []).degreeVec = [1, 2, 2, 1] ∧
    1 < (exConfigPath []).backup.length - 1 ∧ (exConfigPath []).backup.getD 1 0 = (exConfigPath []).backup.getD (secondPos (1, 1)) 0 :=
  ⟨⟨1, by simp, by decide⟩, exConfigPath_inv [], rfl, by decide, by decide⟩

end Verif
