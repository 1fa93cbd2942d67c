import Verif.Lemmas.SwConnected
import Verif.Props.ConnectedSim

/-!
# C98, continued: simulations of `SwEnsemble` restricted to connected networks
-/

set_option linter.unusedSectionVars false
set_option linter.unusedSimpArgs false

namespace Verif
open AdjContainer GenericGraph Relation

variable {T : Type}

/-- The reachability needed for `Ergodic.trials_nonneg` if every state may be kept by a step. -/
theorem Markov.loop_reach {O : Type} [DecidableEq O] {Ω : Finset O} {P : O → O → ℚ} (hP : Markov.Kernel Ω P) (hloop : ∀ x ∈ Ω, 0 < P x x)
    {w : O → ℚ} (hw : ∀ x ∈ Ω, 0 ≤ w x) {o : O} (ho : o ∈ Ω) (hwo : 0 < w o)
    (hpath : ∀ x ∈ Ω, 0 < w x → ReflTransGen (fun a b => a ∈ Ω ∧ b ∈ Ω ∧ 0 < w a ∧ 0 < w b ∧ 0 < P a b) x o) {k : ℕ} (hk : 0 < k) :
    ∃ t, ∀ x ∈ Ω, 0 < w x → 0 < Markov.pow Ω (Markov.reject Ω (Markov.pow Ω P k) w) t x o := by
  have hK := Markov.pow_kernel hP k
  have hM := Markov.reject_kernel hK hw
  let Ω' := Ω.filter (fun x => 0 < w x)
  have hsub : Ω' ⊆ Ω := Finset.filter_subset _ _
  have hz : ∀ x ∈ Ω', ∀ z ∈ Ω, z ∉ Ω' → Markov.reject Ω (Markov.pow Ω P k) w x z = 0 := fun x hx z hz hz' =>
    Markov.reject_zero (by rintro rfl; exact hz' hx)
      (le_antisymm (not_lt.mp (fun hlt => hz' (Finset.mem_filter.mpr ⟨hz, hlt⟩))) (hw z hz))
  have hM' := Markov.kernel_closed hM hsub hz
  have ho' : o ∈ Ω' := Finset.mem_filter.mpr ⟨ho, hwo⟩
  have hmove : ∀ a b, a ∈ Ω → b ∈ Ω → 0 < P a b → 0 < Markov.pow Ω P k a b := by
    intro a b ha hb hab
    have := Markov.pow_pos_trans (k := k - 1) (l := 1) hP ha ha hb (Markov.pow_self hP ha (hloop a ha) _) (by rwa [Markov.pow_one hb])
    rwa [show k - 1 + 1 = k by omega] at this
  obtain ⟨t, ht⟩ := Markov.common_steps hM' ho' (N := 0)
    (fun j _ => Markov.pow_self hM' ho' (Markov.reject_pos hK ho (Markov.pow_self hP ho (hloop o ho) k) hwo hwo) j)
    (fun x hx => Markov.pow_of_path hM' ho' (by
      obtain ⟨h1, h2⟩ := Finset.mem_filter.mp hx
      refine ReflTransGen.mono (fun a b hab => ?_) _ _ (hpath x h1 h2)
      obtain ⟨a1, b1, wa, wb, p⟩ := hab
      exact ⟨Finset.mem_filter.mpr ⟨a1, wa⟩, Finset.mem_filter.mpr ⟨b1, wb⟩, Markov.reject_pos hK a1 (hmove a b a1 b1 p) wa wb⟩))
  refine ⟨t, fun x hx hwx => ?_⟩
  have hx' : x ∈ Ω' := Finset.mem_filter.mpr ⟨hx, hwx⟩
  rw [Markov.pow_closed hsub hz t x hx']
  exact ht x hx'

/-! ## The ring -/

/-- The placement in which all edges are at home. -/
def swHome (n : ℕ) (s : Fin n × Fin 2) : ℕ := (s.1.val + s.2.val + 1) % n

theorem swHome_good {n : ℕ} (hn : 5 ≤ n) : SwReach.Good n (fun s : Fin n × Fin 2 => s.1.val) (swHome n) := by
  obtain ⟨g, _, a2, a3, _, a5⟩ := SwGraph.initRing2_spec (T := Nat) hn
  obtain ⟨τ, hτ⟩ := a2.exists_placed a3
  have : τ = swHome n := funext fun s => a5.home _ _ (hτ s) _ rfl
  rw [← this]
  exact a2.placed_good a3 hτ

/-- The ring stays connected if any one of its edges is taken away. -/
theorem swHome_connected {n : ℕ} (hn : 5 ≤ n) (x : Sym2 ℕ) :
    ConnectedOn n ((SwReach.pairs (fun s : Fin n × Fin 2 => s.1.val) (swHome n)).erase x) := by
  set R := SwReach.pairs (fun s : Fin n × Fin 2 => s.1.val) (swHome n) with hR
  have hup : ∀ v, v + 1 < n → s(v, v + 1) ∈ R := by
    intro v hv
    refine SwReach.mem_pairs.mpr ⟨(⟨v, by omega⟩, 0), ?_⟩
    simp [SwReach.pr, swHome, Nat.mod_eq_of_lt hv]
  have hback : s(n - 1, 0) ∈ R := by
    refine SwReach.mem_pairs.mpr ⟨(⟨n - 1, by omega⟩, 0), ?_⟩
    simp [SwReach.pr, swHome, show n - 1 + 1 = n by omega]
  have hwalk : ∀ a d, a + d < n → (∀ v, a ≤ v → v < a + d → s(v, v + 1) ≠ x) →
      ReflTransGen (fun u v => s(u, v) ∈ R.erase x) a (a + d) := by
    intro a d
    induction d with
    | zero => exact fun _ _ => .refl
    | succ d ih =>
      intro h1 h2
      refine (ih (by omega) (fun v hv hv' => h2 v hv (by omega))).tail ?_
      exact Finset.mem_erase.mpr ⟨h2 _ (by omega) (by omega), hup _ (by omega)⟩
  have hfrom : ∀ v < n, ReflTransGen (fun u v => s(u, v) ∈ R.erase x) 0 v := by
    by_cases hx : ∃ c, c + 1 < n ∧ x = s(c, c + 1)
    · obtain ⟨c, hc, rfl⟩ := hx
      have hne : ∀ v, v ≠ c → s(v, v + 1) ≠ s(c, c + 1) := by
        intro v hv he
        rw [Sym2.eq_iff] at he
        omega
      have hback' : s(0, n - 1) ∈ R.erase s(c, c + 1) := by
        refine Finset.mem_erase.mpr ⟨fun he => ?_, by rw [Sym2.eq_swap]; exact hback⟩
        rw [Sym2.eq_iff] at he
        omega
      intro v hv
      rcases Nat.lt_or_ge c v with h | h
      · have := hwalk v (n - 1 - v) (by omega) (fun u hu _ => hne u (by omega))
        rw [show v + (n - 1 - v) = n - 1 by omega] at this
        exact .head hback' (path_symm this)
      · have := hwalk 0 v (by omega) (fun u _ hu => hne u (by omega))
        rwa [Nat.zero_add] at this
    · push Not at hx
      intro v hv
      have := hwalk 0 v (by omega) (fun u _ hu => Ne.symm (hx u (by omega)))
      rwa [Nat.zero_add] at this
  exact fun a ha b hb => (path_symm (hfrom a ha)).trans (hfrom b hb)

/-! ## Connected networks described by their rooted edges -/

/-- The pairs of adjacent vertices of a network that is described by its rooted edges. -/
def swPairs (S : Finset (ℕ × ℕ × ℕ)) : Finset (Sym2 ℕ) := S.image (fun t => s(t.1, t.2.2))

theorem SwValid.edges_eq {g : SwGraph T} (h : SwValid g) : g.edges = swPairs (SwGraph.rooted g) := by
  ext z
  induction z using Sym2.ind with
  | _ x y =>
    rw [h.wf.mem_edges, h.nbrs_iff]
    simp only [swPairs, Finset.mem_image, Prod.exists, Sym2.eq_iff]
    constructor
    · rintro ⟨o, h1 | h1⟩
      · exact ⟨x, o, y, h1, .inl ⟨rfl, rfl⟩⟩
      · exact ⟨y, o, x, h1, .inr ⟨rfl, rfl⟩⟩
    · rintro ⟨i, o, j, h1, ⟨rfl, rfl⟩ | ⟨rfl, rfl⟩⟩
      · exact ⟨o, .inl h1⟩
      · exact ⟨o, .inr h1⟩

theorem SwValid.pairs_placed {g : SwGraph T} (h : SwValid g) {n : ℕ} (hn : g.nextId = n) {τ : Fin n × Fin 2 → ℕ}
    (hp : SwGraph.Placed g n τ) : SwReach.pairs (fun s : Fin n × Fin 2 => s.1.val) τ = swPairs (SwGraph.rooted g) := by
  ext z
  simp only [SwReach.mem_pairs, swPairs, Finset.mem_image, Prod.exists, h.mem_rooted_placed hn hp, SwReach.pr]
  constructor
  · rintro ⟨i, d, rfl⟩
    exact ⟨_, _, _, ⟨i, d, rfl, rfl, rfl⟩, rfl⟩
  · rintro ⟨_, _, _, ⟨i, d, rfl, rfl, rfl⟩, rfl⟩
    exact ⟨i, d, rfl⟩

open Classical in
/-- The weights of a simulation of `SwEnsemble` that rejects networks which are not connected. -/
noncomputable def swConnectedWeight (n : ℕ) (w : Finset (ℕ × ℕ × ℕ) → ℚ) (S : Finset (ℕ × ℕ × ℕ)) : ℚ :=
  if ConnectedOn n (swPairs S) then w S else 0

theorem swConnectedWeight_pos {n : ℕ} {w : Finset (ℕ × ℕ × ℕ) → ℚ} {S : Finset (ℕ × ℕ × ℕ)} (hw : 0 < w S) :
    0 < swConnectedWeight n w S ↔ ConnectedOn n (swPairs S) := by
  unfold swConnectedWeight
  split
  · rename_i h; exact ⟨fun _ => h, fun _ => hw⟩
  · rename_i h; exact ⟨fun hc => absurd hc (lt_irrefl _), fun hc => absurd hc h⟩

theorem swConnectedWeight_nonneg {n : ℕ} {w : Finset (ℕ × ℕ × ℕ) → ℚ} {S : Finset (ℕ × ℕ × ℕ)} (hw : 0 < w S) :
    0 ≤ swConnectedWeight n w S := by
  unfold swConnectedWeight
  split
  · exact hw.le
  · exact le_rfl

theorem SwValid.isConnected_iff {g : SwGraph T} (h : SwValid g) {n : ℕ} (hn : g.vertexCount = n) :
    g.isConnected = .ok (some true) ↔ ConnectedOn n (swPairs (SwGraph.rooted g)) := by
  have := h.size
  rw [isConnected_iff_on h.wf (show 0 < g.nextId by omega), hn, h.edges_eq]

theorem SwValid.isConnected_false {g : SwGraph T} (h : SwValid g) {n : ℕ} (hn : g.vertexCount = n)
    (hf : g.isConnected = .ok (some false)) (w : Finset (ℕ × ℕ × ℕ) → ℚ) : swConnectedWeight n w (SwGraph.rooted g) = 0 := by
  unfold swConnectedWeight
  rw [if_neg]
  intro hc
  rw [(h.isConnected_iff hn).mpr hc] at hf
  cases hf

/-! ## Possible steps -/

theorem SwEns.possible_move {n : ℕ} {p : ℚ} (hp : 0 ≤ p) {g : SwGraph T} (h : SwValid g) (hn : g.nextId = n) {τ τ' : Fin n × Fin 2 → ℕ}
    (hτ : SwGraph.Placed g n τ) (m : SwReach.Mv n (fun s : Fin n × Fin 2 => s.1.val) τ τ') :
    ∃ g' : SwGraph T, SwValid g' ∧ g'.nextId = n ∧ SwGraph.Placed g' n τ' ∧
      Markov.Possible (fun e : SwEns T Script => SwValid e.graph ∧ e.graph.nextId = n ∧ e.rProb = p) SwEns.stepDraws SwEns.stepWith
        (fun e => SwGraph.rooted e.graph) (SwGraph.rooted g) (SwGraph.rooted g') := by
  obtain ⟨num, x, s, g', c1, c2, a1, a2, a3, a4⟩ := SwEns.mStep_of_move (e := ⟨g, p, ⟨[]⟩⟩) h hp hn hτ m
  refine ⟨g', a2, a3, a4, ⟨g, p, ⟨[]⟩⟩, ⟨h, hn, rfl⟩, rfl, (num, 0, x), ?_, _, SwEns.stepWith_eq_ok.mpr ⟨s, a1 []⟩, rfl⟩
  unfold SwEns.stepDraws
  rw [Finset.mem_product, Finset.mem_product, Finset.mem_range, Finset.mem_range, Finset.mem_range, h.count,
    show g.vertexCount = g.nextId from rfl, hn]
  exact ⟨c1, Nat.pow_pos (by decide), c2⟩

theorem SwEns.possible_self {n : ℕ} {p : ℚ} (hp : 0 ≤ p) {g : SwGraph T} (h : SwValid g) (hn : g.nextId = n) :
    Markov.Possible (fun e : SwEns T Script => SwValid e.graph ∧ e.graph.nextId = n ∧ e.rProb = p) SwEns.stepDraws SwEns.stepWith
      (fun e => SwGraph.rooted e.graph) (SwGraph.rooted g) (SwGraph.rooted g) := by
  let e₀ : SwEns T Script := ⟨g, p, ⟨[]⟩⟩
  have hs := h.size
  obtain ⟨f, hf, hstep⟩ := SwEns.mStep_script (e := e₀) h
  have h0 : 0 < 2 * g.nextId := by omega
  obtain ⟨q1, _, q3, q4⟩ := h.rooted_lt (hf.mapsTo (show (0 : ℕ) ∈ {x | x < 2 * e₀.graph.nextId} from h0))
  have hx : (if (f 0).2.2 < (f 0).1 then (f 0).2.2 else (f 0).2.2 - 1) < g.nextId - 1 := by split <;> omega
  obtain ⟨s, g', b1, b2⟩ := hstep 0 h0 0 (Nat.pow_pos (by decide)) _ hx
  have hprop : proposal e₀.rProb (f 0).1 (f 0).2.1 0 (if (f 0).2.2 < (f 0).1 then (f 0).2.2 else (f 0).2.2 - 1) = (f 0).2.2 := by
    unfold proposal
    rw [if_pos (by simpa using hp)]
    by_cases hc : (f 0).2.2 < (f 0).1
    · simp [hc]
    · simp only [hc, if_false]
      rw [if_neg (by omega)]; omega
  rcases b2 with ⟨_, hg'⟩ | ⟨b2, _⟩
  · refine ⟨e₀, ⟨h, hn, rfl⟩, rfl, (0, 0, _), ?_, _, SwEns.stepWith_eq_ok.mpr ⟨s, b1 []⟩, by rw [hg']⟩
    unfold SwEns.stepDraws
    rw [Finset.mem_product, Finset.mem_product, Finset.mem_range, Finset.mem_range, Finset.mem_range, h.count]
    exact ⟨h0, Nat.pow_pos (by decide), hx⟩
  · exact absurd hprop b2

/-- Connected networks are joined to the ring by possible steps between connected networks. -/
theorem SwEns.connected_path {n : ℕ} (h6 : 6 ≤ n) {p : ℚ} (hp : 0 ≤ p) {g : SwGraph T} (h : SwValid g) (hn : g.nextId = n)
    (hc : ConnectedOn n (swPairs (SwGraph.rooted g))) :
    ∃ o : SwGraph T, SwValid o ∧ o.nextId = n ∧ SwGraph.Placed o n (swHome n) ∧
      ReflTransGen (fun S S' => ConnectedOn n (swPairs S) ∧ ConnectedOn n (swPairs S') ∧
        Markov.Possible (fun e : SwEns T Script => SwValid e.graph ∧ e.graph.nextId = n ∧ e.rProb = p) SwEns.stepDraws SwEns.stepWith
          (fun e => SwGraph.rooted e.graph) S S') (SwGraph.rooted g) (SwGraph.rooted o) := by
  obtain ⟨τ, hτ⟩ := h.exists_placed hn
  have hreach : ReflTransGen (SwReach.CMv n (fun s : Fin n × Fin 2 => s.1.val)) τ (swHome n) := by
    refine SwReach.connected_home (h.placed_good hn hτ) (swHome_good (by omega)) (fun s => s.1.isLt) ?_ ?_ ?_
      (by rw [h.pairs_placed hn hτ]; exact hc) (swHome_connected (by omega))
    · intro v hv
      exact ⟨(⟨v, hv⟩, 0), (⟨v, hv⟩, 1), by simp, rfl, rfl⟩
    · intro i
      by_cases hi : i < n
      · refine ⟨(⟨i, hi⟩, 0), (⟨i, hi⟩, 1), ?_⟩
        rintro ⟨a, b⟩ hs
        have ha : a = ⟨i, hi⟩ := Fin.ext hs
        subst ha
        have : b = 0 ∨ b = 1 := by omega
        rcases this with rfl | rfl
        · exact .inl rfl
        · exact .inr rfl
      · refine ⟨(⟨0, by omega⟩, 0), (⟨0, by omega⟩, 0), ?_⟩
        rintro ⟨a, b⟩ hs
        have hs : a.val = i := hs
        exact absurd (hs ▸ a.isLt) hi
    · rw [Fintype.card_prod, Fintype.card_fin, Fintype.card_fin, Nat.choose_two_right]
      obtain ⟨m, rfl⟩ : ∃ m, n = m + 6 := ⟨n - 6, by omega⟩
      rw [Nat.lt_div_iff_mul_lt (by decide)]
      have : (m + 6) * (m + 6 - 1) = m * m + 11 * m + 30 := by
        rw [show m + 6 - 1 = m + 5 by omega]; ring
      rw [this]
      have : 0 ≤ m * m := Nat.zero_le _
      omega
  clear hc
  induction hreach using ReflTransGen.head_induction_on generalizing g with
  | refl => exact ⟨g, h, hn, hτ, .refl⟩
  | head h1 _ ih =>
    obtain ⟨m, c1, c2⟩ := h1
    obtain ⟨g', a1, a2, a3, a4⟩ := SwEns.possible_move hp h hn hτ m
    obtain ⟨o, o1, o2, o3, o4⟩ := ih a1 a2 a3
    rw [h.pairs_placed hn hτ] at c1
    rw [a1.pairs_placed a2 a3] at c2
    exact ⟨o, o1, o2, o3, .head ⟨c1, c2, a4⟩ o4⟩

/-- The same for `SwEnsemble` with at least six vertices; the weights are on the networks with the roots of their edges. -/
theorem C98_sw_connected {n : ℕ} (h6 : 6 ≤ n) {p : ℚ} (hp : 0 ≤ p) {w : Finset (ℕ × ℕ × ℕ) → ℚ}
    (hw : ∀ g : SwGraph T, SwValid g → g.vertexCount = n → 0 < w (SwGraph.rooted g)) {k : ℕ} (hk : 0 < k) :
    (∀ (t : ℕ) (e : SwEns T Script), SwValid e.graph → e.graph.vertexCount = n → e.rProb = p →
      e.graph.isConnected = .ok (some true) →
      ∀ g : SwGraph T, SwValid g → g.vertexCount = n → g.isConnected = .ok (some false) →
        lawAfterTrials SwEns.stepDraws (fun e _ => 1 / (e.stepDraws.card : ℚ)) SwEns.stepOf SwEns.undoStepQuiet
          (fun e => SwGraph.rooted e.graph) (swConnectedWeight n w) k t e (SwGraph.rooted g) = 0) ∧
    ∃ Ω : Finset (Finset (ℕ × ℕ × ℕ)),
      (∀ S, S ∈ Ω ↔ ∃ g : SwGraph T, SwValid g ∧ g.vertexCount = n ∧ g.isConnected = .ok (some true) ∧ SwGraph.rooted g = S) ∧
      ∀ ε : ℚ, 0 < ε → ∃ t₀, ∀ t, t₀ ≤ t → ∀ e : SwEns T Script, SwValid e.graph → e.graph.vertexCount = n → e.rProb = p →
        e.graph.isConnected = .ok (some true) →
        ∀ g : SwGraph T, SwValid g → g.vertexCount = n → g.isConnected = .ok (some true) →
          |lawAfterTrials SwEns.stepDraws (fun e _ => 1 / (e.stepDraws.card : ℚ)) SwEns.stepOf SwEns.undoStepQuiet
              (fun e => SwGraph.rooted e.graph) (swConnectedWeight n w) k t e (SwGraph.rooted g) -
            swWeight n p (SwGraph.rooted g) * w (SwGraph.rooted g) / ∑ S ∈ Ω, swWeight n p S * w S| < ε := by
  classical
  have hw' : ∀ S ∈ swStates T n, 0 < w S := by
    intro S hS
    obtain ⟨g, g1, g2, rfl⟩ := mem_swStates.mp hS
    exact hw g g1 g2
  have hnn : ∀ S ∈ swStates T n, 0 ≤ swConnectedWeight n w S := fun S hS => swConnectedWeight_nonneg (hw' S hS)
  have hpos : ∀ g : SwGraph T, SwValid g → g.vertexCount = n → g.isConnected = .ok (some true) →
      0 < swConnectedWeight n w (SwGraph.rooted g) := fun g g1 g2 g3 =>
    (swConnectedWeight_pos (hw g g1 g2)).mpr ((g1.isConnected_iff g2).mp g3)
  refine ⟨?_, (swStates T n).filter (fun S => ConnectedOn n (swPairs S)), ?_, ?_⟩
  · intro t e w1 n1 p1 c1 g g1 g2 g3
    exact (SwEns.ergodic h6 hp w1 n1).trials_zero SwEns.undo k hnn t ⟨w1, n1, p1⟩ (hpos _ w1 n1 c1) (g1.isConnected_false g2 g3 w)
  · intro S
    rw [Finset.mem_filter, mem_swStates]
    constructor
    · rintro ⟨⟨g, g1, g2, rfl⟩, hc⟩
      exact ⟨g, g1, g2, (g1.isConnected_iff g2).mpr hc, rfl⟩
    · rintro ⟨g, g1, g2, g3, rfl⟩
      exact ⟨⟨g, g1, g2, rfl⟩, (g1.isConnected_iff g2).mp g3⟩
  · intro ε hε
    by_cases hex : ∃ g : SwGraph T, SwValid g ∧ g.vertexCount = n ∧ g.isConnected = .ok (some true)
    swap
    · exact ⟨0, fun t _ e w1 n1 _ c1 => absurd ⟨e.graph, w1, n1, c1⟩ hex⟩
    obtain ⟨g₀, w₀, n₀, c₀⟩ := hex
    have herg := SwEns.ergodic h6 hp w₀ n₀
    obtain ⟨o, o1, o2, o3, _⟩ := SwEns.connected_path h6 hp w₀ n₀ ((w₀.isConnected_iff n₀).mp c₀)
    have ho : SwGraph.rooted o ∈ swStates T n := mem_swStates.mpr ⟨o, o1, o2, rfl⟩
    have hco : ConnectedOn n (swPairs (SwGraph.rooted o)) := by
      rw [← o1.pairs_placed o2 o3]
      exact (swHome_connected (by omega) s(0, 0)).mono (Finset.erase_subset _ _)
    have hwo : 0 < swConnectedWeight n w (SwGraph.rooted o) := (swConnectedWeight_pos (hw' _ ho)).mpr hco
    obtain ⟨t₁, hreach⟩ := Markov.loop_reach herg.lumped.kernel (fun S hS => by
        obtain ⟨g, g1, g2, rfl⟩ := mem_swStates.mp hS
        exact (herg.lumped.P_pos (SwEns.possible_self hp g1 g2)).2.2) hnn ho hwo (fun S hS hwS => by
        obtain ⟨g, g1, g2, rfl⟩ := mem_swStates.mp hS
        obtain ⟨o', q1, q2, q3, q4⟩ := SwEns.connected_path h6 hp g1 g2 ((swConnectedWeight_pos (hw' _ hS)).mp hwS)
        have hoo : SwGraph.rooted o' = SwGraph.rooted o := by
          ext ⟨i, o, j⟩
          rw [q1.mem_rooted_placed q2 q3, o1.mem_rooted_placed o2 o3]
        rw [← hoo]
        refine ReflTransGen.mono (fun a b hab => ?_) _ _ q4
        obtain ⟨c1, c2, c3⟩ := hab
        obtain ⟨m1, m2, m3⟩ := herg.lumped.P_pos c3
        exact ⟨m1, m2, (swConnectedWeight_pos (hw' _ m1)).mpr c1, (swConnectedWeight_pos (hw' _ m2)).mpr c2, m3⟩) hk
    have hπ : (0 : ℚ) < (swWeight n p (SwGraph.rooted o) : ℚ) := by
      have := o1.weight_pos hp
      rw [o2] at this
      exact_mod_cast this
    obtain ⟨t₀, ht⟩ := herg.trials_nonneg SwEns.undo hnn ho hπ hwo hreach hε
    refine ⟨t₀, fun t hle e w1 n1 p1 c1 g g1 g2 g3 => ?_⟩
    have := ht t hle e ⟨w1, n1, p1⟩ (hpos _ w1 n1 c1) _ (mem_swStates.mpr ⟨g, g1, g2, rfl⟩)
    rw [show swConnectedWeight n w (SwGraph.rooted g) = w (SwGraph.rooted g) from if_pos ((g1.isConnected_iff g2).mp g3)] at this
    rw [Finset.sum_filter]
    convert this using 5
    unfold swConnectedWeight
    rename_i S _
    split <;> simp

/-- The hypotheses are met: a connected and a split network of the small-world ensemble. -/
example : (SwValid exSw ∧ exSw.vertexCount = 7 ∧ exSw.isConnected = .ok (some true)) ∧
    SwValid exSwSplit ∧ exSwSplit.vertexCount = 10 ∧ exSwSplit.isConnected = .ok (some false) :=
  ⟨⟨exSw_valid, by decide, by decide⟩, exSwSplit_valid, by decide, by decide⟩

end Verif
