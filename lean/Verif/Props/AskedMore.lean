import Verif.Props.Asked
import Verif.Props.Ba
import Verif.Lemmas.BaChance
import Verif.Props.Config
import Verif.Lemmas.Ws4

/-!
# C111: what the calls that draw until it fits ask of the generator

Their number of requests depends on the answers.  Proved is of which kind the requests are, in which order they come, and how many there
are at least.
-/

set_option linter.unusedSectionVars false
set_option linter.unusedSimpArgs false

namespace Verif
open AdjContainer GenericGraph

variable {T R : Type} [Rng R]

theorem genRange_dom {r r' : R} {h x : ℕ} (e : genRange r h = .ok (x, r')) : 0 < h := by
  unfold genRange at e
  split at e
  · assumption
  · cases e

/-! ## Configuration model -/

theorem Config.randLoop_asked : ∀ (fuel : ℕ) (e e' : Config T (Recorder R)), Config.randLoop fuel e = .ok e' →
    ∃ r, r + 1 ≤ fuel ∧ e'.rng.asked = e.rng.asked ++ List.replicate r (.shuffle e.backup.length)
  | 0, _, _, h => by simp [Config.randLoop] at h
  | fuel + 1, e, e', h => by
    unfold Config.randLoop at h
    split at h
    · cases h
      exact ⟨0, by omega, by simp⟩
    · obtain ⟨⟨added, graph, halfs⟩, _, h⟩ := Res.bind_eq_ok.1 h
      dsimp only at h
      split at h
      · obtain ⟨r, h1, h2⟩ := Config.randLoop_asked fuel _ _ h
        exact ⟨r, by omega, h2⟩
      · obtain ⟨r, h1, h2⟩ := Config.randLoop_asked fuel _ _ h
        refine ⟨r + 1, by omega, ?_⟩
        dsimp only at h2
        rw [h2, (Rng.shuffle_perm e.rng e.backup).length_eq]
        show (e.rng.asked ++ [Ask.shuffle e.backup.length]) ++ _ = _
        rw [List.append_assoc, List.replicate_succ]
        rfl

/-- `ConfigurationModel::randomize` does nothing with the generator but shuffle the list of the edge halves, once or more. -/
theorem C111_config_randomize {fuel : ℕ} {e e' : Config T (Recorder R)} (h : e.randomize fuel = .ok e') :
    ∃ r, 1 ≤ r ∧ r ≤ fuel ∧ e'.rng.asked = e.rng.asked ++ List.replicate r (.shuffle e.backup.length) := by
  unfold Config.randomize at h
  obtain ⟨r, h1, h2⟩ := Config.randLoop_asked fuel _ _ h
  refine ⟨r + 1, by omega, h1, ?_⟩
  have h3 : (Rng.shuffle e.rng.inner e.backup).1.length = e.backup.length := (Rng.shuffle_perm e.rng.inner e.backup).length_eq
  have h2 : e'.rng.asked = e.rng.asked ++ [Ask.shuffle e.backup.length] ++
      List.replicate r (Ask.shuffle (Rng.shuffle e.rng.inner e.backup).1.length) := h2
  rw [h2, h3, List.append_assoc, List.replicate_succ]
  rfl

theorem Config.drawVertices_asked : ∀ (fuel : ℕ) (rng rng' : Recorder R) (l : List ℕ) (p : ℕ × ℕ),
    Config.drawVertices fuel rng l = .ok (p, rng') → p.1 ∈ l ∧ p.2 ∈ l ∧ p.1 ≠ p.2 ∧
    ∃ r, 1 ≤ r ∧ r ≤ fuel ∧ rng'.asked = rng.asked ++ (List.replicate r [Ask.range l.length, .range (l.length - 1)]).flatten
  | 0, _, _, _, _, h => by simp [Config.drawVertices] at h
  | fuel + 1, rng, rng', l, p, h => by
    unfold Config.drawVertices at h
    obtain ⟨⟨l2, r1⟩, h1, h⟩ := Res.bind_eq_ok.1 h
    obtain ⟨a, ha, h⟩ := Res.bind_eq_ok.1 h
    obtain ⟨b, hb, h⟩ := Res.bind_eq_ok.1 h
    have hl2 : a ∈ l ∧ b ∈ l ∧ r1.asked = rng.asked ++ [.range l.length, .range (l.length - 1)] := by
      unfold chooseTwo at h1
      split at h1
      · rename_i hlt
        cases h1
        have := (Vec.idx_eq_ok.1 hb)
        rw [List.getElem?_eq_none (by omega)] at this
        cases this
      · obtain ⟨⟨q, r2⟩, h2, h1⟩ := Res.bind_eq_ok.1 h1
        obtain ⟨x, hx, h1⟩ := Res.bind_eq_ok.1 h1
        obtain ⟨y, hy, h1⟩ := Res.bind_eq_ok.1 h1
        have hh := drawTwo_asked h2
        cases h1
        cases Vec.idx_eq_ok.1 ha
        cases Vec.idx_eq_ok.1 hb
        exact ⟨List.mem_of_getElem? (Vec.idx_eq_ok.1 hx), List.mem_of_getElem? (Vec.idx_eq_ok.1 hy), hh⟩
    split at h
    · obtain ⟨i1, i2, i3, r, h2, h3, h4⟩ := Config.drawVertices_asked fuel _ _ _ _ h
      refine ⟨i1, i2, i3, r + 1, by omega, by omega, ?_⟩
      rw [h4, hl2.2.2, List.replicate_succ, List.flatten_cons, List.append_assoc]
    · rename_i hne
      cases h
      exact ⟨hl2.1, hl2.2.1, by simpa using hne, 1, le_refl _, by omega, by rw [hl2.2.2]; rfl⟩

theorem chooseOne_asked {rng rng' : Recorder R} {l : List ℕ} {a : ℕ} (h : chooseOne rng l = .ok (a, rng')) :
    rng'.asked = rng.asked ++ [.range l.length] := by
  unfold chooseOne at h
  obtain ⟨⟨i, r1⟩, h1, h⟩ := Res.bind_eq_ok.1 h
  obtain ⟨x, _, h⟩ := Res.bind_eq_ok.1 h
  cases h
  exact genRange_asked h1

/-- `ConfigurationModel::m_step` asks for two places in the list of the edge halves until these belong to different vertices `a`, `b`, then
for one neighbour of `a` and one of `b`; whether the step succeeds or not. -/
theorem C111_config_step {fuel : ℕ} {e e' : Config T (Recorder R)} {s : ConfigStep} (h : e.mStep fuel = .ok (s, e')) :
    ∃ a b r, a ∈ e.backup ∧ b ∈ e.backup ∧ a ≠ b ∧ 1 ≤ r ∧ r ≤ fuel ∧ e'.rng.asked = e.rng.asked ++
      (List.replicate r [Ask.range e.backup.length, .range (e.backup.length - 1)]).flatten ++
      [.range (e.graph.nbrs a).length, .range (e.graph.nbrs b).length] := by
  unfold Config.mStep at h
  obtain ⟨⟨⟨a, b⟩, r1⟩, h1, h⟩ := Res.bind_eq_ok.1 h
  obtain ⟨i1, i2, i3, r, h2, h3, h4⟩ := Config.drawVertices_asked fuel _ _ _ _ h1
  obtain ⟨ca, hca, h⟩ := Res.bind_eq_ok.1 h
  obtain ⟨⟨a1, r2⟩, h5, h⟩ := Res.bind_eq_ok.1 h
  obtain ⟨cb, hcb, h⟩ := Res.bind_eq_ok.1 h
  obtain ⟨⟨b1, r3⟩, h6, h⟩ := Res.bind_eq_ok.1 h
  refine ⟨a, b, r, i1, i2, i3, h2, h3, ?_⟩
  have key : e'.rng = r3 := by
    dsimp only at h
    split at h
    · cases h; rfl
    · obtain ⟨⟨x, g1⟩, _, h⟩ := Res.bind_eq_ok.1 h
      cases x with
      | error => cases h; rfl
      | ok =>
        obtain ⟨⟨y, g2⟩, _, h⟩ := Res.bind_eq_ok.1 h
        cases y with
        | error =>
          obtain ⟨_, _, h⟩ := Res.bind_eq_ok.1 h
          obtain ⟨_, _, h⟩ := Res.bind_eq_ok.1 h
          cases h; rfl
        | ok =>
          obtain ⟨_, _, h⟩ := Res.bind_eq_ok.1 h
          obtain ⟨_, _, h⟩ := Res.bind_eq_ok.1 h
          obtain ⟨_, _, h⟩ := Res.bind_eq_ok.1 h
          obtain ⟨_, _, h⟩ := Res.bind_eq_ok.1 h
          cases h; rfl
  have na : e.graph.nbrs a = ca.adj := nbrs_of_some (Vec.idx_eq_ok.1 hca)
  have nb : e.graph.nbrs b = cb.adj := nbrs_of_some (Vec.idx_eq_ok.1 hcb)
  rw [key, chooseOne_asked h6, chooseOne_asked h5, h4, na, nb]
  simp only [List.append_assoc]
  rfl

/-! ## Barabási-Albert -/

/-- The requests while a network with `e` edges grows by vertices with `m` edges each; the numbers of draws are given. -/
def growAsks (m : ℕ) : ℕ → List ℕ → List Ask
  | _, [] => []
  | e, r :: rs => List.replicate r (.range (2 * e)) ++ growAsks m (e + m) rs

theorem Ba.attach_asked {g0 : Graph T} (h0 : g0.WF) {weights : List Nat} {i m : Nat} (hi : i < g0.nextId)
    (hnil : g0.nbrs i = []) (hpos : 0 < weights.sum) (hw : ∀ v, 0 < weights.getD v 0 → v < g0.nextId ∧ v ≠ i)
    {P : Nat → Prop} (hP : ∀ v, 0 < weights.getD v 0 → P v) :
    ∀ (fuel : Nat) (g : Graph T) (rng : Recorder R) (S : Finset ℕ), Ba.Att g0 i P g S → ∀ g' rng', Ba.attach weights i m fuel g rng = .ok (g', rng') →
    ∃ r, r < fuel ∧ m ≤ S.card + r ∧ rng'.asked = rng.asked ++ List.replicate r (.range weights.sum) := by
  intro fuel
  induction fuel with
  | zero => intro g rng S _ g' rng' h; simp [Ba.attach] at h
  | succ fuel ih =>
    intro g rng S hA g' rng' h
    unfold Ba.attach at h
    obtain ⟨c, c1, c2⟩ := hA.degree hi hnil
    rw [c1, Res.ok_bind, c2] at h
    split at h
    · unfold weightedSample at h
      obtain ⟨⟨v, r1⟩, h1, h⟩ := Res.bind_eq_ok.1 h
      obtain ⟨⟨t, r2⟩, h2, h1⟩ := Res.bind_eq_ok.1 h1
      cases h1
      have ht : t < weights.sum := by
        obtain ⟨t', r', h3, h4⟩ := genRange_ok rng hpos
        rw [h3] at h2
        cases h2
        exact h4
      obtain ⟨p1, p2⟩ := weightedPick_spec weights t ht
      have hv := hw _ p2
      obtain ⟨x, g1, a1, a2⟩ := hA.next hi hnil h0 hv.1 hv.2 (hP _ p2)
      dsimp only at h
      rw [a1, Res.ok_bind] at h
      obtain ⟨r, b1, b2, b3⟩ := ih g1 r1 _ a2 _ _ h
      have := Finset.card_insert_le (weightedPick weights t) S
      refine ⟨r + 1, by omega, by omega, ?_⟩
      rw [b3, genRange_asked h2, List.append_assoc, List.replicate_succ]
      rfl
    · cases h
      exact ⟨0, by omega, by omega, by simp⟩

theorem Ba.loop_asked (m fuel : ℕ) : ∀ (order : List ℕ) (g : Graph T) (rng : Recorder R), g.WF → 1 ≤ g.edgeCount → order.Nodup →
    (∀ i ∈ order, i < g.nextId ∧ g.nbrs i = []) → ∀ st, order.foldlM (Ba.growBody m fuel) (g, g.degreeVec, rng) = .ok st →
    ∃ rs, rs.length = order.length ∧ (∀ r ∈ rs, m ≤ r ∧ r < fuel) ∧ st.2.2.asked = rng.asked ++ growAsks m g.edgeCount rs := by
  intro order
  induction order with
  | nil =>
    intro g rng _ _ _ _ st h
    cases h
    exact ⟨[], rfl, by simp, by simp [growAsks]⟩
  | cons i order ih =>
    intro g rng h hE hnd hord st hst
    obtain ⟨hi, hnil⟩ := hord i (by simp)
    obtain ⟨hp, hw⟩ := Ba.weight_pos h hnil
    have hsum := Ba.degreeVec_sum_pos h hE
    rw [List.foldlM_cons] at hst
    obtain ⟨⟨g', w', rng'⟩, h1, hst⟩ := Res.bind_eq_ok.1 hst
    obtain ⟨S, hA, hS, hw'⟩ := (Ba.growBody_spec h hE hi hnil).post h1
    dsimp only at hA hw'
    subst hw'
    have hL : Ba.Loop g m [i] (g', g'.degreeVec, rng') :=
      Ba.Loop.next (pre := []) (w := g.degreeVec) (rng := rng) ⟨h, rfl, rfl, rfl, .start⟩ hnil hA hS rfl
    have hcard : g'.edgeCount = g.edgeCount + m := by
      rw [hA.wf.edgeCount_eq_card, hL.grows.card, h.edgeCount_eq_card]
      simp
    have ha : ∃ r, r < fuel ∧ m ≤ r ∧ rng'.asked = rng.asked ++ List.replicate r (.range (2 * g.edgeCount)) := by
      unfold Ba.growBody at h1
      simp only at h1
      obtain ⟨_, _, h1⟩ := Res.bind_eq_ok.1 h1
      obtain ⟨⟨g1, r1⟩, h2, h1⟩ := Res.bind_eq_ok.1 h1
      obtain ⟨_, _, h1⟩ := Res.bind_eq_ok.1 h1
      obtain ⟨_, _, h1⟩ := Res.bind_eq_ok.1 h1
      obtain ⟨_, _, h1⟩ := Res.bind_eq_ok.1 h1
      obtain ⟨_, _, h1⟩ := Res.bind_eq_ok.1 h1
      cases h1
      have := Ba.attach_asked h hi hnil hsum hw hp fuel g rng ∅ (Ba.Att.start h _ _) _ _ h2
      rw [(C26_degrees h).2.2.1] at this
      simpa using this
    obtain ⟨r, r1, r2, r3⟩ := ha
    obtain ⟨rs, b1, b2, b3⟩ := ih g' rng' hA.wf (by omega) (List.nodup_cons.mp hnd).2 (fun u hu => by
      obtain ⟨hu1, hu2⟩ := hord u (by simp [hu])
      refine ⟨by rw [hA.n]; exact hu1, hL.isolated h hu2 ?_⟩
      simp only [List.mem_singleton]
      rintro rfl
      exact (List.nodup_cons.mp hnd).1 hu) st hst
    refine ⟨r :: rs, by simp [b1], ?_, ?_⟩
    · intro x hx
      rcases List.mem_cons.mp hx with rfl | hx
      · exact ⟨r2, r1⟩
      · exact b2 x hx
    · rw [b3, r3, hcard, List.append_assoc]
      rfl

/-- `BAensemble::randomize` shuffles the order of the new vertices once; then each of them asks for `m` numbers or more below twice the
present number of edges. -/
theorem C111_ba_randomize {e e' : Ba T (Recorder R)} (hv : e.Valid) (hE : 1 ≤ e.source.edgeCount) {fuel : ℕ} (h : e.randomize fuel = .ok e') :
    ∃ rs, rs.length = e.graph.vertexCount - e.source.vertexCount ∧ (∀ r ∈ rs, e.m ≤ r ∧ r < fuel) ∧
      e'.rng.asked = e.rng.asked ++ .shuffle (e.graph.vertexCount - e.source.vertexCount) :: growAsks e.m e.source.edgeCount rs := by
  obtain ⟨g0, h1, h2, h3, h4, h5, h6, h7, h8⟩ := Ba.prepare hv
  unfold Ba.randomize at h
  rw [h1, Res.ok_bind] at h
  rcases hs : Rng.shuffle e.rng (List.range' e.source.vertexCount (g0.vertexCount - e.source.vertexCount)) with ⟨order, rng⟩
  have hp : order.Perm (List.range' e.source.vertexCount (g0.vertexCount - e.source.vertexCount)) := by
    have := Rng.shuffle_perm e.rng (List.range' e.source.vertexCount (g0.vertexCount - e.source.vertexCount))
    rw [hs] at this; exact this
  have hr : rng.asked = e.rng.asked ++ [.shuffle (e.graph.vertexCount - e.source.vertexCount)] := by
    have : rng = (Rng.shuffle e.rng (List.range' e.source.vertexCount (g0.vertexCount - e.source.vertexCount))).2 := by rw [hs]
    rw [this]
    show e.rng.asked ++ [Ask.shuffle (List.range' e.source.vertexCount (g0.vertexCount - e.source.vertexCount)).length] = _
    rw [List.length_range', h3]
  simp only [hs, h8, Res.ok_bind] at h
  obtain ⟨st, h9, h⟩ := Res.bind_eq_ok.1 h
  obtain ⟨o1, o2⟩ := Ba.order_spec hv h3 h7 hp
  obtain ⟨rs, b1, b2, b3⟩ := Ba.loop_asked e.m fuel order g0 rng h2 (by rw [h6]; exact hE) o1 o2 st h9
  cases h
  refine ⟨rs, by rw [b1, hp.length_eq, List.length_range', h3], b2, ?_⟩
  show st.2.2.asked = _
  rw [b3, hr, h6, List.append_assoc]
  rfl

/-! ## Watts-Strogatz -/

/-- The requests of `SmallWorldWS::randomize`: at each vertex some numbers in `[0, 1)`, then for each edge to be moved some pairs of numbers
below `n`. -/
def wsAsks (n : ℕ) (blocks : List (ℕ × List ℕ)) : List Ask :=
  blocks.flatMap fun b => List.replicate b.1 Ask.unit ++ b.2.flatMap fun r => (List.replicate r [Ask.range n, .range n]).flatten

namespace Ws

theorem pickPair_asked (g : WSGraph T) (o : OriginalEdge) : ∀ (fuel : ℕ) (rng rng' : Recorder R) (x y : ℕ), pickPair g o fuel rng = .ok (x, y, rng') →
    ∃ r, 1 ≤ r ∧ r ≤ fuel ∧ rng'.asked = rng.asked ++ (List.replicate r [Ask.range (asU32 g.vertexCount), .range (asU32 g.vertexCount)]).flatten
  | 0, _, _, _, _, h => by simp [pickPair] at h
  | fuel + 1, rng, rng', x, y, h => by
    unfold pickPair at h
    obtain ⟨⟨a, r1⟩, h1, h⟩ := Res.bind_eq_ok.1 h
    obtain ⟨⟨b, r2⟩, h2, h⟩ := Res.bind_eq_ok.1 h
    have a1 := genRange_asked h1
    have a2 := genRange_asked h2
    have again : pickPair g o fuel r2 = .ok (x, y, rng') → ∃ r, 1 ≤ r ∧ r ≤ fuel + 1 ∧
        rng'.asked = rng.asked ++ (List.replicate r [Ask.range (asU32 g.vertexCount), .range (asU32 g.vertexCount)]).flatten := by
      intro h
      obtain ⟨r, h3, h4, h5⟩ := pickPair_asked g o fuel _ _ _ _ h
      refine ⟨r + 1, by omega, by omega, ?_⟩
      rw [h5, a2, a1, List.replicate_succ, List.flatten_cons]
      simp only [List.append_assoc]
      rfl
    dsimp only at h
    split at h
    · exact again h
    · obtain ⟨c, _, h⟩ := Res.bind_eq_ok.1 h
      split at h
      · exact again h
      · cases h
        refine ⟨1, le_refl _, by omega, ?_⟩
        rw [a2, a1, List.append_assoc]
        rfl

theorem createEdge_vertexCount {g g' : WSGraph T} {a b : ℕ} {o : OriginalEdge} (h : createEdge g a b o = .ok g') :
    g'.vertexCount = g.vertexCount := by
  unfold createEdge at h
  obtain ⟨_, _, h⟩ := Res.bind_eq_ok.1 h
  cases h
  rfl

theorem addRandomEdge_asked {fuel : ℕ} {g g' : WSGraph T} {rng rng' : Recorder R} {o : OriginalEdge}
    (h : addRandomEdge fuel (g, rng) o = .ok (g', rng')) : g'.vertexCount = g.vertexCount ∧
    ∃ r, 1 ≤ r ∧ r ≤ fuel ∧ rng'.asked = rng.asked ++ (List.replicate r [Ask.range (asU32 g.vertexCount), .range (asU32 g.vertexCount)]).flatten := by
  unfold addRandomEdge at h
  obtain ⟨⟨x, y, r1⟩, h1, h⟩ := Res.bind_eq_ok.1 h
  have := pickPair_asked g o fuel _ _ _ _ h1
  dsimp only at h
  split at h
  · obtain ⟨g1, h2, h⟩ := Res.bind_eq_ok.1 h
    cases h
    exact ⟨createEdge_vertexCount h2, this⟩
  · obtain ⟨g1, h2, h⟩ := Res.bind_eq_ok.1 h
    cases h
    exact ⟨createEdge_vertexCount h2, this⟩

theorem addAll_asked {fuel n : ℕ} : ∀ (l : List OriginalEdge) (g g' : WSGraph T) (rng rng' : Recorder R), asU32 g.vertexCount = n →
    l.foldlM (addRandomEdge fuel) (g, rng) = .ok (g', rng') → g'.vertexCount = g.vertexCount ∧
    ∃ rs : List ℕ, rs.length = l.length ∧ (∀ r ∈ rs, 1 ≤ r ∧ r ≤ fuel) ∧
      rng'.asked = rng.asked ++ rs.flatMap fun r => (List.replicate r [Ask.range n, .range n]).flatten
  | [], g, g', rng, rng', _, h => by
    cases h
    exact ⟨rfl, [], rfl, by simp, by simp⟩
  | o :: l, g, g', rng, rng', hn, h => by
    rw [List.foldlM_cons] at h
    obtain ⟨⟨g1, r1⟩, h1, h⟩ := Res.bind_eq_ok.1 h
    obtain ⟨h2, r, h3, h4, h5⟩ := addRandomEdge_asked h1
    obtain ⟨h6, rs, h7, h8, h9⟩ := addAll_asked (n := n) l g1 g' r1 rng' (by rw [h2]; exact hn) h
    refine ⟨h6.trans h2, r :: rs, by simp [h7], ?_, ?_⟩
    · intro x hx
      rcases List.mem_cons.mp hx with rfl | hx
      · exact ⟨h3, h4⟩
      · exact h8 x hx
    · rw [h9, h5, hn, List.flatMap_cons, List.append_assoc]

theorem testLoop_asked (p : ℚ) : ∀ (j : ℕ) (tos : List ℕ) (original rewire : List OriginalEdge) (rng : Recorder R) x,
    testLoop p j tos original rewire rng = .ok x →
    ∃ c, c ≤ j ∧ x.2.2.1.length ≤ rewire.length + c ∧ x.2.2.2.asked = rng.asked ++ List.replicate c .unit
  | 0, tos, original, rewire, rng, x, h => by
    cases h
    exact ⟨0, le_refl _, by simp, by simp⟩
  | j + 1, tos, original, rewire, rng, x, h => by
    unfold testLoop at h
    obtain ⟨o, _, h⟩ := Res.bind_eq_ok.1 h
    split at h
    · dsimp only at h
      split at h
      · obtain ⟨⟨e1, o1⟩, _, h⟩ := Res.bind_eq_ok.1 h
        obtain ⟨⟨e2, o2⟩, _, h⟩ := Res.bind_eq_ok.1 h
        obtain ⟨c, h1, h2, h3⟩ := testLoop_asked p j _ _ _ _ _ h
        refine ⟨c + 1, by omega, ?_, ?_⟩
        · rw [List.length_append, List.length_singleton] at h2
          omega
        · rw [h3, coin_asked, List.append_assoc, List.replicate_succ]
          rfl
      · obtain ⟨c, h1, h2, h3⟩ := testLoop_asked p j _ _ _ _ _ h
        refine ⟨c + 1, by omega, by omega, ?_⟩
        rw [h3, coin_asked, List.append_assoc, List.replicate_succ]
        rfl
    · obtain ⟨c, h1, h2, h3⟩ := testLoop_asked p j _ _ _ _ _ h
      exact ⟨c, by omega, h2, h3⟩

theorem removeOthers_vertexCount : ∀ (l : List OriginalEdge) (g g' : WSGraph T), l.foldlM removeOther g = .ok g' → g'.vertexCount = g.vertexCount
  | [], g, g', h => by cases h; rfl
  | o :: l, g, g', h => by
    rw [List.foldlM_cons] at h
    obtain ⟨g1, h1, h⟩ := Res.bind_eq_ok.1 h
    rw [removeOthers_vertexCount l g1 g' h]
    unfold removeOther at h1
    obtain ⟨_, _, h1⟩ := Res.bind_eq_ok.1 h1
    obtain ⟨_, _, h1⟩ := Res.bind_eq_ok.1 h1
    cases h1
    rfl

theorem loop_asked (p : ℚ) {fuel n : ℕ} : ∀ (l : List ℕ) (g g' : WSGraph T) (rng rng' : Recorder R), asU32 g.vertexCount = n →
    l.foldlM (rewireBody p fuel) (g, rng) = .ok (g', rng') →
    ∃ blocks : List (ℕ × List ℕ), blocks.length = l.length ∧ (∀ b ∈ blocks, b.2.length ≤ b.1 ∧ ∀ r ∈ b.2, 1 ≤ r ∧ r ≤ fuel) ∧
      rng'.asked = rng.asked ++ wsAsks n blocks
  | [], g, g', rng, rng', _, h => by
    cases h
    exact ⟨[], rfl, by simp, by simp [wsAsks]⟩
  | i :: l, g, g', rng, rng', hn, h => by
    rw [List.foldlM_cons] at h
    obtain ⟨⟨g1, r1⟩, h1, h⟩ := Res.bind_eq_ok.1 h
    unfold rewireBody removeStage at h1
    simp only at h1
    obtain ⟨⟨g2, rewire, r2⟩, h2, h1⟩ := Res.bind_eq_ok.1 h1
    obtain ⟨c, _, h2⟩ := Res.bind_eq_ok.1 h2
    obtain ⟨_, _, h2⟩ := Res.bind_eq_ok.1 h2
    obtain ⟨⟨tos, original, rw', r3⟩, h3, h2⟩ := Res.bind_eq_ok.1 h2
    obtain ⟨g3, h4, h2⟩ := Res.bind_eq_ok.1 h2
    cases h2
    obtain ⟨k, _, k2, k3⟩ := testLoop_asked p _ _ _ _ _ _ h3
    have hc := removeOthers_vertexCount _ _ _ h4
    have hc : g2.vertexCount = g.vertexCount := hc
    obtain ⟨m1, rs, m2, m3, m4⟩ := addAll_asked (n := n) _ _ _ _ _ (by rw [hc]; exact hn) h1
    obtain ⟨blocks, b1, b2, b3⟩ := loop_asked p (n := n) l g1 g' r1 rng' (by rw [m1, hc]; exact hn) h
    refine ⟨(k, rs) :: blocks, by simp [b1], ?_, ?_⟩
    · intro b hb
      rcases List.mem_cons.mp hb with rfl | hb
      · refine ⟨?_, m3⟩
        simp only [List.length_nil, Nat.zero_add] at k2
        rw [m2]
        exact k2
      · exact b2 b hb
    · rw [b3, m4, k3]
      simp only [wsAsks, List.flatMap_cons, List.append_assoc]

end Ws

/-- `SmallWorldWS::randomize` goes through the vertices: at each vertex it asks for `c` numbers in `[0, 1)`, then, for `c` edges at most, for
pairs of numbers below `n`, one pair or more for each of these edges. -/
theorem C111_ws_randomize [Node T] {e e' : Ws T (Recorder R)} (h : e.graph.WF) (hd : 2 * e.neighborDistance + 1 ≤ e.graph.vertexCount)
    (hn : e.graph.vertexCount < 2 ^ 32) {fuel : ℕ} (hr : Ws.randomize fuel e = .ok e') :
    ∃ blocks : List (ℕ × List ℕ), blocks.length = e.graph.vertexCount ∧
      (∀ b ∈ blocks, b.2.length ≤ b.1 ∧ ∀ r ∈ b.2, 1 ≤ r ∧ r ≤ fuel) ∧
      e'.rng.asked = e.rng.asked ++ wsAsks e.graph.vertexCount blocks := by
  obtain ⟨g0, h1, h2, h3, h4, h5⟩ := Ws.start h hd hn
  unfold Ws.randomize at hr
  rw [h1, Res.ok_bind] at hr
  simp only at hr
  obtain ⟨⟨g', r'⟩, h6, hr⟩ := Res.bind_eq_ok.1 hr
  cases hr
  have hc : g0.vertexCount = e.graph.vertexCount := h2
  have hu : asU32 g0.vertexCount = e.graph.vertexCount := by
    rw [hc]; exact Nat.mod_eq_of_lt hn
  obtain ⟨blocks, b1, b2, b3⟩ := Ws.loop_asked e.rewireProb _ _ _ _ _ hu h6
  exact ⟨blocks, by rw [b1, List.length_range, hc], b2, b3⟩

/-! ## The hypotheses are met -/

/-- The first vertex draws three times because the second draw gives the same neighbour again, the other one twice. -/
def exBaAsked : Ba Nat (Recorder Script) :=
  { source := exPath, graph := GenericGraph.new 6, rng := ⟨⟨[0, 0, 1, 0, 2]⟩, []⟩, m := 2, weights := [0, 0, 0, 0, 0, 0] }

def askedOf {E : Type} (f : E → List Ask) : Res E → Option (List Ask)
  | .ok e => some (f e)
  | _ => none

example : exBaAsked.Valid ∧ 1 ≤ exBaAsked.source.edgeCount ∧
    askedOf (fun e => e.rng.asked) (exBaAsked.randomize 9) =
      some [.shuffle 2, .range 6, .range 6, .range 6, .range 10, .range 10] :=
  ⟨⟨exPath_wf, new_wf _, show exPath.vertexCount ≤ 6 by decide, rfl⟩, by decide, by decide +kernel⟩

/-- Degrees 2, 2, 1, 1. -/
def exConfigAsked : Config Nat (Recorder Script) :=
  { graph := GenericGraph.new 4, degreeVec := [2, 2, 1, 1], rng := ⟨⟨[]⟩, []⟩, halfs := [], backup := [0, 1, 1, 2, 0, 3] }

example : askedOf (fun e => e.rng.asked) (exConfigAsked.randomize 9) = some [.shuffle 6] := by decide +kernel

/-- The path `0-1-2-3`; the first two places belong to the same vertex. -/
def exConfigStepAsked : Config Nat (Recorder Script) :=
  { graph := exPath, degreeVec := [1, 2, 2, 1], rng := ⟨⟨[1, 1, 3, 1, 0, 1]⟩, []⟩, halfs := [], backup := [0, 1, 1, 2, 2, 3] }

example : askedOf (fun e => e.2.rng.asked) (exConfigStepAsked.mStep 9) =
    some [.range 6, .range 5, .range 6, .range 5, .range 2, .range 2] := by decide +kernel

/-- A ring of five vertices; one edge is moved, the first pair drawn for it is twice the same vertex. -/
def exWsAsked : Ws Nat (Recorder Script) :=
  { graph := GenericGraph.new 5, rewireProb := 1 / 2, neighborDistance := 1,
    rng := ⟨⟨[0, 2 ^ 53 - 1, 1, 1, 1, 3] ++ List.replicate 7 (2 ^ 53 - 1)⟩, []⟩ }

example : exWsAsked.graph.WF ∧ 2 * exWsAsked.neighborDistance + 1 ≤ exWsAsked.graph.vertexCount ∧
    askedOf (fun e => e.rng.asked) (Ws.randomize 9 exWsAsked) =
      some ([.unit, .unit, .range 5, .range 5, .range 5, .range 5] ++ List.replicate 7 .unit) :=
  ⟨new_wf _, by decide, by decide +kernel⟩

end Verif
