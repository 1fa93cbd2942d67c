import Verif.Lemmas.Ws5

/-!
# Properties of the Watts-Strogatz ensemble (C45, C46)
-/

set_option linter.unusedSectionVars false
set_option linter.unusedSimpArgs false

namespace Verif
open AdjContainer GenericGraph

variable {T R : Type} [Rng R]

/-- **C45.** `randomize` never panics on a network of `n ≥ 2d + 1` vertices.  If it returns, the network is valid: simple, with
exactly `n * d` edges, the stored origins being in bijection with the edges of the ring.  Vertex data and parameters are kept.  If
every throw of the coin succeeds, no edge is at its origin. -/
theorem C45_ws_randomize {e : Ws T R} (h : e.graph.WF) (hd : 2 * e.neighborDistance + 1 ≤ e.graph.vertexCount)
    (hn : e.graph.vertexCount < 2 ^ 32) (fuel : Nat) :
    e.randomize fuel ≠ .panic ∧
    ∀ e', e.randomize fuel = .ok e' → WsValid e.neighborDistance e'.graph ∧ e'.graph.vertexCount = e.graph.vertexCount ∧
      e'.graph.data = e.graph.data ∧ e'.rewireProb = e.rewireProb ∧ e'.neighborDistance = e.neighborDistance ∧
      (AllHeads e.rewireProb → ∀ u, ∀ z ∈ WSGraph.entries e'.graph u, z.2.isAtOrigin = false) := by
  obtain ⟨g0, h1, h2, h3, h4, h5⟩ := Ws.start h hd hn
  have hw : (e.randomize fuel).wp (fun e' => WsValid e.neighborDistance e'.graph ∧ e'.graph.vertexCount = e.graph.vertexCount ∧
      e'.graph.data = e.graph.data ∧ e'.rewireProb = e.rewireProb ∧ e'.neighborDistance = e.neighborDistance ∧
      (AllHeads e.rewireProb → ∀ u, ∀ z ∈ WSGraph.entries e'.graph u, z.2.isAtOrigin = false)) True := by
    unfold Ws.randomize
    rw [h1]
    simp only [Res.ok_bind]
    have hlen : g0.vertexCount = e.graph.nextId := h2
    rw [hlen]
    refine Res.wp_bind (Res.wp_mono (Ws.loop_spec (p := e.rewireProb) h4 hn h5 fuel e.rng (le_refl _)) ?_ id)
    rintro ⟨g', rng'⟩ ⟨E, org, hP⟩
    have hJ : Ws.J e.graph.nextId e.neighborDistance e.graph.data g' E org 0 := hP.j
    refine ⟨hJ.valid hd, hJ.raw.next, hJ.raw.data, rfl, rfl, ?_⟩
    intro hp u z hz
    obtain ⟨k1, k2⟩ := hJ.entry hz
    by_contra hc
    rw [Bool.not_eq_false, k1.flag] at hc
    have := hP.past hp _ k2 hc u (Sym2.mem_mk_left _ _)
    have := (hJ.lt _ _ k2).1
    omega
  exact ⟨hw.ne_panic, fun e' he => hw.post he⟩

/-- **C45.** The coin is thrown twice for every edge of the ring, once at each end: if the first `2 * n * d` throws all fail,
`randomize` returns the ring after exactly these throws (whatever the bound on the loops); and if it returns with every edge at
its origin, all these throws failed.  (The documentation says that each edge is rewired with probability `rewire_prob`; in fact
an edge stays only if two throws fail.) -/
theorem C45_ws_two_throws_per_edge {e : Ws T R} (h : e.graph.WF) (hd : 2 * e.neighborDistance + 1 ≤ e.graph.vertexCount)
    (hn : e.graph.vertexCount < 2 ^ 32) (fuel : Nat) :
    ((∀ k < 2 * (e.graph.vertexCount * e.neighborDistance), throwAt e.rewireProb e.rng k = false) →
      ∃ g0, e.graph.initRing e.neighborDistance = .ok (.ok (), g0) ∧
        e.randomize fuel = .ok { e with graph := g0, rng := unitState (2 * (e.graph.vertexCount * e.neighborDistance)) e.rng }) ∧
    (∀ e', e.randomize fuel = .ok e' →
      ((∀ u, ∀ z ∈ WSGraph.entries e'.graph u, z.2.isAtOrigin = true) ↔
        ∀ k < 2 * (e.graph.vertexCount * e.neighborDistance), throwAt e.rewireProb e.rng k = false)) := by
  obtain ⟨g0, h1, h2, h3, h4, h5⟩ := Ws.start h hd hn
  have hmul : 2 * (e.graph.vertexCount * e.neighborDistance) = 2 * e.neighborDistance * e.graph.nextId := by
    show 2 * (e.graph.nextId * e.neighborDistance) = _
    ring
  rw [hmul]
  have hlen : g0.vertexCount = e.graph.nextId := h2
  constructor
  · intro ht
    refine ⟨g0, h1, ?_⟩
    unfold Ws.randomize
    rw [h1]
    simp only [Res.ok_bind]
    rw [hlen, Ws.loop_tails h4 h5 fuel e.rng _ (le_refl _) ht]
    rfl
  · intro e' he
    have hw := Ws.loop_spec (p := e.rewireProb) h4 hn h5 fuel e.rng (le_refl _)
    unfold Ws.randomize at he
    rw [h1] at he
    simp only [Res.ok_bind] at he
    rw [hlen] at he
    simp only [Res.bind_eq_ok] at he
    obtain ⟨⟨g', rng'⟩, e1, e2⟩ := he
    simp only [Res.pure_eq, Res.ok.injEq] at e2
    subst e2
    obtain ⟨E, org, hP⟩ := hw.post e1
    have hJ : Ws.J e.graph.nextId e.neighborDistance e.graph.data g' E org 0 := hP.j
    have hm : (∀ u, ∀ z ∈ WSGraph.entries g' u, z.2.isAtOrigin = true) ↔ Ws.moved E org = 0 := by
      unfold Ws.moved
      rw [Finset.card_eq_zero, Finset.filter_eq_empty_iff]
      constructor
      · intro hall x hx
        rw [not_not]
        induction x using Sym2.ind with
        | h u v =>
          obtain ⟨o, ho⟩ := hJ.exists_entry hx
          exact (hJ.entry ho).1.flag.mp (hall u _ ho)
      · intro hall u z hz
        obtain ⟨k1, k2⟩ := hJ.entry hz
        exact k1.flag.mpr (by simpa using hall k2)
    show (∀ u, ∀ z ∈ WSGraph.entries g' u, z.2.isAtOrigin = true) ↔ _
    rw [hm]
    exact ⟨fun h0 => (hP.quiet h0).2.2, hP.tails⟩

/-- **C46.** `new` answers with an error exactly if the ring does not fit, and the error is the one for an impossible ring. -/
theorem C46_ws_new_error_iff [Node T] (fuel n d : Nat) (hn : n < 2 ^ 32) (p : ℚ) (rng : R) (er : WSCreationError) :
    (Ws.new fuel n d p rng : Res (Except WSCreationError (Ws T R))) = .ok (.error er) ↔
      n < 2 * d + 1 ∧ er = .impossibleRingRequest := by
  unfold Ws.new
  by_cases hnd : n < 1 + 2 * d
  · rw [if_pos hnd]
    simp only [Res.pure_eq, Res.ok.injEq, Except.error.injEq]
    constructor
    · intro h; exact ⟨by omega, h.symm⟩
    · intro h; exact h.2.symm
  · rw [if_neg hnd]
    obtain ⟨g0, h1, _⟩ := Ws.start (g := (GenericGraph.new n : WSGraph T)) (new_wf n) (d := d) (by show _ ≤ n; omega) hn
    simp only [Res.ok_bind]
    rw [h1]
    simp only [Res.ok_bind]
    constructor
    · intro h
      rw [Res.bind_eq_ok] at h
      obtain ⟨s, _, h2⟩ := h
      simp at h2
    · intro h; omega

/-- What `new` does after the check. -/
theorem Ws.new_eq [Node T] (fuel n d : Nat) (hd : 2 * d + 1 ≤ n) (hn : n < 2 ^ 32) (p : ℚ) (rng : R) :
    ∃ g0 : WSGraph T, g0.WF ∧ g0.vertexCount = n ∧ g0.data = (List.range n).map Node.newFromIndex ∧
      (Ws.new fuel n d p rng : Res (Except WSCreationError (Ws T R))) =
        ((Ws.randomize fuel ⟨g0, p, rng, d⟩) >>= fun s => .ok (.ok s)) := by
  obtain ⟨g0, h1, h2, h3, h4, _⟩ := Ws.start (g := (GenericGraph.new n : WSGraph T)) (new_wf n) (d := d) (by show _ ≤ n; omega) hn
  refine ⟨g0, h3, h2, ?_, ?_⟩
  · rw [h4.raw.data, new_eq_fromVec, fromVec_data]
  · unfold Ws.new
    rw [if_neg (by omega)]
    simp only [Res.ok_bind]
    rw [h1]
    rfl

/-- **C45.** A network built by `new` is valid, has `n` vertices with the data of the indices and `n * d` edges; `new` never
panics. -/
theorem C45_ws_new [Node T] (fuel n d : Nat) (hn : n < 2 ^ 32) (p : ℚ) (rng : R) :
    (Ws.new fuel n d p rng : Res (Except WSCreationError (Ws T R))) ≠ .panic ∧
    ∀ e : Ws T R, Ws.new fuel n d p rng = .ok (.ok e) → WsValid d e.graph ∧ e.graph.vertexCount = n ∧
      e.graph.edgeCount = n * d ∧ e.graph.data = (List.range n).map Node.newFromIndex ∧ e.neighborDistance = d ∧
      e.rewireProb = p := by
  by_cases hd : 2 * d + 1 ≤ n
  · obtain ⟨g0, a1, a2, a3, a4⟩ := Ws.new_eq (T := T) fuel n d hd hn p rng
    obtain ⟨b1, b2⟩ := C45_ws_randomize (e := (⟨g0, p, rng, d⟩ : Ws T R)) a1 (by rw [a2]; exact hd) (by rw [a2]; exact hn) fuel
    rw [a4]
    constructor
    · rw [Ne, Res.bind_eq_panic]
      rintro (h | ⟨a, _, h⟩)
      · exact b1 h
      · cases h
    · intro e he
      rw [Res.bind_eq_ok] at he
      obtain ⟨s, e1, e2⟩ := he
      simp only [Res.ok.injEq, Except.ok.injEq] at e2
      subst e2
      obtain ⟨c1, c2, c3, c4, c5, _⟩ := b2 s e1
      rw [a2] at c2
      exact ⟨c1, c2, by rw [c1.count, c2], by rw [c3, a3], c5, c4⟩
  · unfold Ws.new
    rw [if_pos (by omega)]
    simp

/-- **C46 (violated).** With `n = 2d + 1` vertices, the smallest number `new` accepts, and a coin that always succeeds (for
example `p = 1`), `new` never returns, whatever the generator does: the ring is the complete graph, the last edge removed has no
other place to go. -/
theorem C46_ws_never_returns [Node T] (fuel d : Nat) (hd : 1 ≤ d) (hn : 2 * d + 1 < 2 ^ 32) (p : ℚ) (hp : AllHeads p) (rng : R) :
    (Ws.new fuel (2 * d + 1) d p rng : Res (Except WSCreationError (Ws T R))) = .diverge := by
  obtain ⟨g0, a1, a2, a3, a4⟩ := Ws.new_eq (T := T) fuel (2 * d + 1) d (le_refl _) hn p rng
  obtain ⟨g1, h1, h2, h3, h4, h5⟩ := Ws.start a1 (d := d) (by show _ ≤ g0.vertexCount; rw [a2]) (by show g0.vertexCount < _; rw [a2]; exact hn)
  have a2' : g0.nextId = 2 * d + 1 := a2
  rw [a2'] at h4 h5
  rw [a4]
  unfold Ws.randomize
  simp only
  rw [h1]
  simp only [Res.ok_bind]
  have hlen : g1.vertexCount = 2 * d + 1 := h2.trans a2'
  rw [hlen, Ws.loop_stuck hp hd rfl h4 hn h5 fuel rng]
  rfl

theorem throwAt_script {p : ℚ} (hp : ¬ AllHeads p) (m : Nat) : ∀ k < m,
    throwAt p (⟨List.replicate m (2 ^ 53 - 1)⟩ : Script) k = false := by
  induction m with
  | zero => intro k hk; omega
  | succ m ih =>
    intro k hk
    cases k with
    | zero =>
      unfold AllHeads at hp
      have h1 : ((2 ^ 53 - 1 : ℕ) % 2 ^ 53) = 2 ^ 53 - 1 := Nat.mod_eq_of_lt (by norm_num)
      have h2 : throwAt p (⟨List.replicate (m + 1) (2 ^ 53 - 1)⟩ : Script) 0 =
          decide ((((2 ^ 53 - 1 : ℕ) % 2 ^ 53 : ℕ) : ℚ) / 2 ^ 53 ≤ p) := rfl
      rw [h2, h1, decide_eq_false hp]
    | succ k =>
      rw [Ws.throwAt_succ]
      exact ih k (by omega)

/-- **C46 (corrected).** Some behaviour of the generator lets `new(n, d, p)` return a network exactly if `n ≥ 2d + 2`, or
`n = 2d + 1` and the coin can fail (for `d ≥ 1`). -/
theorem C46_ws_returns_iff [Node T] (n d : Nat) (hd : 1 ≤ d) (hn : n < 2 ^ 32) (p : ℚ) :
    (∃ (fuel : Nat) (rng : Script) (e : Ws T Script), Ws.new fuel n d p rng = .ok (.ok e)) ↔
      2 * d + 2 ≤ n ∨ (n = 2 * d + 1 ∧ ¬ AllHeads p) := by
  constructor
  · rintro ⟨fuel, rng, e, he⟩
    rcases Nat.lt_trichotomy n (2 * d + 1) with h | h | h
    · unfold Ws.new at he
      rw [if_pos (by omega)] at he
      simp at he
    · right
      refine ⟨h, fun hp => ?_⟩
      subst h
      rw [C46_ws_never_returns fuel d hd hn p hp rng] at he
      cases he
    · left; omega
  · intro h
    have hd' : 2 * d + 1 ≤ n := by omega
    have hgo : ∀ rng : Script, ∃ g0 : WSGraph T, g0.WF ∧ g0.vertexCount = n ∧
        ∀ fuel, (Ws.new fuel n d p rng : Res (Except WSCreationError (Ws T Script))) =
          ((Ws.randomize fuel ⟨g0, p, rng, d⟩) >>= fun s => .ok (.ok s)) := by
      intro rng
      obtain ⟨g1, h1, h2, h3, h4, h5⟩ := Ws.start (g := (GenericGraph.new n : WSGraph T)) (new_wf n) (d := d)
        (by show _ ≤ n; omega) hn
      refine ⟨g1, h3, h2, fun fuel => ?_⟩
      unfold Ws.new
      rw [if_neg (by omega)]
      simp only [Res.ok_bind]
      rw [h1]
      rfl
    by_cases hb : 2 * d + 2 ≤ n
    · obtain ⟨g1, h1, h2, h3, h4, h5⟩ := Ws.start (g := (GenericGraph.new n : WSGraph T)) (new_wf n) (d := d)
        (by show _ ≤ n; omega) hn
      have h2' : g1.nextId = n := h2
      obtain ⟨g2, k1, k2, k3, k4, k5⟩ := Ws.start h3 (d := d) (by rw [h2']; exact hd') (by rw [h2']; exact hn)
      rw [h2'] at k4
      obtain ⟨ds, g', E', org', l1, l2⟩ := Ws.loop_run (p := p) (fuel := 0) hn hb k4 n (le_refl _)
      refine ⟨1, ⟨ds ++ []⟩, ⟨g', p, ⟨[]⟩, d⟩, ?_⟩
      unfold Ws.new
      rw [if_neg (by omega)]
      simp only [Res.ok_bind]
      rw [h1]
      simp only [Res.ok_bind]
      unfold Ws.randomize
      simp only
      rw [k1]
      simp only [Res.ok_bind]
      have hlen : g2.vertexCount = n := k2.trans h2'
      rw [hlen, l2 []]
      rfl
    · have hp : ¬ AllHeads p := by
        rcases h with h | h
        · exact absurd h hb
        · exact h.2
      obtain ⟨g0, a1, a2, a3⟩ := hgo ⟨List.replicate (2 * (n * d)) (2 ^ 53 - 1)⟩
      obtain ⟨b1, _⟩ := C45_ws_two_throws_per_edge
        (e := (⟨g0, p, ⟨List.replicate (2 * (n * d)) (2 ^ 53 - 1)⟩, d⟩ : Ws T Script)) a1 (by rw [a2]; exact hd') (by rw [a2]; exact hn) 0
      obtain ⟨g1, _, b3⟩ := b1 (by
        intro k hk
        rw [a2] at hk
        exact throwAt_script hp _ k hk)
      exact ⟨0, _, _, by rw [a3, b3]; rfl⟩

/-- A coin of probability one always succeeds, one of probability one half does not. -/
example : AllHeads 1 ∧ ¬ AllHeads (1 / 2) := by
  unfold AllHeads
  constructor <;> norm_num

/-- The hypotheses of the theorems are met, for instance by the ring of five vertices. -/
example : ∃ e : Ws Nat Script, e.graph.WF ∧ 2 * e.neighborDistance + 1 ≤ e.graph.vertexCount ∧ e.graph.vertexCount < 2 ^ 32 :=
  ⟨⟨GenericGraph.new 5, 1 / 2, ⟨[]⟩, 1⟩, new_wf 5, by decide, by decide⟩

end Verif
