import Verif.Props.ConfigLaw
import Verif.Lemmas.ConfigFair
import Verif.Lemmas.UntilState

/-!
# The law of `randomize` of the configuration model on a uniform source of random numbers
-/

set_option linter.unusedSectionVars false
set_option linter.unusedSimpArgs false

namespace Verif
open AdjContainer GenericGraph MeasureTheory ProbabilityTheory

variable {T : Type}

/-! ## Specification -/

/-- The edge halves of a degree sequence: vertex `i` occurs as often as its degree. -/
def halvesOf (d : List ℕ) : List ℕ := (List.range d.length).flatMap (fun i => List.replicate (d.getD i 0) i)

/-- Read halves one after the other: the first one is joined to the first half of another vertex.  `none` if there is no such half or
if the edge exists already. -/
def pairUp : ℕ → List (ℕ × ℕ) → List ℕ → Option (List (ℕ × ℕ))
  | _, L, [] => some L
  | 0, _, _ => none
  | n + 1, L, x :: r => match takeOther x r with
    | none => none
    | some (y, h) =>
      if L.any (fun p => (p.1.beq x && p.2.beq y) || (p.1.beq y && p.2.beq x)) then none else pairUp n ((x, y) :: L) h

/-- The edges to which the halves in the order `t` are joined, beginning with the last one. -/
def joined (t : List ℕ) : Option (Finset (Sym2 ℕ)) := (pairUp t.length [] t.reverse).map (fun L => (L.map toEdge).toFinset)

/-- The number of orders of the halves of `d` that are joined to the edges `E`. -/
def ways (d : List ℕ) (E : Finset (Sym2 ℕ)) : ℕ := (halvesOf d).permutations.countP (fun t => joined t = some E)

/-- The number of orders of the halves of `d` that can be joined. -/
def allWays (d : List ℕ) : ℕ := (halvesOf d).permutations.countP (fun t => joined t ≠ none)

/-! ## One attempt -/

theorem any_edge {L : List (ℕ × ℕ)} {x y : ℕ} :
    L.any (fun p => (p.1.beq x && p.2.beq y) || (p.1.beq y && p.2.beq x)) = true ↔ s(x, y) ∈ (L.map toEdge).toFinset := by
  rw [List.any_eq_true, List.mem_toFinset, List.mem_map]
  simp only [Bool.or_eq_true, Bool.and_eq_true, Nat.beq_eq, toEdge, Sym2.eq_iff]

theorem addMultiple_pairUp : ∀ (m : ℕ) (h : List ℕ) (g : Graph T) (fuel n : ℕ) (L : List (ℕ × ℕ)), h.length = 2 * m → m < fuel →
    m ≤ n → g.WF → (∀ v ∈ h, v < g.nextId) → g.edges = (L.map toEdge).toFinset →
    ∃ b g' r, (if h.length > 1 then Config.addMultiple fuel g h.reverse else .ok (true, g, h.reverse)) = .ok (b, g', r) ∧
      g'.WF ∧ g'.nextId = g.nextId ∧
      ((b = true ∧ r = [] ∧ (pairUp n L h).map (fun L => (L.map toEdge).toFinset) = some g'.edges) ∨
        (b = false ∧ pairUp n L h = none)) := by
  intro m
  induction m with
  | zero =>
    intro h g fuel n L h2 _ _ hwf _ hE
    obtain rfl := List.length_eq_zero_iff.mp h2
    refine ⟨true, g, [], by simp, hwf, rfl, Or.inl ⟨rfl, rfl, ?_⟩⟩
    rw [hE]
    cases n <;> rfl
  | succ m ih =>
    intro h g fuel n L h2 hf hn hwf hlt hE
    obtain ⟨fuel, rfl⟩ : ∃ k, fuel = k + 1 := ⟨fuel - 1, by omega⟩
    obtain ⟨n, rfl⟩ : ∃ k, n = k + 1 := ⟨n - 1, by omega⟩
    obtain ⟨x, rest, rfl⟩ : ∃ x rest, h = x :: rest := by
      cases h with
      | nil => simp at h2
      | cons x rest => exact ⟨x, rest, rfl⟩
    have hr : rest ≠ [] := by rintro rfl; simp at h2; omega
    rw [if_pos (by omega)]
    rcases addMultiple_step fuel hr hwf hlt with ⟨a1, r', a2⟩ | ⟨y, h', a1, a3, r', a2⟩ | ⟨y, h', a1, a2, hp, g1, a3, a4, a5, a6⟩
    · exact ⟨false, g, r', a2, hwf, rfl, Or.inr ⟨rfl, by simp [pairUp, a1]⟩⟩
    · refine ⟨false, g, r', a2, hwf, rfl, Or.inr ⟨rfl, ?_⟩⟩
      rw [hE] at a3
      simp only [pairUp, a1, any_edge.mpr a3, if_true]
    · have hl : h'.length = 2 * m := by have := hp.length_eq; simp at this h2; omega
      have hlt' : ∀ v ∈ h', v < g1.nextId := by
        intro v hv
        rw [a4]
        exact hlt v (List.mem_cons_of_mem _ (hp.mem_iff.mp (List.mem_cons_of_mem _ hv)))
      obtain ⟨b, g', r, b1, b2, b3, b4⟩ := ih h' g1 fuel n ((x, y) :: L) hl (by omega) (by omega) a3 hlt' (by
        rw [a5, hE]; simp [toEdge])
      rw [hE] at a2
      have hpu : pairUp (n + 1) L (x :: rest) = pairUp n ((x, y) :: L) h' := by
        have : ¬ (L.any (fun p => (p.1.beq x && p.2.beq y) || (p.1.beq y && p.2.beq x)) = true) := fun hc => a2 (any_edge.mp hc)
        simp only [pairUp, a1, this, if_false, Bool.false_eq_true]
      rw [hpu]
      exact ⟨b, g', r, a6.trans b1, b2, by rw [b3, a4], b4⟩

namespace Config

/-- What one attempt of `randomize` does, as a function of the order of the halves after the shuffle. -/
theorem randomize_step {e : Config T Stream} (h : e.Base) (hev : e.degreeVec.sum % 2 = 0) :
    (∃ g' : Graph T, joined (Rng.shuffle e.rng e.backup).1 = some g'.edges ∧ ∀ fuel, e.randomize (fuel + 2) =
      .ok ⟨g', e.degreeVec, e.rng.skip 1, [], (Rng.shuffle e.rng e.backup).1⟩) ∨
    (∃ (g' : Graph T), joined (Rng.shuffle e.rng e.backup).1 = none ∧ g'.WF ∧ g'.nextId = e.graph.nextId ∧
      ∀ fuel, e.randomize (fuel + 1) =
        randomize fuel ⟨g', e.degreeVec, e.rng.skip 1, e.halfs, (Rng.shuffle e.rng e.backup).1⟩) := by
  have hs : Rng.shuffle e.rng e.backup = ((Rng.shuffle e.rng e.backup).1, e.rng.skip 1) := rfl
  have hp := Rng.shuffle_perm e.rng e.backup
  have hI := restart h hs
  have hlen : (Rng.shuffle e.rng e.backup).1.length = 2 * (e.degreeVec.sum / 2) := by
    rw [hp.length_eq, h.halves.length]; omega
  have hlt := hI.lt
  have hcw := clearEdges_wf h.wf
  have hn : e.graph.clearEdges.nextId = e.graph.nextId := clearEdges_nextId _
  generalize ht : (Rng.shuffle e.rng e.backup).1 = t at *
  have hrun : ∀ fuel, e.randomize fuel = randLoop fuel ⟨e.graph.clearEdges, e.degreeVec, e.rng.skip 1, t, t⟩ := by
    intro fuel
    unfold randomize
    rw [hs]
  obtain ⟨b, g', r, h1, h2, h3, h4⟩ := addMultiple_pairUp (e.degreeVec.sum / 2) t.reverse e.graph.clearEdges (t.length + 1) t.length []
    (by rw [List.length_reverse, hlen]) (by omega) (by omega) hcw (fun v hv => hlt v (by simpa using hv)) (by
      rw [clearEdges_edges h.wf]; rfl)
  rw [List.length_reverse, List.reverse_reverse] at h1
  by_cases hnil : t = []
  · left
    have h5 : joined t = some e.graph.clearEdges.edges := by
      rw [clearEdges_edges h.wf, hnil]; rfl
    refine ⟨e.graph.clearEdges, h5, fun fuel => ?_⟩
    rw [hrun, hnil]
    exact randLoop_empty rfl _
  · have hpos := List.length_pos_of_ne_nil hnil
    rw [if_pos (by omega)] at h1
    have hne : t.isEmpty = false := by rwa [List.isEmpty_eq_false_iff]
    rcases h4 with ⟨rfl, rfl, h4⟩ | ⟨rfl, h4⟩
    · left
      refine ⟨g', h4, fun fuel => ?_⟩
      rw [hrun, randLoop]
      simp only [hne, Bool.false_eq_true, if_false, h1, Res.ok_bind, if_true]
      exact randLoop_empty rfl fuel
    · right
      refine ⟨g', by unfold joined; rw [h4]; rfl, h2, by rw [h3, hn], fun fuel => ?_⟩
      rw [hrun, randLoop]
      simp only [hne, Bool.false_eq_true, if_false, h1, Res.ok_bind]
      rfl

/-- One attempt: shuffle and join. -/
def Attempt (b : List ℕ) (ω : ℕ → ℝ) (k : ℕ) (x : List ℕ ⊕ Finset (Sym2 ℕ)) (j : ℕ) : Prop :=
  j = k + 1 ∧ match x with
    | .inl b' => joined b' = none ∧ b' = (Rng.shuffle (⟨ω, k⟩ : Stream) b).1
    | .inr E => joined (Rng.shuffle (⟨ω, k⟩ : Stream) b).1 = some E

theorem attempt_sampler (b : List ℕ) : Sampler (Attempt b) := by
  refine ⟨?_, ?_⟩
  · rintro ω k x j ⟨rfl, h⟩
    refine ⟨[(b.permutations.length, partOf (ω k) b.permutations.length)], rfl, matches_single.mpr rfl, fun ω' k' hm => ⟨rfl, ?_⟩⟩
    have hm := matches_single.mp hm
    have hsh : (Rng.shuffle (⟨ω', k'⟩ : Stream) b).1 = (Rng.shuffle (⟨ω, k⟩ : Stream) b).1 := by
      show b.permutations.getD (partOf (ω' k') b.permutations.length) b = b.permutations.getD (partOf (ω k) b.permutations.length) b
      rw [hm]
    cases x with
    | inl b' => exact ⟨h.1, h.2.trans hsh.symm⟩
    | inr E => exact (congrArg joined hsh).trans h
  · rintro ω k x x' j j' ⟨rfl, h⟩ ⟨rfl, h'⟩
    refine ⟨?_, rfl⟩
    cases x with
    | inl b1 => cases x' with
      | inl b2 => rw [h.2, h'.2]
      | inr E =>
        have h' : joined (Rng.shuffle (⟨ω, k⟩ : Stream) b).1 = some E := h'
        rw [← h.2, h.1] at h'; cases h'
    | inr E => cases x' with
      | inl b2 =>
        have h : joined (Rng.shuffle (⟨ω, k⟩ : Stream) b).1 = some E := h
        rw [← h'.2, h'.1] at h; cases h
      | inr E' =>
        have h : joined (Rng.shuffle (⟨ω, k⟩ : Stream) b).1 = some E := h
        have h' : joined (Rng.shuffle (⟨ω, k⟩ : Stream) b).1 = some E' := h'
        rw [h] at h'; cases h'; rfl

/-- `randomize` returns a graph with the edges `E` iff the first successful attempt joins to `E`. -/
theorem randomize_iff {d : List ℕ} (hev : d.sum % 2 = 0) {ω : ℕ → ℝ} {E : Finset (Sym2 ℕ)} {k : ℕ} {e : Config T Stream} (h : e.Base)
    (hd : e.degreeVec = d) (hr : e.rng = ⟨ω, k⟩) :
    (∃ fuel e', e.randomize fuel = .ok e' ∧ e'.graph.edges = E) ↔ ∃ j, UntilS Attempt ω e.backup k E j := by
  constructor
  · rintro ⟨fuel, e', h1, h2⟩
    induction fuel generalizing e k with
    | zero => cases h1
    | succ fuel ih =>
      rcases randomize_step h (hd ▸ hev) with ⟨g', h3, h4⟩ | ⟨g', h3, h4, h5, h6⟩
      · cases fuel with
        | zero =>
          have h1' := h1
          unfold randomize randLoop at h1
          simp only at h1
          split at h1
          · rename_i he
            have hb : (Rng.shuffle e.rng e.backup).1 = [] := by simpa using he
            have : e' = ⟨e.graph.clearEdges, e.degreeVec, e.rng.skip 1, (Rng.shuffle e.rng e.backup).1, (Rng.shuffle e.rng e.backup).1⟩ :=
              (Res.ok.inj h1).symm
            rw [this] at h2
            have h2 : e.graph.clearEdges.edges = E := h2
            rw [clearEdges_edges h.wf] at h2
            rw [hr] at hb
            refine ⟨k + 1, .done ⟨rfl, ?_⟩⟩
            show joined (Rng.shuffle (⟨ω, k⟩ : Stream) e.backup).1 = some E
            rw [hb, ← h2]; rfl
          · rename_i he
            obtain ⟨⟨b, g, hf⟩, _, h8⟩ := Res.bind_eq_ok.mp h1
            dsimp only at h8
            split at h8 <;> cases h8
        | succ fuel =>
          rw [h4] at h1
          rw [← Res.ok.inj h1] at h2
          refine ⟨k + 1, .done ⟨rfl, ?_⟩⟩
          show joined (Rng.shuffle (⟨ω, k⟩ : Stream) e.backup).1 = some E
          rw [← hr, h3, ← h2]
      · rw [h6] at h1
        have hb : (⟨g', e.degreeVec, e.rng.skip 1, e.halfs, (Rng.shuffle e.rng e.backup).1⟩ : Config T Stream).Base :=
          ⟨h4, by rw [← h.n]; exact h5, h.halves.perm (Rng.shuffle_perm e.rng e.backup)⟩
        obtain ⟨j, hj⟩ := ih (k := k + 1) hb hd (by rw [hr]; rfl) h1
        exact ⟨j, .again ⟨rfl, h3, by rw [hr]⟩ hj⟩
  · rintro ⟨j, hj⟩
    obtain ⟨b, hb⟩ : ∃ b, e.backup = b := ⟨_, rfl⟩
    rw [hb] at hj
    induction hj generalizing e with
    | @done b k j E hA =>
      obtain ⟨rfl, hA⟩ := hA
      have hA : joined (Rng.shuffle (⟨ω, k⟩ : Stream) b).1 = some E := hA
      rcases randomize_step h (hd ▸ hev) with ⟨g', h3, h4⟩ | ⟨g', h3, h4, h5, h6⟩
      · rw [hr, hb, hA] at h3
        exact ⟨2, _, h4 0, (Option.some.inj h3).symm⟩
      · rw [hr, hb, hA] at h3; cases h3
    | @again b b' k i j E hA _ ih =>
      obtain ⟨rfl, hA1, hA2⟩ := hA
      rcases randomize_step h (hd ▸ hev) with ⟨g', h3, h4⟩ | ⟨g', h3, h4, h5, h6⟩
      · rw [hr, hb, ← hA2, hA1] at h3; cases h3
      · have hbase : (⟨g', e.degreeVec, e.rng.skip 1, e.halfs, (Rng.shuffle e.rng e.backup).1⟩ : Config T Stream).Base :=
          ⟨h4, by rw [← h.n]; exact h5, h.halves.perm (Rng.shuffle_perm e.rng e.backup)⟩
        obtain ⟨fuel, e', h7, h8⟩ := ih hbase hd (by rw [hr]; rfl) (by rw [hA2, ← hb, ← hr])
        exact ⟨fuel + 1, e', by rw [h6]; exact h7, h8⟩

end Config

/-! ## Counting -/

theorem card_range_getD (l : List (List ℕ)) (b : List ℕ) (P : List ℕ → Prop) [DecidablePred P] :
    ((Finset.range l.length).filter (fun i => P (l.getD i b))).card = l.countP (fun t => P t) := by
  rw [List.countP_eq_length_filter]
  have h1 : l = (List.range l.length).map (fun i => l.getD i b) := by
    apply List.ext_getElem
    · simp
    · intro i h1 h2
      simp [h1]
  conv => rhs; rw [h1]
  rw [List.filter_map, List.length_map]
  have h2 : (Finset.range l.length).filter (fun i => P (l.getD i b)) =
      ((List.range l.length).filter (fun i => P (l.getD i b))).toFinset := by
    ext i; simp
  rw [h2, List.toFinset_card_of_nodup (List.nodup_range.filter _)]
  rfl

theorem perm_halvesOf {d l : List ℕ} (h : IsHalves d l) : l.Perm (halvesOf d) := by
  rw [List.perm_iff_count]
  intro v
  rw [h v, ← halves_init d v]
  rfl

/-- The chance that the shuffled halves have a property. -/
theorem chance_shuffle {d b : List ℕ} (h : IsHalves d b) (P : List ℕ → Prop) [DecidablePred P] :
    Chance (fun ω k => P (Rng.shuffle (⟨ω, k⟩ : Stream) b).1)
      (((halvesOf d).permutations.countP (fun t => P t) : ENNReal) * (((halvesOf d).permutations.length : ℕ) : ENNReal)⁻¹) := by
  have hp := (perm_halvesOf h).permutations
  have hpos : 0 < b.permutations.length := by rw [List.length_permutations]; exact Nat.factorial_pos _
  have := chance_draw hpos (fun i => P (b.permutations.getD i b))
  rw [card_range_getD, hp.countP_eq] at this
  rw [← hp.length_eq]
  exact this

/-- **The law of `randomize`.**  Whatever the present state of the model, the graph has the edges `E` with probability (number of orders
of the halves joined to `E`) / (number of orders that can be joined). -/
theorem C83_config_law {e : Config T Stream} (h : e.Base) (hev : e.degreeVec.sum % 2 = 0) (k : ℕ) (E : Finset (Sym2 ℕ)) :
    uniformTape {ω | ∃ fuel e', Config.randomize fuel ({ e with rng := ⟨ω, k⟩ } : Config T Stream) = .ok e' ∧ e'.graph.edges = E} =
      (ways e.degreeVec E : ENNReal) / (allWays e.degreeVec : ENNReal) := by
  have hN : 0 < (halvesOf e.degreeVec).permutations.length := by rw [List.length_permutations]; exact Nat.factorial_pos _
  have hfail : ∀ b, IsHalves e.degreeVec b → Chance (fun ω k => ∃ s' j, Config.Attempt b ω k (.inl s') j)
      (1 - (allWays e.degreeVec : ENNReal) * (((halvesOf e.degreeVec).permutations.length : ℕ) : ENNReal)⁻¹) := by
    intro b hb
    refine (chance_shuffle hb (fun t => joined t ≠ none)).not.congr fun ω k => ?_
    rw [not_ne_iff]
    exact ⟨fun h => ⟨_, _, rfl, h, rfl⟩, fun ⟨s', j, _, h1, h2⟩ => by rw [← h2]; exact h1⟩
  have hgood : ∀ b, IsHalves e.degreeVec b → Chance (fun ω k => ∃ a j, Config.Attempt b ω k (.inr a) j ∧ a = E)
      ((ways e.degreeVec E : ENNReal) * (((halvesOf e.degreeVec).permutations.length : ℕ) : ENNReal)⁻¹) := by
    intro b hb
    refine (chance_shuffle hb (fun t => joined t = some E)).congr fun ω k => ?_
    exact ⟨fun h => ⟨E, _, ⟨rfl, h⟩, rfl⟩, fun ⟨a, j, h1, h2⟩ => h2 ▸ h1.2⟩
  have hle : (allWays e.degreeVec : ENNReal) * (((halvesOf e.degreeVec).permutations.length : ℕ) : ENNReal)⁻¹ ≤ 1 := by
    rw [← div_eq_mul_inv]
    exact ENNReal.div_le_of_le_mul (by rw [one_mul]; exact_mod_cast List.countP_le_length)
  have hmain := chance_untilS Config.attempt_sampler (I := IsHalves e.degreeVec) (P := fun a => a = E) (by
    rintro b ω k b' j hb ⟨_, _, rfl⟩
    exact hb.perm (Rng.shuffle_perm _ _)) hfail hgood e.backup h.halves
  rw [ENNReal.sub_sub_cancel ENNReal.one_ne_top hle, ratio_of_counts hN] at hmain
  rw [← hmain.prob k]
  congr 1
  ext ω
  have hb : ({ e with rng := ⟨ω, k⟩ } : Config T Stream).Base := ⟨h.wf, h.n, h.halves⟩
  refine (Config.randomize_iff hev hb rfl rfl).trans ?_
  exact ⟨fun ⟨j, hj⟩ => ⟨E, j, hj, rfl⟩, fun ⟨a, j, hj, ha⟩ => ⟨j, ha ▸ hj⟩⟩

/-! ## What can be produced -/

theorem joined_of_order {g : Graph T} {d : List ℕ} (hd : Realises g d) : ∃ t, IsHalves d t ∧ joined t = some g.edges := by
  obtain ⟨t, ht, hgood⟩ := good_order hd
  obtain ⟨hw, hdeg⟩ := realises_iff.mp hd
  have hn : g.nextId = d.length := ((degreeVec_eq_iff hw d).mp hdeg).1
  have hev : d.sum % 2 = 0 := by rw [← hdeg]; exact degreeVec_even hw
  refine ⟨t, ht, ?_⟩
  rcases hgood g hw hn with ⟨rfl, h1⟩ | ⟨h1, g', h2, h3⟩
  · rw [h1]; rfl
  · have hpos := List.length_pos_of_ne_nil h1
    have hlen : t.length = 2 * (d.sum / 2) := by rw [ht.length]; omega
    obtain ⟨b, g2, r, a1, _, _, a4⟩ := addMultiple_pairUp (d.sum / 2) t.reverse g.clearEdges (t.length + 1) t.length []
      (by rw [List.length_reverse, hlen]) (by omega) (by omega) (clearEdges_wf hw) (fun v hv => by
        rw [clearEdges_nextId, hn]
        exact ht.lt (by simpa using hv)) (by rw [clearEdges_edges hw]; rfl)
    rw [List.length_reverse, List.reverse_reverse, if_pos (by omega), h2] at a1
    simp only [Res.ok.injEq, Prod.mk.injEq] at a1
    obtain ⟨rfl, rfl, rfl⟩ := a1
    rcases a4 with ⟨_, _, a4⟩ | ⟨a4, _⟩
    · rw [← h3]; exact a4
    · cases a4

/-- Exactly the graphs with the prescribed degrees have a positive probability. -/
theorem C83_config_support {e : Config T Stream} (h : e.Base) (hev : e.degreeVec.sum % 2 = 0) (k : ℕ) (E : Finset (Sym2 ℕ)) :
    0 < uniformTape {ω | ∃ fuel e', Config.randomize fuel ({ e with rng := ⟨ω, k⟩ } : Config T Stream) = .ok e' ∧ e'.graph.edges = E} ↔
      ∃ g : Graph T, Realises g e.degreeVec ∧ g.edges = E := by
  constructor
  · intro hpos
    obtain ⟨ω, fuel, e', h1, h2⟩ := nonempty_of_measure_ne_zero hpos.ne'
    have hb : ({ e with rng := ⟨ω, k⟩ } : Config T Stream).Base := ⟨h.wf, h.n, h.halves⟩
    have h3 := Config.randLoop_spec fuel _ (Config.restart hb (backup := (Rng.shuffle (⟨ω, k⟩ : Stream) e.backup).1)
      (rng := (Rng.shuffle (⟨ω, k⟩ : Stream) e.backup).2) rfl) hev
    have h4 : (Config.randomize fuel ({ e with rng := ⟨ω, k⟩ } : Config T Stream)).wp _ True := h3
    rw [h1] at h4
    obtain ⟨h5, h6, _⟩ := h4
    refine ⟨e'.graph, realises_iff.mpr ⟨h5.wf, ?_⟩, h2⟩
    rw [h5.deg]; exact h6
  · rintro ⟨g, hg, rfl⟩
    rw [C83_config_law h hev]
    obtain ⟨t, ht, hj⟩ := joined_of_order hg
    have hpos : 0 < ways e.degreeVec g.edges := by
      unfold ways
      rw [List.countP_pos_iff]
      exact ⟨t, List.mem_permutations.mpr (perm_halvesOf ht), by simpa using hj⟩
    exact ENNReal.div_pos (by exact_mod_cast hpos.ne') (ENNReal.natCast_ne_top _)

/-! ## Relabelling -/

theorem pairUp_map {π : ℕ → ℕ} (hπ : Function.Injective π) : ∀ (n : ℕ) (L : List (ℕ × ℕ)) (h : List ℕ),
    pairUp n (L.map (fun p => (π p.1, π p.2))) (h.map π) = (pairUp n L h).map (fun L => L.map (fun p => (π p.1, π p.2)))
  | 0, L, [] => rfl
  | n + 1, L, [] => rfl
  | 0, L, x :: h => rfl
  | n + 1, L, x :: h => by
    have hb : ∀ a b, Nat.beq (π a) (π b) = Nat.beq a b := by
      intro a b
      rw [Bool.eq_iff_iff, Nat.beq_eq, Nat.beq_eq, hπ.eq_iff]
    simp only [List.map_cons, pairUp, takeOther_map hπ]
    cases takeOther x h with
    | none => rfl
    | some p =>
      simp only [Option.map_some, List.any_map, Function.comp_def, hb]
      split
      · rfl
      · exact pairUp_map hπ n ((x, p.1) :: L) p.2

theorem joined_map {π : ℕ → ℕ} (hπ : Function.Injective π) (t : List ℕ) :
    joined (t.map π) = (joined t).map (Finset.image (Sym2.map π)) := by
  unfold joined
  rw [List.length_map, ← List.map_reverse]
  have := pairUp_map hπ t.length [] t.reverse
  rw [List.map_nil] at this
  rw [this, Option.map_map, Option.map_map]
  congr 1
  funext L
  ext x
  simp [toEdge]

theorem ways_relabel {d : List ℕ} (π : Equiv.Perm ℕ) (hπ : ∀ v, d.getD (π v) 0 = d.getD v 0) (E : Finset (Sym2 ℕ)) :
    ways d (E.image (Sym2.map π)) = ways d E := by
  have hperm : ((halvesOf d).map π).Perm (halvesOf d) := by
    rw [List.perm_iff_count]
    intro v
    obtain ⟨w, rfl⟩ := π.surjective v
    rw [List.count_map_of_injective _ _ π.injective]
    exact (halves_init d w).trans ((hπ w).symm.trans (halves_init d (π w)).symm)
  unfold ways
  rw [← hperm.permutations.countP_eq, ← List.map_permutations, List.countP_map]
  refine List.countP_congr fun t _ => ?_
  simp only [Function.comp, joined_map π.injective, decide_eq_true_eq]
  constructor
  · intro h
    obtain ⟨F, h1, h2⟩ := Option.map_eq_some_iff.mp h
    rw [h1, Finset.image_injective (Sym2.map.injective π.injective) h2]
  · intro h
    rw [h]; rfl

/-- Graphs that differ by exchanging vertices of equal degree have the same probability. -/
theorem C83_config_relabelling {e : Config T Stream} (h : e.Base) (hev : e.degreeVec.sum % 2 = 0) (π : Equiv.Perm ℕ)
    (hπ : ∀ v, e.degreeVec.getD (π v) 0 = e.degreeVec.getD v 0) (k : ℕ) (E : Finset (Sym2 ℕ)) :
    uniformTape {ω | ∃ fuel e', Config.randomize fuel ({ e with rng := ⟨ω, k⟩ } : Config T Stream) = .ok e' ∧
        e'.graph.edges = E.image (Sym2.map π)} =
      uniformTape {ω | ∃ fuel e', Config.randomize fuel ({ e with rng := ⟨ω, k⟩ } : Config T Stream) = .ok e' ∧ e'.graph.edges = E} := by
  rw [C83_config_law h hev, C83_config_law h hev, ways_relabel π hπ]

/-! ## A case that is not uniform -/

/-- Counting the orders of the halves by counting the arrangements. -/
theorem countP_permutations (l : List ℕ) (P : List ℕ → Bool) : l.permutations.countP P =
    (Finset.univ.filter (fun σ : Equiv.Perm (Fin l.length) => List.ofFn (fun k => l[σ k]) = l)).card * countArr l.length l P := by
  rw [← perm_count]
  have h0 : l = (List.range l.length).map (fun i => l.getD i 0) := by
    apply List.ext_getElem
    · simp
    · intro i h1 h2
      simp [h1]
  have hnd : (List.range l.length).permutations.Nodup := List.nodup_permutations _ List.nodup_range
  have h1 : l.permutations = (List.range l.length).permutations.map (fun p => p.map (fun i => l.getD i 0)) := by
    conv => lhs; rw [h0]
    rw [List.map_permutations]
  rw [h1, List.countP_map, List.countP_eq_length_filter, ← List.toFinset_card_of_nodup (hnd.filter _)]
  symm
  apply Finset.card_bij (fun σ _ => List.ofFn (fun k => (σ k).1))
  · intro σ hσ
    rw [Finset.mem_filter] at hσ
    rw [List.mem_toFinset, List.mem_filter, List.mem_permutations]
    refine ⟨?_, ?_⟩
    · rw [List.perm_ext_iff_of_nodup ((List.nodup_ofFn).mpr fun a b hab => σ.injective (Fin.ext hab)) List.nodup_range]
      intro v
      rw [List.mem_ofFn, List.mem_range]
      constructor
      · rintro ⟨k, rfl⟩; exact (σ k).2
      · intro hv; exact ⟨σ.symm ⟨v, hv⟩, by simp⟩
    · rw [← hσ.2]
      simp only [Function.comp, List.map_ofFn]
      congr 2
      funext k
      simp
  · intro σ _ τ _ hst
    rw [List.ofFn_inj] at hst
    ext k
    exact congrFun hst k
  · intro p hp
    rw [List.mem_toFinset, List.mem_filter, List.mem_permutations] at hp
    obtain ⟨hp, hP⟩ := hp
    have hlen : p.length = l.length := by rw [hp.length_eq, List.length_range]
    have hlt : ∀ (k : ℕ) (hk : k < p.length), p[k] < l.length := fun k hk => List.mem_range.mp (hp.mem_iff.mp (List.getElem_mem hk))
    let f : Fin l.length → Fin l.length := fun k => ⟨p[k.1]'(by rw [hlen]; exact k.2), hlt _ _⟩
    have hinj : Function.Injective f := by
      intro a b hab
      simp only [f, Fin.mk.injEq] at hab
      exact Fin.ext ((hp.nodup_iff.mpr List.nodup_range).getElem_inj_iff.mp hab)
    let τ : Equiv.Perm (Fin l.length) := Equiv.ofBijective f (Finite.injective_iff_bijective.mp hinj)
    have hpe : List.ofFn (fun k => (τ k).1) = p := by
      apply List.ext_getElem
      · simp [hlen]
      · intro i h1 h2
        simp [τ, f]
    refine ⟨τ, ?_, hpe⟩
    rw [Finset.mem_filter]
    refine ⟨Finset.mem_univ _, ?_⟩
    rw [← hP]
    simp only [Function.comp]
    rw [← hpe, List.map_ofFn]
    congr 2
    funext k
    show l[(τ k).1] = l.getD (τ k).1 0
    rw [List.getD_eq_getElem?_getD, List.getElem?_eq_getElem (τ k).2]
    rfl

theorem count_all : countArr 8 [0, 0, 1, 1, 2, 2, 3, 4] (fun t => decide (joined t ≠ none)) = 3744 := by decide +kernel

theorem count_joined_triangle : countArr 8 [0, 0, 1, 1, 2, 2, 3, 4]
    (fun t => decide (joined t = some {s(0, 1), s(0, 2), s(1, 2), s(3, 4)})) = 528 := by decide +kernel

theorem count_joined_path : countArr 8 [0, 0, 1, 1, 2, 2, 3, 4]
    (fun t => decide (joined t = some {s(0, 1), s(0, 2), s(1, 3), s(2, 4)})) = 536 := by decide +kernel

/-- For the degrees 2, 2, 2, 1, 1, which seven graphs have, `randomize` returns the triangle 0, 1, 2 with the separate edge 3 - 4 with
probability 11/78 and the path 3 - 1 - 0 - 2 - 4 with probability 67/468. -/
theorem C83_config_biased {e : Config T Stream} (h : e.Base) (hd : e.degreeVec = [2, 2, 2, 1, 1]) (k : ℕ) :
    uniformTape {ω | ∃ fuel e', Config.randomize fuel ({ e with rng := ⟨ω, k⟩ } : Config T Stream) = .ok e' ∧
      e'.graph.edges = {s(0, 1), s(0, 2), s(1, 2), s(3, 4)}} = 11 / 78 ∧
    uniformTape {ω | ∃ fuel e', Config.randomize fuel ({ e with rng := ⟨ω, k⟩ } : Config T Stream) = .ok e' ∧
      e'.graph.edges = {s(0, 1), s(0, 2), s(1, 3), s(2, 4)}} = 67 / 468 := by
  have hev : e.degreeVec.sum % 2 = 0 := by rw [hd]; rfl
  rw [C83_config_law h hev, C83_config_law h hev, hd]
  have hh : halvesOf [2, 2, 2, 1, 1] = [0, 0, 1, 1, 2, 2, 3, 4] := rfl
  unfold ways allWays
  rw [hh]
  simp only [countP_permutations]
  have h1 : List.length [0, 0, 1, 1, 2, 2, 3, 4] = 8 := rfl
  have hpos : 0 < (Finset.univ.filter (fun σ : Equiv.Perm (Fin [0, 0, 1, 1, 2, 2, 3, 4].length) =>
      List.ofFn (fun k => [0, 0, 1, 1, 2, 2, 3, 4][σ k]) = [0, 0, 1, 1, 2, 2, 3, 4])).card := by
    rw [Finset.card_pos]
    exact ⟨1, by simp⟩
  generalize (Finset.univ.filter (fun σ : Equiv.Perm (Fin [0, 0, 1, 1, 2, 2, 3, 4].length) =>
      List.ofFn (fun k => [0, 0, 1, 1, 2, 2, 3, 4][σ k]) = [0, 0, 1, 1, 2, 2, 3, 4])).card = c at *
  rw [h1, count_all, count_joined_triangle, count_joined_path]
  have hc : (c : ENNReal) ≠ 0 := by exact_mod_cast hpos.ne'
  have hc' : (c : ENNReal) ≠ ⊤ := ENNReal.natCast_ne_top c
  have key : ∀ a b x y : ℕ, 0 < b → 0 < y → a * y = x * b → ((c * a : ℕ) : ENNReal) / ((c * b : ℕ) : ENNReal) = (x : ENNReal) / (y : ENNReal) := by
    intro a b x y hb hy hab
    rw [Nat.cast_mul, Nat.cast_mul, ENNReal.mul_div_mul_left _ _ hc hc',
      ENNReal.div_eq_div_iff (by exact_mod_cast hy.ne') (ENNReal.natCast_ne_top _) (by exact_mod_cast hb.ne') (ENNReal.natCast_ne_top _)]
    rw [← Nat.cast_mul, ← Nat.cast_mul]
    congr 1
    rw [Nat.mul_comm y a, hab, Nat.mul_comm]
  exact ⟨key 528 3744 11 78 (by norm_num) (by norm_num) (by norm_num), key 536 3744 67 468 (by norm_num) (by norm_num) (by norm_num)⟩

/-- A model with a tape, holding the triangle with the separate edge. -/
def exConfigStream : Config Nat Stream := ⟨exTriEdge, [2, 2, 2, 1, 1], ⟨fun _ => 0, 0⟩, [], [0, 0, 1, 1, 2, 2, 3, 4]⟩

theorem exConfigStream_base : exConfigStream.Base :=
  ⟨exTriEdge_real.1, rfl, halves_init [2, 2, 2, 1, 1]⟩

example : exConfigStream.Base ∧ exConfigStream.degreeVec.sum % 2 = 0 ∧ exConfigStream.degreeVec = [2, 2, 2, 1, 1] ∧
    Realises exPath5 exConfigStream.degreeVec := ⟨exConfigStream_base, rfl, rfl, exPath5_real⟩

end Verif
