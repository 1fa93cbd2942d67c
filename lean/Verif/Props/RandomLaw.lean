import Verif.Props.ErBalance
import Verif.Props.Spacial
import Verif.Props.Config
import Mathlib.Data.Fintype.BigOperators
import Mathlib.Data.Fintype.Perm
import Mathlib.Logic.Equiv.Fintype
import Mathlib.Algebra.BigOperators.Fin
import Mathlib.Data.Fintype.Powerset
import Mathlib.Data.Finset.Powerset
import Mathlib.Data.Nat.Choose.Basic

/-!
# C60: the distribution of `randomize`

The outcomes of all draws of one call of `randomize` are counted with scripted generators.
-/

set_option linter.unusedSectionVars false
set_option linter.unusedSimpArgs false

namespace Verif
open AdjContainer GenericGraph

variable {T : Type}

/-! ### Independent coins -/

/-- The values of a uniform number for which the coin with probability `p` shows `b`. -/
def sideSet (p : ℚ) (b : Bool) : Finset ℕ := (Finset.range (2 ^ 53)).filter (fun u : ℕ => decide ((u : ℚ) / 2 ^ 53 ≤ p) = b)

theorem sideSet_card (p : ℚ) (b : Bool) : (sideSet p b).card = if b then heads p else 2 ^ 53 - heads p := by
  cases b with
  | true =>
    simp only [sideSet, heads, decide_eq_true_eq, if_true]
  | false =>
    have h := Finset.card_filter_add_card_filter_not (s := Finset.range (2 ^ 53)) (fun u : ℕ => (u : ℚ) / 2 ^ 53 ≤ p)
    rw [Finset.card_range] at h
    have h1 : (sideSet p false) = (Finset.range (2 ^ 53)).filter (fun u : ℕ => ¬ (u : ℚ) / 2 ^ 53 ≤ p) := by
      simp only [sideSet, decide_eq_false_iff_not]
    have h2 : heads p = ((Finset.range (2 ^ 53)).filter (fun u : ℕ => (u : ℚ) / 2 ^ 53 ≤ p)).card := rfl
    rw [h1, if_neg (by simp)]
    omega

/-- The throws of a scripted generator. -/
theorem throws_script (prob : ℕ × ℕ → ℚ) : ∀ (l : List (ℕ × ℕ)) (us : List ℕ), us.length = l.length → (∀ u ∈ us, u < 2 ^ 53) →
    (throws prob l (⟨us⟩ : Script)).1 = List.zipWith (fun p (u : ℕ) => decide ((u : ℚ) / 2 ^ 53 ≤ prob p)) l us := by
  intro l
  induction l with
  | nil => intro us _ _; cases us <;> simp [throws]
  | cons p l ih =>
    intro us hl hu
    cases us with
    | nil => simp at hl
    | cons u us =>
      simp only [throws]
      rw [coin_script u us _ (hu u (by simp))]
      simp only [List.zipWith_cons_cons]
      rw [ih us (by simpa using hl) (fun x hx => hu x (by simp [hx]))]

theorem coins_eq_throws {R : Type} [Rng R] (p : ℚ) : ∀ (l : List (ℕ × ℕ)) (r : R), coins p l.length r = throws (fun _ => p) l r := by
  intro l
  induction l with
  | nil => intro r; rfl
  | cons a l ih => intro r; simp only [List.length_cons, coins, throws, ih]

theorem mem_chosen_zipWith {l : List (ℕ × ℕ)} (us : List ℕ) (f : ℕ × ℕ → ℕ → Bool) (x : Sym2 ℕ) :
    x ∈ chosen l (List.zipWith f l us) ↔ ∃ (k : ℕ) (p : ℕ × ℕ) (u : ℕ), l[k]? = some p ∧ us[k]? = some u ∧ f p u = true ∧ toEdge p = x := by
  unfold chosen
  simp only [List.mem_toFinset, List.mem_map, List.mem_filter]
  constructor
  · rintro ⟨⟨p, b⟩, ⟨h1, h0⟩, rfl⟩
    obtain ⟨k, hk⟩ := List.mem_iff_getElem?.mp h1
    simp only [List.getElem?_zip_eq_some, List.getElem?_zipWith_eq_some] at hk
    obtain ⟨a1, p', u, a2, a3, a4⟩ := hk
    rw [a1] at a2
    cases a2
    exact ⟨k, p, u, a1, a3, a4.trans h0, rfl⟩
  · rintro ⟨k, p, u, h1, h2, h3, rfl⟩
    refine ⟨(p, true), ⟨?_, rfl⟩, rfl⟩
    rw [List.mem_iff_getElem?]
    refine ⟨k, ?_⟩
    rw [List.getElem?_zip_eq_some]
    refine ⟨h1, ?_⟩
    rw [List.getElem?_zipWith_eq_some]
    exact ⟨p, u, h1, h2, h3⟩

/-- The number of scripts for which exactly the pairs of `S` are chosen. -/
theorem chosen_count (n : ℕ) (prob : ℕ × ℕ → ℚ) {S : Finset (Sym2 ℕ)} (hS : ∀ x ∈ S, ∃ p ∈ allPairs n, toEdge p = x)
    (W : Finset (Fin (allPairs n).length → ℕ))
    (hW : ∀ u, u ∈ W ↔ (∀ k, u k < 2 ^ 53) ∧
      chosen (allPairs n) (throws prob (allPairs n) (⟨List.ofFn u⟩ : Script)).1 = S) :
    W.card = ∏ k : Fin (allPairs n).length,
      (if toEdge ((allPairs n)[k]) ∈ S then heads (prob (allPairs n)[k]) else 2 ^ 53 - heads (prob (allPairs n)[k])) := by
  classical
  have key : W = Fintype.piFinset (fun k : Fin (allPairs n).length =>
      sideSet (prob (allPairs n)[k]) (decide (toEdge ((allPairs n)[k]) ∈ S))) := by
    ext u
    rw [hW, Fintype.mem_piFinset]
    have hmem : ∀ k, u k ∈ sideSet (prob (allPairs n)[k]) (decide (toEdge ((allPairs n)[k]) ∈ S)) ↔
        u k < 2 ^ 53 ∧ ((u k : ℚ) / 2 ^ 53 ≤ prob (allPairs n)[k] ↔ toEdge ((allPairs n)[k]) ∈ S) := by
      intro k
      rw [sideSet, Finset.mem_filter, Finset.mem_range, decide_eq_decide]
    simp only [hmem]
    constructor
    · rintro ⟨h1, h2⟩ k
      refine ⟨h1 k, ?_⟩
      rw [throws_script _ _ _ (by simp) (by
        intro x hx
        obtain ⟨i, rfl⟩ := (List.mem_ofFn).mp hx
        exact h1 i)] at h2
      constructor
      · intro hk
        rw [← h2, mem_chosen_zipWith]
        exact ⟨k, (allPairs n)[k], u k, by simp, by simp, by simpa using hk, rfl⟩
      · intro hk
        rw [← h2, mem_chosen_zipWith] at hk
        obtain ⟨j, p, x, a1, a2, a3, a4⟩ := hk
        have hp : p ∈ allPairs n := List.mem_of_getElem? a1
        have hpk : p = (allPairs n)[k] := toEdge_injOn hp (List.getElem_mem _) a4
        obtain ⟨hj, a1'⟩ := List.getElem?_eq_some_iff.mp a1
        have hjk : j = k.1 := by
          have := (nodup_allPairs n).getElem_inj_iff (hi := hj) (hj := k.2)
          rw [← this, a1', hpk]; rfl
        subst hjk
        simp only [List.getElem?_ofFn, k.2, dif_pos, Option.some.injEq] at a2
        rw [← hpk]
        rw [← a2] at a3
        simpa using a3
    · intro h
      refine ⟨fun k => (h k).1, ?_⟩
      rw [throws_script _ _ _ (by simp) (by
        intro x hx
        obtain ⟨i, rfl⟩ := (List.mem_ofFn).mp hx
        exact (h i).1)]
      ext x
      rw [mem_chosen_zipWith]
      constructor
      · rintro ⟨j, p, y, a1, a2, a3, rfl⟩
        obtain ⟨hj, rfl⟩ := List.getElem?_eq_some_iff.mp a1
        simp only [List.getElem?_ofFn, hj, dif_pos, Option.some.injEq] at a2
        have := (h ⟨j, hj⟩).2
        rw [a2] at this
        exact this.mp (by simpa using a3)
      · intro hx
        obtain ⟨p, hp, rfl⟩ := hS x hx
        obtain ⟨j, hj, rfl⟩ := List.getElem_of_mem hp
        refine ⟨j, (allPairs n)[j], u ⟨j, hj⟩, by simp, by simp [hj], ?_, rfl⟩
        have := (h ⟨j, hj⟩).2.mpr hx
        simpa using this
  rw [key, Fintype.card_piFinset]
  apply Finset.prod_congr rfl
  intro k _
  rw [sideSet_card]
  simp

/-- The scripts of `randomize` of `ErEnsembleC` (one uniform number for every pair of vertices) after which the edge set is `S`. -/
noncomputable def ErC.randWays (e : ErC T Script) (S : Finset (Sym2 ℕ)) :
    Finset (Fin (allPairs e.graph.vertexCount).length → ℕ) :=
  open Classical in
  (Fintype.piFinset (fun _ => Finset.range (2 ^ 53))).filter (fun u =>
    ∃ e', ({ e with rng := ⟨List.ofFn u⟩ } : ErC T Script).randomize = .ok e' ∧ e'.graph.edges = S)

/-- The scripts of `randomize` of `SpacialEnsemble` after which the edge set is `S`. -/
noncomputable def Spacial.randWays (e : Spacial T Script) (S : Finset (Sym2 ℕ)) :
    Finset (Fin (allPairs e.graph.vertexCount).length → ℕ) :=
  open Classical in
  (Fintype.piFinset (fun _ => Finset.range (2 ^ 53))).filter (fun u =>
    ∃ e', ({ e with rng := ⟨List.ofFn u⟩ } : Spacial T Script).randomize = .ok e' ∧ e'.graph.edges = S)

theorem prod_allPairs (n : ℕ) (f : ℕ × ℕ → ℕ) :
    ∏ k : Fin (allPairs n).length, f ((allPairs n)[k]) = ∏ p ∈ (allPairs n).toFinset, f p := by
  rw [List.prod_toFinset _ (nodup_allPairs n)]
  exact Fin.prod_univ_fun_getElem (allPairs n) f

/-- **Law of `SpacialEnsemble::randomize`**: the number of scripts leading to a graph `g` on the same vertices is the product, over
all pairs, of the number of throws for which the pair gets the state it has in `g`: the edges are independent and the pair `(i, j)`
is an edge with its own probability. -/
theorem C60_spacial_randomize_law {e : Spacial T Script} (h : e.graph.WF) {A : Type} [AdjContainer T A] [LawfulAdj T A]
    {g : GenericGraph T A} (hg : g.WF) (hn : g.vertexCount = e.graph.vertexCount) :
    (Spacial.randWays e g.edges).card = ∏ p ∈ (allPairs e.graph.vertexCount).toFinset,
      (if s(p.1, p.2) ∈ g.edges then heads (e.prob p.1 p.2) else 2 ^ 53 - heads (e.prob p.1 p.2)) := by
  classical
  rw [← prod_allPairs]
  apply chosen_count e.graph.vertexCount (fun p => e.prob p.1 p.2)
  · intro x hx
    obtain ⟨q, h1, h2⟩ := edge_pair hg hx
    exact ⟨q, by rw [← hn]; exact h1, h2⟩
  · intro u
    unfold Spacial.randWays
    rw [Finset.mem_filter, Fintype.mem_piFinset]
    simp only [Finset.mem_range]
    apply and_congr_right
    intro hu
    obtain ⟨e', h1, _, _, _, _, _, _, h8⟩ := Spacial.randomize_spec (e := ({ e with rng := ⟨List.ofFn u⟩ } : Spacial T Script)) h
    constructor
    · rintro ⟨e'', a1, a2⟩
      rw [h1] at a1
      simp only [Res.ok.injEq] at a1
      subst a1
      rw [← a2, h8]; rfl
    · intro hc
      exact ⟨e', h1, by rw [h8]; exact hc⟩

/-- **Law of `ErEnsembleC::randomize`**: the number of scripts leading to a graph `g` on the same vertices is the weight of `g` in
the ensemble G(n, p). -/
theorem C60_er_c_randomize_law {e : ErC T Script} (h : e.graph.WF) {A : Type} [AdjContainer T A] [LawfulAdj T A]
    {g : GenericGraph T A} (hg : g.WF) (hn : g.vertexCount = e.graph.vertexCount) :
    (ErC.randWays e g.edges).card =
      gnpWeight e.prob (e.graph.vertexCount * (e.graph.vertexCount - 1) / 2) g.edgeCount := by
  classical
  have hS : ∀ x ∈ g.edges, ∃ p ∈ allPairs e.graph.vertexCount, toEdge p = x := by
    intro x hx
    obtain ⟨q, h1, h2⟩ := edge_pair hg hx
    exact ⟨q, by rw [← hn]; exact h1, h2⟩
  rw [chosen_count e.graph.vertexCount (fun _ => e.prob) hS (ErC.randWays e g.edges)]
  · rw [prod_allPairs e.graph.vertexCount (fun p => if toEdge p ∈ g.edges then heads e.prob else 2 ^ 53 - heads e.prob),
      Finset.prod_ite, Finset.prod_const, Finset.prod_const, gnpWeight, ← length_allPairs, hg.edgeCount_eq_card]
    have h1 : ((allPairs e.graph.vertexCount).toFinset.filter (fun p => toEdge p ∈ g.edges)).card = g.edges.card := by
      apply Finset.card_bij (fun p _ => toEdge p)
      · intro p hp; exact (Finset.mem_filter.mp hp).2
      · intro p hp q hq hpq
        rw [Finset.mem_filter, List.mem_toFinset] at hp hq
        exact toEdge_injOn hp.1 hq.1 hpq
      · intro x hx
        obtain ⟨p, hp, rfl⟩ := hS x hx
        exact ⟨p, by rw [Finset.mem_filter, List.mem_toFinset]; exact ⟨hp, hx⟩, rfl⟩
    have h2 := Finset.card_filter_add_card_filter_not (s := (allPairs e.graph.vertexCount).toFinset)
      (fun p => toEdge p ∈ g.edges)
    rw [List.toFinset_card_of_nodup (nodup_allPairs _)] at h2
    rw [h1] at h2 ⊢
    congr 2
    omega
  · intro u
    unfold ErC.randWays
    rw [Finset.mem_filter, Fintype.mem_piFinset]
    simp only [Finset.mem_range]
    apply and_congr_right
    intro hu
    obtain ⟨e', h1, _, _, _, _, _, _, h8⟩ := ErC.randomize_spec (e := ({ e with rng := ⟨List.ofFn u⟩ } : ErC T Script)) h
    rw [coins_eq_throws] at h8
    constructor
    · rintro ⟨e'', a1, a2⟩
      rw [h1] at a1
      simp only [Res.ok.injEq] at a1
      subst a1
      rw [← a2, h8]; rfl
    · intro hc
      exact ⟨e', h1, by rw [h8]; exact hc⟩

/-! ### Uniform choice of `m` pairs -/

theorem perm_image_count {α : Type} [Fintype α] [DecidableEq α] (K B : Finset α) (hB : B.card = K.card) :
    (Finset.univ.filter (fun σ : Equiv.Perm α => K.map σ.toEmbedding = B)).card * (Fintype.card α).choose K.card =
      (Fintype.card α).factorial := by
  have hconst : ∀ B' ∈ Finset.powersetCard K.card (Finset.univ : Finset α),
      (Finset.univ.filter (fun σ : Equiv.Perm α => K.map σ.toEmbedding = B')).card =
      (Finset.univ.filter (fun σ : Equiv.Perm α => K.map σ.toEmbedding = B)).card := by
    intro B' hB'
    have hc : B'.card = B.card := by rw [hB]; exact (Finset.mem_powersetCard.mp hB').2
    let e0 : {x // x ∈ B'} ≃ {x // x ∈ B} := Finset.equivOfCardEq hc
    let τ : Equiv.Perm α := e0.extendSubtype
    have hτ : B'.map τ.toEmbedding = B := by
      apply Finset.eq_of_subset_of_card_le
      · intro x hx
        rw [Finset.mem_map] at hx
        obtain ⟨y, hy, rfl⟩ := hx
        exact e0.extendSubtype_mem y hy
      · rw [Finset.card_map, hc]
    apply Finset.card_bij (fun σ _ => τ * σ)
    · intro σ hσ
      rw [Finset.mem_filter] at hσ ⊢
      refine ⟨Finset.mem_univ _, ?_⟩
      rw [← hτ, ← hσ.2, Finset.map_map]
      rfl
    · intro σ _ σ' _ h
      exact mul_left_cancel h
    · intro σ hσ
      rw [Finset.mem_filter] at hσ
      refine ⟨τ⁻¹ * σ, ?_, by simp⟩
      rw [Finset.mem_filter]
      refine ⟨Finset.mem_univ _, ?_⟩
      have : (K.map (τ⁻¹ * σ).toEmbedding).map τ.toEmbedding = B'.map τ.toEmbedding := by
        rw [hτ, ← hσ.2, Finset.map_map]
        congr 1
        ext x
        simp
      exact Finset.map_injective _ this
  have hsum := Finset.card_eq_sum_card_fiberwise (s := (Finset.univ : Finset (Equiv.Perm α)))
    (t := Finset.powersetCard K.card (Finset.univ : Finset α)) (f := fun σ => K.map σ.toEmbedding) (by
      intro σ _
      simp [Finset.mem_powersetCard])
  rw [Finset.sum_congr rfl hconst, Finset.sum_const, Finset.card_powersetCard, smul_eq_mul, Finset.card_univ, Finset.card_univ,
    Fintype.card_perm] at hsum
  rw [hsum, Nat.mul_comm]

/-- The shuffle of `PermRng` for a permutation of the positions. -/
theorem shuffle_permRng {α : Type} (l : List α) (σ : Equiv.Perm (Fin l.length)) :
    (Rng.shuffle (⟨List.ofFn (fun k => (σ k).1)⟩ : PermRng) l).1 = List.ofFn (fun k => l[σ k]) := by
  have hp : (List.ofFn (fun k => (σ k).1)).Perm (List.range l.length) := by
    rw [List.perm_ext_iff_of_nodup]
    · intro a
      rw [List.mem_ofFn, List.mem_range]
      constructor
      · rintro ⟨k, rfl⟩; exact (σ k).2
      · intro ha; exact ⟨σ.symm ⟨a, ha⟩, by simp⟩
    · rw [List.nodup_ofFn]
      intro a b hab
      exact σ.injective (Fin.ext hab)
    · exact List.nodup_range
  show (if (List.ofFn (fun k => (σ k).1)).Perm (List.range l.length) then
    (List.ofFn (fun k => (σ k).1)).filterMap (fun i => l[i]?) else l) = _
  rw [if_pos hp]
  have h1 : List.ofFn (fun k => (σ k).1) = (List.ofFn σ).map (fun k => k.1) := by
    rw [List.map_ofFn]; rfl
  have h2 : List.ofFn (fun k => l[σ k]) = (List.ofFn σ).map (fun k => l[k]) := by
    rw [List.map_ofFn]; rfl
  rw [h1, h2, List.filterMap_map, ← List.filterMap_eq_map]
  apply List.filterMap_congr
  intro k _
  simp

/-- The permutations drawn by `randomize` of `ErEnsembleM` after which the edge set is `S`. -/
noncomputable def ErM.randWays (e : ErM T PermRng) (S : Finset (Sym2 ℕ)) : Finset (Equiv.Perm (Fin e.allEdges.length)) :=
  open Classical in
  Finset.univ.filter (fun σ =>
    ∃ e', ({ e with rng := ⟨List.ofFn (fun k => (σ k).1)⟩ } : ErM T PermRng).randomize = .ok e' ∧ e'.graph.edges = S)

/-- **Law of `ErEnsembleM::randomize`**: every graph with `m` edges on the same vertices is the outcome of the same number of
permutations, so `randomize` draws uniformly from G(n, m). -/
theorem C60_er_m_randomize_uniform {e : ErM T PermRng} (h : e.Inv) {A : Type} [AdjContainer T A] [LawfulAdj T A]
    {g : GenericGraph T A} (hg : g.WF) (hn : g.vertexCount = e.graph.vertexCount) (hm : g.edgeCount = e.m) :
    (ErM.randWays e g.edges).card * (e.graph.vertexCount * (e.graph.vertexCount - 1) / 2).choose e.m =
      (e.graph.vertexCount * (e.graph.vertexCount - 1) / 2).factorial := by
  classical
  have hlen : e.allEdges.length = e.graph.vertexCount * (e.graph.vertexCount - 1) / 2 := by
    rw [h.all.length_eq, length_allPairs]; rfl
  have hmle : e.m ≤ e.allEdges.length := by
    rw [hlen, ← hm, ← hn]
    have := edges_card_le hg
    rw [length_allPairs] at this
    rw [hg.edgeCount_eq_card]; exact this
  let K : Finset (Fin e.allEdges.length) := Finset.univ.filter (fun k => k.1 < e.m)
  let B : Finset (Fin e.allEdges.length) := Finset.univ.filter (fun k => toEdge e.allEdges[k] ∈ g.edges)
  have hK : K.card = e.m := by
    have h1 : K.map Fin.valEmbedding = Finset.range e.m := by
      ext x
      simp only [K, Finset.mem_map, Finset.mem_filter, Finset.mem_univ, true_and, Finset.mem_range, Fin.valEmbedding_apply]
      constructor
      · rintro ⟨a, ha, rfl⟩; exact ha
      · intro hx; exact ⟨⟨x, by omega⟩, hx, rfl⟩
    rw [← Finset.card_map Fin.valEmbedding, h1, Finset.card_range]
  have hinj : ∀ a b : Fin e.allEdges.length, toEdge e.allEdges[a] = toEdge e.allEdges[b] → a = b := by
    intro a b hab
    have := toEdge_injOn (h.all.mem_iff.mp (List.getElem_mem a.2)) (h.all.mem_iff.mp (List.getElem_mem b.2)) hab
    exact Fin.ext ((h.all.nodup_iff.mpr (nodup_allPairs _)).getElem_inj_iff.mp this)
  have hsurj : ∀ x ∈ g.edges, ∃ a : Fin e.allEdges.length, toEdge e.allEdges[a] = x := by
    intro x hx
    obtain ⟨q, h1, h2⟩ := edge_pair hg hx
    rw [show g.nextId = e.graph.nextId from hn, ← h.all.mem_iff] at h1
    obtain ⟨i, hi, rfl⟩ := List.getElem_of_mem h1
    exact ⟨⟨i, hi⟩, h2⟩
  have hB : B.card = K.card := by
    rw [hK, ← hm, hg.edgeCount_eq_card]
    apply Finset.card_bij (fun a _ => toEdge e.allEdges[a])
    · intro a ha; exact (Finset.mem_filter.mp ha).2
    · intro a _ b _ hab; exact hinj a b hab
    · intro x hx
      obtain ⟨a, rfl⟩ := hsurj x hx
      exact ⟨a, by simpa [B] using hx, rfl⟩
  have key : ErM.randWays e g.edges = Finset.univ.filter (fun σ : Equiv.Perm (Fin e.allEdges.length) => K.map σ.toEmbedding = B) := by
    ext σ
    unfold ErM.randWays
    simp only [Finset.mem_filter, Finset.mem_univ, true_and]
    obtain ⟨e', a1, a2, a3, a4, a5, a6, a7, a8, a9⟩ :=
      ErM.randomize_spec (e := ({ e with rng := ⟨List.ofFn (fun k => (σ k).1)⟩ } : ErM T PermRng)) h.wf h.all h.len h.possible_len
    rw [shuffle_permRng] at a6
    have hed : ∀ x, x ∈ e'.graph.edges ↔ ∃ k : Fin e.allEdges.length, k.1 < e.m ∧ toEdge e.allEdges[σ k] = x := by
      intro x
      rw [a2.cur, show e'.currentEdges = e'.allEdges.take e.m from a8, a6, List.mem_toFinset, List.mem_map]
      constructor
      · rintro ⟨p, hp, rfl⟩
        obtain ⟨i, hi, rfl⟩ := List.getElem_of_mem hp
        rw [List.length_take, List.length_ofFn] at hi
        refine ⟨⟨i, by omega⟩, by simp only; omega, ?_⟩
        simp
      · rintro ⟨k, hk, rfl⟩
        refine ⟨_, ?_, rfl⟩
        rw [List.mem_iff_getElem?]
        refine ⟨k.1, ?_⟩
        simp [List.getElem?_take, hk]
    constructor
    · rintro ⟨e'', b1, b2⟩
      rw [a1] at b1
      simp only [Res.ok.injEq] at b1
      subst b1
      apply Finset.eq_of_subset_of_card_le
      · intro y hy
        rw [Finset.mem_map] at hy
        obtain ⟨k, hk, rfl⟩ := hy
        simp only [B, Finset.mem_filter, Finset.mem_univ, true_and]
        rw [← b2, hed]
        exact ⟨k, (Finset.mem_filter.mp hk).2, rfl⟩
      · rw [Finset.card_map, hB]
    · intro hσ
      refine ⟨e', a1, ?_⟩
      ext x
      rw [hed]
      constructor
      · rintro ⟨k, hk, rfl⟩
        have : σ k ∈ B := by
          rw [← hσ, Finset.mem_map]
          exact ⟨k, Finset.mem_filter.mpr ⟨Finset.mem_univ _, hk⟩, rfl⟩
        exact (Finset.mem_filter.mp this).2
      · intro hx
        obtain ⟨a, rfl⟩ := hsurj x hx
        have : a ∈ B := by simpa [B] using hx
        rw [← hσ, Finset.mem_map] at this
        obtain ⟨k, hk, rfl⟩ := this
        exact ⟨k, (Finset.mem_filter.mp hk).2, rfl⟩
  rw [key, ← hK, ← hlen]
  have := perm_image_count K B hB
  rwa [Fintype.card_fin] at this

/-- The hypotheses are met: the triangle with a tail is a possible outcome for every ensemble with five vertices and four edges. -/
example : ∃ e : ErM Nat PermRng, e.Inv ∧ exTail.WF ∧ exTail.vertexCount = e.graph.vertexCount ∧ exTail.edgeCount = e.m := by
  obtain ⟨e, _, h2, h3, h4, _⟩ := ErM.new_spec (T := Nat) (n := 5) (m := 4) (by decide) (by decide) (⟨[]⟩ : PermRng)
  exact ⟨e, h2, exTail_wf, by show _ = e.graph.nextId; rw [h3]; rfl, by rw [h4]; rfl⟩

/-- For the spatial ensemble with three vertices the empty graph is a possible outcome. -/
example : exSpacial.graph.WF ∧ (GenericGraph.new 3 : Graph Nat).WF ∧
    (GenericGraph.new 3 : Graph Nat).vertexCount = exSpacial.graph.vertexCount :=
  ⟨exSpacial_wf, new_wf 3, rfl⟩

example : ∃ e : ErC Nat Script, e.graph.WF ∧ exTail.vertexCount = e.graph.vertexCount ∧ 0 < e.prob ∧ e.prob < 1 :=
  ⟨⟨exTail, 1 / 2, 2, ⟨[]⟩⟩, exTail_wf, rfl, by norm_num, by norm_num⟩

end Verif
