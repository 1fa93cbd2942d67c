import Verif.Model.LoadRound
import Verif.Lemmas.Load
import Verif.Props.Load

/-!
# vertex_load with rounding: the run with rounding follows the exact run
-/

set_option linter.unusedSectionVars false
set_option linter.unusedSimpArgs false

namespace Verif
open AdjContainer GenericGraph

variable {T A : Type} [AdjContainer T A] [LawfulAdj T A]

/-- The flow is at least one and at most the number of vertices. -/
theorem flow_bounds {g : GenericGraph T A} (hg : g.WF) {s : Nat} (hs : s < g.vertexCount) {F : ℕ → ℚ} (hF : IsFlow g s F) :
    ∀ v, g.toSimple.Reachable s v → 1 ≤ F v ∧ F v ≤ g.vertexCount := by
  classical
  have hlt : ∀ v, g.toSimple.Reachable s v → v < g.vertexCount := by
    intro v hr
    by_cases hv : v = s
    · exact hv ▸ hs
    · obtain ⟨u, hu⟩ := closer_nonempty hg hr hv
      exact hg.lt _ _ (hg.adj_iff.mp ((mem_closer_iff hg).mp hu).1)
  -- lower bound
  obtain ⟨H, hH⟩ : ∃ H, ∀ v, v < g.vertexCount → g.toSimple.dist s v < H :=
    ⟨(Finset.range g.vertexCount).sup (g.toSimple.dist s) + 1, fun v hv =>
      Nat.lt_succ_of_le (Finset.le_sup (f := g.toSimple.dist s) (Finset.mem_range.mpr hv))⟩
  have hlow : ∀ k v, g.toSimple.Reachable s v → H - g.toSimple.dist s v = k → 1 ≤ F v := by
    intro k
    induction k with
    | zero => intro v hr hk; have := hH v (hlt v hr); omega
    | succ k ih =>
      intro v hr hk
      rw [hF v hr]
      have : 0 ≤ ∑ w ∈ farther g s v, F w / ((closer g s w).card : ℚ) := by
        apply Finset.sum_nonneg
        intro w hw
        obtain ⟨ha, hd⟩ := (mem_farther_iff hg).mp hw
        have := ih w (hr.trans ha.reachable) (by omega)
        have h0 : (0 : ℚ) ≤ F w := by linarith
        exact div_nonneg h0 (Nat.cast_nonneg _)
      linarith
  have hlow' : ∀ v, g.toSimple.Reachable s v → 1 ≤ F v := fun v hr => hlow _ v hr rfl
  let R : Nat → Finset ℕ := fun k => (Finset.range g.vertexCount).filter (fun v => g.toSimple.Reachable s v ∧ k ≤ g.toSimple.dist s v)
  have hR : ∀ k v, v ∈ R k ↔ g.toSimple.Reachable s v ∧ k ≤ g.toSimple.dist s v := by
    intro k v
    simp only [R, Finset.mem_filter, Finset.mem_range]
    exact ⟨fun h => h.2, fun h => ⟨hlt v h.1, h⟩⟩
  have hstep : ∀ k, ∑ v ∈ R k, F v = ((R k).card : ℚ) + ∑ w ∈ R (k + 1), F w := by
    intro k
    have h1 : ∑ v ∈ R k, F v = ∑ v ∈ R k, (1 + ∑ w ∈ farther g s v, F w / ((closer g s w).card : ℚ)) := by
      apply Finset.sum_congr rfl
      intro v hv
      rw [hR] at hv
      exact hF v hv.1
    rw [h1, Finset.sum_add_distrib, Finset.sum_const, nsmul_eq_mul, mul_one]
    congr 1
    have hswap : ∑ v ∈ R k, ∑ w ∈ farther g s v, F w / ((closer g s w).card : ℚ) =
        ∑ w ∈ R (k + 1), ∑ _v ∈ closer g s w, F w / ((closer g s w).card : ℚ) := by
      apply Finset.sum_comm'
      intro v w
      rw [hR, hR, mem_farther_iff hg, mem_closer_iff hg]
      constructor
      · rintro ⟨⟨h1, h2⟩, h3, h4⟩
        exact ⟨⟨h3, h4⟩, h1.trans h3.reachable, by omega⟩
      · rintro ⟨⟨h3, h4⟩, h1, h2⟩
        exact ⟨⟨h1.trans h3.symm.reachable, by omega⟩, h3, h4⟩
    rw [hswap]
    apply Finset.sum_congr rfl
    intro w hw
    rw [hR] at hw
    have hne : w ≠ s := by rintro rfl; rw [SimpleGraph.dist_self] at hw; omega
    have hc : ((closer g s w).card : ℚ) ≠ 0 := by
      exact_mod_cast Finset.card_ne_zero.mpr (closer_nonempty hg hw.1 hne)
    rw [Finset.sum_const, nsmul_eq_mul]
    field_simp
  intro v hr
  refine ⟨hlow' v hr, ?_⟩
  have hsub : R (g.toSimple.dist s v + 1) ⊆ R (g.toSimple.dist s v) := by
    intro x hx; rw [hR] at hx ⊢; exact ⟨hx.1, by omega⟩
  have hsplit := Finset.sum_sdiff (f := F) hsub
  have hv : v ∈ R (g.toSimple.dist s v) \ R (g.toSimple.dist s v + 1) := by
    rw [Finset.mem_sdiff, hR, hR]
    exact ⟨⟨hr, le_refl _⟩, fun h => by omega⟩
  have hle := Finset.single_le_sum (f := F) (fun x hx => by
    have := hlow' x ((hR _ x).mp (Finset.mem_sdiff.mp hx).1).1
    linarith) hv
  have hcard : (R (g.toSimple.dist s v)).card ≤ g.vertexCount := by
    have := Finset.card_le_card (Finset.filter_subset (fun x => g.toSimple.Reachable s x ∧ g.toSimple.dist s v ≤ g.toSimple.dist s x)
      (Finset.range g.vertexCount))
    rwa [Finset.card_range] at this
  have hcq : ((R (g.toSimple.dist s v)).card : ℚ) ≤ g.vertexCount := by exact_mod_cast hcard
  have := hstep (g.toSimple.dist s v)
  linarith

/-- How values with rounding relate to exact values: `Rel k x y` after `k` operations, for the exact values that satisfy `ok`. -/
structure Follow (rnd : ℚ → ℚ) (K : ℕ) (ok : ℚ → Prop) (Rel : ℕ → ℚ → ℚ → Prop) : Prop where
  mono : ∀ {k l x y}, k ≤ l → Rel k x y → Rel l x y
  add : ∀ {k x y x' y'}, k < K → Rel k x y → Rel k x' y' → ok (y + y') → Rel (k + 1) (rnd (x + x')) (y + y')
  div : ∀ {k x y} {m : ℕ}, k < K → 0 < m → Rel k x y → ok (y / m) → Rel (k + 1) (rnd (x / m)) (y / m)
  one : Rel 0 1 1

/-- The new value of `b[index]`. -/
def addOf (rnd : ℚ → ℚ) (incl : Bool) (x y : ℚ) : ℚ := if incl then rnd (x + y) else rnd (rnd (x + y) - 1)

theorem loadAddR_ok (rnd : ℚ → ℚ) (incl : Bool) {b : List ℚ} {v : Nat} (hv : v < b.length) (y : ℚ) :
    loadAddR rnd incl b v y = .ok (b.set v (addOf rnd incl b[v] y)) := by
  have hv' : v < (b.set v (rnd (b[v] + y))).length := by simpa using hv
  cases incl with
  | true =>
    simp only [loadAddR, Vec.idx_of_lt hv, Res.ok_bind, Vec.put_of_lt hv]
    simp [addOf]
  | false =>
    simp only [loadAddR, Vec.idx_of_lt hv, Res.ok_bind, Vec.put_of_lt hv, Bool.not_false, if_true, Vec.idx_of_lt hv',
      Vec.put_of_lt hv']
    simp [addOf]

theorem addFractionsR_spec (rnd : ℚ → ℚ) (q : ℚ) : ∀ (p : List Nat) (bk : List ℚ), p.Nodup → (∀ u ∈ p, u < bk.length) →
    ∃ bk', p.foldlM (addFractionR rnd q) bk = .ok bk' ∧ bk'.length = bk.length ∧
      ∀ u, bk'[u]? = (bk[u]?).map (fun x => if u ∈ p then rnd (x + q) else x)
  | [], bk, _, _ => ⟨bk, rfl, rfl, by simp⟩
  | x :: p, bk, hn, hl => by
    rw [List.nodup_cons] at hn
    have hx := hl x List.mem_cons_self
    obtain ⟨bk', e, h1, h2⟩ := addFractionsR_spec rnd q p (bk.set x (rnd (bk[x] + q))) hn.2
      (fun u hu => by simpa using hl u (List.mem_cons_of_mem _ hu))
    refine ⟨bk', ?_, by rw [h1]; simp, ?_⟩
    · simp only [List.foldlM_cons, addFractionR, Vec.idx_of_lt hx, Res.ok_bind, Vec.put_of_lt hx]
      exact e
    · intro u
      rw [h2]
      by_cases hu : u = x
      · subst hu
        simp [hn.1, hx]
      · simp [hu, List.getElem?_set_ne (Ne.symm hu)]

theorem loadDownR_spec {rnd : ℚ → ℚ} {incl : Bool} {K : ℕ} {ok : ℚ → Prop} {Rel : ℕ → ℚ → ℚ → Prop}
    (hf : Follow rnd K ok Rel) {g : GenericGraph T A} (hg : g.WF) {src : Nat} {ordering : List Nat} {pred : List (List Nat)}
    (hd : LoadDone g src ordering pred) {F : ℕ → ℚ} (hF : IsFlow g src F) (hK : 2 * ordering.length ≤ K)
    (hok1 : ∀ v S, g.toSimple.Reachable src v → S ⊆ farther g src v → ok (1 + ∑ w ∈ S, F w / ((closer g src w).card : ℚ)))
    (hok2 : ∀ v, g.toSimple.Reachable src v → v ≠ src → ok (F v / ((closer g src v).card : ℚ))) :
    ∀ (st P : List Nat) (b bk : List ℚ), ordering = P ++ st → st ≠ [] → b.length = g.nextId → bk.length = g.nextId →
      (∀ u, u < g.nextId → ∃ x, bk[u]? = some x ∧
        Rel (2 * P.length) x (1 + ∑ w ∈ (farther g src u).filter (· ∈ P), F w / ((closer g src w).card : ℚ))) →
      ∃ (b' bk' : List ℚ) (F' : ℕ → ℚ), loadDownR rnd incl pred st b bk = .ok ([], b', bk') ∧ b'.length = g.nextId ∧
        (∀ u ∈ st, u ≠ src → Rel (2 * ordering.length) (F' u) (F u)) ∧
        ∀ u, b'[u]? = (b[u]?).map (fun x => if u ∈ st ∧ u ≠ src then addOf rnd incl x (F' u) else x)
  | [], _, _, _, _, hne, _, _, _ => absurd rfl hne
  | [v], P, b, bk, ho, _, hb, hbk, _ => by
    have hv : v = src := by
      have := hd.last
      rw [ho] at this
      simpa using this
    refine ⟨b, bk, F, by simp [loadDownR], hb, ?_, ?_⟩
    · intro u hu hne
      simp only [List.mem_singleton] at hu
      exact absurd (hu.trans hv) hne
    · intro u
      have : ¬ (u ∈ [v] ∧ u ≠ src) := by rw [hv]; simp
      simp only [if_neg this]
      simp
  | v :: w :: st, P, b, bk, ho, _, hb, hbk, hinv => by
    have hvo : v ∈ ordering := by rw [ho]; simp
    have hvr : g.toSimple.Reachable src v := (hd.mem v).mp hvo
    have hsrco : src ∈ w :: st := by
      have := hd.last
      rw [ho, List.getLast?_append] at this
      rw [List.getLast?_cons_cons] at this
      obtain ⟨x, hx⟩ : ∃ x, (w :: st).getLast? = some x := by
        rw [List.getLast?_eq_some_getLast (List.cons_ne_nil w st)]; exact ⟨_, rfl⟩
      rw [hx] at this
      simp at this
      subst this
      exact List.mem_of_getLast? hx
    have hnd := hd.nodup
    rw [ho, List.nodup_append, List.nodup_cons] at hnd
    have hvs : v ≠ src := fun e => hnd.2.1.1 (e ▸ hsrco)
    have hvP : v ∉ P := fun hv => hnd.2.2 v hv v List.mem_cons_self rfl
    have hvn : v < g.nextId := by
      obtain ⟨u, hu⟩ := closer_nonempty hg hvr hvs
      exact hg.lt _ _ (hg.adj_iff.mp ((mem_closer_iff hg).mp hu).1)
    obtain ⟨p, hp, hpn, hpf⟩ : ∃ p, pred[v]? = some p ∧ p.Nodup ∧ p.toFinset = closer g src v := hd.pred v hvn
    have hpl : p.length = (closer g src v).card := by rw [← hpf, List.toFinset_card_of_nodup hpn]
    have hp0 : p.length ≠ 0 := by
      rw [hpl]; exact Finset.card_ne_zero.mpr (closer_nonempty hg hvr hvs)
    have hsub : (farther g src v).filter (· ∈ P) = farther g src v := by
      apply Finset.filter_true_of_mem
      intro x hx
      obtain ⟨hxa, hxd⟩ := (mem_farther_iff hg).mp hx
      have hxo : x ∈ ordering := (hd.mem x).mpr (hvr.trans hxa.reachable)
      rw [ho, List.mem_append] at hxo
      rcases hxo with hxo | hxo
      · exact hxo
      · exfalso
        have hs := hd.sorted
        rw [ho, List.pairwise_append, List.pairwise_cons] at hs
        rcases List.mem_cons.mp hxo with rfl | hxo
        · omega
        · have := hs.2.1.1 x hxo
          omega
    obtain ⟨y, hy1, hy2⟩ := hinv v hvn
    rw [hsub, ← hF v hvr] at hy2
    have hlen : P.length + 2 ≤ ordering.length := by rw [ho]; simp
    have hvbk : v < bk.length := by omega
    have hvb : v < b.length := by omega
    have hbv' : bk[v] = y := by rw [List.getElem?_eq_getElem hvbk] at hy1; simpa using hy1
    have hfrac : Rel (2 * P.length + 1) (rnd (y / (p.length : ℚ))) (F v / ((closer g src v).card : ℚ)) := by
      have := hf.div (m := p.length) (by omega) (Nat.pos_of_ne_zero hp0) hy2 (by rw [hpl]; exact hok2 v hvr hvs)
      rwa [← hpl]
    obtain ⟨bk', e1, l1, g1⟩ := addFractionsR_spec rnd (rnd (y / (p.length : ℚ))) p bk hpn (by
      intro u hu
      rw [hbk]
      have : u ∈ closer g src v := by rw [← hpf]; exact List.mem_toFinset.mpr hu
      exact hg.lt_left (hg.adj_iff.mp ((mem_closer_iff hg).mp this).1))
    have hinv' : ∀ u, u < g.nextId → ∃ x, bk'[u]? = some x ∧ Rel (2 * (P ++ [v]).length) x
        (1 + ∑ w ∈ (farther g src u).filter (· ∈ P ++ [v]), F w / ((closer g src w).card : ℚ)) := by
      intro u hu
      obtain ⟨x, hx1, hx2⟩ := hinv u hu
      rw [g1, hx1, Option.map_some]
      refine ⟨_, rfl, ?_⟩
      have hlen2 : 2 * (P ++ [v]).length = 2 * P.length + 1 + 1 := by simp; omega
      rw [hlen2]
      have hup : u ∈ p ↔ v ∈ farther g src u := by
        rw [← closer_iff_farther hg, ← hpf, List.mem_toFinset]
      by_cases hc : u ∈ p
      · rw [if_pos hc]
        have hins : (farther g src u).filter (· ∈ P ++ [v]) = insert v ((farther g src u).filter (· ∈ P)) := by
          ext x
          simp only [Finset.mem_filter, Finset.mem_insert, List.mem_append, List.mem_singleton]
          constructor
          · rintro ⟨h1, h2 | h2⟩
            · exact Or.inr ⟨h1, h2⟩
            · exact Or.inl h2
          · rintro (rfl | ⟨h1, h2⟩)
            · exact ⟨hup.mp hc, Or.inr rfl⟩
            · exact ⟨h1, Or.inl h2⟩
        have hur : g.toSimple.Reachable src u := by
          obtain ⟨ha, _⟩ := (mem_farther_iff hg).mp (hup.mp hc)
          exact hvr.trans ha.symm.reachable
        have hval : 1 + ∑ w ∈ (farther g src u).filter (· ∈ P ++ [v]), F w / ((closer g src w).card : ℚ) =
            (1 + ∑ w ∈ (farther g src u).filter (· ∈ P), F w / ((closer g src w).card : ℚ)) + F v / ((closer g src v).card : ℚ) := by
          rw [hins, Finset.sum_insert (by simp [hvP])]
          ring
        have hokv := hok1 u ((farther g src u).filter (· ∈ P ++ [v])) hur (Finset.filter_subset _ _)
        rw [hval] at hokv ⊢
        exact hf.add (by omega) (hf.mono (by omega) hx2) hfrac hokv
      · rw [if_neg hc]
        have : (farther g src u).filter (· ∈ P ++ [v]) = (farther g src u).filter (· ∈ P) := by
          apply Finset.filter_congr
          intro x hx
          simp only [List.mem_append, List.mem_singleton]
          constructor
          · rintro (h | rfl)
            · exact h
            · exact absurd (hup.mpr hx) hc
          · exact Or.inl
        rw [this]
        exact hf.mono (by omega) hx2
    have eb := loadAddR_ok rnd incl hvb y
    generalize hb1 : b.set v (addOf rnd incl b[v] y) = b1 at eb
    obtain ⟨b', bk'', F', e2, l2, hF', g2⟩ := loadDownR_spec (incl := incl) hf hg hd hF hK hok1 hok2 (w :: st) (P ++ [v]) b1 bk' (by rw [ho]; simp) (by simp)
      (by rw [← hb1]; simpa using hb) (by rw [l1, hbk]) hinv'
    refine ⟨b', bk'', Function.update F' v y, ?_, l2, ?_, ?_⟩
    · obtain ⟨hpv, hpe⟩ := List.getElem?_eq_some_iff.mp hp
      have hpi : Vec.idx pred v = .ok p := by rw [Vec.idx_of_lt hpv, hpe]
      have ha : Res.assert (decide (p.length ≠ 0)) = .ok () := by simp [Res.assert, hp0]
      rw [loadDownR, if_neg (by simp), Vec.idx_of_lt hvbk, hbv']
      simp only [Res.ok_bind, eb, hpi, ha, e1, e2]
    · intro u hu hne
      by_cases huv : u = v
      · subst huv
        rw [Function.update_self]
        exact hf.mono (by omega) hy2
      · rw [Function.update_of_ne huv]
        exact hF' u (by simpa [huv] using hu) hne
    · intro u
      rw [g2, ← hb1]
      by_cases hu : u = v
      · subst hu
        have : u ∉ w :: st := hnd.2.1.1
        simp [hvb, hvs, this]
      · rw [List.getElem?_set_ne (Ne.symm hu), Function.update_of_ne hu]
        simp [hu]

theorem loadBodyR_spec {rnd : ℚ → ℚ} {incl : Bool} {K : ℕ} {ok : ℚ → Prop} {Rel : ℕ → ℚ → ℚ → Prop}
    (hf : Follow rnd K ok Rel) {g : GenericGraph T A} (hg : g.WF) (hK : 2 * g.vertexCount ≤ K) {i : Nat} (hi : i < g.nextId)
    {F : ℕ → ℚ} (hF : IsFlow g i F)
    (hok1 : ∀ v S, g.toSimple.Reachable i v → S ⊆ farther g i v → ok (1 + ∑ w ∈ S, F w / ((closer g i w).card : ℚ)))
    (hok2 : ∀ v, g.toSimple.Reachable i v → v ≠ i → ok (F v / ((closer g i v).card : ℚ)))
    {b : List ℚ} (hb : b.length = g.nextId) {s : LoadBuf} (hq0 : s.queue0 = []) (hq1 : s.queue1 = [])
    (ho : s.ordering = [])
    (h0 : i = 0 → s.bk = List.replicate g.nextId 1 ∧ s.distance = List.replicate g.nextId none ∧
      s.predecessor = List.replicate g.nextId []) :
    ∃ (b' : List ℚ) (s' : LoadBuf) (F' : ℕ → ℚ), g.loadBodyR rnd incl (b, s) i = .ok (b', s') ∧ b'.length = g.nextId ∧ s'.queue0 = [] ∧ s'.queue1 = [] ∧
      s'.ordering = [] ∧ (∀ u, i ∈ sources g u → Rel (2 * g.vertexCount) (F' u) (F u)) ∧
      ∀ u, b'[u]? = (b[u]?).map (fun x => if i ∈ sources g u then addOf rnd incl x (F' u) else x) := by
  classical
  have hs0 : ∃ s0 : LoadBuf, (if i > 0 then (⟨s.queue0, s.queue1, s.ordering, List.replicate g.vertexCount 1,
      List.replicate g.vertexCount none, List.replicate g.vertexCount []⟩ : LoadBuf) else s) = s0 ∧
      s0 = ⟨[], [], [], List.replicate g.nextId 1, List.replicate g.nextId none, List.replicate g.nextId []⟩ := by
    refine ⟨_, rfl, ?_⟩
    cases s
    simp only at hq0 hq1 ho h0
    by_cases h : i > 0
    · simp [h, hq0, hq1, ho, GenericGraph.vertexCount]
    · have := h0 (by omega)
      simp [h, hq0, hq1, ho, this]
  obtain ⟨s0, e0, hs0⟩ := hs0
  have hput : Vec.put s0.distance i (some 0) = .ok ((List.replicate g.nextId none).set i (some 0)) := by
    rw [hs0, Vec.put_of_lt (by simpa using hi)]
  have hI : LoadI g i 0 { s0 with queue0 := s0.queue0 ++ [i], distance := (List.replicate g.nextId none).set i (some 0) } := by
    have hget : ∀ k d, ((List.replicate g.nextId (none : Option Nat)).set i (some 0))[k]? = some (some d) ↔ k = i ∧ d = 0 := by
      intro k d
      by_cases hk : k = i
      · subst hk; simp [hi, eq_comm]
      · simp [List.getElem?_set_ne (Ne.symm hk), hk, List.getElem?_replicate]
    refine ⟨?_, by simp, by simp [hs0], ?_, ?_, by simp [hs0], by simp⟩
    · simp only [hs0, List.nil_append, List.reverse_nil]
      apply BfsInv.init
      intro v
      simp only [hget]
      exact ⟨fun ⟨_, h, _⟩ => h, fun h => ⟨0, h, rfl⟩⟩
    · intro k d hk
      obtain ⟨rfl, rfl⟩ := (hget k d).mp hk
      simp
    · intro k p hk
      simp only [hs0, List.getElem?_replicate] at hk
      split at hk
      · simp at hk; subst hk; simp [hs0]
      · simp at hk
  obtain ⟨s1, d1, e1, h1, h2, h3⟩ := loadBfs_spec hg (g.vertexCount + 1) 0 _ hI (by simp [hs0, GenericGraph.vertexCount])
  have hd := h1.done hg h2
  have hne : s1.ordering ≠ [] := by
    intro h
    have := hd.last
    simp [h] at this
  have hol : s1.ordering.length ≤ g.vertexCount := h1.length_le
  have hmem : ∀ u, (u ∈ s1.ordering ∧ u ≠ i) ↔ i ∈ sources g u := by
    intro u
    rw [hd.mem, sources, Finset.mem_filter, Finset.mem_range]
    exact ⟨fun ⟨h, h'⟩ => ⟨hi, Ne.symm h', h⟩, fun ⟨_, h', h⟩ => ⟨h, Ne.symm h'⟩⟩
  obtain ⟨b', bk', F', e2, l2, hF', g2⟩ := loadDownR_spec (incl := incl) hf hg hd hF (by omega) hok1 hok2 s1.ordering [] b s1.bk rfl hne hb
    (by rw [h3, hs0]; simp)
    (by
      intro u hu
      rw [h3, hs0]
      refine ⟨1, by simp [hu], ?_⟩
      simpa using hf.one)
  refine ⟨b', { s1 with ordering := [], bk := bk' }, F', ?_, l2, h2, h1.empty h2, rfl, ?_, ?_⟩
  · unfold GenericGraph.loadBodyR
    simp only
    rw [e0]
    simp only [hput, Res.ok_bind, e1, e2, Res.pure_eq]
  · intro u hu
    obtain ⟨a1, a2⟩ := (hmem u).mpr hu
    exact hf.mono (by omega) (hF' u a1 a2)
  · intro u
    rw [g2]
    congr 1
    funext x
    simp only [hmem]

open Classical in
/-- The load computed with rounding is a sum, taken in the order of the sources, of flows that follow the exact flows. -/
theorem vertexLoadR_spec {rnd : ℚ → ℚ} {incl : Bool} {K : ℕ} {ok : ℚ → Prop} {Rel : ℕ → ℚ → ℚ → Prop}
    (hf : Follow rnd K ok Rel) {g : GenericGraph T A} (hg : g.WF) (hK : 2 * g.vertexCount ≤ K)
    {F : ℕ → ℕ → ℚ} (hF : ∀ s, IsFlow g s (F s))
    (hok1 : ∀ s v S, s < g.vertexCount → g.toSimple.Reachable s v → S ⊆ farther g s v →
      ok (1 + ∑ w ∈ S, F s w / ((closer g s w).card : ℚ)))
    (hok2 : ∀ s v, s < g.vertexCount → g.toSimple.Reachable s v → v ≠ s → ok (F s v / ((closer g s v).card : ℚ))) :
    ∃ F' : ℕ → ℕ → ℚ, (∀ s v, s ∈ sources g v → Rel (2 * g.vertexCount) (F' s v) (F s v)) ∧
      g.vertexLoadR rnd incl = .ok ((List.range g.vertexCount).map (fun v =>
        ((List.range g.vertexCount).filter (· ∈ sources g v)).foldl (fun x s => addOf rnd incl x (F' s v)) 0)) := by
  obtain ⟨⟨b, s⟩, e, h1, h2, h3, h4, -, F', hF', h5⟩ := foldlM_range (f := g.loadBodyR rnd incl) g.nextId
    (fun i (st : List ℚ × LoadBuf) => st.1.length = g.nextId ∧ st.2.queue0 = [] ∧ st.2.queue1 = [] ∧ st.2.ordering = [] ∧
      (i = 0 → st.2.bk = List.replicate g.nextId 1 ∧ st.2.distance = List.replicate g.nextId none ∧
        st.2.predecessor = List.replicate g.nextId []) ∧
      ∃ F' : ℕ → ℕ → ℚ, (∀ s v, s < i → s ∈ sources g v → Rel (2 * g.vertexCount) (F' s v) (F s v)) ∧
      ∀ v, v < g.nextId → st.1[v]? = some (((List.range i).filter (· ∈ sources g v)).foldl (fun x s => addOf rnd incl x (F' s v)) 0))
    (by
      rintro i ⟨b, s⟩ hi ⟨h1, h2, h3, h4, h5, F', h6, h7⟩
      obtain ⟨b', s', G, e, a1, a2, a3, a4, a5, a6⟩ := loadBodyR_spec (incl := incl) hf hg hK hi (hF i)
        (fun v S => hok1 i v S hi) (fun v => hok2 i v hi) h1 h2 h3 h4 h5
      refine ⟨(b', s'), e, a1, a2, a3, a4, fun h => absurd h (Nat.succ_ne_zero i), Function.update F' i G, ?_, ?_⟩
      · intro s v hs hm
        by_cases hsi : s = i
        · subst hsi; rw [Function.update_self]; exact a5 v hm
        · rw [Function.update_of_ne hsi]; exact h6 s v (by omega) hm
      · intro v hv
        show b'[v]? = _
        rw [a6, h7 v hv, Option.map_some]
        congr 1
        rw [List.range_succ, List.filter_append, List.foldl_append]
        have hsame : ((List.range i).filter (· ∈ sources g v)).foldl (fun x s => addOf rnd incl x (Function.update F' i G s v)) 0 =
            ((List.range i).filter (· ∈ sources g v)).foldl (fun x s => addOf rnd incl x (F' s v)) 0 := by
          apply List.foldl_ext
          intro x s hs
          have : s ≠ i := by
            have := (List.mem_filter.mp hs).1
            rw [List.mem_range] at this
            omega
          rw [Function.update_of_ne this]
        rw [hsame]
        by_cases hc : i ∈ sources g v
        · simp [hc]
        · simp [hc])
    (s := (List.replicate g.nextId 0, ⟨[], [], [], List.replicate g.nextId 1, List.replicate g.nextId none, List.replicate g.nextId []⟩))
    (by
      refine ⟨by simp, rfl, rfl, rfl, fun _ => ⟨rfl, rfl, rfl⟩, F, by simp, ?_⟩
      intro v hv
      simp [hv])
  refine ⟨F', ?_, ?_⟩
  · intro s v hs
    refine hF' s v ?_ hs
    rw [sources, Finset.mem_filter, Finset.mem_range] at hs
    exact hs.1
  unfold GenericGraph.vertexLoadR
  simp only [GenericGraph.vertexCount, e, Res.ok_bind, Res.pure_eq]
  congr 1
  have h1 : b.length = g.nextId := h1
  apply List.ext_getElem
  · simp [h1]
  · intro v hv hv'
    have hv : v < g.nextId := by omega
    obtain ⟨_, this⟩ := List.getElem?_eq_some_iff.mp (h5 v hv)
    simp only [List.getElem_map, List.getElem_range]
    exact this

end Verif
