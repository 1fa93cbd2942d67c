import Verif.Lemmas.Bicon1
import Mathlib.Logic.Function.Basic

/-!
# Depth first search and biconnected sets

The combinatorial part of the correctness argument: the search path `p`, the depth `nu` and the low points `lo`.  The path is cut
into frames; every frame together with its anchor is a biconnected set.
-/

set_option linter.unusedSectionVars false
set_option linter.unusedSimpArgs false

namespace Verif

variable {G : SimpleGraph ℕ} {p : List ℕ} {lo nu : ℕ → ℕ}

/-- The depth of a vertex is its position on the path. -/
def PathInv (p : List ℕ) (nu : ℕ → ℕ) : Prop := ∀ t x, p[t]? = some x → nu x = t

namespace PathInv

theorem get (h : PathInv p nu) {x : ℕ} (hx : x ∈ p) : p[nu x]? = some x := by
  obtain ⟨t, ht⟩ := List.mem_iff_getElem?.mp hx
  rw [h t x ht]; exact ht

theorem lt (h : PathInv p nu) {x : ℕ} (hx : x ∈ p) : nu x < p.length := by
  have := h.get hx
  exact (List.getElem?_eq_some_iff.mp this).1

theorem inj (h : PathInv p nu) {x y : ℕ} (hx : x ∈ p) (hy : y ∈ p) (he : nu x = nu y) : x = y := by
  have h1 := h.get hx
  have h2 := h.get hy
  rw [he, h2] at h1
  exact (Option.some.inj h1).symm

theorem exists_of_lt (h : PathInv p nu) {t : ℕ} (ht : t < p.length) : ∃ x ∈ p, nu x = t :=
  ⟨p[t], List.getElem_mem ht, h t _ (List.getElem?_eq_getElem ht)⟩

theorem last (h : PathInv (p ++ [y]) nu) : nu y = p.length := h _ _ (by simp)

theorem pop (h : PathInv (p ++ [y]) nu) : PathInv p nu := by
  intro t x hx
  apply h
  have ht := (List.getElem?_eq_some_iff.mp hx).1
  rw [List.getElem?_append_left ht, hx]

theorem last_notMem (h : PathInv (p ++ [y]) nu) : y ∉ p := by
  intro hy
  have := h.pop.lt hy
  rw [h.last] at this
  omega

theorem push (h : PathInv p nu) {y : ℕ} (hy : y ∉ p) : PathInv (p ++ [y]) (Function.update nu y p.length) := by
  intro t x hx
  by_cases ht : t < p.length
  · rw [List.getElem?_append_left ht] at hx
    have : x ≠ y := fun e => hy (e ▸ List.mem_of_getElem? hx)
    rw [Function.update_of_ne this]
    exact h _ _ hx
  · have h1 := (List.getElem?_eq_some_iff.mp hx).1
    rw [List.length_append, List.length_singleton] at h1
    have : t = p.length := by omega
    subst this
    rw [List.getElem?_append_right (Nat.le_refl _)] at hx
    simp at hx
    subst hx
    simp

end PathInv

/-- The low points of the path lie above the parent. -/
def LowInv (p : List ℕ) (lo nu : ℕ → ℕ) : Prop := ∀ x ∈ p, lo x ≤ nu x - 1

/-- The edge from position `i - 1` to `i` starts a new biconnected set: no edge from position `i` or below reaches above position
`i - 1`. -/
def Bnd (p : List ℕ) (lo nu : ℕ → ℕ) (i : ℕ) : Prop :=
  1 ≤ i ∧ i < p.length ∧ ∀ x ∈ p, i ≤ nu x → i - 1 ≤ lo x

/-- A biconnected set in construction. -/
structure Frame where
  base : ℕ
  anchor : ℕ
  seg : Finset ℕ

/-- The vertices of the frame. -/
def Frame.set (f : Frame) : Finset ℕ := insert f.anchor f.seg

theorem Frame.mem_set {f : Frame} {x : ℕ} : x ∈ f.set ↔ x = f.anchor ∨ x ∈ f.seg := Finset.mem_insert

/-- The frames of the path. -/
structure FrInv (G : SimpleGraph ℕ) (p : List ℕ) (lo nu : ℕ → ℕ) (F : List Frame) : Prop where
  sorted : F.Pairwise (fun a b => b.base < a.base)
  bases : ∀ i, (∃ f ∈ F, f.base = i) ↔ Bnd p lo nu i
  anchor : ∀ f ∈ F, f.anchor ∈ p ∧ nu f.anchor + 1 = f.base
  bi : ∀ f ∈ F, BiSet G f.set
  path : ∀ x ∈ p, 1 ≤ nu x → ∃ f ∈ F, x ∈ f.seg ∧ f.base ≤ nu x ∧ ∀ f' ∈ F, f'.base ≤ nu x → f'.base ≤ f.base
  disj : F.Pairwise (fun a b => Disjoint a.seg b.seg)
  root : ∀ x ∈ p, nu x = 0 → ∀ f ∈ F, x ∉ f.seg

theorem pairwise_of_ne {α : Type} {R : α → α → Prop} {l : List α} (h : l.Pairwise R) (hs : ∀ a b, R a b → R b a) {a b : α}
    (ha : a ∈ l) (hb : b ∈ l) (hne : a ≠ b) : R a b := by
  obtain ⟨i, hi, rfl⟩ := List.getElem_of_mem ha
  obtain ⟨j, hj, rfl⟩ := List.getElem_of_mem hb
  rw [List.pairwise_iff_getElem] at h
  rcases Nat.lt_trichotomy i j with hij | hij | hij
  · exact h i j hi hj hij
  · subst hij; exact absurd rfl hne
  · exact hs _ _ (h j i hj hi hij)

namespace FrInv
variable {F : List Frame}

theorem disjoint (h : FrInv G p lo nu F) {f f' : Frame} (hf : f ∈ F) (hf' : f' ∈ F) (hne : f.base ≠ f'.base) :
    ∀ x, x ∈ f.seg → x ∉ f'.seg := by
  intro x h1 h2
  have := pairwise_of_ne h.disj (fun a b hab => hab.symm) hf hf' (fun e => hne (by rw [e]))
  exact Finset.disjoint_left.mp this h1 h2

/-- A path vertex above a frame does not belong to it. -/
theorem above (h : FrInv G p lo nu F) {x : ℕ} (hx : x ∈ p) {f : Frame} (hf : f ∈ F) (hlt : nu x < f.base) : x ∉ f.seg := by
  by_cases h0 : nu x = 0
  · exact h.root x hx h0 f hf
  · obtain ⟨f', hf', h1, h2, _⟩ := h.path x hx (by omega)
    exact h.disjoint hf' hf (by omega) x h1

theorem noanchor (h : FrInv G p lo nu F) {f f' : Frame} (hf : f ∈ F) (hf' : f' ∈ F) (hle : f.base ≤ f'.base) :
    f.anchor ∉ f'.seg := by
  have := (h.anchor f hf)
  exact h.above this.1 hf' (by omega)

theorem base_pos (h : FrInv G p lo nu F) {f : Frame} (hf : f ∈ F) : 1 ≤ f.base := ((h.bases _).mp ⟨f, hf, rfl⟩).1

theorem base_lt (h : FrInv G p lo nu F) {f : Frame} (hf : f ∈ F) : f.base < p.length := ((h.bases _).mp ⟨f, hf, rfl⟩).2.1

theorem base_low (h : FrInv G p lo nu F) {f : Frame} (hf : f ∈ F) {x : ℕ} (hx : x ∈ p) (hle : f.base ≤ nu x) :
    f.base - 1 ≤ lo x := ((h.bases _).mp ⟨f, hf, rfl⟩).2.2 x hx hle

/-- Neighbouring frames share the anchor of the upper one. -/
theorem link (h : FrInv G p lo nu F) {l1 l2 : List Frame} {f f' : Frame} (he : F = l1 ++ f :: f' :: l2) : f.anchor ∈ f'.seg := by
  have hf : f ∈ F := by rw [he]; simp
  have hf' : f' ∈ F := by rw [he]; simp
  have hs := h.sorted
  rw [he, List.pairwise_append, List.pairwise_cons, List.pairwise_cons] at hs
  obtain ⟨_, ⟨hs1, hs2, _⟩, hs3⟩ := hs
  obtain ⟨ha, hb⟩ := h.anchor f hf
  have h1 := hs1 f' (by simp)
  have h2 := h.base_pos hf'
  obtain ⟨f'', hf'', h3, h4, h5⟩ := h.path _ ha (by omega)
  have h6 := h5 f' hf' (by omega)
  rw [he] at hf''
  rcases List.mem_append.mp hf'' with hm | hm
  · have := hs3 f'' hm f (by simp); omega
  · rcases List.mem_cons.mp hm with rfl | hm
    · omega
    · rcases List.mem_cons.mp hm with rfl | hm
      · exact h3
      · have := hs2 f'' hm; omega

theorem empty (h0 : nu x = 0) : FrInv G [x] lo nu [] where
  sorted := List.Pairwise.nil
  bases i := by
    simp only [List.not_mem_nil, false_and, exists_false, false_iff]
    rintro ⟨h1, h2, -⟩
    simp at h2
    omega
  anchor := by simp
  bi := by simp
  path := by
    intro y hy h1
    rw [List.mem_singleton] at hy
    subst hy
    omega
  disj := List.Pairwise.nil
  root := by simp

/-- A new vertex is appended to the path. -/
theorem push {top y : ℕ} (h : FrInv G (p ++ [top]) lo nu F) (hp : PathInv (p ++ [top]) nu)
    (hy : y ∉ p ++ [top]) (hyF : ∀ f ∈ F, y ∉ f.seg) (hadj : G.Adj top y) :
    FrInv G (p ++ [top] ++ [y]) (Function.update lo y (nu top)) (Function.update nu y (p.length + 1))
      (⟨p.length + 1, top, {y}⟩ :: F) := by
  have htop := hp.last
  have hnu : ∀ x ∈ p ++ [top], Function.update nu y (p.length + 1) x = nu x := fun x hx =>
    Function.update_of_ne (fun (e : x = y) => hy (e ▸ hx)) _ _
  have hlo : ∀ x ∈ p ++ [top], Function.update lo y (nu top) x = lo x := fun x hx =>
    Function.update_of_ne (fun (e : x = y) => hy (e ▸ hx)) _ _
  have hlt : ∀ x ∈ p ++ [top], nu x < p.length + 1 := fun x hx => by
    have := hp.lt hx
    simpa using this
  have hbl : ∀ f ∈ F, f.base < p.length + 1 := fun f hf => by
    have := h.base_lt hf
    simpa using this
  have hsplit : ∀ x, x ∈ p ++ [top] ++ [y] ↔ x ∈ p ++ [top] ∨ x = y := by
    intro x; rw [List.mem_append (s := p ++ [top]), List.mem_singleton]
  refine ⟨?_, ?_, ?_, ?_, ?_, ?_, ?_⟩
  · rw [List.pairwise_cons]
    exact ⟨fun f hf => hbl f hf, h.sorted⟩
  · intro i
    constructor
    · rintro ⟨f, hf, rfl⟩
      rcases List.mem_cons.mp hf with rfl | hf
      · refine ⟨by simp, by simp, ?_⟩
        intro x hx hle
        rcases (hsplit x).mp hx with hx | rfl
        · rw [hnu x hx] at hle
          have := hlt x hx
          simp only at hle
          omega
        · simp [htop]
      · refine ⟨h.base_pos hf, ?_, ?_⟩
        · have := hbl f hf; simp; omega
        · intro x hx hle
          rcases (hsplit x).mp hx with hx | rfl
          · rw [hnu x hx] at hle
            rw [hlo x hx]
            exact h.base_low ‹f ∈ F› hx hle
          · have := hbl f ‹_›
            simp [htop]
            omega
    · rintro ⟨h1, h2, h3⟩
      by_cases hi : i = p.length + 1
      · exact ⟨_, List.mem_cons_self, hi.symm⟩
      · have h2' : i < p.length + 1 := by simp at h2; omega
        obtain ⟨f, hf, hb⟩ := (h.bases i).mpr ⟨h1, by simpa using h2', fun x hx hle => by
          have := h3 x ((hsplit x).mpr (Or.inl hx)) (by rw [hnu x hx]; exact hle)
          rwa [hlo x hx] at this⟩
        exact ⟨f, List.mem_cons_of_mem _ hf, hb⟩
  · intro f hf
    rcases List.mem_cons.mp hf with rfl | hf
    · exact ⟨by simp, by simp only; rw [hnu top (by simp), htop]⟩
    · obtain ⟨h1, h2⟩ := h.anchor f hf
      exact ⟨(hsplit _).mpr (Or.inl h1), by rw [hnu _ h1]; exact h2⟩
  · intro f hf
    rcases List.mem_cons.mp hf with rfl | hf
    · exact biSet_edge hadj
    · exact h.bi f hf
  · intro x hx h1
    rcases (hsplit x).mp hx with hx | rfl
    · rw [hnu x hx] at h1 ⊢
      obtain ⟨f, hf, h2, h3, h4⟩ := h.path x hx h1
      refine ⟨f, List.mem_cons_of_mem _ hf, h2, h3, ?_⟩
      intro f' hf' hle
      rcases List.mem_cons.mp hf' with rfl | hf'
      · have := hlt x hx
        simp only at hle
        omega
      · exact h4 f' hf' hle
    · refine ⟨_, List.mem_cons_self, by simp, by simp, ?_⟩
      intro f' hf' hle
      rcases List.mem_cons.mp hf' with rfl | hf'
      · exact Nat.le_refl _
      · have := hbl f' hf'
        simp only
        omega
  · rw [List.pairwise_cons]
    refine ⟨fun f hf => ?_, h.disj⟩
    rw [Finset.disjoint_singleton_left]
    exact hyF f hf
  · intro x hx h0 f hf
    rcases (hsplit x).mp hx with hx | rfl
    · rw [hnu x hx] at h0
      rcases List.mem_cons.mp hf with rfl | hf
      · intro hm
        rw [Finset.mem_singleton] at hm
        exact hy (hm ▸ hx)
      · exact h.root x hx h0 f hf
    · simp at h0

/-- The union of the vertices of some frames. -/
def segs : List Frame → Finset ℕ
  | [] => ∅
  | f :: l => f.seg ∪ segs l

theorem mem_segs {x : ℕ} : ∀ {l : List Frame}, x ∈ segs l ↔ ∃ f ∈ l, x ∈ f.seg
  | [] => by simp [segs]
  | f :: l => by simp [segs, mem_segs (l := l)]

/-- The frames from the one of `a` to the one of `b` become biconnected if `a` and `b` get joined. -/
theorem chain (h : FrInv G p lo nu F) {f0 : Frame} {rest : List Frame} {a : ℕ} (ha : a ∈ f0.set) : ∀ (hi pre : List Frame),
    F = pre ++ hi ++ f0 :: rest → (∀ f ∈ hi, nu a + 1 < f.base) → ∀ b ∈ p, nu a < nu b →
    (∃ f l, hi ++ [f0] = f :: l ∧ b ∈ f.seg) → Bi2 G (insert f0.anchor (f0.seg ∪ segs hi)) a b
  | [], pre, he, _, b, hb, hab, hm => by
    obtain ⟨f, l, h1, h2⟩ := hm
    simp at h1
    obtain ⟨rfl, -⟩ := h1
    have hf0 : f0 ∈ F := by rw [he]; simp
    have := (h.bi f0 hf0).bi2 ha (Frame.mem_set.mpr (Or.inr h2)) (fun e => by rw [e] at hab; omega)
    simpa [segs, Frame.set] using this
  | f :: hi, pre, he, hgt, b, hb, hab, hm => by
    obtain ⟨f', l, h1, h2⟩ := hm
    simp at h1
    obtain ⟨rfl, -⟩ := h1
    have hf : f ∈ F := by rw [he]; simp
    have hf0 : f0 ∈ F := by rw [he]; simp
    have hs := h.sorted
    obtain ⟨hanc, hbase⟩ := h.anchor f hf
    have hg := hgt f (by simp)
    have ih := chain h (rest := rest) ha hi (pre ++ [f]) (by rw [he]; simp) (fun f hf => hgt f (List.mem_cons_of_mem _ hf)) f.anchor hanc (by omega) (by
      cases hi with
      | nil => exact ⟨f0, [], rfl, h.link (l1 := pre) (l2 := rest) (by rw [he]; simp)⟩
      | cons f1 hi => exact ⟨f1, hi ++ [f0], rfl, h.link (l1 := pre) (l2 := hi ++ f0 :: rest) (by rw [he]; simp)⟩)
    have hlow : ∀ f1 ∈ hi ++ f0 :: rest, f1.base < f.base := by
      rw [he] at hs
      rw [List.append_assoc, List.pairwise_append] at hs
      have := hs.2.1
      rw [List.cons_append, List.pairwise_cons] at this
      exact this.1
    have hmemF : ∀ f1 ∈ hi ++ f0 :: rest, f1 ∈ F := by
      intro f1 hf1
      rw [he, List.append_assoc, List.mem_append, List.cons_append, List.mem_cons]
      exact Or.inr (Or.inr hf1)
    have := ih.append (h.bi f hf) (Frame.mem_set.mpr (Or.inl rfl)) (Frame.mem_set.mpr (Or.inr h2))
      (fun e => h.noanchor hf hf (Nat.le_refl _) (e ▸ h2)) (by
        intro x hx hxf
        rcases Frame.mem_set.mp hxf with hxf | hxf
        · exact hxf
        · exfalso
          rw [Finset.mem_insert, Finset.mem_union, mem_segs] at hx
          rcases hx with rfl | hx | ⟨f1, hf1, hx⟩
          · exact h.noanchor hf0 hf (Nat.le_of_lt (hlow f0 (by simp))) hxf
          · exact h.disjoint hf0 hf (Nat.ne_of_lt (hlow f0 (by simp))) x hx hxf
          · exact h.disjoint (hmemF f1 (by simp [hf1])) hf (Nat.ne_of_lt (hlow f1 (by simp [hf1]))) x hx hxf)
    have heq : insert f0.anchor (f0.seg ∪ segs hi) ∪ f.set = insert f0.anchor (f0.seg ∪ segs (f :: hi)) := by
      have hB := ih.memB
      ext x
      rw [Finset.mem_union, Frame.mem_set]
      simp only [Finset.mem_insert, Finset.mem_union, segs] at hB ⊢
      constructor
      · rintro ((h1 | h1 | h1) | rfl | h1)
        · exact Or.inl h1
        · exact Or.inr (Or.inl h1)
        · exact Or.inr (Or.inr (Or.inr h1))
        · rcases hB with h1 | h1 | h1
          · exact Or.inl h1
          · exact Or.inr (Or.inl h1)
          · exact Or.inr (Or.inr (Or.inr h1))
        · exact Or.inr (Or.inr (Or.inl h1))
      · rintro (h1 | h1 | h1 | h1)
        · exact Or.inl (Or.inl h1)
        · exact Or.inl (Or.inr (Or.inl h1))
        · exact Or.inr (Or.inr h1)
        · exact Or.inl (Or.inr (Or.inr h1))
    rwa [heq] at this

/-- An edge from the last vertex of the path to an earlier one merges frames. -/
theorem back {top w : ℕ} (h : FrInv G (p ++ [top]) lo nu F) (hp : PathInv (p ++ [top]) nu) (hw : w ∈ p) (hlt : nu w + 1 < p.length)
    (hadj : G.Adj w top) :
    ∃ F', FrInv G (p ++ [top]) (Function.update lo top (min (lo top) (nu w))) nu F' ∧ (∀ f ∈ F, ∃ f' ∈ F', f.set ⊆ f'.set) ∧
      (∃ f' ∈ F', w ∈ f'.set ∧ top ∈ f'.set) ∧ (∀ f' ∈ F', ∀ x ∈ f'.seg, ∃ f ∈ F, x ∈ f.seg) := by
  classical
  have htop := hp.last
  have htopm : top ∈ p ++ [top] := by simp
  have hwm : w ∈ p ++ [top] := by simp [hw]
  obtain ⟨fb, hfb, hfb1⟩ := (h.bases 1).mpr ⟨Nat.le_refl _, by simp; omega, by simp⟩
  obtain ⟨hi, f0, rest, he, h0, hhi⟩ := exists_first (fun f : Frame => f.base ≤ nu w + 1) F ⟨fb, hfb, by omega⟩
  have hhi : ∀ f ∈ hi, nu w + 1 < f.base := fun f hf => Nat.lt_of_not_le (hhi f hf)
  have hf0 : f0 ∈ F := by rw [he]; simp
  have hiF : ∀ f ∈ hi, f ∈ F := fun f hf => by rw [he]; simp [hf]
  have restF : ∀ f ∈ rest, f ∈ F := fun f hf => by rw [he]; simp [hf]
  have hs := h.sorted
  have hd := h.disj
  rw [he, List.pairwise_append, List.pairwise_cons] at hs hd
  have memF : ∀ f, f ∈ F → f ∈ hi ∨ f = f0 ∨ f ∈ rest := by
    intro f hf
    rw [he] at hf
    rcases List.mem_append.mp hf with hf | hf
    · exact Or.inl hf
    · exact Or.inr (List.mem_cons.mp hf)
  -- `w` lies in the frame `f0`
  have hw0 : w ∈ f0.set := by
    rw [Frame.mem_set]
    obtain ⟨h1, h2⟩ := h.anchor f0 hf0
    by_cases hb : f0.base = nu w + 1
    · left
      exact (hp.inj h1 hwm (by omega)).symm
    · right
      have := h.base_pos hf0
      obtain ⟨f, hf, h3, h4, h5⟩ := h.path w hwm (by omega)
      have h6 := h5 f0 hf0 (by omega)
      rcases memF f hf with hf | rfl | hf
      · have := hhi f hf; omega
      · exact h3
      · have := hs.2.1.1 f hf; omega
  -- the last vertex lies in the last frame
  have htopF : ∃ f l, hi ++ [f0] = f :: l ∧ top ∈ f.seg := by
    obtain ⟨f, hf, h3, h4, h5⟩ := h.path top htopm (by omega)
    have hmax : ∀ f' ∈ F, f'.base ≤ f.base := by
      intro f' hf'
      apply h5 f' hf'
      have := h.base_lt hf'
      simp at this
      omega
    cases hi with
    | nil =>
      refine ⟨f0, [], rfl, ?_⟩
      rcases memF f hf with hf | rfl | hf
      · simp at hf
      · exact h3
      · have h7 := hs.2.1.1 f hf
        have h8 := hmax f0 hf0
        omega
    | cons f1 hi =>
      refine ⟨f1, hi ++ [f0], rfl, ?_⟩
      have h8 := hmax f1 (hiF f1 (by simp))
      by_cases hff : f = f1
      · rw [← hff]; exact h3
      · exfalso
        have hs' := h.sorted
        rw [he, List.cons_append, List.pairwise_cons] at hs'
        rw [he, List.cons_append] at hf
        rcases List.mem_cons.mp hf with hf | hf
        · exact hff hf
        · have := hs'.1 f hf
          omega
  have hbi2 := h.chain hw0 hi [] (by rw [he]; rfl) hhi top htopm (by omega) htopF
  have hbi := hbi2.close hadj
  let f1 : Frame := ⟨f0.base, f0.anchor, f0.seg ∪ segs hi⟩
  have hf1s : f1.set = insert f0.anchor (f0.seg ∪ segs hi) := rfl
  have hlow : ∀ i, Bnd (p ++ [top]) (Function.update lo top (min (lo top) (nu w))) nu i ↔ Bnd (p ++ [top]) lo nu i ∧ i ≤ nu w + 1 := by
    intro i
    constructor
    · rintro ⟨h1, h2, h3⟩
      have h4 := h3 top htopm (by rw [htop]; simp at h2; omega)
      rw [Function.update_self] at h4
      refine ⟨⟨h1, h2, ?_⟩, by omega⟩
      intro x hx hle
      by_cases hxt : x = top
      · subst hxt; omega
      · have := h3 x hx hle
        rwa [Function.update_of_ne hxt] at this
    · rintro ⟨⟨h1, h2, h3⟩, h4⟩
      refine ⟨h1, h2, ?_⟩
      intro x hx hle
      by_cases hxt : x = top
      · subst hxt
        rw [Function.update_self]
        have := h3 x hx hle
        omega
      · rw [Function.update_of_ne hxt]
        exact h3 x hx hle
  have hseg1 : ∀ x, x ∈ f1.seg ↔ x ∈ f0.seg ∨ ∃ f ∈ hi, x ∈ f.seg := by
    intro x
    show x ∈ f0.seg ∪ segs hi ↔ _
    rw [Finset.mem_union, mem_segs]
  refine ⟨f1 :: rest, ⟨?_, ?_, ?_, ?_, ?_, ?_, ?_⟩, ?_, ?_, ?_⟩
  · rw [List.pairwise_cons]
    exact ⟨hs.2.1.1, hs.2.1.2⟩
  · intro i
    rw [hlow]
    constructor
    · rintro ⟨f, hf, rfl⟩
      rcases List.mem_cons.mp hf with rfl | hf
      · exact ⟨(h.bases _).mp ⟨f0, hf0, rfl⟩, h0⟩
      · have := hs.2.1.1 f hf
        exact ⟨(h.bases _).mp ⟨f, restF f hf, rfl⟩, by omega⟩
    · rintro ⟨h1, h2⟩
      obtain ⟨f, hf, rfl⟩ := (h.bases i).mpr h1
      rcases memF f hf with hf | rfl | hf
      · have := hhi f hf; omega
      · exact ⟨f1, by simp, rfl⟩
      · exact ⟨f, by simp [hf], rfl⟩
  · intro f hf
    rcases List.mem_cons.mp hf with rfl | hf
    · exact h.anchor f0 hf0
    · exact h.anchor f (restF f hf)
  · intro f hf
    rcases List.mem_cons.mp hf with rfl | hf
    · exact hbi
    · exact h.bi f (restF f hf)
  · intro x hx h1
    obtain ⟨f, hf, h3, h4, h5⟩ := h.path x hx h1
    have hnew : x ∈ f1.seg → f0.base ≤ nu x → ∃ f ∈ f1 :: rest, x ∈ f.seg ∧ f.base ≤ nu x ∧
        ∀ f' ∈ f1 :: rest, f'.base ≤ nu x → f'.base ≤ f.base := by
      intro hm hle
      refine ⟨f1, by simp, hm, hle, ?_⟩
      intro f' hf' _
      rcases List.mem_cons.mp hf' with rfl | hf'
      · exact Nat.le_refl _
      · exact Nat.le_of_lt (hs.2.1.1 f' hf')
    rcases memF f hf with hf | rfl | hf
    · have := hhi f hf
      exact hnew ((hseg1 x).mpr (Or.inr ⟨f, hf, h3⟩)) (by omega)
    · exact hnew ((hseg1 x).mpr (Or.inl h3)) h4
    · refine ⟨f, by simp [hf], h3, h4, ?_⟩
      intro f' hf' hle
      rcases List.mem_cons.mp hf' with rfl | hf'
      · exact h5 f0 hf0 hle
      · exact h5 f' (restF f' hf') hle
  · rw [List.pairwise_cons]
    refine ⟨?_, hd.2.1.2⟩
    intro f hf
    rw [Finset.disjoint_left]
    intro x hx
    rcases (hseg1 x).mp hx with hx | ⟨f2, hf2, hx⟩
    · exact Finset.disjoint_left.mp (hd.2.1.1 f hf) hx
    · exact Finset.disjoint_left.mp (hd.2.2 f2 hf2 f (by simp [hf])) hx
  · intro x hx hx0 f hf
    rcases List.mem_cons.mp hf with rfl | hf
    · intro hm
      rcases (hseg1 x).mp hm with hm | ⟨f2, hf2, hm⟩
      · exact h.root x hx hx0 f0 hf0 hm
      · exact h.root x hx hx0 f2 (hiF f2 hf2) hm
    · exact h.root x hx hx0 f (restF f hf)
  · intro f hf
    rcases memF f hf with hf | rfl | hf
    · refine ⟨f1, by simp, ?_⟩
      rw [hf1s]
      intro x hx
      rcases Frame.mem_set.mp hx with rfl | hx
      · -- the anchor lies in the frame below
        obtain ⟨h1, h2⟩ := h.anchor f (hiF f hf)
        have h3 := hhi f hf
        obtain ⟨f2, hf2, h4, h5, h6⟩ := h.path f.anchor h1 (by omega)
        have h7 := h6 f0 hf0 (by omega)
        rw [Finset.mem_insert]
        right
        rw [Finset.mem_union, mem_segs]
        rcases memF f2 hf2 with hf2 | rfl | hf2
        · exact Or.inr ⟨f2, hf2, h4⟩
        · exact Or.inl h4
        · have := hs.2.1.1 f2 hf2; omega
      · rw [Finset.mem_insert, Finset.mem_union, mem_segs]
        exact Or.inr (Or.inr ⟨f, hf, hx⟩)
    · refine ⟨f1, by simp, ?_⟩
      intro x hx
      rw [hf1s]
      rcases Frame.mem_set.mp hx with rfl | hx
      · simp
      · simp [hx]
    · exact ⟨f, by simp [hf], Finset.Subset.refl _⟩
  · exact ⟨f1, by simp, hbi2.memA, hbi2.memB⟩
  · intro f' hf' x hx
    rcases List.mem_cons.mp hf' with rfl | hf'
    · rcases (hseg1 x).mp hx with hm | ⟨f2, hf2, hm⟩
      · exact ⟨f0, hf0, hm⟩
      · exact ⟨f2, hiF f2 hf2, hm⟩
    · exact ⟨f', restF f' hf', hx⟩

/-- The last vertex of the path is finished and nothing below it reaches above its parent. -/
theorem close {top : ℕ} (h : FrInv G (p ++ [top]) lo nu F) (hp : PathInv (p ++ [top]) nu) (hpos : 1 ≤ p.length)
    (hlo : lo top = p.length - 1) :
    ∃ f F', F = f :: F' ∧ f.base = p.length ∧ FrInv G p lo nu F' := by
  have htop := hp.last
  have htopm : top ∈ p ++ [top] := by simp
  have hsplit : ∀ x, x ∈ p ++ [top] ↔ x ∈ p ∨ x = top := by
    intro x; rw [List.mem_append, List.mem_singleton]
  obtain ⟨f, hf, hb⟩ := (h.bases p.length).mpr ⟨hpos, by simp, by
    intro x hx hle
    rcases (hsplit x).mp hx with hx | rfl
    · have := hp.pop.lt hx; omega
    · omega⟩
  have hs := h.sorted
  have hd := h.disj
  cases hF : F with
  | nil => rw [hF] at hf; simp at hf
  | cons f' F' =>
    rw [hF] at hf hs hd
    rw [List.pairwise_cons] at hs hd
    have hff : f = f' := by
      rcases List.mem_cons.mp hf with hf | hf
      · exact hf
      · have h1 := hs.1 f hf
        have h2 := h.base_lt (f := f') (by rw [hF]; simp)
        simp at h2
        omega
    subst hff
    have sub : ∀ g ∈ F', g ∈ F := fun g hg => by rw [hF]; simp [hg]
    refine ⟨f, F', rfl, hb, hs.2, ?_, ?_, ?_, ?_, hd.2, ?_⟩
    · intro i
      constructor
      · rintro ⟨g, hg, rfl⟩
        obtain ⟨h1, h2, h3⟩ := (h.bases g.base).mp ⟨g, sub g hg, rfl⟩
        have := hs.1 g hg
        exact ⟨h1, by omega, fun x hx => h3 x ((hsplit x).mpr (Or.inl hx))⟩
      · rintro ⟨h1, h2, h3⟩
        obtain ⟨g, hg, rfl⟩ := (h.bases i).mpr ⟨h1, by simp; omega, by
          intro x hx hle
          rcases (hsplit x).mp hx with hx | rfl
          · exact h3 x hx hle
          · omega⟩
        rw [hF] at hg
        rcases List.mem_cons.mp hg with rfl | hg
        · omega
        · exact ⟨g, hg, rfl⟩
    · intro g hg
      obtain ⟨h1, h2⟩ := h.anchor g (sub g hg)
      refine ⟨?_, h2⟩
      rcases (hsplit _).mp h1 with h1 | h1
      · exact h1
      · have := hs.1 g hg
        rw [h1] at h2
        omega
    · intro g hg
      exact h.bi g (sub g hg)
    · intro x hx h1
      obtain ⟨g, hg, h2, h3, h4⟩ := h.path x ((hsplit x).mpr (Or.inl hx)) h1
      have hlt := hp.pop.lt hx
      rw [hF] at hg
      rcases List.mem_cons.mp hg with rfl | hg
      · omega
      · exact ⟨g, hg, h2, h3, fun g' hg' => h4 g' (sub g' hg')⟩
    · intro x hx h0 g hg
      exact h.root x ((hsplit x).mpr (Or.inl hx)) h0 g (sub g hg)

/-- The last vertex of the path is finished and belongs to the frame of its parent. -/
theorem keep {top next : ℕ} {q : List ℕ} (hq : p = q ++ [next]) (h : FrInv G (p ++ [top]) lo nu F) (hp : PathInv (p ++ [top]) nu)
    (hlo : lo top < p.length - 1) :
    FrInv G p (Function.update lo next (min (lo next) (lo top))) nu F := by
  have htop := hp.last
  have hnext : nu next + 1 = p.length := by
    have := hp.pop
    rw [hq] at this
    rw [this.last, hq]
    simp
  have hnextm : next ∈ p := by rw [hq]; simp
  have htopm : top ∈ p ++ [top] := by simp
  have hsplit : ∀ x, x ∈ p ++ [top] ↔ x ∈ p ∨ x = top := by
    intro x; rw [List.mem_append, List.mem_singleton]
  have hb : ∀ f ∈ F, f.base < p.length := by
    intro f hf
    have h1 := h.base_lt hf
    by_contra hc
    have h2 : f.base = p.length := by simp at h1; omega
    have h3 := h.base_low hf htopm (by omega)
    omega
  refine ⟨h.sorted, ?_, ?_, h.bi, ?_, h.disj, ?_⟩
  · intro i
    rw [h.bases]
    constructor
    · intro hB
      obtain ⟨f, hf, rfl⟩ := (h.bases i).mpr hB
      obtain ⟨h1, h2, h3⟩ := hB
      refine ⟨h1, hb f hf, ?_⟩
      intro x hx hle
      have h4 := h3 x ((hsplit x).mpr (Or.inl hx)) hle
      by_cases hxn : x = next
      · subst hxn
        rw [Function.update_self]
        have := h3 top htopm (by omega)
        omega
      · rwa [Function.update_of_ne hxn]
    · rintro ⟨h1, h2, h3⟩
      have h5 := h3 next hnextm (by omega)
      rw [Function.update_self] at h5
      refine ⟨h1, by simp; omega, ?_⟩
      intro x hx hle
      rcases (hsplit x).mp hx with hx | rfl
      · by_cases hxn : x = next
        · subst hxn; omega
        · have := h3 x hx hle
          rwa [Function.update_of_ne hxn] at this
      · omega
  · intro f hf
    obtain ⟨h1, h2⟩ := h.anchor f hf
    refine ⟨?_, h2⟩
    rcases (hsplit _).mp h1 with h1 | h1
    · exact h1
    · have := hb f hf
      rw [h1] at h2
      omega
  · intro x hx
    exact h.path x ((hsplit x).mpr (Or.inl hx))
  · intro x hx
    exact h.root x ((hsplit x).mpr (Or.inl hx))

end FrInv

end Verif
