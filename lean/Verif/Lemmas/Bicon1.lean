import Verif.Spec.Bicon
import Mathlib.Data.Finset.Card
import Mathlib.Data.Finset.Lattice.Fold

/-!
# Biconnected sets
-/

set_option linter.unusedSectionVars false
set_option linter.unusedSimpArgs false

namespace Verif

variable {G : SimpleGraph ℕ}

/-- `a` and `b` are joined by a path inside `K`. -/
def Joined (G : SimpleGraph ℕ) (K : Finset ℕ) (a b : ℕ) : Prop :=
  Relation.ReflTransGen (fun x y => G.Adj x y ∧ x ∈ K ∧ y ∈ K) a b

namespace Joined
variable {K K' : Finset ℕ} {a b c : ℕ}

theorem refl (a : ℕ) : Joined G K a a := Relation.ReflTransGen.refl

theorem trans (h : Joined G K a b) (h' : Joined G K b c) : Joined G K a c := Relation.ReflTransGen.trans h h'

theorem symm (h : Joined G K a b) : Joined G K b a := by
  induction h with
  | refl => exact refl _
  | tail _ h2 ih => exact Relation.ReflTransGen.head ⟨h2.1.symm, h2.2.2, h2.2.1⟩ ih

theorem mono (h : Joined G K a b) (hK : K ⊆ K') : Joined G K' a b :=
  Relation.ReflTransGen.mono (fun _ _ (h : _ ∧ _ ∧ _) => ⟨h.1, hK h.2.1, hK h.2.2⟩) _ _ h

theorem edge (h : G.Adj a b) (ha : a ∈ K) (hb : b ∈ K) : Joined G K a b := Relation.ReflTransGen.single ⟨h, ha, hb⟩

/-- A path that leaves a set uses an edge out of it. -/
theorem exit (h : Joined G K a b) {P : ℕ → Prop} (ha : P a) (hb : ¬ P b) :
    ∃ x y, G.Adj x y ∧ x ∈ K ∧ y ∈ K ∧ P x ∧ ¬ P y := by
  induction h with
  | refl => exact absurd ha hb
  | @tail y z _ h2 ih =>
    by_cases hy : P y
    · exact ⟨y, z, h2.1, h2.2.1, h2.2.2, hy, hb⟩
    · exact ih hy

end Joined

theorem connOn_iff {K : Finset ℕ} : ConnOn G K ↔ ∀ a ∈ K, ∀ b ∈ K, Joined G K a b := by
  constructor
  · intro h a ha b hb
    have hr := h ⟨a, ha⟩ ⟨b, hb⟩
    rw [SimpleGraph.reachable_iff_reflTransGen] at hr
    have : ∀ x y : (K : Set ℕ), Relation.ReflTransGen (G.induce (K : Set ℕ)).Adj x y → Joined G K x y := by
      intro x y h
      induction h with
      | refl => exact Joined.refl _
      | @tail y z _ h2 ih => exact ih.trans (Joined.edge h2 y.2 z.2)
    exact this _ _ hr
  · intro h a b
    have : ∀ x y : ℕ, Joined G K x y → ∀ (hx : x ∈ K) (hy : y ∈ K),
        (G.induce (K : Set ℕ)).Reachable ⟨x, hx⟩ ⟨y, hy⟩ := by
      intro x y hj
      induction hj with
      | refl => intro _ _; exact SimpleGraph.Reachable.refl _
      | @tail y z _ h2 ih =>
        intro hx hz
        refine (ih hx h2.2.1).trans (SimpleGraph.Adj.reachable ?_)
        exact h2.1
    exact this a b (h a a.2 b b.2) a.2 b.2

theorem ConnOn.joined {K : Finset ℕ} (h : ConnOn G K) {a b : ℕ} (ha : a ∈ K) (hb : b ∈ K) : Joined G K a b :=
  connOn_iff.mp h a ha b hb

theorem connOn_singleton (a : ℕ) : ConnOn G {a} := by
  rw [connOn_iff]
  intro x hx y hy
  rw [Finset.mem_singleton] at hx hy
  subst hx; subst hy
  exact Joined.refl _

/-- An edge is biconnected. -/
theorem biSet_edge {a b : ℕ} (h : G.Adj a b) : BiSet G {a, b} where
  two := by rw [Finset.card_pair h.ne]
  conn := by
    rw [connOn_iff]
    intro x hx y hy
    have hab : Joined G {a, b} a b := Joined.edge h (by simp) (by simp)
    rw [Finset.mem_insert, Finset.mem_singleton] at hx hy
    rcases hx with rfl | rfl <;> rcases hy with rfl | rfl
    · exact Joined.refl _
    · exact hab
    · exact hab.symm
    · exact Joined.refl _
  del v hv := by
    rw [Finset.mem_insert, Finset.mem_singleton] at hv
    rcases hv with rfl | rfl
    · rw [Finset.erase_insert (by simpa using h.ne)]
      exact connOn_singleton _
    · have : ({a, v} : Finset ℕ).erase v = {a} := by
        rw [Finset.pair_comm, Finset.erase_insert (by simpa using h.ne')]
      rw [this]
      exact connOn_singleton _

theorem BiSet.joined_erase {C : Finset ℕ} (h : BiSet G C) {w y z : ℕ} (hy : y ∈ C) (hz : z ∈ C) (hyw : y ≠ w) (hzw : z ≠ w) :
    Joined G (C.erase w) y z := by
  by_cases hw : w ∈ C
  · exact (h.del w hw).joined (Finset.mem_erase.mpr ⟨hyw, hy⟩) (Finset.mem_erase.mpr ⟨hzw, hz⟩)
  · rw [Finset.erase_eq_of_notMem hw]
    exact h.conn.joined hy hz

/-- With an additional edge between `a` and `b` the set `K` is biconnected. -/
structure Bi2 (G : SimpleGraph ℕ) (K : Finset ℕ) (a b : ℕ) : Prop where
  memA : a ∈ K
  memB : b ∈ K
  conn : ∀ y ∈ K, Joined G K y a
  del : ∀ w, ∀ y ∈ K, y ≠ w → (a ≠ w ∧ Joined G (K.erase w) y a) ∨ (b ≠ w ∧ Joined G (K.erase w) y b)

theorem BiSet.bi2 {C : Finset ℕ} (h : BiSet G C) {a b : ℕ} (ha : a ∈ C) (hb : b ∈ C) (hab : a ≠ b) : Bi2 G C a b where
  memA := ha
  memB := hb
  conn y hy := h.conn.joined hy ha
  del w y hy hyw := by
    by_cases hw : a = w
    · right
      have hbw : b ≠ w := fun e => hab (hw.trans e.symm)
      exact ⟨hbw, h.joined_erase hy hb hyw hbw⟩
    · exact Or.inl ⟨hw, h.joined_erase hy ha hyw hw⟩

/-- Appending a biconnected set that shares exactly the vertex `v`. -/
theorem Bi2.append {K C : Finset ℕ} {a v b : ℕ} (h : Bi2 G K a v) (hC : BiSet G C) (hv : v ∈ C) (hb : b ∈ C) (hvb : v ≠ b)
    (hint : ∀ x, x ∈ K → x ∈ C → x = v) : Bi2 G (K ∪ C) a b where
  memA := Finset.mem_union_left _ h.memA
  memB := Finset.mem_union_right _ hb
  conn y hy := by
    rcases Finset.mem_union.mp hy with hy | hy
    · exact (h.conn y hy).mono Finset.subset_union_left
    · exact ((hC.conn.joined hy hv).mono Finset.subset_union_right).trans ((h.conn v h.memB).mono Finset.subset_union_left)
  del w y hy hyw := by
    have sK : K.erase w ⊆ (K ∪ C).erase w := Finset.erase_subset_erase _ Finset.subset_union_left
    have sC : C.erase w ⊆ (K ∪ C).erase w := Finset.erase_subset_erase _ Finset.subset_union_right
    by_cases hyK : y ∈ K
    · rcases h.del w y hyK hyw with ⟨h1, h2⟩ | ⟨h1, h2⟩
      · exact Or.inl ⟨h1, h2.mono sK⟩
      · by_cases hbw : b = w
        · by_cases hbK : w ∈ K
          · exact absurd (hint w hbK (hbw ▸ hb)) (Ne.symm h1)
          · left
            have haw : a ≠ w := fun e => hbK (e ▸ h.memA)
            have := h.conn y hyK
            rw [← Finset.erase_eq_of_notMem hbK] at this
            exact ⟨haw, this.mono sK⟩
        · exact Or.inr ⟨hbw, (h2.mono sK).trans ((hC.joined_erase hv hb h1 hbw).mono sC)⟩
    · have hyC : y ∈ C := (Finset.mem_union.mp hy).resolve_left hyK
      by_cases hbw : b = w
      · left
        have hvw : v ≠ w := fun e => hvb (e.trans hbw.symm)
        have hwK : w ∉ K := fun hw => hvw (hint w hw (hbw ▸ hb)).symm
        have haw : a ≠ w := fun e => hwK (e ▸ h.memA)
        have h1 := hC.joined_erase hyC hv hyw hvw
        have h2 := h.conn v h.memB
        rw [← Finset.erase_eq_of_notMem hwK] at h2
        exact ⟨haw, (h1.mono sC).trans (h2.mono sK)⟩
      · exact Or.inr ⟨hbw, (hC.joined_erase hyC hb hyw hbw).mono sC⟩

/-- The additional edge exists. -/
theorem Bi2.close {K : Finset ℕ} {a b : ℕ} (h : Bi2 G K a b) (hadj : G.Adj a b) : BiSet G K where
  two := by
    have : ({a, b} : Finset ℕ) ⊆ K := by
      intro x hx
      rw [Finset.mem_insert, Finset.mem_singleton] at hx
      rcases hx with rfl | rfl
      · exact h.memA
      · exact h.memB
    have := Finset.card_le_card this
    rwa [Finset.card_pair hadj.ne] at this
  conn := by
    rw [connOn_iff]
    intro x hx y hy
    exact (h.conn x hx).trans (h.conn y hy).symm
  del w hw := by
    rw [connOn_iff]
    have key : ∀ x, x ∈ K.erase w → ∀ t, t = a ∨ t = b → t ≠ w → Joined G (K.erase w) x t := by
      intro x hx t ht htw
      rw [Finset.mem_erase] at hx
      have hmem : ∀ t, t = a ∨ t = b → t ≠ w → t ∈ K.erase w := by
        rintro t (rfl | rfl) htw
        · exact Finset.mem_erase.mpr ⟨htw, h.memA⟩
        · exact Finset.mem_erase.mpr ⟨htw, h.memB⟩
      rcases h.del w x hx.2 hx.1 with ⟨h1, h2⟩ | ⟨h1, h2⟩
      · rcases ht with rfl | rfl
        · exact h2
        · exact h2.trans (Joined.edge hadj (hmem a (Or.inl rfl) h1) (hmem t (Or.inr rfl) htw))
      · rcases ht with rfl | rfl
        · exact h2.trans (Joined.edge hadj.symm (hmem b (Or.inr rfl) h1) (hmem t (Or.inl rfl) htw))
        · exact h2
    intro x hx y hy
    by_cases haw : a = w
    · have hbw : b ≠ w := fun e => hadj.ne (haw.trans e.symm)
      exact (key x hx b (Or.inr rfl) hbw).trans (key y hy b (Or.inr rfl) hbw).symm
    · exact (key x hx a (Or.inl rfl) haw).trans (key y hy a (Or.inl rfl) haw).symm

/-- A decomposition into biconnected sets that meet like a tree: the `k`-th set is `P k` with an anchor that lies in no `P i`,
`i ≤ k`. -/
structure TreeLike (G : SimpleGraph ℕ) (done : List (ℕ × Finset ℕ)) : Prop where
  disj : done.Pairwise (fun d e => Disjoint d.2 e.2)
  later : done.Pairwise (fun d e => e.1 ∉ d.2)
  self : ∀ d ∈ done, d.1 ∉ d.2
  bi : ∀ d ∈ done, BiSet G (insert d.1 d.2)

theorem exists_first {α : Type} (p : α → Prop) : ∀ (l : List α), (∃ x ∈ l, p x) →
    ∃ pre x post, l = pre ++ x :: post ∧ p x ∧ ∀ y ∈ pre, ¬ p y
  | [], h => by obtain ⟨x, hx, _⟩ := h; simp at hx
  | y :: l, h => by
    classical
    by_cases hy : p y
    · exact ⟨[], y, l, rfl, hy, by simp⟩
    · obtain ⟨x, hx, hpx⟩ := h
      have hx : x ∈ l := by
        rcases List.mem_cons.mp hx with rfl | hx
        · exact absurd hpx hy
        · exact hx
      obtain ⟨pre, z, post, e, h1, h2⟩ := exists_first p l ⟨x, hx, hpx⟩
      refine ⟨y :: pre, z, post, by rw [e]; rfl, h1, ?_⟩
      intro w hw
      rcases List.mem_cons.mp hw with rfl | hw
      · exact hy
      · exact h2 w hw

/-- If the sets cover all edges, every biconnected set lies in one of them. -/
theorem TreeLike.subset {done : List (ℕ × Finset ℕ)} (h : TreeLike G done)
    (hcover : ∀ a b, G.Adj a b → ∃ d ∈ done, a ∈ insert d.1 d.2 ∧ b ∈ insert d.1 d.2) {S : Finset ℕ} (hS : BiSet G S) :
    ∃ d ∈ done, S ⊆ insert d.1 d.2 := by
  classical
  have hex : ∃ d ∈ done, ∃ x, x ∈ d.2 ∧ x ∈ S := by
    obtain ⟨x, hx, y, hy, hxy⟩ := Finset.one_lt_card.mp (show 1 < S.card from hS.two)
    obtain ⟨a, b, hab, ha, hb, -, -⟩ := (hS.conn.joined hx hy).exit (P := fun z => z = x) rfl (Ne.symm hxy)
    obtain ⟨d, hd, h1, h2⟩ := hcover a b hab
    rw [Finset.mem_insert] at h1 h2
    rcases h1 with h1 | h1
    · rcases h2 with h2 | h2
      · exact absurd (h1.trans h2.symm) hab.ne
      · exact ⟨d, hd, b, h2, hb⟩
    · exact ⟨d, hd, a, h1, ha⟩
  obtain ⟨pre, d, post, he, ⟨y, hy, hyS⟩, hpre⟩ := exists_first _ done hex
  have hd : d ∈ done := by rw [he]; simp
  refine ⟨d, hd, ?_⟩
  intro x hx
  by_contra hxn
  rw [Finset.mem_insert, not_or] at hxn
  have hyd : y ≠ d.1 := fun e => h.self d hd (e ▸ hy)
  have hj := hS.joined_erase (w := d.1) hyS hx hyd hxn.1
  obtain ⟨a, b, hab, ha, hb, haP, hbP⟩ := hj.exit (P := fun z => z ∈ d.2) hy hxn.2
  rw [Finset.mem_erase] at ha hb
  obtain ⟨e, hem, h1, h2⟩ := hcover a b hab
  rw [Finset.mem_insert] at h1 h2
  have hdisj := h.disj
  have hlater := h.later
  rw [he] at hem hdisj hlater
  rw [List.pairwise_append, List.pairwise_cons] at hdisj hlater
  rcases List.mem_append.mp hem with hem | hem
  · have hn := hpre e hem
    rcases h1 with h1 | h1
    · rcases h2 with h2 | h2
      · exact hab.ne (h1.trans h2.symm)
      · exact hn ⟨b, h2, hb.2⟩
    · exact hn ⟨a, h1, ha.2⟩
  · rcases List.mem_cons.mp hem with rfl | hem
    · rcases h2 with h2 | h2
      · exact hb.1 h2
      · exact hbP h2
    · rcases h1 with h1 | h1
      · exact hlater.2.1.1 e hem (h1 ▸ haP)
      · exact Finset.disjoint_left.mp (hdisj.2.1.1 e hem) haP h1

/-- The sets of a tree-like decomposition do not contain each other. -/
theorem TreeLike.pairwise_not_subset {done : List (ℕ × Finset ℕ)} (h : TreeLike G done) :
    done.Pairwise (fun d e => ¬ insert d.1 d.2 ⊆ insert e.1 e.2 ∧ ¬ insert e.1 e.2 ⊆ insert d.1 d.2) := by
  have hne : ∀ d ∈ done, ∃ y, y ∈ d.2 := by
    intro d hd
    have := (h.bi d hd).two
    by_contra hc
    have : d.2 = ∅ := Finset.eq_empty_of_forall_notMem (fun y hy => hc ⟨y, hy⟩)
    have h2 := (h.bi d hd).two
    rw [this] at h2
    simp at h2
  have h3 : done.Pairwise (fun d e => Disjoint d.2 e.2 ∧ e.1 ∉ d.2) := h.disj.and h.later
  refine h3.imp_of_mem ?_
  rintro d e hd he ⟨h1, h2⟩
  constructor
  · intro hsub
    obtain ⟨y, hy⟩ := hne d hd
    have := hsub (Finset.mem_insert_of_mem hy)
    rw [Finset.mem_insert] at this
    rcases this with rfl | this
    · exact h2 hy
    · exact Finset.disjoint_left.mp h1 hy this
  · intro hsub
    obtain ⟨y, hy⟩ := hne e he
    have hyd := hsub (Finset.mem_insert_of_mem hy)
    rw [Finset.mem_insert] at hyd
    rcases hyd with rfl | hyd
    · have hv := hsub (Finset.mem_insert_self _ _)
      rw [Finset.mem_insert] at hv
      rcases hv with hv | hv
      · exact h.self e he (hv ▸ hy)
      · exact h2 hv
    · exact Finset.disjoint_left.mp h1 hyd hy

/-- The blocks are exactly the sets of a tree-like decomposition covering all edges. -/
theorem TreeLike.blocks {done : List (ℕ × Finset ℕ)} (h : TreeLike G done)
    (hcover : ∀ a b, G.Adj a b → ∃ d ∈ done, a ∈ insert d.1 d.2 ∧ b ∈ insert d.1 d.2) :
    (∀ S, Block G S ↔ S ∈ done.map (fun d => insert d.1 d.2)) ∧ (done.map (fun d => insert d.1 d.2)).Nodup := by
  have hp := h.pairwise_not_subset
  constructor
  · intro S
    rw [List.mem_map]
    constructor
    · rintro ⟨hS, hmax⟩
      obtain ⟨d, hd, hsub⟩ := h.subset hcover hS
      exact ⟨d, hd, hmax _ (h.bi d hd) hsub⟩
    · rintro ⟨d, hd, rfl⟩
      refine ⟨h.bi d hd, ?_⟩
      intro S' hS' hsub
      obtain ⟨e, he, hsub'⟩ := h.subset hcover hS'
      have : d = e := by
        by_contra hne
        have hss := hsub.trans hsub'
        obtain ⟨i, hi, hdi⟩ := List.getElem_of_mem hd
        obtain ⟨j, hj, hej⟩ := List.getElem_of_mem he
        rw [List.pairwise_iff_getElem] at hp
        rcases Nat.lt_trichotomy i j with hij | hij | hij
        · have := (hp i j hi hj hij).1
          rw [hdi, hej] at this
          exact this hss
        · subst hij; exact hne (hdi.symm.trans hej)
        · have := (hp j i hj hi hij).2
          rw [hdi, hej] at this
          exact this hss
      subst this
      exact Finset.Subset.antisymm hsub' hsub
  · rw [List.Nodup, List.pairwise_map]
    refine hp.imp ?_
    rintro d e ⟨h1, _⟩ heq
    exact h1 (by rw [heq])

end Verif
