import Verif.Spec.Dot
import Verif.Lemmas.Subgraph
import Verif.Lemmas.EdgeSet

/-!
# Lemmas about the dot writers
-/

set_option linter.unusedSectionVars false
set_option linter.unusedSimpArgs false

namespace Verif
open AdjContainer GenericGraph

variable {σ ε : Type} {put : σ → String → Except ε Unit × σ}

/-- `m` writes exactly the texts `l`. -/
def Writes (put : σ → String → Except ε Unit × σ) (m : DotM σ ε Unit) (l : List String) : Prop :=
  ∀ st, m.run st = .ok (writeSeq put l st)

theorem writes_put (s : String) : Writes put (dotPut put s) [s] := by
  intro st
  show Res.ok (put st s) = _
  simp only [writeSeq]
  rcases put st s with ⟨⟨_⟩ | ⟨_⟩, _⟩ <;> rfl

theorem writes_pure : Writes put (pure () : DotM σ ε Unit) [] := by
  intro st; rfl

theorem writeSeq_append (l l' : List String) (st : σ) : writeSeq put (l ++ l') st =
    (match writeSeq put l st with
      | (.ok (), st') => writeSeq put l' st'
      | (.error e, st') => (.error e, st')) := by
  induction l generalizing st with
  | nil => rfl
  | cons s l ih =>
    rw [List.cons_append]
    simp only [writeSeq]
    rcases put st s with ⟨⟨e⟩ | ⟨_⟩, st'⟩
    · rfl
    · simp only [ih]

theorem Writes.seq {m m' : DotM σ ε Unit} {l l' : List String} (h : Writes put m l) (h' : Writes put m' l') :
    Writes put (do m; m') (l ++ l') := by
  intro st
  rw [writeSeq_append]
  have e : (do m; m' : DotM σ ε Unit).run st = (m.run st >>= fun p => match p with
      | (.ok (), st') => m'.run st'
      | (.error e, st') => Res.ok (.error e, st')) := by
    show Res.bind _ _ = Res.bind _ _
    congr 1
    funext p
    rcases p with ⟨⟨e⟩ | ⟨_⟩, st'⟩ <;> rfl
  rw [e, h st, Res.ok_bind]
  rcases writeSeq put l st with ⟨⟨e⟩ | ⟨_⟩, st'⟩
  · rfl
  · exact h' st'

theorem Writes.forM {α : Type} {f : α → DotM σ ε Unit} {k : α → List String} : ∀ (l : List α),
    (∀ x ∈ l, Writes put (f x) (k x)) → Writes put (l.forM f) (l.flatMap k) := by
  intro l
  induction l with
  | nil => intro _; exact writes_pure
  | cons x l ih =>
    intro h
    have := (h x (by simp)).seq (ih (fun y hy => h y (by simp [hy])))
    exact this

variable {T A : Type} [AdjContainer T A] [LawfulAdj T A]

/-- The edges in the order in which they are written. -/
def dotEdgeList (g : GenericGraph T A) : List (Nat × Nat) :=
  (List.range g.nextId).flatMap (fun i => ((g.nbrs i).filter (fun j => decide (i < j))).map (fun j => (i, j)))

theorem flatMap_if_single (l : List Nat) (p : Nat → Prop) [DecidablePred p] (f : Nat → String) :
    l.flatMap (fun j => if p j then [f j] else []) = (l.filter (fun j => decide (p j))).map f := by
  induction l with
  | nil => rfl
  | cons a l ih =>
    rw [List.flatMap_cons, ih]
    by_cases h : p a <;> simp [h]

theorem dotEdges_writes {g : GenericGraph T A} (h : g.WF) :
    Writes put (g.dotEdges put) ((dotEdgeList g).map (fun e => s!"\t{e.1} -- {e.2}\n")) := by
  have : (dotEdgeList g).map (fun e : Nat × Nat => s!"\t{e.1} -- {e.2}\n") = (List.range g.nextId).flatMap (fun i =>
      ((g.nbrs i).filter (fun j => decide (i < j))).map (fun j => s!"\t{i} -- {j}\n")) := by
    simp only [dotEdgeList, List.map_flatMap, List.map_map]
    rfl
  rw [this]
  unfold GenericGraph.dotEdges
  apply Writes.forM
  intro i hi
  have hi : i < g.vertices.length := by rw [h.len]; simpa [GenericGraph.vertexCount] using hi
  have hc : g.container i = .ok g.vertices[i] := Vec.idx_of_lt hi
  have key : Writes put ((neighbors g.vertices[i]).forM (fun j => if i < j then dotPut put s!"\t{i} -- {j}\n" else pure ()))
      (((g.nbrs i).filter (fun j => decide (i < j))).map (fun j => s!"\t{i} -- {j}\n")) := by
    rw [nbrs_getElem hi, ← flatMap_if_single]
    apply Writes.forM
    intro j _
    split
    · exact writes_put _
    · exact writes_pure
  intro st
  rw [← key st]
  show Res.bind _ _ = _
  simp only [GenericGraph.dotContainer, ExceptT.mk, hc, Res.ok_bind]
  rfl

theorem dotEdgeList_mem {g : GenericGraph T A} (h : g.WF) (i j : Nat) :
    (i, j) ∈ dotEdgeList g ↔ i < j ∧ g.toSimple.Adj i j := by
  rw [h.adj_iff]
  simp only [dotEdgeList, List.mem_flatMap, List.mem_range, List.mem_map, List.mem_filter, decide_eq_true_eq, Prod.mk.injEq]
  constructor
  · rintro ⟨a, _, b, ⟨h1, h2⟩, rfl, rfl⟩; exact ⟨h2, h1⟩
  · rintro ⟨h1, h2⟩; exact ⟨i, h.lt_left h2, j, ⟨h2, h1⟩, rfl, rfl⟩

theorem dotEdgeList_nodup {g : GenericGraph T A} (h : g.WF) : (dotEdgeList g).Nodup := by
  unfold dotEdgeList
  rw [List.nodup_flatMap]
  constructor
  · intro i _
    apply List.Nodup.map
    · intro a b hab; simpa using hab
    · exact (h.nodup i).filter _
  · apply List.nodup_range.imp
    intro a b hab
    simp only [Function.onFun, List.disjoint_left, List.mem_map, not_exists, not_and]
    rintro _ ⟨j, _, rfl⟩ k _ hk
    simp at hk; exact hab hk.1.symm

theorem dotEdgeList_sorted (g : GenericGraph T A) : (dotEdgeList g).Pairwise (fun a b => a.1 ≤ b.1) := by
  unfold dotEdgeList
  rw [List.pairwise_flatMap]
  constructor
  · intro i _
    rw [List.pairwise_map]
    exact List.pairwise_of_forall (fun _ _ => Nat.le_refl _)
  · apply List.pairwise_lt_range.imp
    intro a b hab x hx y hy
    simp only [List.mem_map] at hx hy
    obtain ⟨_, _, rfl⟩ := hx
    obtain ⟨_, _, rfl⟩ := hy
    exact Nat.le_of_lt hab

theorem dotEdgeList_length {g : GenericGraph T A} (h : g.WF) : (dotEdgeList g).length = g.edgeCount := by
  rw [h.edgeCount_eq_card, ← List.toFinset_card_of_nodup (dotEdgeList_nodup h)]
  apply Finset.card_bij (fun e _ => s(e.1, e.2))
  · rintro ⟨i, j⟩ hij
    rw [List.mem_toFinset, dotEdgeList_mem h, h.adj_iff] at hij
    exact h.mem_edges.mpr hij.2
  · rintro ⟨i, j⟩ hij ⟨a, b⟩ hab heq
    rw [List.mem_toFinset, dotEdgeList_mem h] at hij hab
    simp only [Sym2.eq_iff] at heq
    rcases heq with ⟨rfl, rfl⟩ | ⟨rfl, rfl⟩
    · rfl
    · omega
  · intro e
    induction e using Sym2.ind with
    | _ i j =>
      intro he
      have hij := h.mem_edges.mp he
      rcases Nat.lt_or_gt_of_ne (h.ne hij) with hlt | hlt
      · exact ⟨(i, j), by rw [List.mem_toFinset, dotEdgeList_mem h, h.adj_iff]; exact ⟨hlt, hij⟩, rfl⟩
      · exact ⟨(j, i), by rw [List.mem_toFinset, dotEdgeList_mem h, h.adj_iff]; exact ⟨hlt, h.symm _ _ hij⟩, Sym2.eq_swap⟩

theorem writeSeq_string (l : List String) (st : String) : writeSeq putString l st = (.ok (), st ++ String.join l) := by
  induction l generalizing st with
  | nil => simp [writeSeq]
  | cons s l ih => simp only [writeSeq, putString]; rw [ih]; simp [String.append_assoc]

theorem dotFromContainerIndex_writes {g : GenericGraph T A} (h : g.WF) (opts : String) :
    ∀ f : Nat → A → String, Writes put (g.dotFromContainerIndex put opts f)
      (dotText ("graph G{\n\t" ++ opts ++ "\n\t") g.vertexCount ";\n" (g.vertices.zipIdx.map (fun p => f p.2 p.1))
        (dotEdgeList g)) := by
    intro f
    have e : dotText ("graph G{\n\t" ++ opts ++ "\n\t") g.vertexCount ";\n" (g.vertices.zipIdx.map (fun p => f p.2 p.1))
        (dotEdgeList g) = ["graph G{\n\t" ++ opts ++ "\n\t"] ++ ((List.range g.vertexCount).flatMap (fun i => [s!"{i} "]) ++
          ([";\n"] ++ (g.vertices.zipIdx.flatMap (fun p => ["\t\"" ++ toString p.2 ++ "\" [label=\"" ++ f p.2 p.1 ++ "\"];\n"]) ++
          ((dotEdgeList g).map (fun e => s!"\t{e.1} -- {e.2}\n") ++ ["}"])))) := by
      simp only [dotText, List.flatMap_singleton', List.append_assoc, ← List.map_eq_flatMap]
      congr 4
      apply List.ext_getElem
      · simp
      · intro i h1 h2; simp
    rw [e]
    exact (writes_put _).seq ((Writes.forM _ (fun _ _ => writes_put _)).seq ((writes_put _).seq
      ((Writes.forM _ (fun _ _ => writes_put _)).seq ((dotEdges_writes h).seq (writes_put _)))))

theorem dotFromIndices_writes {g : GenericGraph T A} (h : g.WF) (opts : String) :
    ∀ f : Nat → String, Writes put (g.dotFromIndices put opts f)
      (dotText ("graph G{\n\t" ++ opts ++ "\n\t") g.vertexCount ";\n" ((List.range g.vertexCount).map f) (dotEdgeList g)) := by
    intro f
    have e : dotText ("graph G{\n\t" ++ opts ++ "\n\t") g.vertexCount ";\n" ((List.range g.vertexCount).map f)
        (dotEdgeList g) = ["graph G{\n\t" ++ opts ++ "\n\t"] ++ ((List.range g.vertexCount).flatMap (fun i => [s!"{i} "]) ++
          ([";\n"] ++ ((List.range g.vertexCount).flatMap (fun i => ["\t\"" ++ toString i ++ "\" [label=\"" ++ f i ++ "\"];\n"]) ++
          ((dotEdgeList g).map (fun e => s!"\t{e.1} -- {e.2}\n") ++ ["}"])))) := by
      simp only [dotText, List.append_assoc, ← List.map_eq_flatMap]
      congr 4
      apply List.ext_getElem
      · simp
      · intro i h1 h2; simp
    rw [e]
    exact (writes_put _).seq ((Writes.forM _ (fun _ _ => writes_put _)).seq ((writes_put _).seq
      ((Writes.forM _ (fun _ _ => writes_put _)).seq ((dotEdges_writes h).seq (writes_put _)))))

theorem toDot_eq {g : GenericGraph T A} (h : g.WF) :
    g.toDot = .ok (String.join (dotText "graph{\n\t" g.vertexCount "\n" [] (dotEdgeList g))) := by
  have h1 : ∀ (l : List Nat) (s : String), l.foldl (fun s i => s ++ s!"{i} ") s = s ++ String.join (l.map (fun i => s!"{i} ")) := by
    intro l
    induction l with
    | nil => intro s; simp
    | cons a l ih => intro s; rw [List.foldl_cons, ih]; simp [String.append_assoc]
  have h2 : ∀ (i : Nat) (l : List Nat) (s : String), l.foldl (fun s j => if i < j then s ++ s!"\t{i} -- {j}\n" else s) s =
      s ++ String.join ((l.filter (fun j => decide (i < j))).map (fun j => s!"\t{i} -- {j}\n")) := by
    intro i l
    induction l with
    | nil => intro s; simp
    | cons a l ih =>
      intro s
      rw [List.foldl_cons, ih]
      by_cases hia : i < a
      · simp [hia, String.append_assoc]
      · simp [hia]
  have h3 : ∀ (l : List Nat) (s : String), (∀ i ∈ l, i < g.nextId) → l.foldlM (fun s i => do
      let c ← g.container i
      return (neighbors c).foldl (fun s j => if i < j then s ++ s!"\t{i} -- {j}\n" else s) s) s =
      Res.ok (s ++ String.join (l.flatMap (fun i => ((g.nbrs i).filter (fun j => decide (i < j))).map
        (fun j => s!"\t{i} -- {j}\n")))) := by
    intro l
    induction l with
    | nil => intro s _; simp
    | cons a l ih =>
      intro s hl
      have ha : a < g.vertices.length := by rw [h.len]; exact hl a (by simp)
      rw [List.foldlM_cons, GenericGraph.container, Vec.idx_of_lt ha]
      rw [Res.ok_bind]
      show (List.foldlM _ _ l) = _
      rw [h2, ih _ (fun i hi => hl i (by simp [hi])), ← nbrs_getElem ha]
      simp [String.append_assoc]
  unfold GenericGraph.toDot
  simp only [h1]
  rw [h3 _ _ (fun i hi => by simpa [GenericGraph.vertexCount] using hi)]
  simp [dotText, dotEdgeList, List.map_flatMap, Function.comp_def, GenericGraph.vertexCount, String.append_assoc]

end Verif
