import Verif.Lemmas.DotRead

/-!
# C86: the dot text can be read back
-/

set_option linter.unusedSectionVars false
set_option linter.unusedSimpArgs false

namespace Verif
open AdjContainer GenericGraph DotRead

namespace DotRead

/-- The text with options and labels, statement by statement. -/
theorem read_dotText {opts : String} {os : List Stmt} (ho : read ("graph{" ++ opts ++ "\n}") = some os) (n : Nat) {α : Type}
    (items : List α) (txt : α → String) (att : α → List (String × String)) (hl : ∀ x ∈ items, Payload (txt x) (att x))
    (E : List (Nat × Nat)) :
    read (String.join (dotText ("graph G{\n\t" ++ opts ++ "\n\t") n ";\n" (items.map txt) E)) =
      some (os ++ ((List.range n).map (fun i => .vertex (toString i)) ++
        (items.zipIdx.map (fun p => .attrs (.vertex (toString p.2)) (att p.1)) ++
          E.map (fun e => .edge (toString e.1) (toString e.2))))) := by
  obtain ⟨ts, h1, h2⟩ := options ho
  have hh : Lexes "graph G{\n\t".toList [.word "graph".toList, .word "G".toList, .sym '{'] := by unfold Lexes; decide
  have ht : Lexes ['\t'] [] := by unfold Lexes; decide
  have hs : Lexes ";\n".toList [.sym ';'] := by unfold Lexes; decide
  have hb : Lexes ['}'] [.sym '}'] := by unfold Lexes; decide
  have hlab := Reads.flatMap (f := fun p : α × Nat => ("\t\"" ++ toString p.2 ++ "\" [label=\"" ++ txt p.1 ++ "\"];\n").toList)
    (k := fun p => .attrs (.vertex (toString p.2)) (att p.1))
    items.zipIdx (fun p hp => reads_label_line p.2 (hl _ (by
      obtain ⟨_, _, h3⟩ := List.mem_zipIdx hp
      rw [h3]; exact List.getElem_mem _)))
  have hedge := Reads.flatMap (f := fun e : Nat × Nat => (s!"\t{e.1} -- {e.2}\n").toList)
    (k := fun e => .edge (toString e.1) (toString e.2)) E (fun e _ => reads_edge_line e.1 e.2)
  obtain ⟨tb, hlex, hparse⟩ := hlab.append hedge
  have hall := hh.append (h1.append (ht.append ((lexes_vertices (List.range n)).append (hs.append (hlex.append hb)))))
  have e : (String.join (dotText ("graph G{\n\t" ++ opts ++ "\n\t") n ";\n" (items.map txt) E)).toList =
      "graph G{\n\t".toList ++ (opts.toList ++ ['\n'] ++ (['\t'] ++ ((List.range n).flatMap (fun i => (s!"{i} ").toList) ++ (";\n".toList ++
        (items.zipIdx.flatMap (fun p => ("\t\"" ++ toString p.2 ++ "\" [label=\"" ++ txt p.1 ++ "\"];\n").toList) ++
          E.flatMap (fun e => (s!"\t{e.1} -- {e.2}\n").toList) ++ ['}']))))) := by
    rw [String.toList_join, dotText, List.zipIdx_map]
    simp only [List.flatMap_append, List.flatMap_map, List.map_map, Function.comp_def, Prod.map, id_eq, List.flatMap_singleton,
      String.toList_append, List.append_assoc]
    rfl
  rw [← e] at hall
  unfold read
  rw [hall]
  dsimp only
  have hp0 : Parses [.sym ';'] [] := by unfold Parses; decide
  have hp := hp0.append hparse
  have hd : run parseStep .top [.sym '}'] = (.done, []) := by decide
  have hg : run parseStep .start [.word "graph".toList, .word "G".toList, .sym '{'] = (.top, []) := by decide
  have hfin := run_append parseStep .top ([Tok.sym ';'] ++ tb) [.sym '}']
  rw [hp, hd] at hfin
  simp only [List.append_assoc, List.nil_append, List.append_nil] at hfin
  have hv := run_vertices (List.range n) (ts := [Tok.sym ';'] ++ (tb ++ [.sym '}'])) ⟨_, _, rfl, by decide, by decide, by decide⟩
  rw [hfin] at hv
  rw [run_append, hg]
  dsimp only
  rw [List.nil_append, h2, hv]
  · simp
  · exact begins_vertices _ ⟨_, _, rfl, by decide, by decide, by decide⟩

/-- The text of `to_dot`, statement by statement. -/
theorem read_toDotText (n : Nat) (E : List (Nat × Nat)) :
    read (String.join (dotText "graph{\n\t" n "\n" [] E)) =
      some ((List.range n).map (fun i => .vertex (toString i)) ++ E.map (fun e => .edge (toString e.1) (toString e.2))) := by
  have hh : Lexes "graph{\n\t".toList [.word "graph".toList, .sym '{'] := by unfold Lexes; decide
  have hs : Lexes "\n".toList [] := by unfold Lexes; decide
  have hb : Lexes ['}'] [.sym '}'] := by unfold Lexes; decide
  have hedge := Lexes.flatMap (f := fun e : Nat × Nat => (s!"\t{e.1} -- {e.2}\n").toList)
    (k := fun e => [.word (digits e.1), .edge, .word (digits e.2)]) E (fun e _ => lexes_edge_line e.1 e.2)
  have hall := hh.append ((lexes_vertices (List.range n)).append (hs.append (hedge.append hb)))
  have e : (String.join (dotText "graph{\n\t" n "\n" [] E)).toList =
      "graph{\n\t".toList ++ ((List.range n).flatMap (fun i => (s!"{i} ").toList) ++ ("\n".toList ++
          (E.flatMap (fun e => (s!"\t{e.1} -- {e.2}\n").toList) ++ ['}']))) := by
    rw [String.toList_join, dotText]
    simp only [List.flatMap_append, List.flatMap_map, List.flatMap_singleton, String.toList_append, List.append_assoc]
    rfl
  rw [← e] at hall
  unfold read
  rw [hall]
  dsimp only
  have hp := Parses.flatMap (f := fun e : Nat × Nat => [Tok.word (digits e.1), .edge, .word (digits e.2)])
    (k := fun e => .edge (toString e.1) (toString e.2)) E (fun e _ => parses_edge e.1 e.2)
  have hd : run parseStep .top [.sym '}'] = (.done, []) := by decide
  have hg : run parseStep .start [.word "graph".toList, .sym '{'] = (.top, []) := by decide
  have hfin := run_append parseStep .top (E.flatMap (fun e => [Tok.word (digits e.1), .edge, .word (digits e.2)])) [.sym '}']
  rw [hp, hd] at hfin
  simp only [List.append_nil] at hfin
  have hbeg : Begins (E.flatMap (fun e => [Tok.word (digits e.1), .edge, .word (digits e.2)]) ++ [.sym '}']) := by
    cases E with
    | nil => exact ⟨_, _, rfl, by decide, by decide, by decide⟩
    | cons e E => exact ⟨_, _, rfl, by simp, by simp, by simp⟩
  have hv := run_vertices (List.range n) hbeg
  rw [hfin] at hv
  rw [run_append, hg]
  dsimp only
  rw [List.nil_append, List.nil_append, hv]
  simp

theorem vertices_eq {V : List String} (hV : V.Nodup) {l : List Stmt} {W : List String} (h : l.flatMap Stmt.mentions = V ++ W)
    (hW : W ⊆ V) : vertices l = V := by
  unfold vertices
  rw [h, List.reverse_append, List.dedup_append]
  have h1 : V.reverse.dedup = V.reverse := List.Nodup.dedup (List.nodup_reverse.mpr hV)
  rw [h1, List.Subset.union_eq_right, List.reverse_reverse]
  intro x hx
  rw [List.mem_reverse] at hx ⊢
  exact hW hx

theorem nodup_names (n : Nat) : ((List.range n).map (toString : Nat → String)).Nodup :=
  List.Nodup.map (fun _ _ h => toString_injective h) List.nodup_range

theorem zipIdx_pick {α β : Type} (F : α → List β) (items : List α) (i k : Nat) :
    (items.zipIdx k).flatMap (fun p => if p.2 = i then F p.1 else []) = (if k ≤ i then items[i - k]? else none).toList.flatMap F := by
  induction items generalizing k with
  | nil => simp
  | cons s items ih =>
    rw [List.zipIdx_cons, List.flatMap_cons, ih]
    rcases Nat.lt_trichotomy k i with h | h | h
    · have h1 : i - k = (i - (k + 1)) + 1 := by omega
      simp [h.ne, h.le, Nat.succ_le_of_lt h, h1]
    · subst h; simp
    · simp [h.ne', Nat.not_le.mpr h, Nat.not_le.mpr (Nat.lt_succ_of_lt h)]

/-- The drawing of statements of this form. -/
theorem drawing {os : List Stmt} (ho : ∀ x ∈ os, x.IsOption) {n : Nat} {α : Type} {items : List α} {att : α → List (String × String)}
    (hn : items.length ≤ n) {E : List (Nat × Nat)} (hE : ∀ e ∈ E, e.1 < n ∧ e.2 < n) {st : List Stmt}
    (hst : st = os ++ ((List.range n).map (fun i => .vertex (toString i)) ++
        (items.zipIdx.map (fun p => .attrs (.vertex (toString p.2)) (att p.1)) ++
          E.map (fun e => .edge (toString e.1) (toString e.2))))) :
    vertices st = (List.range n).map toString ∧ edges st = E.map (fun e => (toString e.1, toString e.2)) ∧
      ∀ (key : String) (i : Nat), attrOf st key (toString i) = items[i]?.bind (fun x => (valuesOf key (att x)).getLast?) := by
  have hm : ∀ i < n, toString i ∈ (List.range n).map (toString : Nat → String) := fun i hi => List.mem_map_of_mem (by simpa using hi)
  refine ⟨?_, ?_, fun key i => ?_⟩
  · refine vertices_eq (nodup_names n) (W := items.zipIdx.map (fun p => toString p.2) ++ E.flatMap (fun e => [toString e.1, toString e.2]))
      ?_ ?_
    · have h1 : os.flatMap Stmt.mentions = [] := by
        rw [List.flatMap_eq_nil_iff]
        intro x hx
        have := ho x hx
        cases x with
        | vertex a => exact this.elim
        | edge a b => exact this.elim
        | set a b => rfl
        | attrs o l =>
          cases o with
          | vertex a => exact this.elim
          | all k => rfl
      rw [hst, List.flatMap_append, h1, List.nil_append, List.flatMap_append, List.flatMap_append, List.flatMap_map, List.flatMap_map,
        List.flatMap_map, List.map_eq_flatMap, List.map_eq_flatMap]
      rfl
    · intro x hx
      rcases List.mem_append.mp hx with hx | hx
      · obtain ⟨p, hp, rfl⟩ := List.mem_map.mp hx
        obtain ⟨_, h3, _⟩ := List.mem_zipIdx hp
        exact hm _ (by omega)
      · obtain ⟨e, he, hx⟩ := List.mem_flatMap.mp hx
        simp only [List.mem_cons, List.not_mem_nil, or_false] at hx
        rcases hx with rfl | rfl
        · exact hm _ (hE e he).1
        · exact hm _ (hE e he).2
  · have h1 : edges os = [] := by
      unfold edges
      rw [List.filterMap_eq_nil_iff]
      intro x hx
      have := ho x hx
      cases x with
      | vertex a => exact this.elim
      | edge a b => exact this.elim
      | set a b => rfl
      | attrs o l => rfl
    unfold edges at h1 ⊢
    rw [hst, List.filterMap_append, h1, List.nil_append, List.filterMap_append, List.filterMap_append, List.filterMap_map,
      List.filterMap_map, List.filterMap_map]
    show (List.range n).filterMap (fun _ => none) ++ (items.zipIdx.filterMap (fun _ => none) ++
      E.filterMap (fun e => some (toString e.1, toString e.2))) = _
    simp
  · have h1 : os.flatMap (Stmt.values key (toString i)) = [] := by
      rw [List.flatMap_eq_nil_iff]
      intro x hx
      have := ho x hx
      cases x with
      | vertex a => exact this.elim
      | edge a b => exact this.elim
      | set a b => rfl
      | attrs o l =>
        cases o with
        | vertex a => exact this.elim
        | all k => rfl
    unfold attrOf
    rw [hst, List.flatMap_append, h1, List.nil_append, List.flatMap_append, List.flatMap_append, List.flatMap_map, List.flatMap_map,
        List.flatMap_map]
    have e1 : (List.range n).flatMap (fun j : Nat => (Stmt.vertex (toString j)).values key (toString i)) = [] := by simp [Stmt.values]
    have e2 : E.flatMap (fun e : Nat × Nat => (Stmt.edge (toString e.1) (toString e.2)).values key (toString i)) = [] := by
      simp [Stmt.values]
    have e3 : (items.zipIdx.flatMap fun p : α × Nat => (Stmt.attrs (.vertex (toString p.2)) (att p.1)).values key (toString i)) =
        items[i]?.toList.flatMap (fun x => valuesOf key (att x)) := by
      have := zipIdx_pick (fun x => valuesOf key (att x)) items i 0
      simp only [Nat.zero_le, if_true, Nat.sub_zero] at this
      rw [← this]
      congr 1
      funext p
      by_cases hp : p.2 = i
      · rw [if_pos hp, hp]; simp [Stmt.values]
      · rw [if_neg hp, Stmt.values, if_neg (fun e => hp (toString_injective e))]
    rw [e1, e2, e3]
    cases items[i]? <;> simp

theorem options_parse {s : String} (h : IsOptions s) : ∃ ts os, Lexes (s.toList ++ ['\n']) ts ∧ Parses ts os ∧ ∀ x ∈ os, x.IsOption := by
  obtain ⟨os, h1, h2⟩ := h
  obtain ⟨ts, h3, h4⟩ := options h1
  have e := h4 [.sym '}'] ⟨_, _, rfl, by decide, by decide, by decide⟩
  have hd : run parseStep .top [.sym '}'] = (.done, []) := by decide
  rw [hd, run_append] at e
  refine ⟨ts, os, h3, ?_, h2⟩
  unfold Parses
  obtain ⟨e1, e2⟩ := Prod.mk.inj e
  simp only [List.append_nil] at e2
  cases hy : (run parseStep .top ts).1 <;> rw [hy] at e1 e2
  case top =>
    rw [hd, List.append_nil] at e2
    exact Prod.ext hy e2
  case pending a =>
    exfalso
    have : Stmt.vertex a ∈ os := by
      rw [← e2]; simp [run, parseStep, topStep]
    exact h2 _ this
  all_goals
    exfalso
    revert e1
    simp [run, parseStep, topStep, ident]

theorem isOptions_of {s : String} {ts : List Tok} {os : List Stmt} (h1 : Lexes (s.toList ++ ['\n']) ts) (h2 : Parses ts os)
    (h3 : ∀ x ∈ os, x.IsOption) : IsOptions s := by
  refine ⟨os, ?_, h3⟩
  have hg : Lexes "graph{".toList [.word "graph".toList, .sym '{'] := by unfold Lexes; decide
  have hb : Lexes ['}'] [.sym '}'] := by unfold Lexes; decide
  have hall := hg.append (h1.append hb)
  have e : ("graph{" ++ s ++ "\n}").toList = "graph{".toList ++ ((s.toList ++ ['\n']) ++ ['}']) := by
    simp [String.toList_append]
  rw [← e] at hall
  have hs : run parseStep .start [.word "graph".toList, .sym '{'] = (.top, []) := by decide
  have hd : run parseStep .top [.sym '}'] = (.done, []) := by decide
  unfold read
  rw [hall]
  dsimp only
  rw [run_append, hs]
  dsimp only
  rw [run_append, h2, hd]
  simp

end DotRead

/-! ### The theorems -/

/-- Options joined by `dot_options!` are options. -/
theorem C86_options (l : List String) (h : ∀ s ∈ l, IsOptions s) : IsOptions (dotOptions l) := by
  induction l with
  | nil => exact isOptions_of (ts := []) (os := []) (by unfold Lexes; decide) rfl (by simp)
  | cons s l ih =>
    cases l with
    | nil => rw [dotOptions, String.intercalate_singleton]; exact h s (by simp)
    | cons t l =>
      obtain ⟨ts, os, h1, h2, h3⟩ := options_parse (h s (by simp))
      obtain ⟨ts', os', h1', h2', h3'⟩ := options_parse (ih (fun x hx => h x (by simp [hx])))
      have ht : Lexes ['\t'] [] := by unfold Lexes; decide
      refine isOptions_of (ts := ts ++ ([] ++ ts')) (os := os ++ os') ?_ (h2.append h2') ?_
      · have := h1.append (ht.append h1')
        have e : (dotOptions (s :: t :: l)).toList ++ ['\n'] =
            s.toList ++ ['\n'] ++ (['\t'] ++ ((dotOptions (t :: l)).toList ++ ['\n'])) := by
          rw [dotOptions, String.intercalate_cons_cons]
          simp [String.toList_append, dotOptions]
        rw [e]; exact this
      · intro x hx
        rcases List.mem_append.mp hx with hx | hx
        · exact h3 x hx
        · exact h3' x hx

set_option maxRecDepth 10000 in
/-- All constants of `dot_constants` are options. -/
theorem C86_constants : ∀ s ∈ dotConstants, IsOptions s := by
  have : ∀ s ∈ dotConstants, ((read ("graph{" ++ s ++ "\n}")).map fun l => l.all fun x => match x with
      | .set _ _ => true
      | .attrs (.all _) _ => true
      | _ => false) = some true := by
    decide +kernel
  intro s hs
  obtain ⟨l, h1, h2⟩ := Option.map_eq_some_iff.mp (this s hs)
  refine ⟨l, h1, fun x hx => ?_⟩
  have := List.all_eq_true.mp h2 x hx
  rcases x with a | ⟨a, b⟩ | ⟨a, b⟩ | ⟨⟨a⟩ | ⟨k⟩, l⟩ <;> trivial

/-- A text shows one graph only. -/
theorem C86_determines {n n' : Nat} {G G' : SimpleGraph Nat} {s : String} {st st' : List Stmt} (h : Draws n G s st)
    (h' : Draws n' G' s st') : n = n' ∧ G = G' := by
  obtain ⟨h1, h2, _, h3⟩ := h
  obtain ⟨h1', h2', _, h3'⟩ := h'
  rw [h1, Option.some.injEq] at h1'
  subst h1'
  have key : ∀ {G G' : SimpleGraph Nat}, (∀ a b, (a, b) ∈ edges st ↔ ∃ i j : Nat, a = toString i ∧ b = toString j ∧ i < j ∧ G.Adj i j) →
      (∀ a b, (a, b) ∈ edges st ↔ ∃ i j : Nat, a = toString i ∧ b = toString j ∧ i < j ∧ G'.Adj i j) →
      ∀ i j, i < j → G.Adj i j → G'.Adj i j := by
    intro G G' h3 h3' i j hlt hadj
    obtain ⟨i', j', e1, e2, _, h4⟩ := (h3' (toString i) (toString j)).mp ((h3 _ _).mpr ⟨i, j, rfl, rfl, hlt, hadj⟩)
    rwa [toString_injective e1, toString_injective e2]
  refine ⟨?_, ?_⟩
  · have := congrArg List.length (h2.symm.trans h2')
    simpa using this
  · ext i j
    constructor
    · intro hadj
      rcases Nat.lt_or_gt_of_ne hadj.ne with hlt | hlt
      · exact key h3 h3' i j hlt hadj
      · exact (key h3 h3' j i hlt hadj.symm).symm
    · intro hadj
      rcases Nat.lt_or_gt_of_ne hadj.ne with hlt | hlt
      · exact key h3' h3 i j hlt hadj
      · exact (key h3' h3 j i hlt hadj.symm).symm

variable {T A : Type} [AdjContainer T A] [LawfulAdj T A]

theorem DotRead.draws_of {g : GenericGraph T A} (h : g.WF) {os : List Stmt} (ho : ∀ x ∈ os, x.IsOption) {α : Type} {items : List α}
    {att : α → List (String × String)} (hn : items.length ≤ g.vertexCount) {s : String}
    (hs : read s = some (os ++ ((List.range g.vertexCount).map (fun i => .vertex (toString i)) ++
        (items.zipIdx.map (fun p => .attrs (.vertex (toString p.2)) (att p.1)) ++
          (dotEdgeList g).map (fun e => .edge (toString e.1) (toString e.2)))))) :
    ∃ st, Draws g.vertexCount g.toSimple s st ∧
      ∀ (key : String) (i : Nat), attrOf st key (toString i) = items[i]?.bind (fun x => (valuesOf key (att x)).getLast?) := by
  have hE : ∀ e ∈ dotEdgeList g, e.1 < g.vertexCount ∧ e.2 < g.vertexCount := by
    rintro ⟨i, j⟩ he
    obtain ⟨_, ha⟩ := (dotEdgeList_mem h i j).mp he
    rw [h.adj_iff] at ha
    exact ⟨h.lt _ _ (h.symm _ _ ha), h.lt _ _ ha⟩
  obtain ⟨h1, h2, h3⟩ := drawing ho hn hE rfl
  refine ⟨_, ⟨hs, h1, ?_, fun a b => ?_⟩, h3⟩
  · rw [h2]
    exact (dotEdgeList_nodup h).map (fun x y e => by
      obtain ⟨e1, e2⟩ := Prod.mk.inj e
      exact Prod.ext (toString_injective e1) (toString_injective e2))
  · rw [h2, List.mem_map]
    constructor
    · rintro ⟨⟨i, j⟩, he, e⟩
      obtain ⟨hlt, ha⟩ := (dotEdgeList_mem h i j).mp he
      obtain ⟨rfl, rfl⟩ := Prod.mk.inj e
      exact ⟨i, j, rfl, rfl, hlt, ha⟩
    · rintro ⟨i, j, rfl, rfl, hlt, ha⟩
      exact ⟨(i, j), (dotEdgeList_mem h i j).mpr ⟨hlt, ha⟩, rfl⟩

theorem DotRead.dotToString_of {m : DotM String Unit Unit} {l : List String} (h : Writes putString m l) : dotToString m = .ok (String.join l) := by
  have := h ""
  rw [writeSeq_string] at this
  rw [dotToString, this]
  simp

/-- `dot_string_from_container_index`: a dot reader finds the graph and, for every vertex, the label made from its container. -/
theorem C86_container_index {g : GenericGraph T A} (h : g.WF) {opts : String} (ho : IsOptions opts) {f : Nat → A → String}
    (hf : ∀ i a, g.vertices[i]? = some a → IsLabel (f i a)) :
    ∃ s st, dotToString (g.dotFromContainerIndex putString opts f) = .ok s ∧ Draws g.vertexCount g.toSimple s st ∧
      ∀ i : Nat, label st (toString i) = g.vertices[i]?.map (f i) := by
  obtain ⟨os, h1, h2⟩ := ho
  have hr := read_dotText h1 g.vertexCount g.vertices.zipIdx (fun p => f p.2 p.1) (fun p => [("label", f p.2 p.1)]) (by
    rintro ⟨a, i⟩ hp
    exact payload_label (hf i a (by simpa using List.mem_zipIdx_iff_getElem?.mp hp))) (dotEdgeList g)
  obtain ⟨st, h3, h4⟩ := draws_of h h2 (items := g.vertices.zipIdx) (att := fun p => [("label", f p.2 p.1)])
    (by simp [h.len, GenericGraph.vertexCount]) hr
  refine ⟨_, st, dotToString_of (dotFromContainerIndex_writes h opts f), h3, fun i => ?_⟩
  rw [label, h4, List.getElem?_zipIdx]
  cases g.vertices[i]? <;> simp [valuesOf]

/-- `dot_string_from_contained_index`, `dot_string_from_contained` and `to_dot_with_labels_from_contained`: labels made from the node
data. -/
theorem C86_contained {g : GenericGraph T A} (h : g.WF) {opts : String} (ho : IsOptions opts) {f : Nat → T → String}
    (hf : ∀ i t, g.data[i]? = some t → IsLabel (f i t)) :
    ∃ s st, dotToString (g.dotFromContainedIndex putString opts f) = .ok s ∧
      g.toDotWithLabelsFromContained opts (fun t i => f i t) = .ok s ∧
      (∀ f' : T → String, (∀ i, f i = f') → dotToString (g.dotFromContained putString opts f') = .ok s) ∧
      Draws g.vertexCount g.toSimple s st ∧ ∀ i : Nat, label st (toString i) = g.data[i]?.map (f i) := by
  obtain ⟨s, st, h1, h2, h3⟩ := C86_container_index h ho (f := fun i a => f i (contained a)) (fun i a hi => hf i _ (by
    simp [GenericGraph.data, hi]))
  refine ⟨s, st, h1, h1, fun f' hf' => ?_, h2, fun i => ?_⟩
  · rw [← h1]
    have : f = fun _ => f' := funext hf'
    subst this
    rfl
  · rw [h3]
    simp [GenericGraph.data, Function.comp_def]

/-- `dot_string_from_container` and `to_dot_with_labels_from_container`. -/
theorem C86_container {g : GenericGraph T A} (h : g.WF) {opts : String} (ho : IsOptions opts) {f : A → Nat → String}
    (hf : ∀ i a, g.vertices[i]? = some a → IsLabel (f a i)) :
    ∃ s st, g.toDotWithLabelsFromContainer opts f = .ok s ∧
      (∀ f' : A → String, (∀ a i, f a i = f' a) → dotToString (g.dotFromContainer putString opts f') = .ok s) ∧
      Draws g.vertexCount g.toSimple s st ∧ ∀ i : Nat, label st (toString i) = g.vertices[i]?.map (fun a => f a i) := by
  obtain ⟨s, st, h1, h2, h3⟩ := C86_container_index h ho (f := fun i a => f a i) hf
  refine ⟨s, st, h1, fun f' hf' => ?_, h2, h3⟩
  rw [← h1]
  have : f = fun a _ => f' a := by funext a i; exact hf' a i
  subst this
  rfl

/-- `dot_string_from_indices`, `dot_string_with_indices` and `dot_string`. -/
theorem C86_indices {g : GenericGraph T A} (h : g.WF) {opts : String} (ho : IsOptions opts) :
    (∀ f : Nat → String, (∀ i < g.vertexCount, IsLabel (f i)) →
      ∃ s st, dotToString (g.dotFromIndices putString opts f) = .ok s ∧ Draws g.vertexCount g.toSimple s st ∧
        ∀ i < g.vertexCount, label st (toString i) = some (f i)) ∧
    (∃ s st, dotToString (g.dotWithIndices putString opts) = .ok s ∧ Draws g.vertexCount g.toSimple s st ∧
      ∀ i < g.vertexCount, label st (toString i) = some (toString i)) ∧
    ∃ s st, dotToString (g.dot putString opts) = .ok s ∧ Draws g.vertexCount g.toSimple s st ∧
      ∀ i < g.vertexCount, label st (toString i) = some "" := by
  have key : ∀ f : Nat → String, (∀ i < g.vertexCount, IsLabel (f i)) →
      ∃ s st, dotToString (g.dotFromIndices putString opts f) = .ok s ∧ Draws g.vertexCount g.toSimple s st ∧
        ∀ i < g.vertexCount, label st (toString i) = some (f i) := by
    intro f hf
    obtain ⟨os, h1, h2⟩ := ho
    have hr := read_dotText h1 g.vertexCount (List.range g.vertexCount) f (fun i => [("label", f i)]) (by
      intro i hi
      exact payload_label (hf i (List.mem_range.mp hi))) (dotEdgeList g)
    obtain ⟨st, h3, h4⟩ := draws_of h h2 (items := List.range g.vertexCount) (att := fun i => [("label", f i)]) (by simp) hr
    refine ⟨_, st, dotToString_of (dotFromIndices_writes h opts f), h3, fun i hi => ?_⟩
    rw [label, h4, List.getElem?_range hi]
    simp [valuesOf]
  refine ⟨key, key _ (fun i _ => ⟨fun hm => ?_, fun hl => ?_⟩), key _ (fun i _ => ⟨by simp, by simp⟩)⟩
  · exact isDigit_ne (isDigit_of_mem (i := i) hm) (by decide) rfl
  · exact isDigit_ne (isDigit_of_mem (i := i) (List.mem_of_getLast? hl)) (by decide) rfl

/-- `to_dot`. -/
theorem C86_to_dot {g : GenericGraph T A} (h : g.WF) : ∃ s st, g.toDot = .ok s ∧ Draws g.vertexCount g.toSimple s st := by
  have hr := read_toDotText g.vertexCount (dotEdgeList g)
  obtain ⟨st, h3, _⟩ := draws_of h (os := []) (items := ([] : List Nat)) (att := fun _ => []) (by simp) (by simp) hr
  exact ⟨_, st, toDot_eq h, h3⟩

set_option maxRecDepth 10000 in
/-- A case that meets the hypotheses: options and labels with blanks and signs. -/
example : (read ("graph G{\n\tsplines=true;\n\tsize=\"8.3,11.7!\";\n\t0 1 2 ;\n\t\"0\" [label=\"a b\"];\n\t\"1\" [label=\"=;\"];\n" ++
      "\t\"2\" [label=\"\"];\n\t0 -- 2\n}")).map (fun st => (DotRead.vertices st, DotRead.edges st, label st "1")) =
    some (["0", "1", "2"], [("0", "2")], some "=;") := by
  decide +kernel

example : IsLabel "a b" ∧ IsLabel "=;" ∧ ¬ IsLabel "\"" := by
  unfold IsLabel; decide

set_option maxRecDepth 10000 in
/-- Labels are not escaped: with a quote in a label the text of a graph without edges shows an edge. -/
example : (match dotToString ((GenericGraph.new 3 : GenericGraph Nat (NodeContainer Nat)).dotFromIndices putString ""
      (fun i => if i = 0 then "\"]; 0 -- 2; \"0\" [label=\"" else "")) with
    | .ok s => (DotRead.read s).map DotRead.edges
    | _ => none) = some [("0", "2")] := by
  decide +kernel

end Verif
