import Verif.Model.SpacialDot
import Verif.Spec.SpacialDot
import Verif.Props.DotRead
import Verif.Props.Api
import Mathlib.Tactic.Linarith

/-!
# C87: dot texts of the spatial ensembles
-/

set_option linter.unusedSectionVars false
set_option linter.unusedSimpArgs false

namespace Verif
open AdjContainer GenericGraph DotRead

theorem roundEven_near {q : ℚ} (hq : 0 ≤ q) : |(roundEven q : ℚ) - q| ≤ 1 / 2 := by
  have h1 := Nat.floor_le hq
  have h2 := Nat.lt_floor_add_one q
  unfold roundEven
  dsimp only
  rw [abs_le]
  split_ifs <;> push_cast <;> constructor <;> linarith

theorem digits_of_lt {k : Nat} (h : k < 10) : digits k = [Nat.digitChar k] := by
  rw [digits_eq]; exact Nat.toDigits_of_lt_base h

/-- The digits of a number printed with two places. -/
def fixed2 (k : Nat) : List Char := digits (k / 100) ++ '.' :: (digits (k / 10 % 10) ++ digits (k % 10))

theorem fmt2_some (q : ℚ) : (fmt2 (some q)).toList = (if q < 0 then ['-'] else []) ++ fixed2 (roundEven (|q| * 100)) := by
  unfold fmt2 fixed2 digits
  dsimp only
  split_ifs <;> simp [String.toList_append]

theorem readUnsigned_fixed2 (k : Nat) : readUnsigned (fixed2 k) = some ((k : ℚ) / 100) := by
  have hd : ∀ i, ∀ c ∈ digits i, c ≠ '.' := fun i c hc => isDigit_ne (isDigit_of_mem hc) (by decide)
  have h1 : (fixed2 k).takeWhile (· ≠ '.') = digits (k / 100) := by
    unfold fixed2
    rw [List.takeWhile_append_of_pos (by intro c hc; simpa using hd _ c hc)]
    simp
  have h2 : (fixed2 k).dropWhile (· ≠ '.') = '.' :: (digits (k / 10 % 10) ++ digits (k % 10)) := by
    unfold fixed2
    rw [List.dropWhile_append_of_pos (by intro c hc; simpa using hd _ c hc)]
    simp
  unfold readUnsigned
  dsimp only
  rw [h1, h2, List.tail_cons, if_pos]
  · rw [Nat.ofDigitChars_append, digits_eq (k / 100), Nat.ofDigitChars_ten_toDigits, digits_of_lt (Nat.mod_lt _ (by decide)),
      digits_of_lt (Nat.mod_lt _ (by decide)), List.singleton_append,
      Nat.ofDigitChars_cons_digitChar_of_lt_ten (Nat.mod_lt _ (by decide)),
      Nat.ofDigitChars_cons_digitChar_of_lt_ten (Nat.mod_lt _ (by decide)), Nat.ofDigitChars_nil]
    have : 10 * (10 * (k / 100) + k / 10 % 10) + k % 10 = k := by omega
    rw [this]
    norm_num
  · refine ⟨digits_ne_nil _, ?_, ?_⟩
    · rw [List.all_eq_true]; exact fun c hc => isDigit_of_mem hc
    · rw [List.all_eq_true]
      intro c hc
      rcases List.mem_append.mp hc with hc | hc <;> exact isDigit_of_mem hc

theorem readDecimal_fmt2 (q : ℚ) : ∃ v, readDecimal (fmt2 (some q)).toList = some v ∧ |v - q| ≤ 1 / 200 := by
  have hr := roundEven_near (q := |q| * 100) (by positivity)
  rw [fmt2_some]
  generalize roundEven (|q| * 100) = k at hr ⊢
  have hk : |(k : ℚ) / 100 - abs q| ≤ 1 / 200 := by
    rw [abs_le] at hr ⊢
    constructor <;> linarith [hr.1, hr.2]
  by_cases hq : q < 0
  · rw [if_pos hq]
    refine ⟨-((k : ℚ) / 100), ?_, ?_⟩
    · show (readUnsigned (fixed2 k)).map _ = _
      rw [readUnsigned_fixed2]; rfl
    · rw [abs_of_neg hq] at hk
      rw [← abs_neg]
      have : -(-((k : ℚ) / 100) - q) = (k : ℚ) / 100 - -q := by ring
      rwa [this]
  · rw [if_neg hq, List.nil_append]
    refine ⟨(k : ℚ) / 100, ?_, ?_⟩
    · obtain ⟨c, l, hl⟩ : ∃ c l, fixed2 k = c :: l := by
        unfold fixed2
        cases h : digits (k / 100) with
        | nil => exact absurd h (digits_ne_nil _)
        | cons c l => exact ⟨c, _, rfl⟩
      have hc : c ≠ '-' := by
        have hm : c ∈ fixed2 k := by rw [hl]; simp
        unfold fixed2 at hm
        simp only [List.mem_append, List.mem_cons] at hm
        rcases hm with hm | rfl | hm | hm
        · exact isDigit_ne (isDigit_of_mem hm) (by decide)
        · decide
        · exact isDigit_ne (isDigit_of_mem hm) (by decide)
        · exact isDigit_ne (isDigit_of_mem hm) (by decide)
      have := readUnsigned_fixed2 k
      rw [hl] at this ⊢
      unfold readDecimal
      split
      · rename_i w hw
        simp only [List.cons.injEq] at hw
        exact absurd hw.1 hc
      · exact this
    · rwa [abs_of_nonneg (not_lt.mp hq)] at hk

/-- The characters of a printed number. -/
theorem fmt2_chars {q : ℚ} {c : Char} (h : c ∈ (fmt2 (some q)).toList) : c.isDigit ∨ c = '.' ∨ c = '-' := by
  rw [fmt2_some] at h
  unfold fixed2 at h
  simp only [List.mem_append, List.mem_cons] at h
  rcases h with h | h | h | h | h
  · split_ifs at h
    · exact .inr (.inr (by simpa using h))
    · simp at h
  · exact .inl (isDigit_of_mem h)
  · exact .inr (.inl h)
  · exact .inl (isDigit_of_mem h)
  · exact .inl (isDigit_of_mem h)

theorem fmt2_no {q : ℚ} {d : Char} (h1 : d.isDigit = false) (h2 : d ≠ '.') (h3 : d ≠ '-') : d ∉ (fmt2 (some q)).toList := by
  intro h
  rcases fmt2_chars h with h | h | h
  · rw [h] at h1; cases h1
  · exact h2 h
  · exact h3 h

theorem readPos_fmt2 (x y : ℚ) : ∃ X Y, readPos (fmt2 (some x) ++ "," ++ fmt2 (some y) ++ "!") = some (X, Y) ∧
    |X - x| ≤ 1 / 200 ∧ |Y - y| ≤ 1 / 200 := by
  obtain ⟨X, hX, hX'⟩ := readDecimal_fmt2 x
  obtain ⟨Y, hY, hY'⟩ := readDecimal_fmt2 y
  refine ⟨X, Y, ?_, hX', hY'⟩
  have hc : ∀ c ∈ (fmt2 (some x)).toList, c ≠ ',' := fun c hc e => fmt2_no (by decide) (by decide) (by decide) (e ▸ hc)
  have e : (fmt2 (some x) ++ "," ++ fmt2 (some y) ++ "!").toList =
      (fmt2 (some x)).toList ++ ',' :: ((fmt2 (some y)).toList ++ ['!']) := by
    simp [String.toList_append]
  have h1 : (fmt2 (some x) ++ "," ++ fmt2 (some y) ++ "!").toList.takeWhile (· ≠ ',') = (fmt2 (some x)).toList := by
    rw [e, List.takeWhile_append_of_pos (by intro c h; simpa using hc c h)]
    simp
  have h2 : (fmt2 (some x) ++ "," ++ fmt2 (some y) ++ "!").toList.dropWhile (· ≠ ',') = ',' :: ((fmt2 (some y)).toList ++ ['!']) := by
    rw [e, List.dropWhile_append_of_pos (by intro c h; simpa using hc c h)]
    simp
  unfold readPos
  dsimp only
  rw [h1, h2, List.tail_cons, if_pos (by simp), List.dropLast_concat, hX, hY]
  rfl

theorem isLabel_pos (x y : ℚ) : IsLabel (fmt2 (some x) ++ "," ++ fmt2 (some y) ++ "!") := by
  have e : (fmt2 (some x) ++ "," ++ fmt2 (some y) ++ "!").toList =
      (fmt2 (some x)).toList ++ ',' :: ((fmt2 (some y)).toList ++ ['!']) := by
    simp [String.toList_append]
  have hq : ∀ q : ℚ, '"' ∉ (fmt2 (some q)).toList := fun q => fmt2_no (by decide) (by decide) (by decide)
  unfold IsLabel
  rw [e]
  refine ⟨by simp [hq], ?_⟩
  rw [← List.cons_append, ← List.append_assoc, List.getLast?_concat]
  decide

/-- The text with a position between the quotes of the label. -/
theorem DotRead.payload_pos {s p : String} (h : IsLabel s) (hp : IsLabel p) :
    Payload (s ++ "\" pos=\"" ++ p) [("label", s), ("pos", p)] := by
  have hm : Lexes " pos=".toList [.word "pos".toList, .sym '='] := by unfold Lexes; decide
  have e : '"' :: (s ++ "\" pos=\"" ++ p).toList ++ ['"'] = ('"' :: s.toList ++ ['"']) ++ (" pos=".toList ++ ('"' :: p.toList ++ ['"'])) := by
    simp [String.toList_append]
  refine ⟨_, by rw [e]; exact (lexes_quoted_label h).append (hm.append (lexes_quoted_label hp)), fun o => ?_⟩
  have h1 : ident (.str s.toList) = some s := by simp [ident]
  have h2 : ident (.str p.toList) = some p := by simp [ident]
  have h3 : ident (.word "pos".toList) = some "pos" := by decide
  generalize "pos".toList = w at h3 ⊢
  simp [run, parseStep, h1, h2, h3]

theorem isLabel_toString (i : Nat) : IsLabel (toString i) :=
  ⟨fun hm => isDigit_ne (isDigit_of_mem (i := i) hm) (by decide) rfl,
   fun hl => isDigit_ne (isDigit_of_mem (i := i) (List.mem_of_getLast? hl)) (by decide) rfl⟩

/-- The dot text of a spatial graph: the graph, the labels, and every vertex at a hundred times its position. -/
theorem C87_graph {T : Type} {g : SpacialGraph T} (h : g.WF) {x y : Nat → ℚ}
    (hp : ∀ i < g.vertexCount, posAt (coords g) i = (some (x i), some (y i))) {opts : String} (ho : IsOptions opts)
    {f : Nat → String} (hf : ∀ i < g.vertexCount, IsLabel (f i)) :
    ∃ s st, dotToString (g.dotFromIndices putString opts (posLabel g f)) = .ok s ∧ Draws g.vertexCount g.toSimple s st ∧
      ∀ i < g.vertexCount, label st (toString i) = some (f i) ∧ Pins st i (100 * x i) (100 * y i) := by
  obtain ⟨os, h1, h2⟩ := ho
  have hlab : ∀ i < g.vertexCount, posLabel g f i = f i ++ "\" pos=\"" ++ (fmt2 (some (100 * x i)) ++ "," ++ fmt2 (some (100 * y i)) ++ "!") := by
    intro i hi
    have hi' : i < g.vertices.length := by rw [h.len]; exact hi
    have hc := pos_of_idx (List.getElem?_eq_getElem hi')
    rw [hp i hi] at hc
    obtain ⟨hx, hy⟩ := Prod.mk.inj hc
    unfold posLabel
    rw [List.getElem?_eq_getElem hi']
    simp only [hx, hy, Option.map_some, mul_comm (x i) 100, String.append_assoc]
  have hr := read_dotText h1 g.vertexCount (List.range g.vertexCount) (posLabel g f)
    (fun i => [("label", f i), ("pos", fmt2 (some (100 * x i)) ++ "," ++ fmt2 (some (100 * y i)) ++ "!")]) (by
      intro i hi
      rw [hlab i (List.mem_range.mp hi)]
      exact payload_pos (hf i (List.mem_range.mp hi)) (isLabel_pos _ _)) (dotEdgeList g)
  obtain ⟨st, h3, h4⟩ := draws_of h h2 (items := List.range g.vertexCount)
    (att := fun i => [("label", f i), ("pos", fmt2 (some (100 * x i)) ++ "," ++ fmt2 (some (100 * y i)) ++ "!")]) (by simp) hr
  refine ⟨_, st, dotToString_of (dotFromIndices_writes h opts _), h3, fun i hi => ⟨?_, ?_⟩⟩
  · rw [label, h4, List.getElem?_range hi]
    simp [valuesOf]
  · obtain ⟨X, Y, e1, e2, e3⟩ := readPos_fmt2 (100 * x i) (100 * y i)
    refine ⟨_, X, Y, ?_, e1, e2, e3⟩
    rw [h4, List.getElem?_range hi]
    simp [valuesOf]

/-- `SpacialEnsemble` after any history of calls: `dot_string_from_indices`, `dot_string_with_indices` and `dot_string` show the graph,
the labels, and every vertex at a hundred times the position of the constructor, which lies in the unit square. -/
theorem C87_spacial {T R : Type} [Rng R] [Node T] (n : Nat) (r : R) (law : Pos → Pos → ℚ) :
    ∃ (e0 : Spacial T R) (x y : Nat → ℚ), Spacial.new n r law = .ok e0 ∧
      (∀ i < n, posAt (coords e0.graph) i = (some (x i), some (y i)) ∧ 0 ≤ x i ∧ x i < 1 ∧ 0 ≤ y i ∧ y i < 1) ∧
      ∀ e, Relation.ReflTransGen Spacial.Call e0 e → ∀ opts, IsOptions opts →
        (∀ f : Nat → String, (∀ i < n, IsLabel (f i)) → ∃ s st, dotToString (e.dotFromIndices putString opts f) = .ok s ∧
          Draws n e.graph.toSimple s st ∧ ∀ i < n, label st (toString i) = some (f i) ∧ Pins st i (100 * x i) (100 * y i)) ∧
        (∃ s st, dotToString (e.dotWithIndices putString opts) = .ok s ∧
          Draws n e.graph.toSimple s st ∧ ∀ i < n, label st (toString i) = some (toString i) ∧ Pins st i (100 * x i) (100 * y i)) ∧
        ∃ s st, dotToString (e.dot putString opts) = .ok s ∧
          Draws n e.graph.toSimple s st ∧ ∀ i < n, label st (toString i) = some "" ∧ Pins st i (100 * x i) (100 * y i) := by
  obtain ⟨e0, h0, h⟩ := C75_spacial (T := T) n r law
  obtain ⟨e0', _, h0', _, _, _, _, hpos, _⟩ := C47_spacial_new (T := T) n r law
  rw [h0] at h0'
  cases h0'
  choose! x y hxy using hpos
  refine ⟨e0, x, y, h0, hxy, fun e he opts ho => ?_⟩
  obtain ⟨h1, h2, _, h4, _⟩ := h e he
  have key : ∀ f : Nat → String, (∀ i < n, IsLabel (f i)) → ∃ s st, dotToString (e.dotFromIndices putString opts f) = .ok s ∧
      Draws n e.graph.toSimple s st ∧ ∀ i < n, label st (toString i) = some (f i) ∧ Pins st i (100 * x i) (100 * y i) := by
    intro f hf
    have := C87_graph h1 (x := x) (y := y) (by rw [h2, h4]; exact fun i hi => (hxy i hi).1) ho (f := f) (by rw [h2]; exact hf)
    rwa [h2] at this
  exact ⟨key, key _ (fun i _ => isLabel_toString i), key _ (fun i _ => ⟨by simp, by simp⟩)⟩

/-- The same for a `DogEnsemble` with a valid graph whose vertices have positions. -/
theorem C87_dog {T R : Type} {e : Dog T R} (h : e.graph.WF) {x y : Nat → ℚ}
    (hp : ∀ i < e.graph.vertexCount, posAt (coords e.graph) i = (some (x i), some (y i))) {opts : String} (ho : IsOptions opts) :
    (∀ f : Nat → String, (∀ i < e.graph.vertexCount, IsLabel (f i)) → ∃ s st, dotToString (e.dotFromIndices putString opts f) = .ok s ∧
      Draws e.graph.vertexCount e.graph.toSimple s st ∧
      ∀ i < e.graph.vertexCount, label st (toString i) = some (f i) ∧ Pins st i (100 * x i) (100 * y i)) ∧
    (∃ s st, dotToString (e.dotWithIndices putString opts) = .ok s ∧ Draws e.graph.vertexCount e.graph.toSimple s st ∧
      ∀ i < e.graph.vertexCount, label st (toString i) = some (toString i) ∧ Pins st i (100 * x i) (100 * y i)) ∧
    ∃ s st, dotToString (e.dot putString opts) = .ok s ∧ Draws e.graph.vertexCount e.graph.toSimple s st ∧
      ∀ i < e.graph.vertexCount, label st (toString i) = some "" ∧ Pins st i (100 * x i) (100 * y i) :=
  ⟨fun _ hf => C87_graph h hp ho hf, C87_graph h hp ho (fun i _ => isLabel_toString i), C87_graph h hp ho (fun i _ => ⟨by simp, by simp⟩)⟩

/-- A case that meets the hypotheses. -/
example : exSpacial.graph.WF ∧ ∀ i < exSpacial.graph.vertexCount,
    posAt (coords exSpacial.graph) i = (some ([0, 1/2, 1/4].getD i 0), some ([0, 1/2, 0].getD i 0)) := by
  refine ⟨exSpacial_wf, ?_⟩
  intro i hi
  have : i = 0 ∨ i = 1 ∨ i = 2 := by
    have : i < 3 := hi
    omega
  rcases this with rfl | rfl | rfl <;> rfl

set_option maxRecDepth 10000 in
/-- Its text: the second vertex is pinned to (50, 50). -/
example : ((dotToString (exSpacial.dot putString "")).bind fun s => .ok ((DotRead.read s).bind fun st =>
    (attrOf st "pos" "1").bind fun p => some (p, readPos p))) = .ok (some ("50.00,50.00!", some (50, 50))) := by
  decide +kernel

end Verif
