import Verif.Spec.DotRead
import Verif.Lemmas.Dot

/-!
# Lemmas about reading dot texts
-/

set_option linter.unusedSectionVars false
set_option linter.unusedSimpArgs false

namespace Verif.DotRead

theorem run_append {S I O : Type} (step : S → I → S × List O) (s : S) (l l' : List I) :
    run step s (l ++ l') = ((run step (run step s l).1 l').1, (run step s l).2 ++ (run step (run step s l).1 l').2) := by
  induction l generalizing s with
  | nil => rfl
  | cons i l ih => simp only [List.cons_append, run, ih, List.append_assoc]

/-- Read from a place between two tokens, the text gives the tokens and ends between two tokens. -/
def Lexes (s : List Char) (ts : List Tok) : Prop := run lexStep (.plain []) s = (.plain [], ts)

theorem Lexes.append {s s' : List Char} {ts ts' : List Tok} (h : Lexes s ts) (h' : Lexes s' ts') : Lexes (s ++ s') (ts ++ ts') := by
  unfold Lexes at *
  rw [run_append, h]
  simp only [h']

theorem Lexes.flatMap {α : Type} {f : α → List Char} {k : α → List Tok} : ∀ (l : List α), (∀ x ∈ l, Lexes (f x) (k x)) →
    Lexes (l.flatMap f) (l.flatMap k)
  | [], _ => rfl
  | x :: l, h => (h x (by simp)).append (Lexes.flatMap l (fun y hy => h y (by simp [hy])))

/-- The digits of a number. -/
def digits (i : Nat) : List Char := (toString i).toList

theorem ofList_digits (i : Nat) : String.ofList (digits i) = toString i := String.ofList_toList

theorem digits_eq (i : Nat) : digits i = Nat.toDigits 10 i := Nat.toList_repr

theorem digits_ne_nil (i : Nat) : digits i ≠ [] := by rw [digits_eq]; exact Nat.toDigits_ne_nil

theorem isDigit_of_mem {i : Nat} {c : Char} (h : c ∈ digits i) : c.isDigit := by
  rw [digits_eq] at h
  exact Nat.isDigit_of_mem_toDigits (by decide) (by decide) h

theorem digits_injective {i j : Nat} (h : digits i = digits j) : i = j := by
  rw [digits_eq, digits_eq] at h
  rw [← Nat.ofDigitChars_ten_toDigits (n := i), h, Nat.ofDigitChars_ten_toDigits]

theorem toString_injective {i j : Nat} (h : toString i = toString j) : i = j :=
  digits_injective (congrArg String.toList h)

theorem isDigit_ne {c d : Char} (h : c.isDigit) (hd : d.isDigit = false) : c ≠ d := by
  rintro rfl; rw [h] at hd; cases hd

theorem lexStep_digit (w : List Char) {c : Char} (h : c.isDigit) : lexStep (.plain w) c = (.plain (c :: w), []) := by
  have h1 : ¬ (c = ' ' ∨ c = '\n' ∨ c = '\t' ∨ c = '\r') := by
    rintro (h' | h' | h' | h') <;> exact isDigit_ne h (by decide) h'
  have h2 : c ≠ '"' := isDigit_ne h (by decide)
  have h3 : c.isAlphanum := by simp [Char.isAlphanum, h]
  simp [lexStep, h1, h2, h3]

theorem run_digits (l w : List Char) (h : ∀ c ∈ l, c.isDigit) : run lexStep (.plain w) l = (.plain (l.reverse ++ w), []) := by
  induction l generalizing w with
  | nil => rfl
  | cons c l ih =>
    simp only [run, lexStep_digit w (h c (by simp)), ih (c :: w) (fun x hx => h x (by simp [hx]))]
    simp

theorem flush_digits (i : Nat) : flush (digits i).reverse = [.word (digits i)] := by
  have h1 : (digits i).reverse ≠ [] := by simp [digits_ne_nil]
  have h2 : (digits i).reverse ≠ ['-', '-'] := by
    intro h
    have : '-' ∈ digits i := by rw [← List.mem_reverse, h]; simp
    exact absurd (isDigit_of_mem this) (by decide)
  simp [flush, h1, h2]

theorem lexes_digits_space (i : Nat) : Lexes (digits i ++ [' ']) [.word (digits i)] := by
  unfold Lexes
  rw [run_append, run_digits _ _ (fun c h => isDigit_of_mem h)]
  simp [run, lexStep, flush_digits]

theorem lexes_digits_newline (i : Nat) : Lexes (digits i ++ ['\n']) [.word (digits i)] := by
  unfold Lexes
  rw [run_append, run_digits _ _ (fun c h => isDigit_of_mem h)]
  simp [run, lexStep, flush_digits]

theorem lexes_quoted_digits (i : Nat) : Lexes ('"' :: digits i ++ ['"']) [.str (digits i)] := by
  have key : ∀ (l w : List Char), (∀ c ∈ l, c.isDigit) → run lexStep (.quoted w) l = (.quoted (l.reverse ++ w), []) := by
    intro l
    induction l with
    | nil => intro w _; rfl
    | cons c l ih =>
      intro w h
      have h1 : c ≠ '"' := isDigit_ne (h c (by simp)) (by decide)
      have h2 : c ≠ '\\' := isDigit_ne (h c (by simp)) (by decide)
      simp only [run, lexStep, h1, h2, if_false]
      rw [ih (c :: w) (fun x hx => h x (by simp [hx]))]
      simp
  unfold Lexes
  rw [run_append]
  simp only [run, lexStep, if_true]
  have : ¬ ('"' = ' ' ∨ '"' = '\n' ∨ '"' = '\t' ∨ '"' = '\r') := by decide
  simp only [this, if_false, key _ _ (fun c h => isDigit_of_mem h)]
  simp [flush]

/-- Inside quotes a text without quotes is kept as it is; only a backslash at its end is left open. -/
theorem run_quoted (l : List Char) (h : '"' ∉ l) (w : List Char) :
    (run lexStep (.quoted w) l).2 = [] ∧ ((run lexStep (.quoted w) l).1 = .quoted (l.reverse ++ w) ∨
      ∃ v, (run lexStep (.quoted w) l).1 = .esc v ∧ l.reverse ++ w = '\\' :: v ∧ l.getLast? = some '\\') := by
  induction l using List.reverseRecOn with
  | nil => exact ⟨rfl, .inl rfl⟩
  | append_singleton l c ih =>
    have hc : c ≠ '"' := fun e => h (by simp [e])
    obtain ⟨h1, h2⟩ := ih (fun e => h (by simp [e]))
    rw [run_append, h1]
    rcases h2 with h2 | ⟨v, h2, h3, _⟩
    · rw [h2]
      by_cases hb : c = '\\'
      · subst hb
        exact ⟨by simp [run, lexStep], .inr ⟨l.reverse ++ w, by simp [run, lexStep], by simp, by simp⟩⟩
      · exact ⟨by simp [run, lexStep, hc, hb], .inl (by simp [run, lexStep, hc, hb])⟩
    · rw [h2]
      refine ⟨by simp [run, lexStep, hc], .inl ?_⟩
      simp [run, lexStep, hc, h3]

theorem lexes_quoted_label {s : String} (h : IsLabel s) : Lexes ('"' :: s.toList ++ ['"']) [.str s.toList] := by
  obtain ⟨h1, h2⟩ := run_quoted s.toList h.1 []
  have h3 : (run lexStep (.quoted []) s.toList).1 = .quoted s.toList.reverse := by
    rcases h2 with h2 | ⟨v, _, _, h4⟩
    · simpa using h2
    · exact absurd h4 h.2
  have e : run lexStep (.plain []) ('"' :: s.toList) = (.quoted s.toList.reverse, []) := by
    have : lexStep (.plain []) '"' = (.quoted [], []) := rfl
    simp only [run, this, h1, h3, List.append_nil]
  unfold Lexes
  rw [run_append, e]
  simp [run, lexStep]

/-- One edge line. -/
theorem lexes_edge_line (i j : Nat) : Lexes (s!"\t{i} -- {j}\n").toList [.word (digits i), .edge, .word (digits j)] := by
  have e : (s!"\t{i} -- {j}\n").toList = ['\t'] ++ ((digits i ++ [' ']) ++ ("-- ".toList ++ (digits j ++ ['\n']))) := by
    show ("\t" ++ toString i ++ " -- " ++ toString j ++ "\n").toList = _
    simp [digits, String.toList_append]
  rw [e]
  have h1 : Lexes ['\t'] [] := by unfold Lexes; decide
  have h2 : Lexes "-- ".toList [.edge] := by unfold Lexes; decide
  exact h1.append ((lexes_digits_space i).append (h2.append (lexes_digits_newline j)))

theorem lexes_vertices (l : List Nat) : Lexes (l.flatMap fun i => (s!"{i} ").toList) (l.map fun i => .word (digits i)) := by
  have := Lexes.flatMap (f := fun i : Nat => (s!"{i} ").toList) (k := fun i => [.word (digits i)]) l (fun i _ => by
    have e : (s!"{i} ").toList = digits i ++ [' '] := by
      show (toString i ++ " ").toList = _
      simp [digits, String.toList_append]
    rw [e]; exact lexes_digits_space i)
  rwa [List.map_eq_flatMap]

theorem ident_digits (i : Nat) : ident (.word (digits i)) = some (toString i) := by
  have h0 : isNumeral (digits i) = true := by
    obtain ⟨c, l, hl⟩ : ∃ c l, digits i = c :: l := by
      cases h : digits i with
      | nil => exact absurd h (digits_ne_nil i)
      | cons c l => exact ⟨c, l, rfl⟩
    have hd : ∀ x ∈ digits i, x.isDigit := fun x h => isDigit_of_mem h
    have hh : (digits i).head? ≠ some '-' := by
      rw [hl]; intro e
      simp only [List.head?_cons, Option.some.injEq] at e
      exact isDigit_ne (hd c (by rw [hl]; simp)) (by decide) e
    have hcount : (digits i).count '.' = 0 := by
      rw [List.count_eq_zero]
      intro hm
      exact isDigit_ne (hd _ hm) (by decide) rfl
    unfold isNumeral
    simp only [hh, if_false, hcount, Bool.and_eq_true, List.all_eq_true, List.any_eq_true, Bool.or_eq_true, decide_eq_true_eq]
    exact ⟨⟨fun x hx => .inl (hd x hx), c, by rw [hl]; simp, hd c (by rw [hl]; simp)⟩, by omega⟩
  unfold ident
  simp only [h0, or_true, if_true, ofList_digits]

theorem word_digits_ne {i : Nat} {s : List Char} (h : ∃ c ∈ s, c.isDigit = false) : Tok.word (digits i) ≠ .word s := by
  intro e
  obtain ⟨c, hc, hd⟩ := h
  have e' : digits i = s := by injection e
  rw [← e'] at hc
  rw [isDigit_of_mem hc] at hd
  cases hd

theorem topStep_digits (i : Nat) : topStep (.word (digits i)) = (.pending (toString i), []) := by
  have h1 : Tok.word (digits i) ≠ .word "node".toList := word_digits_ne ⟨'n', by decide, by decide⟩
  have h2 : Tok.word (digits i) ≠ .word "edge".toList := word_digits_ne ⟨'e', by decide, by decide⟩
  have h3 : Tok.word (digits i) ≠ .word "graph".toList := word_digits_ne ⟨'g', by decide, by decide⟩
  unfold topStep
  rw [if_neg (by simp), if_neg (by simp), if_neg h1, if_neg h2, if_neg h3, ident_digits]

/-- Tokens that do not continue a statement which began with an identifier. -/
def Begins (ts : List Tok) : Prop := ∃ t l, ts = t :: l ∧ t ≠ .sym '=' ∧ t ≠ .edge ∧ t ≠ .sym '['

theorem run_pending {a : String} {ts : List Tok} (h : Begins ts) :
    run parseStep (.pending a) ts = ((run parseStep .top ts).1, .vertex a :: (run parseStep .top ts).2) := by
  obtain ⟨t, l, rfl, h1, h2, h3⟩ := h
  simp [run, parseStep, h1, h2, h3]

theorem begins_vertices (l : List Nat) {ts : List Tok} (h : Begins ts) : Begins ((l.map fun i => Tok.word (digits i)) ++ ts) := by
  cases l with
  | nil => exact h
  | cons j l => exact ⟨_, _, rfl, by simp, by simp, by simp⟩

theorem run_vertices (l : List Nat) {ts : List Tok} (h : Begins ts) :
    run parseStep .top ((l.map fun i => .word (digits i)) ++ ts) =
      ((run parseStep .top ts).1, (l.map fun i => Stmt.vertex (toString i)) ++ (run parseStep .top ts).2) := by
  induction l with
  | nil => rfl
  | cons i l ih =>
    have hb : Begins ((l.map fun i => Tok.word (digits i)) ++ ts) := begins_vertices l h
    rw [List.map_cons, List.cons_append]
    simp only [run, parseStep, topStep_digits]
    rw [run_pending hb, ih]
    simp

/-- From before a statement to before a statement. -/
def Parses (ts : List Tok) (os : List Stmt) : Prop := run parseStep .top ts = (.top, os)

theorem Parses.append {s s' : List Tok} {ts ts' : List Stmt} (h : Parses s ts) (h' : Parses s' ts') : Parses (s ++ s') (ts ++ ts') := by
  unfold Parses at *
  rw [run_append, h]
  simp only [h']

theorem Parses.flatMap {α : Type} {f : α → List Tok} {k : α → Stmt} : ∀ (l : List α), (∀ x ∈ l, Parses (f x) [k x]) →
    Parses (l.flatMap f) (l.map k)
  | [], _ => rfl
  | x :: l, h => (h x (by simp)).append (Parses.flatMap l (fun y hy => h y (by simp [hy])))

theorem parses_edge (i j : Nat) : Parses [.word (digits i), .edge, .word (digits j)] [.edge (toString i) (toString j)] := by
  unfold Parses
  simp [run, parseStep, topStep_digits, ident_digits]

/-- Read from before a statement, the text gives the statements and ends before a statement. -/
def Reads (s : List Char) (os : List Stmt) : Prop := ∃ ts, Lexes s ts ∧ Parses ts os

theorem Reads.append {s s' : List Char} {os os' : List Stmt} (h : Reads s os) (h' : Reads s' os') : Reads (s ++ s') (os ++ os') := by
  obtain ⟨ts, h1, h2⟩ := h
  obtain ⟨ts', h1', h2'⟩ := h'
  exact ⟨_, h1.append h1', h2.append h2'⟩

theorem Reads.flatMap {α : Type} {f : α → List Char} {k : α → Stmt} : ∀ (l : List α), (∀ x ∈ l, Reads (f x) [k x]) →
    Reads (l.flatMap f) (l.map k)
  | [], _ => ⟨[], rfl, rfl⟩
  | x :: l, h => (h x (by simp)).append (Reads.flatMap l (fun y hy => h y (by simp [hy])))

/-- Written between quotes as the label, the text gives the attributes `L`. -/
def Payload (P : String) (L : List (String × String)) : Prop :=
  ∃ ts, Lexes ('"' :: P.toList ++ ['"']) ts ∧ ∀ o, run parseStep (.value o [] "label") ts = (.list o L, [])

theorem payload_label {s : String} (h : IsLabel s) : Payload s [("label", s)] := by
  refine ⟨_, lexes_quoted_label h, fun o => ?_⟩
  have h1 : ident (.str s.toList) = some s := by simp [ident]
  simp [run, parseStep, h1]

/-- One label line. -/
theorem reads_label_line (i : Nat) {P : String} {L : List (String × String)} (h : Payload P L) :
    Reads ("\t\"" ++ toString i ++ "\" [label=\"" ++ P ++ "\"];\n").toList [.attrs (.vertex (toString i)) L] := by
  obtain ⟨ts, ht, hp⟩ := h
  have e : ("\t\"" ++ toString i ++ "\" [label=\"" ++ P ++ "\"];\n").toList =
      ['\t'] ++ (('"' :: digits i ++ ['"']) ++ (" [label=".toList ++ (('"' :: P.toList ++ ['"']) ++ "];\n".toList))) := by
    simp [digits, String.toList_append]
  rw [e]
  have h1 : Lexes ['\t'] [] := by unfold Lexes; decide
  have h2 : Lexes " [label=".toList [.sym '[', .word "label".toList, .sym '='] := by unfold Lexes; decide
  have h3 : Lexes "];\n".toList [.sym ']', .sym ';'] := by unfold Lexes; decide
  refine ⟨_, h1.append ((lexes_quoted_digits i).append (h2.append (ht.append h3))), ?_⟩
  have e1 : topStep (.str (digits i)) = (.pending (toString i), []) := by
    simp only [topStep, reduceCtorEq, if_false, ident, ofList_digits]
  have e2 : run parseStep .top [.str (digits i)] = (.pending (toString i), []) := by
    simp [run, parseStep, e1]
  have e3 : ∀ a, run parseStep (.pending a) [.sym '[', .word "label".toList, .sym '='] = (.value (.vertex a) [] "label", []) := by
    intro a
    have h0 : ident (.word "label".toList) = some "label" := by decide
    generalize "label".toList = x at h0 ⊢
    simp [run, parseStep, h0]
  have e4 : ∀ o, run parseStep (.list o L) [.sym ']', .sym ';'] = (.top, [.attrs o L]) := by
    intro o
    have h3 : topStep (.sym ';') = (.top, []) := rfl
    simp [run, parseStep, h3]
  unfold Parses
  rw [List.nil_append, run_append, e2]
  dsimp only
  rw [run_append, e3]
  dsimp only
  rw [run_append, hp]
  dsimp only
  rw [e4]
  rfl

theorem reads_edge_line (i j : Nat) : Reads (s!"\t{i} -- {j}\n").toList [.edge (toString i) (toString j)] :=
  ⟨_, lexes_edge_line i j, parses_edge i j⟩

/-- Options can be read before whatever begins a statement. -/
theorem options {s : String} {os : List Stmt} (h : read ("graph{" ++ s ++ "\n}") = some os) :
    ∃ ts, Lexes (s.toList ++ ['\n']) ts ∧ ∀ l, Begins l → run parseStep .top (ts ++ l) =
      ((run parseStep .top l).1, os ++ (run parseStep .top l).2) := by
  have hg : run lexStep (.plain []) "graph{".toList = (.plain [], [.word "graph".toList, .sym '{']) := by decide
  have e : ("graph{" ++ s ++ "\n}").toList = "graph{".toList ++ ((s.toList ++ ['\n']) ++ ['}']) := by
    simp [String.toList_append]
  have hs : run parseStep .start [.word "graph".toList, .sym '{'] = (.top, []) := by decide
  unfold read at h
  dsimp only at h
  split_ifs at h with hc
  obtain ⟨h1, h2⟩ := hc
  rw [e] at h1 h2 h
  rw [run_append, hg, run_append] at h1 h2 h
  dsimp only at h1 h2 h
  -- between tokens after the options
  have hp : (run lexStep (.plain []) (s.toList ++ ['\n'])).1 = .plain [] := by
    rw [run_append] at h1 ⊢
    dsimp only at h1 ⊢
    cases hx : (run lexStep (.plain []) s.toList).1 <;> rw [hx] at h1 <;> simp [run, lexStep] at h1 ⊢
  set ts := (run lexStep (.plain []) (s.toList ++ ['\n'])).2 with hts
  refine ⟨ts, Prod.ext hp rfl, ?_⟩
  rw [hs] at h2 h
  dsimp only at h2 h
  rw [run_append, hp, ← hts] at h2 h
  have hx : (run lexStep (.plain []) ['}']).2 = [.sym '}'] := by decide
  dsimp only at h2 h
  rw [hx, run_append] at h2 h
  dsimp only at h2 h
  intro l hl
  rw [run_append]
  simp only [List.nil_append, Option.some.injEq] at h
  cases hy : (run parseStep .top ts).1 <;> rw [hy] at h2 h
  case top =>
    have e2 : (run parseStep .top [.sym '}']).2 = [] := by decide
    rw [e2, List.append_nil] at h
    rw [h]
  case pending a =>
    have e2 : run parseStep (.pending a) [.sym '}'] = (.done, [.vertex a]) := by
      simp [run, parseStep, topStep]
    rw [e2] at h
    rw [run_pending hl, ← h]
    simp
  all_goals
    exfalso
    revert h2
    simp [run, parseStep, topStep, ident]

end Verif.DotRead
