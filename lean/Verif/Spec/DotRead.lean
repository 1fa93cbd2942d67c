import Mathlib.Data.List.Basic
import Mathlib.Data.List.Dedup
import Mathlib.Combinatorics.SimpleGraph.Basic

/-!
# A reader for dot texts

Written after the grammar of the dot language (https://graphviz.org/doc/info/lang.html), independently of the writers.  It covers one
undirected graph with statements `a`, `a -- b`, `a = b`, `a [b=c, ...]` and `node|edge|graph [b=c, ...]`.  Everything else (comments,
html strings, ports, subgraphs, directed edges, chains `a -- b -- c`) is refused.  Both halves are automata that read one symbol
after the other.
-/

namespace Verif.DotRead

/-- Running an automaton that writes while it reads. -/
def run {S I O : Type} (step : S → I → S × List O) : S → List I → S × List O
  | s, [] => (s, [])
  | s, i :: is => ((run step (step s i).1 is).1, (step s i).2 ++ (run step (step s i).1 is).2)

/-- Words, quoted strings, the edge operator and single characters with a meaning. -/
inductive Tok where
  | word (s : List Char)
  | str (s : List Char)
  | edge
  | sym (c : Char)
  deriving DecidableEq, Repr

/-- Between tokens or inside a word, inside a quoted string, after a backslash inside a quoted string; the characters read so far, the
last one first. -/
inductive LexState where
  | plain (w : List Char)
  | quoted (w : List Char)
  | esc (w : List Char)
  deriving DecidableEq, Repr

/-- The end of a word. -/
def flush (w : List Char) : List Tok :=
  if w = [] then [] else if w = ['-', '-'] then [.edge] else [.word w.reverse]

/-- One character.  Inside quotes a backslash keeps its meaning as a character, only `\"` stands for a quote. -/
def lexStep : LexState → Char → LexState × List Tok
  | .plain w, c =>
    if c = ' ' ∨ c = '\n' ∨ c = '\t' ∨ c = '\r' then (.plain [], flush w)
    else if c = '"' then (.quoted [], flush w)
    else if c.isAlphanum ∨ c = '_' ∨ c = '.' ∨ c = '-' ∨ 128 ≤ c.toNat then (.plain (c :: w), [])
    else (.plain [], flush w ++ [.sym c])
  | .quoted w, c => if c = '"' then (.plain [], [.str w.reverse]) else if c = '\\' then (.esc w, []) else (.quoted (c :: w), [])
  | .esc w, c => if c = '"' then (.quoted ('"' :: w), []) else (.quoted (c :: '\\' :: w), [])

/-- Letters, digits and underscores, not beginning with a digit. -/
def isName : List Char → Bool
  | [] => false
  | c :: w => !c.isDigit && (c :: w).all fun c => c.isAlphanum || c == '_' || decide (128 ≤ c.toNat)

/-- An optional sign, digits, at most one point, at least one digit. -/
def isNumeral (w : List Char) : Bool :=
  let v := if w.head? = some '-' then w.tail else w
  v.all (fun c => c.isDigit || c == '.') && v.any Char.isDigit && decide (v.count '.' ≤ 1)

/-- The words with a fixed meaning, in lower case. -/
def keywords : List (List Char) :=
  ["node".toList, "edge".toList, "graph".toList, "digraph".toList, "subgraph".toList, "strict".toList]

/-- The identifier a token stands for. -/
def ident : Tok → Option String
  | .word w => if (isName w ∧ w.map Char.toLower ∉ keywords) ∨ isNumeral w then some (String.ofList w) else none
  | .str w => some (String.ofList w)
  | _ => none

/-- What a list of attributes is for. -/
inductive Owner where
  | vertex (a : String)
  | all (kind : String)
  deriving DecidableEq, Repr

/-- The statements. -/
inductive Stmt where
  | vertex (a : String)
  | edge (a b : String)
  | set (a b : String)
  | attrs (o : Owner) (l : List (String × String))
  deriving DecidableEq, Repr

/-- `start`: nothing read; `opened`: after `graph`; `named`: after the name; `top`: before a statement; `pending a`: after an identifier
that may begin one; `kind k`: after `node`, `edge` or `graph`; `eq a`, `dash a`: after `a =`, `a --`; `list`, `key`, `value`: inside
square brackets; `done`: after the closing brace; `bad`: refused. -/
inductive ParseState where
  | start | opened | named | top | done | bad
  | pending (a : String)
  | kind (k : String)
  | eq (a : String)
  | dash (a : String)
  | list (o : Owner) (l : List (String × String))
  | key (o : Owner) (l : List (String × String)) (k : String)
  | value (o : Owner) (l : List (String × String)) (k : String)
  deriving DecidableEq, Repr

/-- A token where a statement may begin. -/
def topStep (t : Tok) : ParseState × List Stmt :=
  if t = .sym ';' then (.top, [])
  else if t = .sym '}' then (.done, [])
  else if t = .word "node".toList then (.kind "node", [])
  else if t = .word "edge".toList then (.kind "edge", [])
  else if t = .word "graph".toList then (.kind "graph", [])
  else match ident t with
    | some a => (.pending a, [])
    | none => (.bad, [])

/-- One token. -/
def parseStep : ParseState → Tok → ParseState × List Stmt
  | .start, t => (if t = .word "graph".toList then .opened else .bad, [])
  | .opened, t => (if t = .sym '{' then .top else if ident t = none then .bad else .named, [])
  | .named, t => (if t = .sym '{' then .top else .bad, [])
  | .top, t => topStep t
  | .pending a, t =>
    if t = .sym '=' then (.eq a, [])
    else if t = .edge then (.dash a, [])
    else if t = .sym '[' then (.list (.vertex a) [], [])
    else ((topStep t).1, .vertex a :: (topStep t).2)
  | .kind k, t => (if t = .sym '[' then .list (.all k) [] else .bad, [])
  | .eq a, t => match ident t with
    | some b => (.top, [.set a b])
    | none => (.bad, [])
  | .dash a, t => match ident t with
    | some b => (.top, [.edge a b])
    | none => (.bad, [])
  | .list o l, t =>
    if t = .sym ']' then (.top, [.attrs o l])
    else if (t = .sym ',' ∨ t = .sym ';') ∧ l ≠ [] then (.list o l, [])
    else match ident t with
      | some k => (.key o l k, [])
      | none => (.bad, [])
  | .key o l k, t => (if t = .sym '=' then .value o l k else .bad, [])
  | .value o l k, t => match ident t with
    | some v => (.list o (l ++ [(k, v)]), [])
    | none => (.bad, [])
  | .done, _ => (.bad, [])
  | .bad, _ => (.bad, [])

/-- The statements of a dot text, if it is one. -/
def read (s : String) : Option (List Stmt) :=
  let l := run lexStep (.plain []) s.toList
  let p := run parseStep .start l.2
  if l.1 = .plain [] ∧ p.1 = .done then some p.2 else none

/-- The identifiers of the vertices a statement mentions. -/
def Stmt.mentions : Stmt → List String
  | .vertex a => [a]
  | .edge a b => [a, b]
  | .set _ _ => []
  | .attrs (.vertex a) _ => [a]
  | .attrs (.all _) _ => []

/-- The vertices of the drawing: whatever is mentioned. -/
def vertices (l : List Stmt) : List String := (l.flatMap Stmt.mentions).reverse.dedup.reverse

/-- The edges of the drawing, one for each statement. -/
def edges (l : List Stmt) : List (String × String) := l.filterMap fun
  | .edge a b => some (a, b)
  | _ => none

/-- The values of an attribute in a list. -/
def valuesOf (key : String) (l : List (String × String)) : List String := (l.filter (fun p => p.1 = key)).map Prod.snd

/-- The values a statement gives to an attribute of a vertex. -/
def Stmt.values (key v : String) : Stmt → List String
  | .attrs (.vertex a) l => if a = v then valuesOf key l else []
  | _ => []

/-- The value of an attribute of a vertex: the last one given. -/
def attrOf (l : List Stmt) (key v : String) : Option String := (l.flatMap (Stmt.values key v)).getLast?

/-- The label of a vertex. -/
def label (l : List Stmt) (v : String) : Option String := attrOf l "label" v

/-- Statements that set options only. -/
def Stmt.IsOption : Stmt → Prop
  | .set _ _ => True
  | .attrs (.all _) _ => True
  | _ => False

/-- Options that a dot text may begin with. -/
def IsOptions (s : String) : Prop := ∃ l, read ("graph{" ++ s ++ "\n}") = some l ∧ ∀ x ∈ l, x.IsOption

/-- A label that can stand between quotes. -/
def IsLabel (s : String) : Prop := '"' ∉ s.toList ∧ s.toList.getLast? ≠ some '\\'

/-- The text is a dot text of the graph `G` with the vertices `0, ..., n - 1`: the reader finds these vertices and each edge once, from
the smaller to the larger number. -/
def Draws (n : Nat) (G : SimpleGraph Nat) (s : String) (st : List Stmt) : Prop :=
  read s = some st ∧ vertices st = (List.range n).map toString ∧ (edges st).Nodup ∧
    ∀ a b, (a, b) ∈ edges st ↔ ∃ i j : Nat, a = toString i ∧ b = toString j ∧ i < j ∧ G.Adj i j

end Verif.DotRead
