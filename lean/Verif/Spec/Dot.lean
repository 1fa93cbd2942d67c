import Verif.Spec.Basic
import Verif.Model.Dot

/-!
# Specification vocabulary of the dot output
-/

namespace Verif

/-- Handing a list of texts to a writer, one after the other, until the first error. -/
def writeSeq {σ ε : Type} (put : σ → String → Except ε Unit × σ) : List String → σ → Except ε Unit × σ
  | [], st => (.ok (), st)
  | s :: l, st => match put st s with
    | (.ok (), st') => writeSeq put l st'
    | (.error e, st') => (.error e, st')

/-- The text of a dot file: header, vertex list, one label line per vertex, one line per edge, closing brace. -/
def dotText (header : String) (n : Nat) (sep : String) (labels : List String) (E : List (Nat × Nat)) : List String :=
  [header] ++ (List.range n).map (fun i => s!"{i} ") ++ [sep] ++
    labels.zipIdx.map (fun p => "\t\"" ++ toString p.2 ++ "\" [label=\"" ++ p.1 ++ "\"];\n") ++
    E.map (fun e => s!"\t{e.1} -- {e.2}\n") ++ ["}"]

end Verif
