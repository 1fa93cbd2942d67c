import Verif.Model.Subgraph

/-!
# The dot writers

The writer `W: std::io::Write` is an arbitrary function `put` from its state and a text to an outcome (`Ok` or an error
of type `ε`) and a new state.  One `write!` / `writeln!` is one call of `put` (std may split it into several).
The closures `f: FnMut` that make the labels are pure functions here.
-/

namespace Verif
open AdjContainer

/-- A computation that writes to a writer with state `σ` and may stop at an error `ε` (the operator `?`). -/
abbrev DotM (σ ε α : Type) := ExceptT ε (StateT σ Res) α

/-- One `write!(writer, ...)?`. -/
def dotPut {σ ε : Type} (put : σ → String → Except ε Unit × σ) (s : String) : DotM σ ε Unit :=
  ExceptT.mk (fun st => .ok (put st s))

namespace GenericGraph
variable {T A : Type} [AdjContainer T A] {σ ε : Type}

/-- `self.container(i)` inside a writing computation. -/
def dotContainer (g : GenericGraph T A) (i : Nat) : DotM σ ε A :=
  ExceptT.mk (fun st => do let c ← g.container i; return (.ok c, st))

/-- The edge loops (src/generic_graph/generic_graph.rs:1543-1550, 1593-1600). -/
def dotEdges (g : GenericGraph T A) (put : σ → String → Except ε Unit × σ) : DotM σ ε Unit :=
  (List.range g.vertexCount).forM (fun i => do
    let c ← g.dotContainer i
    (neighbors c).forM (fun j => if i < j then dotPut put s!"\t{i} -- {j}\n" else pure ()))

/-- `dot_from_container_index` (src/generic_graph/generic_graph.rs:1523-1552). -/
def dotFromContainerIndex (g : GenericGraph T A) (put : σ → String → Except ε Unit × σ) (dotOptions : String)
    (f : Nat → A → String) : DotM σ ε Unit := do
  dotPut put ("graph G{\n\t" ++ dotOptions ++ "\n\t")
  (List.range g.vertexCount).forM (fun i => dotPut put s!"{i} ")
  dotPut put ";\n"
  g.vertices.zipIdx.forM (fun p => dotPut put ("\t\"" ++ toString p.2 ++ "\" [label=\"" ++ f p.2 p.1 ++ "\"];\n"))
  g.dotEdges put
  dotPut put "}"

/-- `dot_from_contained_index` (src/generic_graph/generic_graph.rs:1554-1567). -/
def dotFromContainedIndex (g : GenericGraph T A) (put : σ → String → Except ε Unit × σ) (dotOptions : String)
    (f : Nat → T → String) : DotM σ ε Unit :=
  g.dotFromContainerIndex put dotOptions (fun index a => f index (contained a))

/-- `dot_from_container` (src/traits/dot_traits.rs:44-57). -/
def dotFromContainer (g : GenericGraph T A) (put : σ → String → Except ε Unit × σ) (dotOptions : String)
    (f : A → String) : DotM σ ε Unit :=
  g.dotFromContainerIndex put dotOptions (fun _ a => f a)

/-- `dot_from_contained` (src/traits/dot_traits.rs:108-121). -/
def dotFromContained (g : GenericGraph T A) (put : σ → String → Except ε Unit × σ) (dotOptions : String)
    (f : T → String) : DotM σ ε Unit :=
  g.dotFromContainedIndex put dotOptions (fun _ c => f c)

/-- `dot_from_indices` (src/generic_graph/generic_graph.rs:1574-1602). -/
def dotFromIndices (g : GenericGraph T A) (put : σ → String → Except ε Unit × σ) (dotOptions : String)
    (f : Nat → String) : DotM σ ε Unit := do
  dotPut put ("graph G{\n\t" ++ dotOptions ++ "\n\t")
  (List.range g.vertexCount).forM (fun i => dotPut put s!"{i} ")
  dotPut put ";\n"
  (List.range g.vertexCount).forM (fun index =>
    dotPut put ("\t\"" ++ toString index ++ "\" [label=\"" ++ f index ++ "\"];\n"))
  g.dotEdges put
  dotPut put "}"

/-- `dot_with_indices` (src/traits/dot_traits.rs:180-195). -/
def dotWithIndices (g : GenericGraph T A) (put : σ → String → Except ε Unit × σ) (dotOptions : String) :
    DotM σ ε Unit := g.dotFromIndices put dotOptions (fun index => toString index)

/-- `dot` (src/traits/dot_traits.rs:212-224). -/
def dot (g : GenericGraph T A) (put : σ → String → Except ε Unit × σ) (dotOptions : String) : DotM σ ε Unit :=
  g.dotFromIndices put dotOptions (fun _ => "")

/-- Writing into a `Vec<u8>` / `String` (std): appends, never fails. -/
def putString (st s : String) : Except Unit Unit × String := (.ok (), st ++ s)

/-- The `dot_string_*` wrappers (src/traits/dot_traits.rs:26-40, 60-74, 88-102, 124-138, 162-176, 198-208, 227-234): write into a buffer, `unwrap`.
The round trip `String -> Vec<u8> -> String` is the identity. -/
def dotToString (m : DotM String Unit Unit) : Res String := do
  let (r, s) ← m.run ""
  match r with
  | .ok () => return s
  | .error () => .panic

/-- `to_dot_with_labels_from_contained` (src/generic_graph/generic_graph.rs:1018-1034). -/
def toDotWithLabelsFromContained (g : GenericGraph T A) (dotOptions : String) (f : T → Nat → String) : Res String :=
  dotToString (g.dotFromContainedIndex putString dotOptions (fun index c => f c index))

/-- `to_dot_with_labels_from_container` (src/generic_graph/generic_graph.rs:1097-1113). -/
def toDotWithLabelsFromContainer (g : GenericGraph T A) (dotOptions : String) (f : A → Nat → String) : Res String :=
  dotToString (g.dotFromContainerIndex putString dotOptions (fun index c => f c index))

/-- `to_dot` (src/generic_graph/generic_graph.rs:950-967): the results of writing into the `String` are discarded. -/
def toDot (g : GenericGraph T A) : Res String := do
  let s := "graph{\n\t"
  let s := (List.range g.vertexCount).foldl (fun s i => s ++ s!"{i} ") s
  let s := s ++ "\n"
  let s ← (List.range g.vertexCount).foldlM (fun s i => do
    let c ← g.container i
    return (neighbors c).foldl (fun s j => if i < j then s ++ s!"\t{i} -- {j}\n" else s) s) s
  return s ++ "}"

end GenericGraph

/-- The macro `dot_options!` (src/dot_constants.rs:36-41). -/
def dotOptions (l : List String) : String := String.intercalate "\n\t" l

/-- The options offered (src/dot_constants.rs:44-66): `EXAMPLE_DOT_OPTIONS`, `SPLINES`, `TRANSPARENT_BG`, `NO_OVERLAP`, `SIZE_A4`,
`RATIO_FILL`, `MARGIN_0`. -/
def dotConstants : List String :=
  ["bgcolor=\"transparent\";\n\tfontsize=50;\n\tnode [shape=ellipse, penwidth=1, fontname=\"Courier\", pin=true ];\n\tsplines=true;",
   "splines=true;", "bgcolor=\"transparent\";", "overlap=false;", "size=\"8.3,11.7!\";", "ratio=\"fill\";", "margin=0;"]

end Verif
