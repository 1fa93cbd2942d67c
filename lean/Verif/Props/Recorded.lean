import Verif.Model.Sw
import Verif.Model.Pcg64

/-!
# A recorded result inside the build

One of the results recorded in /repo/TestData, so that an edit of the generator or of the sampling is noticed by the build as well; the
others are compared by tools/golden.py.  A test of the model, not a proof of a property.
-/

namespace Verif

/-- The rewired edges of a network: vertex, original target, target. -/
def rewiredEdges (g : SwGraph (Fin 1)) : List (Nat × Nat × Nat) := g.vertices.flatMap fun c => c.adj.filterMap fun e =>
  e.originallyTo.bind fun o => if o = e.dst then none else some (c.id, o, e.dst)

set_option maxRecDepth 100000 in
set_option synthInstance.maxSize 1000 in
/-- TestData/unchaning_sw_1.json (tests/integration_test_sw.rs:138-150): all rewired edges and the final state of the generator. -/
example : ((@SwEns.new (Fin 1) _ _ ⟨fun _ => 0⟩ 123 (1 / 10) (Pcg64.seedFromU64 123929) : Res (SwEns (Fin 1) Pcg64)).bind fun e =>
      .ok (e.graph.nextId, e.graph.edgeCount, rewiredEdges e.graph, e.rng)) =
    .ok (123, 246, [(3, 5, 97), (20, 22, 118), (21, 23, 111), (23, 25, 88), (43, 44, 21), (54, 56, 51), (64, 66, 31), (67, 69, 85),
      (68, 70, 98), (71, 73, 107), (74, 75, 22), (99, 101, 34), (100, 101, 36), (102, 103, 105), (106, 108, 60), (109, 111, 21),
      (113, 114, 7), (116, 117, 44)],
      ⟨51015042678405368996917240639577526154, 183656034883860676411966786047982317377⟩) := by decide +kernel

/-- The increments of the generators in TestData/unchaning_erc_2.json, unchaning_sw_3.json and unchaning_sw_4.json. -/
example : (Pcg64.seedFromU64 1929).increment = 100506697702689810237804728492070200641 ∧
    (Pcg64.seedFromU64 1229).increment = 6973207562831214866055923373536190567 ∧
    (Pcg64.seedFromU64 1922239).increment = 71333470150771988304919182731680972433 := by decide +kernel

end Verif
