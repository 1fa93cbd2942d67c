#!/usr/bin/env python3
"""Compares the model with the results recorded in the repository (TestData/unchaning_*.json).

The tests `unchanging_graph_construction` of the crate build ensembles from a seeded generator and compare them with recorded results.
The model is executed with the same generator (Verif/Model/Pcg64.lean).  Adjacency lists in their order, counters, the lists of
ErEnsembleM and the final state of the generator have to agree, and so has the whole file with the names and the order of the fields
(Verif/Model/Serde.lean).  The dot files and the expected values of the unit tests
(tests/integration_test_graph.rs, src/generic_graph.rs, src/dual_graph/dual_graph.rs, ...) are compared as well; vertex_load is executed
with the rounding of f64 and has to agree in all digits.  This is a test of the model, not a proof.

Usage: python3 tools/golden.py [repo]      (needs a finished `lake build` in /verif/lean)
"""
import json, os, subprocess, sys, tempfile
from fractions import Fraction

repo = sys.argv[1] if len(sys.argv) > 1 else '/repo'
here = os.path.dirname(os.path.abspath(__file__))
cases = [
    ('erm_1', 'ErM.new (T := Unit) 123 921 (Pcg64.seedFromU64 123929)'),
    ('erm_2', 'ErM.new (T := Unit) 133 3000 (Pcg64.seedFromU64 1929)'),
    ('erc_1', 'ErC.new (T := Unit) 123 2 (Pcg64.seedFromU64 123929)'),
    ('erc_2', 'ErC.new (T := Unit) 233 10 (Pcg64.seedFromU64 1929)'),
    ('sw_1', 'SwEns.new (T := Unit) 123 (1 / 10) (Pcg64.seedFromU64 123929)'),
    ('sw_2', 'SwEns.new (T := Unit) 133 (3 / 10) (Pcg64.seedFromU64 1929)'),
    ('sw_3', 'SwEns.new (T := Unit) 123 0 (Pcg64.seedFromU64 1229)'),
    ('sw_4', 'SwEns.new (T := Unit) 133 1 (Pcg64.seedFromU64 1922239)'),
]
pre = '''import Verif.Model.Er
import Verif.Model.Sw
import Verif.Model.Pcg64
import Verif.Model.LoadRound
import Verif.Model.Dot
import Verif.Model.Bicon
import Verif.Model.Dual
import Verif.Model.Config
import Verif.Model.Subgraph
import Verif.Model.Serde
open Verif
instance : Node Unit := ⟨fun _ => ()⟩
def js (l : List String) : String := "[" ++ ",".intercalate l ++ "]"
def pairs (l : List (Nat × Nat)) : String := js (l.map fun e => s!"[{e.1},{e.2}]")
def rng (r : Pcg64) : String := s!"[{r.state},{r.increment}]"
def node (c : NodeContainer Unit) : String := js (c.adj.map toString)
def opt : Option Nat → String
  | none => "null"
  | some x => toString x
def sw (c : SwContainer Unit) : String := js (c.adj.map fun e => s!"[{e.dst},{opt e.originallyTo}]")
partial def render : Value → String
  | .null => "null"
  | .bool b => toString b
  | .nat n => toString n
  | .float none => "\\"nan\\""
  | .float (some q) => s!"\\"{q.num}/{q.den}\\""
  | .str s => s!"\\"{s}\\""
  | .seq l => js (l.map render)
  | .map l => "{" ++ ",".intercalate (l.map fun p => s!"\\"{p.1}\\":" ++ render p.2) ++ "}"
def file {E : Type} [Serde E] : Res E → String
  | .ok e => js [render (Serde.ser e)]
  | _ => "[null]"
def outM : Res (ErM Unit Pcg64) → String
  | .ok e => js [toString e.graph.nextId, toString e.graph.edgeCount, js (e.graph.vertices.map node), rng e.rng, toString e.m,
      pairs e.allEdges, pairs e.possibleEdges, pairs e.currentEdges]
  | _ => "null"
def outC : Res (ErC Unit Pcg64) → String
  | .ok e => js [toString e.graph.nextId, toString e.graph.edgeCount, js (e.graph.vertices.map node), rng e.rng]
  | _ => "null"
def outS : Res (SwEns Unit Pcg64) → String
  | .ok e => js [toString e.graph.nextId, toString e.graph.edgeCount, js (e.graph.vertices.map sw), rng e.rng]
  | _ => "null"
'''

pre2 = r'''
open GenericGraph
def build (n : Nat) (l : List (Nat × Nat)) : Res (Graph Unit) := l.foldlM (fun g e => do
  let p ← g.addEdge e.1 e.2
  match p.1 with
  | .ok () => return p.2
  | .error _ => .panic) (GenericGraph.new n)
def complete (n : Nat) : List (Nat × Nat) := (List.range n).flatMap fun i => (List.range' (i+1) (n-(i+1))).map fun j => (i, j)
def graph1 : Res (Graph Unit) := build 20 ([(0,1),(0,2),(1,2)] ++ (List.range' 5 5).map (fun i => (i, i+1)) ++
  (List.range' 11 4).flatMap fun i => (List.range' (i+1) (15-(i+1))).map fun j => (i, j))
def is {α : Type} [DecidableEq α] (r : Res α) (x : α) : Bool := match r with
  | .ok y => decide (y = x)
  | _ => false
def Verif.Res.mapR {α β : Type} (r : Res α) (f : α → β) : Res β := do let x ← r; return f x
def panics {α : Type} (r : Res α) : Bool := match r with
  | .panic => true
  | _ => false
/-- rounding of f64: to nearest, ties to even; no overflow, no subnormal numbers -/
def rnd64 (x : ℚ) : ℚ :=
  if x = 0 then 0 else
  let a := |x|
  let e : Int := (Nat.log2 (a.num.toNat * 2 ^ 2000 / a.den) : Int) - 2000
  let y := if e ≥ 52 then a / 2 ^ (e - 52).toNat else a * 2 ^ (52 - e).toNat
  let f := y.floor
  let d := y - f
  let m := if d < 1/2 then f else if d > 1/2 then f + 1 else if f % 2 = 0 then f else f + 1
  let z : ℚ := if e ≥ 52 then (m : ℚ) * 2 ^ (e - 52).toNat else (m : ℚ) / 2 ^ (52 - e).toNat
  if x < 0 then -z else z
def dec (n : Nat) (k : Nat) : ℚ := rnd64 ((n : ℚ) / 10 ^ k)
def ring (n : Nat) : List (Nat × Nat) := (List.range n).map fun i => (i, (i + 1) % n)
instance : Node Nat := ⟨fun i => i⟩
def ringT (n d : Nat) : Res (GenericGraph Nat (NodeContainer Nat)) := do
  let p ← (GenericGraph.new (T := Nat) (A := NodeContainer Nat) n).initRing d
  match p.1 with
  | .ok () => return p.2
  | .error _ => .panic
def load8 : List (Nat × Nat) := [(0,1),(0,2),(2,1),(5,1),(2,3),(2,4),(4,3),(5,3),(4,5),(4,7),(4,6),(5,7),(5,6),(6,7)]
def trans1 : List (Nat × Nat) := [(0,1),(1,2),(2,3),(3,4),(4,0),(4,1),(3,5)]
def trans2 : List (Nat × Nat) := [(1,2),(2,3),(3,4),(4,5),(5,1),(5,2),(4,0)]
def sub7 : List (Nat × Nat) := [(0,3),(0,1),(2,3),(0,5)]
def dual1 : Res (DualGraph AdjSingle Unit (NodeContainer Unit) Unit (SwContainer Unit)) := do
  let g1 ← build 5 [(0,1),(1,2),(3,4)]
  let g2 ← SwGraph.initRing2 (GenericGraph.new (T := Unit) (A := SwContainer Unit) 5)
  return DualGraph.new g1 g2
def dadd {J A B C D : Type} [AdjTrait J] (d : DualGraph J A B C D) (i j : Nat) :
    Res (DualGraph J A B C D) := do
  let p ← d.addEdge i j
  match p.1 with
  | .ok () => return p.2
  | .error _ => .panic
'''
checks = [
    ('leaf_count', 'is (graph1.mapR fun g => g.leafCount) 2'),
    ('leaf_count empty', 'is ((build 20 []).mapR fun g => g.leafCount) 0'),
    ('connected_components', 'is (build 20 [] >>= fun g => g.connectedComponents) (List.replicate 20 1)'),
    ('connected_components 0', 'is (build 0 [] >>= fun g => g.connectedComponents) []'),
    ('multiple_connected_components', 'is (graph1 >>= fun g => g.connectedComponents) [6,4,3,1,1,1,1,1,1,1]'),
    ('q_core_empty_graph', '[1,2].all fun q => is (build 0 [] >>= fun g => g.qCore q) none'),
    ('q_core one vertex', 'is (build 1 [] >>= fun g => g.qCore 1) none && is (build 1 [] >>= fun g => g.qCore 2) (some 0)'),
    ('q_core_multiple_components', '[(2,some 4),(3,some 4),(4,some 0),(1,none)].all fun p => is (graph1 >>= fun g => g.qCore p.1) p.2'),
    ('q_core_complete_graph', '(List.range\' 2 18).all (fun q => is (build 20 (complete 20) >>= fun g => g.qCore q) (some 20)) && '
        'is (build 20 (complete 20) >>= fun g => g.qCore 20) (some 0)'),
    ('q_core', 'is (build 20 [(0,1),(0,2),(1,2)] >>= fun g => g.qCore 2) (some 3)'),
    ('check_is_connected', 'is (build 10 [] >>= fun g => g.isConnected) (some false) && '
        'is (build 10 ((List.range 8).map fun i => (i,i+1)) >>= fun g => g.isConnected) (some false) && '
        'is (build 10 ((List.range 9).map fun i => (i,i+1)) >>= fun g => g.isConnected) (some true)'),
    ('average_neighbor_count', 'is ((build 20 (complete 20)).mapR fun g => g.averageDegree) (some 19) && '
        'is ((build 20 []).mapR fun g => g.averageDegree) (some 0)'),
    ('diameter_test', 'is (build 5 ((List.range 4).map fun i => (i,i+1)) >>= fun g => g.diameter) (some 4) && '
        'is (build 4 (ring 4) >>= fun g => g.diameter) (some 2) && is (build 40 (ring 40) >>= fun g => g.diameter) (some 20) && '
        'is (build 40 (complete 40) >>= fun g => g.diameter) (some 1)'),
    ('bi_test1', 'is (build 6 [(0,1),(1,2),(2,0),(3,4),(5,4)] >>= fun g => g.vertexBiconnectedComponents false) [3,2,2] && '
        'is (build 6 [(0,1),(1,2),(2,0),(3,4),(5,4)] >>= fun g => g.vertexBiconnectedComponents true) [3]'),
    ('bi_test2', 'is (build 6 [] >>= fun g => g.vertexBiconnectedComponents false) [] && '
        'is (build 6 [(0,1),(1,2),(2,0)] >>= fun g => g.vertexBiconnectedComponents false) [3] && '
        'is (build 5 [(0,1),(1,2),(2,0),(2,3),(4,3),(4,0)] >>= fun g => g.vertexBiconnectedComponents false) [5]'),
    ('vertex_load', 'is (build 4 (complete 4) >>= fun g => g.vertexLoadR rnd64 true) [3,3,3,3] && '
        'is (build 4 (complete 4) >>= fun g => g.vertexLoadR rnd64 false) [0,0,0,0] && '
        'is (build 4 [] >>= fun g => g.vertexLoadR rnd64 true) [0,0,0,0]'),
    ('vertex_load, all digits', 'is (build 8 load8 >>= fun g => g.vertexLoadR rnd64 false) '
        '[0, dec 4666666666666666 15, 8, dec 6666666666666665 16, dec 8666666666666668 15, 10, 0, 0]'),
    ('vertex_load, exact', 'is (build 8 load8 >>= fun g => g.vertexLoad false) [0, 14/3, 8, 2/3, 26/3, 10, 0, 0]'),
    ('transitivity', 'is (build 3 [] >>= fun g => g.transitivity) (0,0) && '
        'is ((build 3 [(0,1),(0,2)] >>= fun g => g.transitivity).mapR fun p => (p.1, decide (p.2 = 0))) (0,false) && '
        'is ((build 3 [(0,1),(0,2),(2,1)] >>= fun g => g.transitivity).mapR fun p => (decide (p.1 = p.2 ∧ p.2 ≠ 0))) true && '
        '[trans1, trans2].all fun l => is ((build 6 l >>= fun g => g.transitivity).mapR fun p => decide (p.1 * 11 = p.2 * 3 ∧ p.2 ≠ 0)) true'),
    ('iter_neighbors', '(is (build 6 (ring 6) >>= fun g => g.sortAdj >>= fun g => .ok (g.vertices.map fun c => AdjContainer.neighbors c)) '
        '[[1,5],[0,2],[1,3],[2,4],[3,5],[0,4]])'),
    ('degree_dist', 'is ((ringT 10 1 >>= fun g => g.degreeHistogram).mapR fun h => (h.left, h.bins)) (2,[10]) && '
        'is ((build 1 [] >>= fun g => g.degreeHistogram).mapR fun h => (h.left, h.bins)) (0,[1])'),
    ('subgraph', 'is ((GenericGraph.completeGraph (T := Unit) 10 >>= fun g => g.clonedSubgraph [3,2,1,9,3]).mapR fun o => o.map fun g => '
        '(g.nextId, g.edgeCount, (g.vertices.map fun c => c.adj)[1]?)) (some (4, 6, some [0,2,3])) && '
        'is ((GenericGraph.completeGraph (T := Unit) 10 >>= fun g => g.clonedSubgraph [0]).mapR fun o => o.map fun g => (g.nextId, g.edgeCount)) (some (1,0)) && '
        'is ((build 7 sub7 >>= fun g => g.clonedSubgraph [0,1,3] >>= fun o => match o with | some s => s.sortAdj | none => .panic).mapR fun g => '
        '(g.nextId, g.edgeCount, g.vertices.map fun c => c.adj)) (3, 2, [[1,2],[0],[0]]) && '
        '[[],[199,199,329029]].all fun l => is ((build 7 sub7 >>= fun g => g.clonedSubgraph l).mapR fun o => o.isNone) true'),
    ('correct_complete_graphs', 'is ((GenericGraph.completeGraph (T := Unit) 50).mapR fun g => (g.nextId, (List.range 50).all fun i => '
        '(List.range 50).all fun j => match g.vertices[i]? with | some c => decide ((j ∈ c.adj) ↔ j ≠ i) | none => false)) (50, true)'),
    ('long_ranging_edges_test', 'is (do let g ← SwGraph.initRing2 (GenericGraph.new (T := Unit) (A := SwContainer Unit) 10); '
        'let (_, h) ← SwGraph.rewireEdge g 0 1 5; let a ← SwGraph.countNodesWithLongRangingEdges g; let b ← SwGraph.countNodesWithLongRangingEdges h; '
        'return (SwGraph.countLongRangingEdges g, a, SwGraph.countLongRangingEdges h, b, SwGraph.fracLongRangingEdges h)) (0,0,1,2,some (1/20))'),
    ('sw_ring_2', 'is ((SwGraph.initRing2 (GenericGraph.new (T := Unit) (A := SwContainer Unit) 300)).mapR fun g => (g.nextId, g.edgeCount, '
        'g.vertices.all fun c => SwContainer.countRoot c == 2)) (300, 600, true)'),
    ('dual_graph_basic_test', 'is (dual1 >>= fun d => d.isConnected) false && is (dual1 >>= fun d => dadd d 1 0 >>= fun d => d.isConnected) false && '
        'is (dual1 >>= fun d => dadd d 1 0 >>= fun d => dadd d 3 4 >>= fun d => d.isConnected) true'),
    ('dual_graph_dfs_test', 'is ((ringT 5 2 >>= fun g => g.dfs 0 100).mapR List.sum) 10 && is ((ringT 11 1 >>= fun g => g.dfs 0 100).mapR List.sum) 55 && '
        'is (((do let a ← ringT 5 2; let b ← ringT 11 1; let d ← dadd (DualGraph.new (J := Adj) a b) 0 0; '
        'd.dfsContained (.graph1 0) 100) : Res (List Nat)).mapR List.sum) 65'),
    ('dual_graph_bfs_depth_test', 'is (do let a ← ringT 6 1; let d ← dadd (DualGraph.new (J := Adj) a a) 0 0; '
        'let l ← d.bfsIndex (.graph1 3) 100; let c ← d.isConnected; let m ← d.diameter; return (l.getLast?.map (·.2), c, m)) (some 7, true, some 7)'),
    ('impossible_degree_distribution', '!Config.degreeVecIsValid [1,2,3]'),
    ('test_graph_construction', 'is ((ErC.new (T := Unit) 20 (27/10) (Pcg64.seedFromU64 76)).mapR fun e => (e.graph.edgeCount, e.graph.nextId)) (28, 20)'),
    ('test_complete_graph', 'is ((ErC.new (T := Unit) 20 19 (Pcg64.seedFromU64 76)) >>= fun e => e.graph.isConnected) (some true) && '
        'is ((ErC.new (T := Unit) 20 19 (Pcg64.seedFromU64 76)).mapR fun e => e.graph.edgeCount) 190'),
    ('test_edge_count', 'is ((ErC.new (T := Unit) 100 0 (Pcg64.seedFromU64 12)).mapR fun e => e.graph.edgeCount) 0'),
]
def lit(x):
    return json.dumps(x, ensure_ascii=False)
def data(x):
    return lit(open(os.path.join(repo, 'TestData', x)).read())
opts = ('bgcolor="transparent";\n\tfontsize=50;\n\tnode [shape=ellipse, penwidth=1, fontname="Courier", pin=true ];\n\tsplines=true;')
checks += [
    ('dot', f'is (graph1 >>= fun g => g.toDot) {data("dotTest.dot")}'),
    ('dot_labeled', f'is (graph1 >>= fun g => dotToString (g.dotFromContainedIndex putString {lit(opts)} fun i _ => s!"Hey {{i}}!")) '
        + data('label_test.dot')),
    ('phase_test', 'is (build 4 (ring 4) >>= fun g => dotToString (g.dotFromContainedIndex putString "" fun i _ => '
        's!"Phase: {["0", "0.5", "1", "1.5"].getD i ""} at index {i}")) ' + data('phase_test.dot')),
]
src = pre + pre2
for name, term in cases:
    f = {'erm': 'outM', 'erc': 'outC', 'sw': 'outS'}[name.split('_')[0]]
    src += f'#eval IO.println ({f} ({term}))\n'
for name, term in cases:
    src += f'#eval IO.println (file ({term}))\n'
for name, term in checks:
    src += f'#eval IO.println (js [toString ({term})])\n'
with tempfile.TemporaryDirectory() as d:
    p = os.path.join(d, 'Golden.lean')
    open(p, 'w').write(src)
    r = subprocess.run(['lake', 'env', 'lean', p], cwd=os.path.join(here, '..', 'lean'), capture_output=True, text=True)
lines = [l for l in r.stdout.splitlines() if l.startswith('[') or l == 'null']
if len(lines) != 2 * len(cases) + len(checks):
    sys.exit('the model did not run:\n' + '\n'.join(l for l in r.stdout.splitlines() if 'error' in l)[:6000] + r.stderr[-2000:])
bad = 0
for (name, _), line in zip(cases, lines):
    got = json.loads(line)
    d = json.load(open(os.path.join(repo, 'TestData', f'unchaning_{name}.json')))
    g = d['graph']
    def adj(v):
        return [[e['to'], e['originally_to']] if isinstance(e, dict) else e for e in v['adj']]
    want = [g['next_id'], g['edge_count'], [adj(v) for v in g['vertices']], [d['rng']['state'], d['rng']['increment']]]
    if name.startswith('erm'):
        want += [d['m'], d['all_edges'], d['possible_edges'], d['current_edges']]
    parts = ['next_id', 'edge_count', 'adjacency', 'rng', 'm', 'all_edges', 'possible_edges', 'current_edges']
    diff = ['everything'] if got is None else [p for p, a, b in zip(parts, got, want) if a != b]
    print(name, 'agrees' if not diff else 'DIFFERS in ' + ', '.join(diff))
    bad += bool(diff)
def same(a, b):
    if isinstance(b, float):
        return isinstance(a, str) and float(Fraction(a)) == b
    if isinstance(b, (list, tuple)):
        return type(a) is type(b) and len(a) == len(b) and all(same(x, y) for x, y in zip(a, b))
    return type(a) is type(b) and a == b
for (name, _), line in zip(cases, lines[len(cases):]):
    # objects as tuples of (name, value), so that the order of the fields counts
    got = json.loads(line, object_pairs_hook=tuple)[0]
    want = json.load(open(os.path.join(repo, 'TestData', f'unchaning_{name}.json')), object_pairs_hook=tuple)
    ok = same(got, want)
    print(name, 'file', 'agrees' if ok else 'DIFFERS')
    bad += not ok
for (name, _), line in zip(checks, lines[2 * len(cases):]):
    print(name, 'agrees' if line == '[true]' else 'DIFFERS')
    bad += line != '[true]'
sys.exit(1 if bad else 0)
