import Verif.Model.View
import Verif.Spec.Bicon
import Mathlib.Combinatorics.SimpleGraph.Metric
import Mathlib.Combinatorics.SimpleGraph.Connectivity.Connected
import Mathlib.Algebra.BigOperators.Field
import Mathlib.Data.Set.Card

/-!
# What an ensemble has to show

The specification mentions only the number `n` of vertices, an abstract simple graph `G`, the list `data` of the node data and the
public functions.
-/

namespace Verif
open Classical

/-- `F v` is the flow through `v` towards `s`: every vertex sends one unit and passes everything on, in equal parts, to its neighbours
that are closer to `s`. -/
def FlowTo (n : ℕ) (G : SimpleGraph ℕ) (s : ℕ) (F : ℕ → ℚ) : Prop :=
  ∀ v, G.Reachable s v → F v = 1 + ∑ w ∈ (Finset.range n).filter (fun w => G.Adj v w ∧ G.dist s v + 1 = G.dist s w),
    F w / (((Finset.range n).filter (fun u => G.Adj u w ∧ G.dist s u + 1 = G.dist s w)).card : ℚ)

/-- A set of vertices in which every vertex has at least `q` neighbours. -/
def Core (n : ℕ) (G : SimpleGraph ℕ) (q : ℕ) (S : Finset ℕ) : Prop :=
  ∀ v ∈ S, v < n ∧ q ≤ (S.filter (fun w => G.Adj v w)).card

/-- The subgraph induced by a set of vertices. -/
def within (G : SimpleGraph ℕ) (K : Finset ℕ) : SimpleGraph ℕ where
  Adj v w := G.Adj v w ∧ v ∈ K ∧ w ∈ K
  symm := ⟨fun _ _ h => ⟨h.1.symm, h.2.2, h.2.1⟩⟩
  loopless := ⟨fun _ h => G.loopless.irrefl _ h.1⟩

/-- Everything that can be measured on `e` or read from it is right for the graph `G` on `n` vertices with the node data `data`. -/
structure Shows {E T A : Type} [AdjContainer T A] [AsRefGraph E T A] (n : ℕ) (G : SimpleGraph ℕ) (data : List T) (e : E) : Prop where
  vertexCount : View.vertexCount e = n
  edgeCount : View.edgeCount e = G.edgeSet.ncard
  degree : ∀ v, View.degree e v = if v < n then some {w | G.Adj v w}.ncard else none
  averageDegree : View.averageDegree e = if n = 0 then none else some ((2 * G.edgeSet.ncard : ℚ) / n)
  leafCount : View.leafCount e = {v | v < n ∧ {w | G.Adj v w}.ncard = 1}.ncard
  isConnected : ∃ r, View.isConnected e = .ok r ∧ (r = none ↔ n = 0) ∧
    (r = some true ↔ 0 < n ∧ ∀ v w, v < n → w < n → G.Reachable v w)
  connectedComponents : ∃ r, View.connectedComponents e = .ok r ∧ r.Pairwise (fun a b => b ≤ a) ∧
    (r : Multiset ℕ) = ((Finset.range n).image G.connectedComponentMk).val.map fun c =>
      ((Finset.range n).filter (fun v => G.connectedComponentMk v = c)).card
  diameter : ∃ r, View.diameter e = .ok r ∧ (r = none ↔ n = 0 ∨ ∃ v w, v < n ∧ w < n ∧ ¬ G.Reachable v w) ∧
    ∀ d, r = some d → (∀ v w, v < n → w < n → G.dist v w ≤ d) ∧ ∃ v w, v < n ∧ w < n ∧ G.dist v w = d
  longest : ∀ v, (n ≤ v → View.longestShortestPathFromIndex e v = .ok none) ∧
    (v < n → ∃ d, View.longestShortestPathFromIndex e v = .ok (some d) ∧ (∃ w, G.Reachable v w ∧ G.dist v w = d) ∧
      ∀ w, G.Reachable v w → G.dist v w ≤ d)
  qCore : ∀ q, (q < 2 ∨ n = 0 → View.qCore e q = .ok none) ∧
    (2 ≤ q → 0 < n → ∃ r K, View.qCore e q = .ok (some r) ∧ Core n G q K ∧ (∀ S, Core n G q S → S ⊆ K) ∧
      (∀ v ∈ K, (K.filter (fun w => (within G K).Reachable v w)).card ≤ r) ∧ (K = ∅ → r = 0) ∧
      (K ≠ ∅ → ∃ v ∈ K, (K.filter (fun w => (within G K).Reachable v w)).card = r))
  transitivity : View.transitivity e = .ok
    (((Finset.range n ×ˢ Finset.range n ×ˢ Finset.range n).filter
      (fun t => G.Adj t.1 t.2.1 ∧ G.Adj t.2.1 t.2.2 ∧ t.1 ≠ t.2.2 ∧ G.Adj t.1 t.2.2)).card,
     ((Finset.range n ×ˢ Finset.range n ×ˢ Finset.range n).filter
      (fun t => G.Adj t.1 t.2.1 ∧ G.Adj t.2.1 t.2.2 ∧ t.1 ≠ t.2.2)).card)
  biconnected : ∃ r, View.vertexBiconnectedComponents e false = .ok r ∧ r.length = {S | Block G S}.ncard ∧
    View.vertexBiconnectedComponents e true = .ok (r.filter (fun k => decide (2 < k)))
  vertexLoad : ∃ F : ℕ → ℕ → ℚ, (∀ s, FlowTo n G s (F s)) ∧ ∀ incl, View.vertexLoad e incl = .ok ((List.range n).map fun v =>
    ∑ s ∈ (Finset.range n).filter (fun s => s ≠ v ∧ G.Reachable s v), (F s v - if incl then 0 else 1))
  at_ : ∀ v, View.at_ e v = (match data[v]? with | some t => .ok t | none => .panic)
  contained : View.containedIter e = data ∧ data.length = n
  dfs : ∀ v < n, ∀ fuel > n, ∃ L, View.dfsWithIndex e v fuel = .ok L ∧ View.dfs e v fuel = .ok (L.map (·.2)) ∧ (L.map (·.1)).Nodup ∧
    (∀ w, w ∈ L.map (·.1) ↔ G.Reachable v w) ∧ (L.map (·.1)).head? = some v ∧ (∀ p ∈ L, data[p.1]? = some p.2) ∧
    ∀ L1 x L2, L.map (·.1) = L1 ++ x :: L2 → L1 ≠ [] → ∃ y ∈ L1, G.Adj y x
  bfs : ∀ v < n, ∀ fuel > n, ∃ L, View.bfsIndexDepth e v fuel = .ok L ∧ (L.map (·.1)).Nodup ∧
    (∀ w, w ∈ L.map (·.1) ↔ G.Reachable v w) ∧ (L.map (·.1)).head? = some v ∧
    (∀ p ∈ L, data[p.1]? = some p.2.1 ∧ p.2.2 = G.dist v p.1) ∧ (L.map (·.2.2)).Pairwise (· ≤ ·)

end Verif
