# Formal model of `net_ensembles` in Lean 4

This directory holds a Lean 4 model of the Rust crate `net_ensembles` (source in `/repo`, read as text,
never built) and proofs of the properties listed in `properties.jsonl`.  `MANIFEST.json` maps every
property to the theorems that prove it.

## Layout

* `lean/Verif/Model/*.lean`  – the model: one Lean definition per Rust function, each with a comment citing
  file and lines in `/repo` and naming every simplification.
* `lean/Verif/Spec/*.lean`   – the specification vocabulary: Mathlib's `SimpleGraph`, reachability, distance,
  finite sets of unordered pairs, ...  No definition of the model's helpers is used to say what is right.
* `lean/Verif/Lemmas/*.lean` – helper lemmas (invariants, simulation relations).
* `lean/Verif/Props/*.lean`  – the property theorems, each followed by an `example` showing that a concrete
  non-trivial case meets the hypotheses.
* `tools/golden.py` – executes the model on the crate's own recorded results and unit tests (see "Trusted base").
* `seeded/LOG.jsonl` – record of the deliberately broken models the theorems were tested against.
  Each line is one rebuild of the edited model.  `first_lemmas_failed` holds the declarations at which the build reported errors (at most
  twelve).  `theorems_failed` is derived from them: the property theorems whose proofs use one of these declarations, by the recorded
  dependencies of the unedited development.  Modules after a failed one are not built, so these theorems were not seen to fail one by
  one, and a theorem that depends on a failed lemma may have another proof.  An empty list with an entry in `theorems_tightened` means that
  the edit survived at first.  Lines marked INVALID ATTEMPT are edits that did not compile; they tested nothing and were repeated.

## Modelling conventions

* **Results.** `Res α = ok a | panic | diverge`.  `panic` is a Rust panic in a *debug* build (index out of
  range, failed `assert!`/`debug_assert!`, `unwrap` of `None`/`Err`, `usize` underflow, `gen_range` on an
  empty range).  `diverge` is "the loop bound given to the model was used up".  Loops that Rust runs without
  a bound take a `fuel` argument; theorems about them hold for every fuel, termination theorems exhibit a
  sufficient fuel, non-termination theorems show `diverge` for every fuel.
* **Mutation.** `&mut self` methods return the new value together with the Rust return value, also on
  error (so that "nothing changed on error" is a statement and not a convention).
* **Generic containers.** The trait `AdjContainer<T>` is a Lean class with the same operations; the four
  containers of the crate are instances.  `GenericGraph<T, A>` is generic over the class like in Rust.
  What the generic theorems need from a container is collected in `LawfulAdj` and is *proved* for all four.
* **Numbers.** `usize` is `Nat` without an upper bound; underflow *is* modelled as panic.  Most numbers are bounded by a memory size.
  Where this does not exclude an overflow (products of the constructors, `neighbor_distance` of `WS::new`, the `i32` ids of
  `suggest_connections`), C106 says up to which arguments the unbounded model is right and what happens beyond.  The counters of the
  measures (`transitivity`, `closeness_centrality`) are not checked for overflow in the model: they grow by at most the number of vertices
  per loop iteration, so reaching 2^64 would need more iterations than a program can run; this is an argument, not a theorem.  `f64` probabilities are rationals, an `rng.gen::<f64>()` is `u/2^53`
  with `u < 2^53`, and a sample of `Uniform<f64>` (only in `DogEnsemble`) has one bit less (`uniformQ`), as in rand 0.8; other floating point results are computed in `ℚ` (rounding is modelled for `vertex_load`, C72, and for the quotients of counts, C79).
* **Randomness.** A generator is any instance of a class `Rng R` (state type `R`, arbitrary transition
  functions) with only the documented contract: `gen_range(0..h)` returns a value `< h`, `gen::<f64>()` is
  `< 1`, `shuffle` returns a permutation, etc.  All theorems hold for every instance.
* **Vectors** are lists; `swap_remove`, `push`, `position`, indexing are defined as in `std`.
  A stack (`Vec` used with push/pop) is a list whose head is the top.

## Trusted base

* Lean's kernel.  Axioms used by the theorems: at most `propext`, `Classical.choice`, `Quot.sound`
  (see the `#print axioms` list in `Verif/Audit.lean`).  No own axioms, no `sorry`, no `native_decide`,
  no `bv_decide`.
* The faithfulness of the definitions in `Verif/Model` to the Rust text (by reading; line citations).  As a check of this step,
  `tools/golden.py` executes the definitions: with the generator `Pcg64` (`Verif/Model/Pcg64.lean`, an instance of `Rng`) the model
  reproduces all eight recorded files `TestData/unchaning_*.json` of the crate (adjacency lists in their order, counters, the lists of
  `ErEnsembleM`, the final state of the generator), the three dot files, and the expected values of the deterministic unit tests,
  `vertex_load` with rounded additions in all digits.  These are tests; no theorem depends on them.
* The contracts of external code: `std::Vec`, `VecDeque`, `HashMap`, `HashSet`, sorting, the `rand` crate
  (as stated in the class `Rng`).

## Not modelled

* the text formats behind serde (`Model/Serde.lean` models what the derive macros generate, C92; `serde_json` itself, in particular
  whether it parses the digits of an `f64` exactly without its feature `float_roundtrip`, is external), `Display`, timing, memory (capacity, allocation failure), thread safety.
* the default `size_hint` of `DfsMut`; the `size_hint`s of the neighbour iterators (all of them `(len, Some(len))`, and
  `len` is modelled, C52).
* the `sampling` crate (re-exported; its default methods such as `m_steps` are represented by plain recursion over
  single steps, and for C97 to C99 its Metropolis trials by the exact probability of acceptance, `Model/Metropolis.lean`).
* In a release build (C73): everything after undefined behaviour; aliasing finer than "no `&mut` to a vertex while another reference
  to it is in use" (Stacked Borrows, Tree Borrows); wrapped `usize` arithmetic where the debug build would have stopped, apart
  from the places named in `Model/Release.lean`.
* Floating point rounding (except in `vertex_load`, C72, and in the quotients and sums of C79 and C80).
* Methods that only hand a call on to the inner graph (`AsRef`-based delegations of the ensembles), apart from those listed in
  `Model/View.lean`.

## Plan per property

| id | modelled | proof idea |
|----|----------|-----------|
| C01 | `addEdge`, `removeEdge`, containers | simulation with `Finset (Sym2 ℕ)` by induction over the history |
| C02 | all mutators | invariant `WF`, one preservation theorem per operation |
| C03 | `addEdge`, `removeEdge` | case analysis, equality of states |
| C04 | same | relation on adjacency from C01 |
| C05 | data vectors | frame theorem per operation |
| C06 | `clearEdges` | uses degree sum = 2·edge_count |
| C07 | `initRing` | loop invariant on the set of inserted pairs |
| C08 | `completeGraph` | direct |
| C09 | `sortAdj`, `shuffleAdj` | permutation laws of the containers |
| C10 | `Dfs`, `DfsMut`, `DfsWithIndex` step functions | generic search invariant over any vertex type, simulation |
| C11 | `Bfs` | layer invariant, distances as `SimpleGraph.dist` |
| C12 | `Bfs.reuse` | state equality |
| C13 | `BfsFiltered`, `is_handled` | C11 on the induced subgraph; the marks are the vertices met, and the rejected ones |
| C14 | `BfsFiltered.reuse` | negation by concrete witnesses, `_partial` for the accept-all filter |
| C15 | `isConnected` | from C10 |
| C16, C17 | `connectedComponentsIds`, `connectedComponents` | loop invariant over start vertices |
| C18, C19 | `diameter`, `longestShortestPath` | from C11 |
| C20 | `qCore` | peeling invariant: every q-dense set survives; fixpoint is q-dense; then component search |
| C21 | `vertexBiconnectedComponents` (the consumed graph, both stacks, low points and depth numbers) | negation by witness; for all graphs: the search path is cut into frames, each a biconnected set; back edges merge frames, finishing a frame closes it. From this: number of entries = number of blocks, edge partition, order, the two variants; exact for one block and for forests. Adding a part with k end points joins at most k-1 connected components, which bounds the sum of the entries from below; if the bound is met no path outside of a part joins two of its vertices, so every block lies in one part: the result is right exactly if the sum is (`C21_check`, a test the caller can do) |
| C22 | `vertexLoad` over ℚ; a division by zero is a panic and proved unreachable | invariant over BFS layers: for every source the weights form the unique flow in which each vertex passes its weight on in equal shares to the neighbours closer to the source; where shortest paths are unique (in particular in forests) the load of a vertex is the number of ordered pairs whose shortest path runs through it |
| C23 | `closenessCentrality` over ℚ | from C11 |
| C24 | `transitivity` | counting |
| C25 | `clonedSubgraph` | index map is the order isomorphism |
| C26 | `degree*`, `leafCount`, `degreeHistogram` | direct |
| C27 | `cloneTopology`, `fromGeneric`, `resetFromGraph` | direct |
| C28 | `suggestConnections`, `ErC.makeConnected` | from C16; induction over the chain of representatives |
| C29 | `drawTwoFromRange`, `drawRemaining`, `drawEdge` | explicit inverse |
| C30, C31 | `ErM` | invariant + exact inverse |
| C32, C33 | `ErC` | single pair update, counting of draws |
| C34 | `ErM` | counting of draws |
| C35–C39 | `Sw` containers and ensemble | invariant `SwInv`; termination measure = root edges at root |
| C40–C43 | `ConfigurationModel` | half-edge multiset invariant; case analysis of undo |
| C44 | `BA` | loop invariants with weights = degrees |
| C45, C46 | `WS` | loop invariant; non-termination by invariant "only the forbidden pair is free" |
| C47, C48 | `Spacial`, `Dog`, Latin hypercube | as C32; permutation invariant; the positions of a new `DogEnsemble` as a function of the draws |
| C49–C51 | `DualGraph` | relation refinement; generic search over `ℕ ⊕ ℕ` |
| C52 | the iterators of iter.rs and SwEdgeIterNeighbors as state machines (Model/Iter.lean); `slice::Iter`/`IterMut` and the default methods of `Iterator` are modelled by their documented behaviour | simulation by a plain list (`listStep`), closed under composition with an index lookup; induction over the history of calls |
| C59 | dual neighbour iterators | list of neighbours, frame of the written data |
| C53 | dot writers | list of lines, each edge once |
| C54 | generic lemma + C31, C32, C37, C43, C47 | induction over the chain |
| C55 | `SwEns.mStep` over scripts (position, coin, target) | the draws are rooted edge times proposal; resetting is moving to the origin; a move is undone by a move and the two counts are the two factors in which the product weights differ; irreducible: placements of rooted edges are connected by single moves (Lemmas/SwReach.lean: if all homes are blocked, one edge steps aside), needs n ≥ 6 (for n = 5 the network is frozen, C36) |
| C56 | `Config.mStep` over scripts | irreducible: switches connect all loopless edge sets with equal degrees (Lemmas/Switch.lean, induction over the vertices); detailed balance: the weight of a transition is the number of ordered pairs of oriented edges whose exchange gives the target, an exchange is undone by an exchange; the weights of all outcomes add up to the number of rounds. A round that draws the same vertex twice is repeated by the code, so the probability is the weight of one round divided by the number of rounds that end the loop |
| C57 | `Spacial.mStep` over scripts | counting of draws, as C33; irreducible: force one pair after the other |
| C58 | `Dog.randomize`, `Dog.findPartner`, `Dog.new` | case analysis; search needs a vertex with positive degree |
| C60 | `randomize` of `ErM`, `ErC`, `Spacial` over all permutations / all tuples of coin throws | counting the equally likely outcomes: the throws of a pair are independent; the shuffled prefix hits every subset equally often |
| C61 | first attempt of `Config.randomize` over all permutations of the halves | false: exact count for the degrees 2, 2, 2, 1, 1 by reduction to counting arrangements (evaluated in the kernel); proved instead: invariance under exchanging vertices of equal degree |
| C62 | `size_hint`s of the searches | one lemma for all iterators: the lower bound falls by at most one per item and is zero at the end, the number of items is at most the number of vertices |
| C63 | `SwEnsemble::randomize`, `new` as functions of the draws | the run is a sequence `Proposals` on the set of (root, original target, target) triples, one for each edge of the ring (`Propose`, defined without the model) |
| C64 | `BAensemble::randomize` for an arbitrary generator | inversion of the run into the relation `GrowsBy` (ends of edges, first `m` different owners), weights = degrees as loop invariant |
| C65 | `WSEnsemble::randomize` and `new` for an arbitrary generator | inversion of the run into the relation `Rewires` (coins for the edges at their origin, removal, fresh pairs) over the invariant `J` |
| C66 | `lawAfter` (`lawAfterW` for the configuration model): the probability of an observable after t steps, defined directly from the runs of `m_step` with fresh uniform draws in every step | lumping to a finite chain on the observable (`Lemmas/Lump.lean`), a convergence theorem for finite chains with detailed balance proved from scratch by contraction of oscillation (`Lemmas/Markov.lean`), then balance and connectivity from C34, C54–C56 |
| C67 | histories of calls (`ErCCall`, `ErMCall`, `runCalls` in `Model/Delegate.lean`) on two states | simulation relation `Alike` (same vertices, edges, parameters, generator) kept by every call, `Res.Agree` for the outcomes; invariants of the other ensembles directly |
| C68 | the measures of C15–C28 on two graphs of possibly different kinds with the same vertex count and edge set | equality of results from the characterisations by `toSimple` (no new induction); harmless calls from C09, C27; a concrete counterexample for the excluded `vertex_biconnected_components` |
| C69 | `randomize` of all ensembles from two states | `clear_edges` is a function of ids and data of the containers (`clearEdges_formula`), the rest of `randomize` sees nothing else; for `SwEnsemble` a pair of networks and the run in which all throws fail, for every generator |
| C70 | the looping functions run on `Stream`, a generator reading an infinite tape; `uniformTape`, the product of the uniform distributions on [0,1) (Mathlib's `Measure.infinitePi`) | almost every tape contains every finite pattern of draws infinitely often at aligned positions (`ae_fair`, from independence); on such a tape the loop meets a fitting pattern within finitely many rounds (`Eventually`); converse directions from the divergence theorems C44, C46, C58 and a pattern of positive probability that blocks WS with n = 2d + 1 |
| C71 | `hypotDist`, `spacialFormula`, `dogFormula` over ℝ (`Model/Formula.lean`, the formulas without rounding); `randomize` on a tape of independent uniform numbers; the computed value enters through the parameter `law` with an assumed distance ε from the formula | calculus with Mathlib; every throw reads its own number of the tape, so the edges are independent (`tape_indep`); the number of values of `gen::<f64>()` (`Uniform<f64>`) below a threshold differs from 2^53 (2^52) times the threshold by at most one |
| C72 | `vertexLoadR` (`Model/LoadRound.lean`): `vertexLoad` with a rounding function after every addition, subtraction and division; the search is the same | the run with rounding follows the exact run through a relation that every operation preserves (`Follow`); with `y(1-u)^k ≤ x ≤ y(1+u)^k` this bounds the relative error, with equality on natural numbers it shows exactness; flows lie between 1 and n (`flow_bounds`) |
| C73 | `Model/Release.lean`: an outcome type with undefined behaviour; the functions that contain `unsafe` accesses, `debug_assert!` or `unreachable_unchecked`, and everything in the ensembles that calls them, as they run in a release build; live references are tracked by vertex number; `Client`: arbitrary safe code over the editing functions | relation "the debug build panics or both outcomes agree", preserved by sequencing and loops; where a debug build is known not to panic (C32, C36, C40-C47) the outcomes agree; searches: the waiting and the handed out vertices are pairwise different and marked (`RelMarked`), on any graph; iterators: the items still to come and the live ones form a duplicate-free list; exact conditions by case analysis |
| C74 | the models of C32-C47 and C73; `staleRun`: histories of `m_step`, `randomize` and `undo_step` with any step value returned so far | invariants over the histories (`staleRun_ok`); ErEnsembleM: exact condition for the lists to stay in step, by counting the occurrences of the two edges; SwEnsemble: case analysis over who owns the edge; the failing histories are constructed, for ErEnsembleM for every network with two edges and a free pair |
| C75 | all public calls that change an ensemble as one relation per ensemble (`ErC.Call`, `ErM.Call`, `SwHist`, `Config.Call`, `Ws.Call`, `Ba.Call`, `Spacial.Call`, and `Dog.Call` in `Props/DogHist.lean`); `Hist` adds writes of node data and records them; mutable iterators are covered by `C75_iterators_write` (a history of iterator calls is a list of writes) | for every function a lemma about any arguments "if it returns" (`addEdge_ret`, `Config.undo_ret`, ...), an invariant per ensemble, induction over the history (`Hist.keeps`) |
| C76 | the models of C16-C21 and C28 | from the separate specifications of the functions, by graph theory: components counted with `compCount`, a forest loses a component per edge, a cycle is a 2-core, distances are bounded by the component size |
| C77 | `add_edge`, `remove_edge` and the models of C16-C20 | `OneMore g g' i j` (one edge more) for both directions; components by merging, distances and cores by monotonicity; factor two for the diameter: the vertices whose shortest paths from one end of a longest path cross the edge and those whose shortest paths from the other end do are disjoint, so there is a vertex in neither, or an edge between them; closeness: sums of distances, over a bridge by folding walks |
| C78 | the models of `init_ring`, `complete_graph` and of C15-C26 | distances on the ring by walking `d` places at a time and by the triangle inequality of the circular distance; the complete graph is the ring with `d = n/2`; triangles counted in a window of `2d+1` places; regular connected graphs for `q_core` |
| C79 | the final quotients of `average_degree`, `closeness_centrality`, `transitivity`, `frac_nodes_wlre`, `frac_long_ranging_edges` with both conversions and the division rounded (`Model/Float.lean`, `FVal` with `inf` and `nan`); no exponent limits, because counts are below `2^64` | rounding specified as "a nearest number with `t` significant bits, any rule for ties" (`Nearest`, shown to exist); from this alone monotonicity, exactness on representable numbers and relative error `2^-t` |
| C80 | `ErC.randomize`, `ErC.new`, `Spacial.randomize` on a tape of independent uniform numbers; the probability `c/(n-1)` with an error ε, in particular with one rounding | every pair reads its own number of the tape, so the edge events are independent; mean and variance of the number of events that happen (`howMany`), Chebyshev's inequality from Mathlib |
| C81 | `Ws.randomize`, `Ws.new` on a tape of independent uniform numbers | the functions read the tape only through draws (`Adaptive`), so what one vertex leaves on the tape is as good as a fresh tape (`chance_bind`, the strong Markov property); induction over the vertices with the weight of a set of edges still at home as a product over the edges; `ProductLaw` for independence, binomial law, mean and variance |
| C82 | getters and predicates on step values (`Model/Params.lean`), lists of calls `SwCall`, `ErCCall`, `ErMCall` | induction over the list of calls with `lastSet` as specification; the step theorems C31, C32, C36 for the reports |
| C83 | `Config.randomize` on the uniform tape | specification `joined`, `ways`, `allWays` (counting orders of the half edges, no model function); each restart is an independent attempt with a shuffled list (`UntilS`, `chance_untilS`: geometric series), the model's pairing equals `joined` (`addMultiple_pairUp`) |
| C84 | `Ba.randomize` on the uniform tape | specification `picks`, `degIn`, `grownLaw` (recursion on the new vertices, sums over sets of partners); rejected draws by `chance_untilS`, induction over the partners and the order, sum over the shuffles |
| C85 | blanket implementations of the measure and iterator traits (`View.*`), `AsRef` of the seven ensembles | specification `Shows n G data e` (abstract graph and data only); well-formedness after any history (C75) composed with the measure theorems (C15–C26, C32, …) |
| C86 | all dot functions, `dot_options!`, the constants | specification: a reader for the dot language (`Spec/DotRead.lean`, two automata, after the grammar of Graphviz); lemmas that the automata run through the written pieces; digits of a number determine it |
| C87 | `dot_from_indices` of `SpacialEnsemble` and `DogEnsemble`, `{:.2}` (`fmt2`) on rationals, multiplication by 100 exact | the reader of C86 with `readPos` (decimal numbers); digits of a rounded number; positions after any history from C75, for `DogEnsemble` from `Props/DogHist.lean` |
| C88 | as C81 | the search for a free pair is drawing until it fits (`chance_untilS`): uniform; with every vertex the removed edges are put back with probability 1/(N(N+1)...), N the number of pairs off the ring, because places off the ring never are origins; recursion over the vertices (`placedLaw`), from which positivity for every graph |
| C89 | as C54–C56 and C66, on `Stream` (an infinite tape of independent uniform numbers, `uniformTape`) | `StepLaw` (Lemmas/ChainLaw): every ensemble's `mStep` is factored into reading draws and a deterministic function of them; the law of `mSteps` on the tape is then `lawAfter` by induction on the number of steps (`chance_bind`), the search of the configuration model for two different vertices by `chance_untilS`; convergence from C66 |
| C90 | as C89; `sumSteps` is the program of the user, which adds up the values of a function of the edges after every step | `Steady.weak_law` (Lemmas/ChainMean): the second moment of the sum of the deviations is at most N (b² + 2 b (t₀ b + N ε)) if the means of the deviations are below ε after t₀ steps (C66), then Chebyshev's inequality; `StepLaw.withSum` carries the chain with the running sum over to the tape; `Mixing.strong_law` (Lemmas/ChainStrong): a corrector function turns the sum into one with drift below η, the mean of the square of its excess over kη grows linearly, so an average over N steps is off by δ with probability at most C/N, Borel-Cantelli along the squares, monotonicity in between |
| C91 | `Dog.randomize` on the uniform tape; the Poisson sampler of `rand_distr` is a parameter, of which only the distribution `q` of its values enters (`Counts`) | specification `nearProb`, `partnerWeight`, `partnerProb`, `linksLaw`, `farLaw`, `dogLaw` (recursions over edges and vertices, no model function); the rejected attempts of the partner search are a geometric series (`until_try_chance`), induction over the partners and the special vertices, sum over the shuffles; rounding of the throws by counting (`card_frac`) |
| C92 | the derived `Serialize` and `Deserialize` (`Model/Serde.lean`): one writer and one reader per type into the data model of serde, with the names of the fields and variants; JSON as the map that turns NaN into `null` | composition along the types; positions by induction over the vertices and the histories of C75; field order by permutation invariance of the lookup. `tools/golden.py` compares the written values with the recorded files |
| C93 | the chains of C66 and C89 (`ErC`, `Spacial`, `ErM`); nothing new is modelled | the influence of one pair on the mean after k steps shrinks by 1 - 1/N per step (toggling), the influence of one exchange by 1 - (N - 2)/(m (N - m)) (both by comparing two copies with the same draws); if the first state makes a difference of at most B after k steps, the mean is within B of the limit of C66; second moments of sums as for C90 with a geometric bound. No rates for `SwEnsemble`, `SmallWorldWS` and `ConfigurationModel`: no simple bound is known for their chains |
| C94 | the `randomize` functions of C65, C69, C83, C84 and C91 called again and again (`samples`); nothing new is modelled | a call consumes a prefix of the tape and its law does not depend on the state before (`Resample`), so the probabilities multiply; from this independent random variables (`Sampled`), and the strong law, Chebyshev's inequality and the central limit theorem of Mathlib. Law of `ErEnsembleM` by counting the orders with given first elements. `SmallWorldWS`: the common law is that of a single call, not given in closed form. `SwEnsemble` is excluded (Finding 16) |
| C95 | `randomize` of `ErEnsembleC`, `ErEnsembleM`, `SpacialEnsemble`, then `degree`, `edge_count`, `transitivity`; nothing new is modelled | the laws of the edge set of C94 summed over all edge sets with `d` elements in a given set (`sum_split`: such a set is a part of the given pairs and a part of the rest); degrees are the pairs with a vertex. Triangles: linearity of the expectation, and the strong law of C94; the numerator of `transitivity` is six times the number of triangles |
| C96 | the loops of C46, C70, C83 and C91 with their number of rounds (`fuel`); nothing new is modelled | the loop returns within `n` rounds iff one of the first `n` attempts fits (`UntilN`, by induction on `n`); the attempts are independent with the same success probability, so the number of rounds is geometric; its mean from the tail sums. Success probabilities by counting (halves of the same vertex, free pairs). The whole `SmallWorldWS::randomize`: lower bounds multiply along the program (`AtLeast`), the exponent counts the edges still at their origin. Barabási–Albert: the number of different vertices drawn is followed draw by draw; the mean from a potential that falls by at least the weight outside the found vertices, which is bounded because `k` vertices have at most `e + k(k-1)/2` edge ends |
| C97 | `Model/Metropolis.lean`: `acceptance`, `meanSteps` (k steps with their return values), `lawAfterTrials` (trials with acceptance or `undoStepsQuiet`). The crate `sampling` is external; the decision is modelled by its exact probability, the `m_step` and `undo_step_quiet` are those of the other claims | undoing the steps of a trial in reverse order restores the observable and a valid state (`Markov.Undo`, from the undo lemmas of C31, C32, C37, C43, C47), so the chain of trials on the observable is the chain of k steps with rejection (`reject`); this keeps detailed balance with `π·w`, and its powers are bounded below by a constant times those of the original chain, so the convergence theorem of C66 applies (`Ergodic.trials`). Weights with zeros: the support is closed (`pow_closed`); a state reached from all others exists for large k, or by adding all edges |
| C98 | as for C97; `isConnected` is the function of C15. `connectedWeight` (in the claim) sets the weight to zero unless the edge set is connected, and `isConnected_iff_on` ties this to the return value of `is_connected` | the law is 0 where the weight is 0 (`Ergodic.trials_zero`); for the limit a state that is reached from every connected one through connected ones is needed: the complete network if edges can be added, and for a fixed number of edges `Lemmas/Exchange.lean` shows that a connected edge set can be turned into any other connected one by exchanging one edge at a time without ever being disconnected (an edge on a cycle that is not wanted is replaced by a wanted one, which exists because a tree has no cycle to spare). `SwEnsemble` (`Lemmas/SwConnected.lean`, `Props/ConnectedSw.lean`): from every connected network the ring is reached through connected ones, by bringing the edges back to their original targets; if this would cut the network, an edge that is away from home and on a cycle is first moved across the cut. Such an edge exists because the ring stays connected without any one of its edges (`bridges_le`). `ConfigurationModel` (`Lemmas/SwitchConnected.lean`, `Props/ConnectedConfig.lean`): two connected networks with the same degrees are joined by switches of two edges through connected networks (Taylor's theorem), by induction on the vertices: a vertex of smallest degree is chosen, the rest is made connected by switching an edge on a cycle with an edge of another part (a cycle exists because a forest has too few edges, `forest_le`), the neighbours of the vertex are made equal in both networks with switches that keep the rest connected, and the rest follows by induction |
| C99 | as for C97 and C98; `meanTrials` in `Model/Metropolis.lean` is the mean over the draws of all trials of a function of the list of the networks after the single trials | the list of networks follows the chain with rejection (`meanTrials_eq`), so its mean is an iterated sum over that chain's kernel; the powers of the kernel converge from all states of positive weight at the same rate (C97, C98), and the weak law of large numbers for such chains (`weak_law` in `Lemmas/ChainMean.lean`, by Chebyshev's inequality with a second moment that grows linearly in the number of trials) gives the claim (`LumpedW.trials_average`). The flat histogram is the case of an indicator |
| C100 | the law of C84 (`picks`, `grownLaw`); nothing new is modelled | relabelling the vertices commutes with the recursions (`grownLaw_relabel`), and the orders of the new vertices are permuted among themselves; the probability to be passed over is compared by induction on the number of picks, with an exchange of the two vertices (`passed_exchange`, `passed_le`); means of functions of the degrees depend on the degrees at the start only (`growMean_deg`), and since a degree grows by at most one while a vertex is attached, a lead is kept until the degrees are equal, where the two vertices can be exchanged (`degMean_le`); the means for m = 1 by a recursion over the order (`degMean_one`, `degMean_total`) |
| C101 | `randomize` and the chains of C66 and C93 (`ErC`, `Spacial`, `ErM`) on one stream; nothing new is modelled | `randomize` consumes a bounded prefix of the stream with the law of the ensemble (C65, C66 `resample`), the rest of the stream is independent of it, so the probability of two looks is the weight of the first times the probability of the second after t steps (`Resample.two_looks`); detailed balance summed over the t steps gives reversibility and stationarity (`Looks.reversible`, `Looks.stationary`); a sum over the edges is up to a constant an eigenvector of one step (`toggle_sum_mean`, `ErM.sum_rate`), which gives the covariances (`Looks.autocovariance`). Not for `ConfigurationModel` (its `randomize` is biased, C83) nor `SwEnsemble` (its `randomize` starts from the present network and does not draw from the stationary law, finding 16); `SmallWorldWS` and `BAensemble` have no Markov steps |
| C102 | the measures of C15 to C24 and the growth of C44; nothing new is modelled | acyclicity from the counts (C76); the four point inequality for distances in a forest by induction, replacing the vertex farthest from a root by its parent (`Forest.four_point`), gives the double sweep and the eccentricities; an edge of a forest is a bridge (`Forest.across`), which gives the components after a removal and the branches for `vertex_load` (with C22) |
| C103 | two graphs related by `Renamed π` (equal vertex counts, π permutes the indices, edges are mapped); container types may differ | graph isomorphism from π; specification of every measure (C15, C17–C24, C26) transported along it; blocks transported for the length of `vertex_biconnected_components`; counterexample for its entries (`C103_biconnected_violation`) |
| C104 | `ErC`, `Spacial` (`randomize`, `mStep`, `mSteps`, `new`), any generator; `Stream` for the probabilities | the throws depend monotonically on the probabilities and leave the same generator; steps of both ensembles abstracted to "draw a pair, throw its coin" (`PairSteps`), induction over the steps for two runs; `drawnPairs` as independent record of the pairs; probabilities by inclusion of the events on the tape |
| C105 | the comparison `gen::<f64>() <= p` for all `f64` values (`Model/Special.lean`) | case analysis on the value: each decides like a rational number, so the theorems for rational probabilities apply; constant throws put into the descriptions of `randomize` and `m_step` (C32, C45, C47, C39) |
| C106 | the constructors with the arithmetic of `usize` in debug and release builds (`Model/Build.lean`) | `init_ring` on too few vertices: invariant of the first row (`RingSmall.lean`); rings of distance `d >= 2` under `randomize` and `m_step` of a release build: every vertex keeps its `d` root edges (`SwOwned`); the rest by comparison with the unbounded model; `suggest_connections` by the invariant that the id is the number of suggestions |
| C107 | `DualGraph` with valid members and arbitrary cross lists, its searches, `is_connected`, `diameter` (`Spec/DualAny.lean`: the directed relation of the stored lists, least numbers of steps) | the search invariant for a directed relation, kept by a step on a sound vertex, while a step on any other vertex panics; an iterator run to its end therefore either returns or met an unsound reachable vertex |
| C108 | `randomize` and the chains of C101; `randomAverage` in `Spec/Average.lean` is the program of the user, `HasMeanVar` what is claimed of it (events measurable, finitely many values, total probability 1, mean, variance) | `randomize` and the N steps on one stream give the law of the sum (`Resample.then_sum`, as for C101); it depends only on the first network (`Looks.sum_law`); mean and second moment by recursion over the steps, where the deviation of a sum over the edges shrinks by 1 - 1/t per step (C101) and the ensemble is stationary (`Looks.sum_mean_sq`, `Looks.devSq_mean`); Chebyshev's inequality (`HasMeanVar.near`); `plainAverage` (no `randomize`) by the same recursion from one network (`Looks.plain_program`). Not for the other ensembles, for the reasons given for C101 |
| C109 | the models of C15, C16 and C60; Gilbert's recursion and the recursion for the number of connected graphs in `Spec/Gilbert.lean` | edge sets weighted by `a ^ edges * b ^ missing` over any commutative ring, sorted by the component `K` of one vertex: a bijection with (edge sets connecting `K`) × (edge sets on the rest); hence the weight of the connected ones depends on the number of vertices only and obeys the recursion. `a = p`, `b = 1 - p` gives ErEnsembleC, the polynomials `a = X`, `b = 1` give the counts for ErEnsembleM; independence of repeated calls from C94 |
| C110 | `Model/Access.lean`: `container_checked`, `at_checked`, `get_contained_mut`, `get_contained_unchecked(_mut)` (outcome `Rel`, undefined behaviour out of range), `contained_iter_mut` run to the end, `FromIterator`, the trait `Contained` of the five ensembles; a handed out `&mut T` is the assignment made through it | case split on the index; `WF` carried over by the frame lemma since writing data keeps neighbours and ids |
| C111 | `Spec/Asked.lean`: `Recorder R`, a generator that answers like `R` and writes down the requests; `times`, a call made k times. A request of `gen_range` counts once, although `rand` may draw several words for it | the functions are followed through the monad; the loops over the pairs by `throws`, the run by induction with the fact that `randomize` forgets the network (C69); configuration model, Barabási-Albert and Watts-Strogatz by induction on the rounds of their loops |
| C112 | `Ba` of C44 and `qCore`, `connectedComponents` of C17/C20; nothing new is modelled | `Grows` (C44) is followed backwards: the vertex attached last has m neighbours, so it is in no set with more, and the rest is the growth before it; up to m the set of all vertices qualifies and is connected; for m = 1 the last vertex is mapped to its neighbour, so paths through it can be shortened |
| C113 | `SwValid` (C35), `qCore`, `connectedComponents`; nothing new is modelled | each of the k vertices of a component is the root of two edges within it, and no edge has two roots, so 4k ordered pairs of neighbours fit into k(k-1); where all degrees are at least q the set of all vertices is the core |
| C114 | `connectedComponents`, `isConnected`, `diameter`, the histories of C75; nothing new is modelled | the degrees of a component of k vertices are at most k-1, and the sum of k(k-1) is largest for one large component; two vertices without an edge and with large degrees have a common neighbour |
| C115 | `q_core`, the small-world invariant of C35 | the piece of the core that is counted is closed, so that its vertices have `q` neighbours within it; in a small-world network the degrees within a set are twice the roots within it, at most two for each vertex and exactly two where no edge leaves the set |
| C116 | `Ba.randomize`, `diameter`, `longestShortestPathFromIndex`, `transitivity`; nothing new is modelled | induction over the growth relation of C44: a walk through a vertex with one neighbour is folded onto that neighbour; a new vertex is one step away from an old one; a triangle is a set in which everyone has two neighbours, so that with `m = 1` it contains no new vertex |
| C117 | `vertexBiconnectedComponents`, `Ba.randomize`, `Ba.new`; nothing new is modelled | one entry equal to the vertex count means one biconnected component (C21), which is then everything; a vertex attached to two vertices of a biconnected set extends it; induction over the growth |
| C118 | `vertexLoad` over ℚ; nothing new is modelled | the flow through v (C22) is 1 exactly if no neighbour is farther from the source, and at most the number of vertices that are at least as far; two non-adjacent neighbours are a source and a farther vertex; the flow through a whole layer bounds the load, with equality only for stars; the flow that enters a set which can only be left through v is its size |

## Ensembles: what the models abstract

* **ErM, ErC, Sw, Config, BA, WS**: every function of the ensemble is modelled; `ErEnsembleM::all_edges`,
  the half-edge vector, the weights vector are explicit state.
* **SpacialEnsemble / DogEnsemble**: positions are optional rationals (`None` is NaN).  The edge probability as
  a function of two positions is an arbitrary parameter `law` (it contains `hypot`, `powf`, `exp_m1`), so the
  theorems hold for every such function, in particular for the rounded one of the code.  The Poisson sampler is
  an arbitrary function of the generator state.
* **Counting theorems** (C33, C34, C57, ...) count scripts, i.e. tuples of raw draws, all of which are equally
  likely for an ideal generator.

## Dual graphs: what the model abstracts

* Both adjacency kinds (`Adj`, `AdjSingle`) are instances of a class like `AdjTrait`; the theorems about searches hold for
  every instance.  `DualGraph::WF` asks that the two lists of cross edges are inverse to each other; it is proved to hold
  after `new` and to be kept by `add_edge` and by every edit of the inner graphs.  Replacing an inner graph by one with a
  different number of vertices through `graph_1_mut` breaks it (the crate does not forbid this).  The searches, `is_connected`
  and `diameter` are characterised for such graphs as well (C107), and so is the undefined behaviour of
  `graph_1_contained_iter_neighbors_in_other_graph_mut` (C73); the other accessors of data are only treated under `WF`.
* The mutable neighbour iterators are modelled run to their end, with an arbitrary function written through each reference.

## Findings: where code and documentation disagree

Each is a theorem of the development unless marked otherwise.

1. `BfsFiltered::reuse` resets all `handled` marks after evaluating the filter, so only the new start is filtered and the rest of
   the search is unfiltered; for `index == vertex_count` it panics instead of returning `Err` (C14).
2. `q_core`: the documentation's "biggest possible set" is not what is returned; the theorem states what is (C20).
3. `SwEnsemble::new_with_distance` returns only for distance 2 (or `n = 0`), `SwEnsemble::new` only for `n = 0`
   or `n >= 5`; for `n = 5` no edge can ever be rewired (C39).
4. Watts-Strogatz: `n = 2d + 1` passes the constructor's check but with a coin that always succeeds `randomize`
   never returns, and with any other coin of probability `p >= 0` it hangs with positive probability (C70); the coin is thrown twice per ring edge, contrary to the documentation (C45, C46).
5. `ConfigurationModel` accepts non-graphical degree vectors such as `[2,2,0,0]` and then never returns; an odd
   degree sum never returns when not checked; `m_step` panics without edges (C40-C42).  The variant documented
   as "newly added edges" holds the removed ones (observed by reading).
6. Underflow panics: `complete_graph(0)`, `ErEnsembleM::new(0, ..)`, `ErEnsembleC::new(0, ..)`,
   closeness centrality of the empty graph.  `ErEnsembleM::m_step` panics exactly for `m = 0` and `m = max`.
7. A probability of zero still succeeds on the draw `0.0` because the comparison is `<=` (C33); a *negative*
   probability never does, although `edge_probability` reports both as zero (C47).
8. BA never returns iff `m` exceeds the number of attachable source vertices (C44).
9. `DogEnsemble::randomize` panics for `n = 0`, `lambda = 0` or too negative `tau`, and never returns if no vertex
   has a short edge while a long-range edge is demanded (C58).
10. `LatinHypercubeSampling2D` overrides `ExactSizeIterator::len` but keeps the default `size_hint` `(0, None)`
    (observed by reading).
11. `DualGraph::add_edge` of a `SingleDualGraph` reaches `unreachable!()` (panic) when the first endpoint is free and the
    second one is taken, instead of returning `EdgeExists` (C50); at that point `adj_1` has already been changed.
12. `vertex_biconnected_components` uses the depth instead of a visiting number to decide which edges belong to a finished
    component, so it may take edges of an unfinished neighbouring component: for the edges (0,1), (1,3), (1,4), (1,2), (2,3), (2,0)
    it returns `[4, 3]`, the components have 4 and 2 vertices.  The number of entries is always right.  The first entry, which the
    documentation (src/lib.rs:121, src/sw.rs:136) takes as the size of the largest component, can be too small (`[4, 4]` instead of
    `[5, 2]`) and too large (`[5, 3]` instead of `[4, 3]`).  The result is right exactly if
    `r.iter().sum() + connected_components().len() == vertex_count() + r.len()` (C21).
13. `ConfigurationModel::randomize` is not uniform over the simple graphs with the given degrees: a half of the same vertex is
    skipped instead of rejecting the whole attempt.  For the degrees (2,2,2,1,1) the triangle with a separate edge comes from 528 of the
    5040 arrangements of the halves, the path 3-1-0-2-4 from 536 (C61).  `from_const(n - 1, n)` (complete graph) is refused although
    it is realisable, `from_const(_, 0)` panics (subtraction underflow, C41).
14. `BfsFiltered::is_handled` is documented as "was encountered yet", but it also returns true for every vertex that the filter
    rejects, met or not (C13).
15. `vertex_biconnected_components` depends on the order of the adjacency lists: calling `sort_adj` changes its result from `[4, 3]`
    to `[4, 2]` on a graph with five vertices (C68).
16. `SwEnsemble::randomize` is documented as usable for sampling, but it starts from the present network and a blocked reset or
    rewiring leaves an edge where it was, so successive samples are not independent; even with rewiring probability 0 the result
    need not be the ring (C69).
17. `add_edge` and `remove_edge` are documented to panic for indices out of bounds, but the checks in `get_2_mut` and
    `get_3_mut` are `debug_assert!`s: in a release build an index out of bounds or two equal indices are undefined behaviour,
    reachable from safe code; the same holds for `reset_edge`, `rewire_edge` and for `undo_step` with a step value that was not
    returned by the ensemble (C73).
18. `SingleDualGraph::graph_1_contained_iter`, `graph_2_contained_iter` and `graph_1_contained_iter_mut` read out of bounds in a
    release build if the index is too large; the `_which_graph` variants use `assert!` and panic.
    `graph_1_contained_iter_neighbors_in_other_graph_mut` reads out of bounds after the other graph was exchanged for a smaller one
    through `graph_2_mut` (C73).
19. Steps are `Copy` and can be undone out of order (C74).  `ErEnsembleM::undo_step` of an older step can succeed and leave
    `current_edges`/`possible_edges` out of step with the graph; later steps can panic until `randomize` is called.
    `SwEnsemble::undo_step` of an older step panics in a debug build if the edge now belongs to the other vertex; in a release build it
    succeeds and breaks the network (the next `randomize` panics).
20. `SmallWorldWS` documents that each edge is rewired with probability `rewire_probability`.  `randomize` throws a coin for an edge at
    its first end and, if the edge stays, once more at its second end, so an edge is moved with probability p(2-p), and on average
    three quarters of the edges for p = 1/2 (C81).
21. Labels are written between quotes without escaping: a label with a quote ends the string, so that a label can add statements, e.g. an edge, to the text (example in `Props/DotRead.lean`); a label ending in a backslash makes the text unreadable. The documentation does not say that labels must not contain quotes. C86 is stated for labels without them.
22. A new `SpacialGraph` saved with `serde_json` cannot be loaded: the coordinates are NaN, written as `null`, which is not accepted as
    `f64` (C92).  The derived `Deserialize` checks nothing; a file for a `SpacialEnsemble` whose `next_id` exceeds the number of vertices is
    accepted, and the next `m_step` uses `get_unchecked` out of bounds: undefined behaviour from safe code and data (C92).
23. Undefined behaviour from safe code in release builds: `SwEnsemble::new` with one or two vertices and `new_with_distance(n, d)` with
    `1 <= n <= d`; `init_ring` adds the edge (0, 0), and `get_2_mut` checks only with `debug_assert!` that the two `&mut` differ (C106).
24. `WS::new` with `neighbor_distance >= 2^63` panics in a debug build instead of returning `ImpossibleRingRequest`, because
    `1 + 2 * neighbor_distance` overflows.  In a release build it wraps; for small enough remainders the ring is then built on too few
    vertices, which is undefined behaviour (C106).
25. `SwEnsemble::new_with_distance` with `d >= 3` works in a release build only (a debug build panics, C106): `randomize` treats two edges
    per vertex, and `m_step` panics for `n (d - 2)` of the `n d` draws (C106).
26. The panics of Finding 6 are panics of debug builds; a release build returns an empty network (C106).
27. `suggest_connections` numbers the components with an `i32`: a debug build panics from `2^31` components on (C106).
28. After a member of a dual graph was exchanged for an empty graph, `is_connected` ignores the cross edges and can return `true`
    while `diameter` panics (C107).
