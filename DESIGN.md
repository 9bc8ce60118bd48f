# Formal model of PyCTBN in Lean 4: design and trusted base

## 1. Layout

`lean/Verif/Model/*` is the model (every definition cites file and lines of `/repo`), `lean/Verif/Spec/*` the small
independent specifications (what a transition count *is*, what a parent assignment *is*, what a CTBN sample *is*),
`lean/Verif/Lemmas/*` proof machinery, `lean/Verif/Props/*` the property theorems with non-vacuity examples beside
them. `MANIFEST.json` maps properties to theorems, `seeded/LOG.jsonl` records the mutation tests.

| Lean model | source modelled (under `PyCTBN/PyCTBN/`) |
|---|---|
| `Model/Py` | exceptions as values (`PyErr`, `Py α := Except PyErr α`); `list.index`, `list.remove`, indexing |
| `Model/Structure` | `structure_graph/structure.py` |
| `Model/Graph` | networkx `DiGraph` (insertion ordered; the calls used), `structure_graph/network_graph.py` |
| `Model/Params`, `Model/Sizes` | `structure_graph/trajectory.py`, `conditional_intensity_matrix.py`, `set_of_cims.py`, `estimators/parameters_estimator.py`, `np.bincount`, `reshape` |
| `Model/Importer` | the pandas calls used, `utility/abstract_importer.py`, `json_importer.py` (data path), `sample_importer.py`, `structure_graph/sample_path.py` |
| `Model/Cache` | `utility/cache.py` |
| `Model/StructEst` | `estimators/structure_estimator.py` (construction, sub-sets) |
| `Model/Ctpc`, `Model/Indep` | `estimators/structure_constraint_based_estimator.py`, `optimizers/constraint_based_optimizer.py` |
| `Model/FamScore` | `estimators/fam_score_calculator.py` |
| `Model/Search` | `optimizers/hill_climbing_search.py`, `optimizers/tabu_search.py` |
| `Model/ScoreEst` | `estimators/structure_score_based_estimator.py`, the rest of `structure_estimator.py` (adjacency matrix, spurious edges, saved file) |
| `Model/NetGen`, `Model/Round` | `structure_graph/network_generator.py`, `np.round(·, 4)` |
| `Model/TrajGen` | `structure_graph/trajectory_generator.py` |
| `Model/Float` | `parameters_estimator.py`, `conditional_intensity_matrix.py`, the time differences of `abstract_importer.py`, with rounding after every operation |
| `Model/FloatTest` | `StructureConstraintBasedEstimator.independence_test` with rounding after every operation |
| `Model/FloatSample` | the loop of `TrajectoryGenerator.CTBN_Sample` with rounding after every operation |
| `Model/FloatScore` | `FamScoreCalculator` and the score-based estimators with rounding after every operation |
| `Model/SampleLaw` | the loop of `CTBN_Sample` with real-valued clocks and random draws, for statements about probabilities |
| `Model/Heap` | object identity: which lists and arrays `Structure`, `NetworkGraph`, `NetworkGenerator` share |
| `Model/Pool` | the `estimate_structure` entry points with the process-pool settings |
| `Model/JsonText` | the JSON text written by `json.dump` and read by `json.load` |
| `Model/Export`, `Model/Json` | `utility/json_exporter.py`, `json_importer.py` (file layer), importer branch of `TrajectoryGenerator.__init__` |

## 2. Modelling decisions (part of the trusted base)

* **Exceptions** are values (`Except PyErr`); a Python call that blocks forever is the value `.error .blocked`.
* **Loops** without a syntactic bound are recursive on fuel; theorems say that some fuel suffices and that more fuel
  changes nothing, or quantify over every fuel for which the run ended.
* **Randomness** (`random.choice/sample/shuffle`, numpy's generator) is an arbitrary stream given as a parameter;
  theorems quantify over all streams. For statements about probabilities (`Model/SampleLaw`, `Spec/Draws`, `Spec/LongRun`) the draws are random variables: independent
  standard exponential draws (a product measure) and an arbitrary source of independent multinomial choices. Iteration order of unordered sets is absorbed in the stream.
* **Numbers**: time stamps and CIM coefficients are exact rationals, states are `ℤ`, FamScore and chi-square are over
  `ℝ`. Overflow, underflow and `int32` wrap-around are *not* modelled. Rounding is modelled for parameter estimation,
  the two-CIM test, the score and sampling (`Model/Float`, `Model/FloatTest`, `Model/FloatScore`, `Model/FloatSample`: an arbitrary rounding function with small relative error
  and exact on small integers, of which 53-bit round-to-nearest is proved to be an instance) and not elsewhere. `NaN`/`inf` are modelled where
  control flow depends on them (the two-CIM test, pandas missing cells); elsewhere an operation that would produce NaN
  is an error value.
* **Quantile functions** (`scipy.stats.f.ppf`, `chi2.ppf`) are arbitrary functions given as parameters.
* **Processes**: a pool worker runs on a copy of the estimator (fork/pickle); a schedule is an arbitrary completion order.
* **Libraries** at the versions of `requirements.txt` (networkx 2.5, pandas 1.1.5, numpy 1.19.4, scipy 1.5.4) are
  modelled by small Lean functions giving the documented behaviour of exactly the calls used.

Known gaps between model and code: pandas dtype coercions (object or string columns); an integer-typed CIM array would
make numpy's in-place `/=` raise; duplicate column names and negative list indexes are outside the modelled domain
unless a definition says otherwise; JSON text is modelled in `Model/JsonText` up to the spelling of numbers (a parameter
`NumText` with its round trip); elsewhere a file is a JSON value (`DataFrame.to_json` rounding is the arbitrary function `enc`, characterised by its fixed points); `numpy.random.multinomial` is modelled by the index
it returns, not by floating-point sums slightly above 1; the regular expression `\d` is modelled for ASCII digits;
`structure.to_records` is modelled as pairs; `random.sample` on a set needs Python < 3.11, as does the code.

Not modelled: `save_plot_estimated_structure_graph` and all plotting, `__repr__`/`__str__`, `print` and progress bars,
Data-set id properties, the abstract classes `Optimizer`, `AbstractExporter` (nothing but
signatures), the file system (opening, encoding and closing of files), packaging, docs, tests.

## 3. Properties

"partial" means either that part of the English claim is proved and the rest is not, or - mostly - that the code as it
stands *violates* the claim: then the manifest note says REFUTED or names the failing case, a theorem proves the
failure, and a further theorem (suffix `_partial`, or an `iff`) proves the strongest true part.


| id | property | status | model | method |
|---|---|---|---|---|
| C01 | Preprocessing yields exactly the consecutive sample pairs | proved | Importer | closed form of diff / shift / drop / column selection on frames of named columns |
| C02 | Observed time is conserved by preprocessing | proved | Importer | telescoping sum over C01 |
| C03 | Preprocessing does not depend on how variables are named | partial | Importer | from C01 for clash-free labels; refuted for every data set with a clash |
| C04 | The configured time key designates the time column | partial | Importer | key `Time` in first place proved; refuted otherwise |
| C05 | Only the last row of a trajectory is dropped | partial | Importer | exact behaviour (all rows carrying the last label go); refuted for repeated labels |
| C06 | Building the structure checks and preserves the variable order | proved | Importer | case analysis on the order check |
| C07 | Building trajectories preserves the imported rows and can be repeated | partial | Importer | state machine of `SamplePath`: first call exact, second call delivers nothing |
| C08 | Removing a node affects only that node | proved | Structure | list lemmas |
| C09 | Labels, indexes and cardinalities stay aligned under any edit history | proved | Structure | induction over edit histories |
| C10 | Equality of structures is an equivalence that respects the answers they give | partial | Structure | equivalence proved; second half refuted by permuted labels |
| C11 | The edge list is a faithful list of edges | proved | Structure | refinement of the edge list to a bag |
| C12 | Index and label look-ups are inverse | partial | Structure | positional half proved; second half refuted after a removal |
| C13 | Parent information is canonical | proved | Graph | sort uniqueness: `fast_init` = filter of the structure labels |
| C14 | The graph behaves like a set of edges | proved | Graph | refinement of the insertion-ordered graph to a set of edges |
| C15 | The parent-combination table enumerates every parent assignment once, in CIM order | partial | Graph | mixed-radix enumeration; iff |
| C16 | Row indexing separates different child/parent states | partial | Graph, Params | mixed-radix arithmetic; iff |
| C17 | Residence times are exact | partial | Params | refinement of bincount + reshape to declarative sums; iff (C94) |
| C18 | Transition counts are exact | partial | Params | as C17 (C95) |
| C19 | Diagonal of the count matrix is the number of exits | proved | Params | row sum of the count matrix |
| C20 | Total time is conserved by estimation | proved | Params | sum over bincount cells |
| C21 | Mixed cardinalities: where exactness stops | proved | Params | arithmetic of the strides; where it merges, where it raises |
| C22 | Estimates do not depend on the order of trajectories | proved | Params | permutation invariance of bincount |
| C23 | Estimates are additive over data sets | proved | Params | additivity of bincount |
| C24 | Estimated CIMs have the documented coefficients and are intensity matrices | partial | Params | exact coefficients; refuted: row sums are positive |
| C25 | Selecting CIMs by parent assignment | proved | Params | filter semantics |
| C26 | The CIM cache is a first-write-wins map | proved | Cache | refinement to a first-write-wins map |
| C27 | Caching never changes a test result | proved | Ctpc | coherence invariant of the cache |
| C28 | An independence test never fails for want of an intermediate result | partial | Ctpc | invariant: what the search needs is cached; direct call refuted |
| C29 | No cached statistics leak from one child to the next | partial | Ctpc | state at the start of each child; refuted after an exception |
| C30 | Constraint-based search terminates and returns edges into the child only | proved | Ctpc | measure on the two nested loops, test counter as ghost state |
| C31 | Known edges survive constraint-based search | proved | Ctpc | loop invariant |
| C32 | An edge is dropped only on evidence | proved | Ctpc | loop invariant with the trace of tests |
| C33 | Every kept edge is dependent given every subset of the other kept parents | proved | Ctpc | loop invariant at termination |
| C34 | Parallel and sequential constraint-based estimation agree | proved | Ctpc | state-threaded run = run on copies, for every schedule |
| C35 | Re-running constraint-based estimation gives the same answer | partial | Ctpc | frozen edges as state; refuted sequentially in general |
| C36 | A complete test compares exactly the matching CIMs | partial | Ctpc, Params | composition of C17/C18/C25 with the test loop |
| C37 | All separating sets of a size are generated once | proved | StructEst | combinations without repetition |
| C38 | Prior knowledge is recorded exactly | proved | StructEst | matrix built cell by cell |
| C39 | The two-CIM test decides exactly by its three rules | proved | Indep | case analysis over extended reals with NaN |
| C40 | The chi-square test can reject for every child | partial | Indep | limit argument; refuted for two states / unseen transitions |
| C41 | The data-size rule uses the documented degrees of freedom | proved | Indep | arithmetic |
| C42 | The FamScore is the log marginal likelihood | proved | FamScore | Gamma integrals and Dirichlet products over the reals |
| C43 | Unobserved parent assignments do not move the score | proved | FamScore | vanishing summands |
| C44 | The FamScore does not depend on the order of parent assignments and is additive | proved | FamScore | sums over lists |
| C45 | FamScore raises exactly on degenerate inputs | proved | FamScore | domain conditions of log / loggamma |
| C46 | Hill climbing returns edges into the node only | proved | Search | loop invariant over every random stream and score function |
| C47 | Hill climbing respects max_parents | proved | Search | loop invariant |
| C48 | Hill climbing keeps known edges | partial | Search | loop invariant when no exchange can occur; concrete refutation |
| C49 | Hill climbing returns the best structure it evaluated | proved | Search | ghost list of evaluated structures |
| C50 | Hill climbing's iteration and patience limits | proved | Search | ghost counters |
| C51 | Hill climbing never fails for lack of candidates | partial | Search | progress lemma; refuted without candidates |
| C52 | Tabu search returns edges into the node only and respects max_parents | proved | Search | loop invariant |
| C53 | Tabu search returns the best structure it evaluated | proved | Search | ghost list of evaluated structures |
| C54 | Tabu search keeps known edges | partial | Search | as C48 |
| C55 | Tabu discipline | proved | Search | queue model of the tabu list |
| C56 | Tabu search never blocks | partial | Search | progress lemma; refuted in three ways |
| C57 | Score-based estimation assembles per-node results | proved | ScoreEst | set algebra |
| C58 | Parallel and sequential score-based estimation agree | proved | ScoreEst | run on copies, for every schedule |
| C59 | The score of a candidate depends only on its parent set | proved | ScoreEst | canonical parent info (C13) |
| C60 | Reported precision and recall | proved | ScoreEst | set algebra on edges |
| C61 | Spurious edges are reported | partial | ScoreEst | state after estimation; refuted |
| C62 | The adjacency matrix represents the estimated edges | proved | ScoreEst | matrix cell by cell |
| C63 | Saved results mention every variable | partial | ScoreEst | graph rebuilt from edges; exact boundary |
| C64 | Generated graphs have the requested density and no self-loops | proved | NetGen | for every stream of draws |
| C65 | Generated CIM sets cover all parent assignments | partial | NetGen | count and size in full; assignments by C15 |
| C66 | Generated CIMs are intensity matrices | partial | NetGen, Round | exact rational arithmetic with rounding error bound |
| C67 | Exported parent order matches the CIM parent order | proved | NetGen | sort uniqueness |
| C68 | A sampled trajectory changes one variable at a time within range | proved | TrajGen | fuel-bounded loop, invariant on rows |
| C69 | Sampled times are ordered | proved | TrajGen | invariant: pending timers are in the future |
| C70 | Sampling stops as requested | proved | TrajGen | ranking on transitions / clock |
| C71 | Sampling uses the CIM of the current parent state | proved | TrajGen | ghost log of drawn timers |
| C72 | Mean holding times are the reciprocals of exit intensities | partial | TrajGen | equation for the holding time; refuted |
| C73 | Every requested transition is observable in the sample | partial | TrajGen | row count; refuted |
| C74 | A sampled trajectory is valid input to the estimators | partial | TrajGen, Importer, Params | composition |
| C75 | Parallel sampling returns one trajectory per request | proved | TrajGen | every completion order of workers |
| C76 | Exported CIM keys are unambiguous | proved | Export | string lemmas on keys |
| C77 | Exported CIMs are read back for the same parent assignments | partial | Export | parser of keys; boundary cases refuted |
| C78 | A sampled and exported CIM look-up finds the CIM of the current state | partial | Params | filter semantics; iff |
| C79 | From raw trajectories to statistics | partial | Importer, Params | composition of C01, C06, C07, C17, C18 |
| C80 | Removing a node from a graph removes it and its edges only | proved | Graph | refinement to nodes and edges |
| C81 | One estimation per initialisation | proved | Params | state machine of the CIM set |
| C82 | Tabu search's iteration and patience limits | proved | Search | ghost counters |
| C83 | The structure score is the log marginal likelihood of the data | partial | FamScore, Params | composition of C17, C18, C42 |
| C84 | Score-based estimation keeps known edges | partial | ScoreEst | composition of C48, C54, C57 |
| C85 | Score-based estimation returns on valid data | partial | ScoreEst | composition of C51, C56 with in-range arithmetic |
| C86 | Generated networks can be sampled | proved | NetGen, TrajGen | generated network meets the sampler's preconditions |
| C87 | Trajectories of parallel workers are independent draws | partial | TrajGen | equal streams; refuted under fork |
| C88 | Constraint-based estimation returns on valid data | partial | Ctpc, Indep | composition for equal cardinalities; refuted otherwise |
| C89 | An exported file is read back unchanged | proved | Json | files as JSON values; encoder / decoder inverse |
| C90 | Sample, export, import, estimate | partial | Json, TrajGen, Params | composition |
| C91 | A sampler built from an exported file is the exported sampler | partial | Json, Export | composition |
| C92 | Data sets in one file are independent | proved | Json | list indexing of data sets |
| C93 | variables_key selects the column of the variable names | partial | Json | the key does not occur in the reader |
| C94 | For which variables parameter estimation is right | proved | Params | iff over all data: explicit witness rows for bad cardinalities |
| C95 | For which variables transition counts are right | proved | Params | as C94 |
| C96 | The whole workflow succeeds for uniform cardinalities | proved | all | composition of C64-C67, C70, C74, C89, C90, C88/C85 |
| C97 | When importing is faithful for all data | proved | Importer | iff over all data: witness data set for a clashing name |
| C98 | When only the last row is dropped | proved | Importer | drop by label keeps exactly the rows with another label |
| C99 | When label and index look-ups are inverse after edits | proved | Structure | induction over edit histories: remaining labels / indexes stay paired |
| C100 | What equality of structures guarantees | proved | Structure | indexes distinct: equal look-ups force equal positions |
| C101 | When hill climbing keeps the known edges | proved | Search | adversary: a score and draws that lose a known parent; invariant on the number of parents otherwise |
| C102 | When tabu search keeps the known edges | proved | Search | as C101, candidates that are not parents are never tabu |
| C103 | When hill climbing returns | proved | Search | potential 2*known + others drops by at most 1 per iteration; adversary attains it |
| C104 | When constraint-based estimation returns | proved | Ctpc, Indep, Params | uniform: C88; otherwise a one-row data set with the child and a larger variable in their last states makes the first test raise |
| C105 | When score-based estimation returns | proved | ScoreEst, Search, FamScore | uniform >= 2: C85; larger parent: the same data set and a first draw of that parent; one state: the initial score divides by zero |
| C106 | When tabu search returns | proved | Search | sane arguments: C56; otherwise an adversarial potential score empties the parent set, or the first iteration fails |
| C107 | Exactly which direct independence tests fail with an unbound variable | proved | Ctpc | the cache holds exactly the sets of a fold over the history; induction on the history |
| C108 | When re-running sequential constraint-based estimation gives the same edges | proved | Ctpc | frozen edges are never dropped (C32) and C35 |
| C109 | Repeated sequential estimation settles | proved | Ctpc | the number of removable pairs strictly decreases with every change; once two answers agree the matrix is a fixed point |
| C110 | Exactly which generated CIM sets list the right parent assignments | proved | NetGen | C65 and the swapped mesh of C15 |
| C111 | Exactly which generated CIMs are intensity matrices | proved | NetGen, Round | C66 and monotonicity of rounding |
| C112 | Constraint-based estimation is correct if its tests are | proved | Ctpc | C32 keeps true parents; C33 with the set of true parents drops the others; returns because every test answers |
| C113 | Searches depend only on the ranking of scores | proved | Search, ScoreEst | relational induction over the two runs: same graph, same draws, best scores are scores of one graph |
| C114 | Score-based estimation with tau in the unit of time | proved | FamScore, ScoreEst | closed form of the score; exits over all parent assignments add up to the moves whatever the parents; then C113 |
| C115 | Score-based estimation does not depend on the unit of time | partial | FamScore, ScoreEst | counterexample: scores compared through log, the run through C113 and a score with integer values |
| C116 | Structure learning is blind to the order of the data rows | proved | Params, Ctpc, ScoreEst | np.bincount is invariant under permutation and per-row failures all raise IndexError, so the parameter estimation is equal as a function; then congruence through both searches |
| C117 | Only the steps matter | proved | Importer, EndToEnd, Ctpc, ScoreEst | C01 identifies the delivered arrays with the steps; then C116 |
| C118 | From raw trajectories to statistics, exact boundary | proved | Importer, EndToEnd, Params | every valid data array is the import of a file with one two-sample trajectory per row; then C94 |
| C119 | Score-based estimation keeps known edges, exact boundary | proved | Search, ScoreEst | C101 and C102 for one node; the other nodes return (C51, C56), so a loss at one node is a loss of the whole |
| C120 | When parameter estimation raises, exact boundary | proved | Params | the code of a row is its slot; the time table exists iff every slot is below the number of cells, and then so does the transition table; the highest slot is reached by the row in which every variable is in its last state |
| C121 | What parameter estimation computes for arbitrary cardinalities | proved | Params, FamScore | table entries as sums over the rows with a given code; mixed-radix decoding of the transition code |
| C122 | The score is the log marginal likelihood, exact boundary | proved | Params, FamScore, ScoreEst | for any other cardinality, if no slot is out of bounds two different states share one (explicitly or by pigeonhole: a slot stays unused); the two-row data set in these states then has score log (t/(t+2))^(a+1) instead of log (t/(t+1))^(2(a+1)) |
| C123 | Score-based estimation does not depend on how states are numbered | proved | Params, FamScore, Search, ScoreEst | C124 for every evaluated graph, then C103 (only the ranking of scores matters) |
| C124 | The score does not depend on the listing of the variables | proved | Params, FamScore, ScoreEst | C83 on both sides; residence times and transitions of recoded assignments agree row by row; the products are reindexed by the bijection of assignments |
| C125 | The tabu list is determined by its length rules | proved | Search | induction over the iterations: length of queue and tabu_count modulo the duration, with the invariant of C55 |
| C126 | By default tabu search visits the candidates in rounds | proved | Search | from C125: the list always holds at least the last min(i,N-1) candidates |
| C127 | Each search is a greedy walk of single-edge moves | proved | Search | induction over the loop with the invariants of C52 and C55; Spec.Walk is an independent inductive definition |
| C128 | Tabu search ends in a local optimum | proved | Search | C126 (rounds) + C127 (walk); counting argument: scores strictly increase at each move so a set is never revisited, at most 2^N moves |
| C129 | Hill climbing ends in a local optimum | partial | Search | C127; refutation by a two-candidate environment where one candidate is never drawn |
| C130 | Estimated networks are locally optimal in marginal likelihood | proved | Search + Score | C128 composed with C84 (estimate is the union of the nodes' results) and C17 (score = log marginal likelihood) |
| C131 | The text of an exported file loads as the exported value | proved | JsonText | encoder and decoder modelled after CPython's json; mutual induction over values; exported dictionaries have distinct keys by construction |
| C132 | An interrupted save is never misread | proved | JsonText | small-step model of open/write/flush with invariant disk ++ buffer ++ todo = text; no proper prefix of a bracketed JSON text parses (extension lemma for the parser) |
| C133 | Saving over an existing file preserves it until the new one is complete | partial | JsonText | refutation: the state right after open |
| C134 | Saved results can be loaded back | proved | JsonText + ScoreEst | C131 with C63 |
| C135 | What a complete test of independence decides, in terms of the data | proved | Ctpc, Indep | C28/C29 loop invariants composed with C17/C18 refinement of the cached CIMs |
| C136 | Constraint-based estimation uses the data only through its test verdicts | proved | Ctpc | cache-free simulation of the search; congruence induction over the inner and outer loop |
| C137 | A complete test ignores coding | proved | Ctpc, Indep | C135 on both sides; permutation of assignments and states |
| C138 | Constraint-based estimation ignores state numbering | proved | Ctpc, Indep | C136 + C137 + two-valuedness of verdicts |
| C139 | Marginally independent variables are not connected | proved | Ctpc | invariant on the first round of the search: the flag of the edge stays removable until its own test |
| C140 | Too little data keeps every edge | proved | Ctpc, Indep | C135 and monotonicity of counts in the conditioning set |
| C141 | A variable that never changes is not reported as a parent, unless data are scarce | proved | Ctpc, Indep | C139 + C140 + C135: a sample is not told apart from itself or from an empty one |
| C142 | Lower significance levels accept more | proved | Indep | C135 and monotone quantiles |
| C143 | Lower significance levels keep fewer edges | partial | Ctpc, Indep | C142 + C139 for one candidate; counterexample run on the modelled code |
| C144 | The order of variables does not matter | partial | Ctpc, Indep | C112 + C137; counterexample run on the modelled code |
| C145 | The unit of time does not matter to constraint-based estimation | partial | Indep, Params | counterexample run on the modelled code; counts are invariant |
| C146 | The numbering of states does not matter to constraint-based estimation | partial | Ctpc, Indep | C138; counterexample run on the modelled code |
| C147 | How far an estimated rate is from the observed rate | proved | Params | C17/C18 with the exact coefficients of C24; field arithmetic |
| C148 | Estimated rates converge | proved | Params | C147 in the limit (Mathlib filters) |
| C149 | Enough data reveal every true parent | proved | Ctpc, Indep | C135 + limits of the F ratio and of the chi-square statistic; finitely many separating sets; C32 |
| C150 | Enough data reveal every true parent, also when some transitions are impossible | partial | Ctpc, Indep | counterexample family for every size of data; C149 for the rest |
| C151 | A structure that shares no list is not affected by edits of other objects | proved | Heap | invariant (no dangling reference, lists owned) over all commands; refinement of the value model |
| C152 | A graph whose structure nobody else edits is not affected by other objects | proved | Heap | C151 plus the graph's own members |
| C153 | Structures built from the same list are independent | partial | Heap | exact effect computed; iff; counterexample run |
| C154 | Graphs over the same structure are independent | partial | Heap, Graph | exact boundary of fast_init on any graph; effect of remove_node through the shared structure |
| C155 | CIMs can be generated after removing a node from a generated graph | partial | Heap, NetGen | positions before and after the deletion; iff; counterexample run |
| C156 | For which cardinalities the total number of transitions is right | proved | ParamsEst | double counting over slots (C121); one-row counterexample for every other cardinality |
| C157 | Floating-point estimation is accurate | proved | Float | standard model of floating point; relative-error algebra; bins of both computations shown equal by naturality |
| C158 | Rounding never changes zero or the sign of an estimate | proved | Float | factor of C157 is positive |
| C159 | Floating-point estimation is exact on dyadic durations | proved | Float | all partial sums stay on the exact grid |
| C160 | In floating point, too, the order of the data rows does not matter | partial | Float | C157 twice and C22; counterexample run |
| C161 | The estimator after failing and repeated calls | proved | Pool, ScoreEst | case analysis of one call, induction over the history |
| C162 | Worker settings do not influence the result | proved | Pool | C34 and C58 lifted to the entry points |
| C163 | The life of a sample path | proved | Importer | closed form of the state after k calls, by induction |
| C164 | Rounding decides only borderline tests | proved | FloatTest | relative errors through ratio, sqrt, difference, square, sum; band lemma for comparisons |
| C165 | Where rounding can never decide | proved | FloatTest | integer gap; closed form of the error scale for two states |
| C166 | Enough data: the score rewards exactly the parents that matter | proved | FamScore | expansion k·fit − price·log k + O(1) of each cell (Stirling, Euler's limit for Γ); log-sum inequality for the fit |
| C167 | Enough data: the estimated network explains the data | proved | FamScore, Search | C166 for the finitely many parent sets, local optimality (C130) |
| C168 | Growing data: the score rewards a parent that matters | proved | Model/FamScore | limit of log marginal likelihood per unit of data; strict Gibbs inequality |
| C169 | Growing data: score-based estimation finds every true parent | proved | Model/ScoreEst, Model/Search | C168 over the finitely many parent sets + C130 |
| C170 | Which networks survive export and import: exact boundary | proved | Model/Export, Model/Json | what is read of a key in closed form: numbers found in labels and first digits of states |
| C171 | Import in floating point rounds each duration once and nothing else | proved | Model/Float, Model/Importer | frame specification redone over an arbitrary rounding of differences |
| C172 | From raw trajectories to statistics in float64 | partial | Model/Float | C171 composed with the raw-data theorem (C79) and the float64 error bound (C157) |
| C173 | Sampling in floating point: shape, times and termination | proved | Model/FloatSample | invariants of the loop over an arbitrary floating-point rounding; instance binRound 53 |
| C174 | Sampled rows are genuine transitions in floating point | partial | Model/FloatSample | corollary of C173; concrete run evaluated by the kernel |
| C175 | The score in floating point | proved | Model/FloatScore | forward error analysis: every intermediate value within gam u k of a size that bounds it; loggamma's sensitivity from convexity (log-convexity of Gamma) |
| C176 | Score-based estimation in floating point | proved | Model/FloatScore | the two scores rank every pair of evaluated graphs alike (C113): equal parent sets give equal floats, others are separated by more than the errors |
| C177 | The law of sampled trajectories | proved | Model/SampleLaw | real clocks; infinite product of the draws' laws; competing exponential clocks, lack of memory, induction over the moves with clocks kept and redrawn |
| C178 | When sampled trajectories follow the network's law | proved | Model/SampleLaw | C177, and the rates of a jump process are determined by the probabilities of its finite sequences of moves |
| C179 | For which time keys and column orders importing is right | proved | Model/Importer | processed Time column computed for any header; two constant samples distinguish all other headers |
| C180 | Exactly which differences the chi-square part can detect | proved | Model/Indep | statistic is linear in the amount of data and zero iff the proportions agree; explicit counts for every c >= 3 |
| C181 | Transition counts and residence times of sampled trajectories | proved | Model/SampleLaw | law of the first n moves (C177); given the path, holding times are independent exponentials; martingale identities by induction over the paths |
| C182 | What estimates from sampled trajectories converge to | proved | Model/SampleLaw | Chebyshev's inequality for the compensated count (C181) |
| C183 | One binary variable: the estimate is the inverse of the intensity | proved | Model/SampleLaw | moves alternate almost surely, so the count is known, and C181 bounds the probability of a short time |
| C184 | Parameters and scores do not depend on the names of the variables | proved | Model/Graph, Params, ScoreEst | each operation commutes with renaming |
| C185 | Constraint-based estimation does not depend on the names of the variables | proved | Model/Ctpc | each operation commutes with renaming, the loops by induction |
| C186 | Score-based estimation does not depend on the names of the variables | proved | Model/ScoreEst, Search | each operation commutes with renaming, the loops by induction |
| C187 | Hill climbing misses a local optimum with small, but positive, probability | proved | Model/Search; Spec/Draws | a window of L draws that covers all candidates forces progress or optimality; union bound over windows |
| C188 | Networks estimated by hill climbing are locally optimal with high probability | proved | Model/ScoreEst, Search; Spec/Draws, FamScore | C187 for every variable, union bound; limit of T*q^T |
| C189 | Growing data and enough iterations reveal every true parent to hill climbing with high probability | proved | Model/ScoreEst, Search; Spec/Draws | C188 with the comparison of scores of C169 |
| C190 | Long sampled trajectories show the stationary frequencies | proved | Model/SampleLaw (sampleR); Spec/LongRun | Poisson equation of the jump chain, second moments of sums along paths, oscillation of the rounding error, Chebyshev's inequality |
| C191 | With any parent set, estimates from long sampled trajectories converge to stationary mean rates | proved | Model/SampleLaw; Spec/LongRun | C190 for numerator and denominator |
| C192 | With all true parents, estimates from long sampled trajectories converge, and superfluous parents do not matter | proved | Model/SampleLaw; Spec/LongRun | C191 with the flux given all parents; the martingale part has zero mean |
| C193 | On growing data the score penalizes a superfluous parent | proved | Spec/ScoreGrowth (FluctuatesAt, SuperfluousInTheLongRun); Model/FamScore | Stirling bounds on the log-gamma terms to second order: the penalty of (c-1) log(N)/2 per further cell dominates the fit gained by splitting |
| C194 | Enough data reveal the network to score-based estimation | proved | Spec/ScoreGrowth; Model/ScoreEst | C168 and C193 over the finitely many parent sets, and the local optimality of the tabu search (C130) |
| C195 | Structure estimation recovers the network from long sampled trajectories | proved | Spec/LongRun (StationaryMatters, Ctbn.edges); Model/TrajGen, Importer, SamplePath, FamScore, ScoreEst | C190's laws of large numbers for the statistics of all circumstances, C182's square-root bound on the deviations from the parents' rates, almost sure usability of the rows, and a finite form of C194 (truth_if_close) |
| C196 | The recovery can be read off the intensities | proved | Spec/LongRun (Tells) | a mean rate is an average of the rates over the states of the other parents, so a parent that tells matters in the stationary process (tells_matters); existence of the stationary distribution (C190) |
| C197 | Constraint-based estimation finds every true parent in long sampled trajectories | proved | Spec/LongRun (StationaryMatters), Spec/Consistency; Model/TrajGen, Importer, SamplePath, Ctpc, Indep | C190 for the statistics of all circumstances; a finite form of C149 (kept_if_close): where the mean rates given K and given K and p differ, either the exit rates or the shares of the targets do |
| C198 | Constraint-based estimation finds every parent that tells | proved | Spec/LongRun (Tells) | tells_matters (C196) and C197 |
| C199 | Enough data and iterations reveal the network to hill climbing with high probability | proved | Spec/ScoreGrowth, Spec/Draws | C188 (local optima with high probability) and unimprovable_eventually_truth: on enough data the truth is the only local optimum |
| C200 | Hill climbing recovers the network from long sampled trajectories | proved | Spec/LongRun, Spec/Draws | typical_only_truth (the common core with C195) and C188 |
| C201 | Long-run frequencies of trajectories sampled up to an end time | proved | Model/SampleStop; Spec/LongRun (share, flux) | C190's square-root bounds at the numbers of moves p T - v and p T + v (p the pace), between which the random number of moves lies unless the clock deviates (end_total_deviation, endMoves_between); almost sure termination from the deviations of the clock |
| C202 | Estimates from trajectories sampled up to an end time converge | proved | Model/SampleStop; Spec/LongRun | typical_estimate_limit, shared with max_tr (TypicalRows), from C201's bounds |
| C203 | Score-based estimation recovers the network from trajectories sampled up to a late end time | proved | Model/SampleStop, TrajGen, Importer, SamplePath, FamScore, ScoreEst; Spec/LongRun | typical_network_recovered (the common core with C195) on end_typical: the statistics come close, the rows are usable with high probability |
| C204 | Constraint-based estimation keeps every true parent on trajectories sampled up to a late end time | proved | Model/SampleStop, Indep, Ctpc; Spec/LongRun | typical_edges_kept (the common core with C197) on end_typical |
| C205 | Hill climbing recovers the network from trajectories sampled up to a late end time | proved | Model/SampleStop; Spec/LongRun, Spec/Draws | typical_hill_recovered (the common core with C200) on end_typical |
| C206 | What estimates from many trajectories with the same max_tr converge to | proved | Model/SampleStop, SampleLaw; Spec/PooledRows | the strong law of large numbers over an infinite product of draw laws; the mean of a sum over moves by conditioning on the first move (C177's law); the rows' transitions are exactly the moves but the last |
| C207 | Trajectories of a single transition show no transition | proved | Model/SampleStop; Spec/PooledRows | C206 with no counted move; positivity of the mean time in the initial state |
| C208 | Any fixed number of long independent trajectories, imported together | proved | Model/SampleStop, Importer, SamplePath, FamScore, ScoreEst, Indep, Ctpc; Spec/LongRun, Spec/PooledRows | independent typical trajectories put together are typical (typical_many: union bound over coordinates of the product law, Cauchy-Schwarz for the square-root deviations); then the common cores of C191-C200 |
| C209 | What data sets from multi_trajectory with equal limits lead to | proved | Model/TrajGen (multi), Importer, SamplePath, FamScore, ScoreEst; Spec/Consistency, Spec/ScoreConsistency | C75's multi_one_per_request with equal results; data of copies is repeated data; C167 |
| C210 | What score-based estimation finds in many pooled trajectories with the same max_tr | proved | Model/SampleStop, Importer, SamplePath, FamScore, ScoreEst; Spec/PooledRows, PooledMatters | strong law of large numbers for each statistic (pooled_settles; circumstances that never occur are a.s. empty), then score growth (C169's core, score_growth_found) and C130 |
| C211 | Rounding of time stamps does not accumulate | proved | Model/SampleStop, Importer; Spec/PooledRows; Lemmas/Smoothing | the rounding error is an odd wave of period 2e-4; taking the mean over an exponential time of rate at most L keeps it one of amplitude L/10^8 (Wave.later); induction on the number of moves |
| C212 | More trajectories with the same max_tr do not reveal the network | proved | loneNet; Model/SampleStop, Importer, SamplePath, FamScore, ScoreEst | C210; recorded rates by C206 and C211 with the mean occupation times in closed form (induction on the number of moves) |
| C213 | Constraint-based estimation on many pooled trajectories with the same max_tr | proved | Model/SampleStop, Importer, SamplePath, Indep, Ctpc; PooledMatters, Spec/Consistency | strong law for each statistic (pooled_settles), then C197's core kept_if_close; positivity of mean moves for the independent pair by a comparison of recursions |
| C214 | Written files do not depend on the platform | proved | Model/JsonText; Spec.Platform | induction over the value: every character written is printable ASCII; then C131, C134 |
| C215 | Exactly which trajectories can be sampled | proved | Model/TrajGen | for <=, times behind the recorded stamps, draws computed backwards from the planned events, induction over the steps; for =>, an invariant of the loop |
| C216 | A state missing in the last row counts as state 0 | proved | Model/Importer, Model/Json | frames that differ in the last row only stay so through the column assignments; the last row is dropped |
| C217 | When sampled data give the right statistics | proved | Model/TrajGen, Params, Json; C215 | a trajectory in which one parent visits state 1 is possible (C215); its rows get the code p*rank instead of c*rank |
| C218 | What constraint-based estimation returns is a network over the variables | proved | Model/Ctpc; C30, C112 | the searches for different children return edges into different nodes; no reachability assumption on the state |
| C219 | The quantiles of the F and chi-square distributions meet the assumptions | proved | Spec/Scipy (gamma, F distribution, quantile) | moments of the gamma distribution, Chebyshev's inequality for both chi-square variables; exchange symmetry for equal degrees of freedom |
| C220 | An explicit amount of data after which a difference is detected | proved | Spec/Scipy, Model/Indep; C39 | explicit bounds on the quantiles from Chebyshev's inequality, then the exact characterisation C39 |
| C221 | At shrinking significance levels constraint-based estimation finds the network exactly | proved | Model.Ctpc, Model.Sampling, Spec.Levels | tails of the chi-square distribution by ratios of gamma densities, hence quantiles at level s^(-gamma) are sqrt(log s / s) away from 1; statistics of sampled rows are closer than that to the truth with probability tending to 1; hence all tests are right |
| C222 | Along one endless run of draws the library finds the network and keeps finding it | proved | Model.Sampling, Model.SampleStop, Spec.LongRun | exponential moments of sums along paths by induction on the number of steps (with the bounded mean of the centred sum as a corrector); Chernoff bound for increments; Borel-Cantelli along k^q and between; then the recovery theorems, which need only that the statistics are close |
| C223 | Wrong estimates are exponentially unlikely in the length of the data | proved | Model.Sampling, Spec.LongRun | exponential moments of sums along paths (C222), Chernoff with a parameter proportional to the deviation; the estimate is a ratio of sums, close if both are |
| C224 | How fast wrong structures become unlikely | proved | Model.Sampling, Spec.LongRun | the tails of C223 for each of the countably many statistics; were finitely many of them not enough, a sequence of data sets with settling statistics and no success would contradict the recovery theorems |
| C225 | A SamplePath's trajectory lists every transition of the data once | proved | Model.Sizes, Model.Importer, Model.SamplePath | raw_builds (what importing builds), telescoping sum of durations |
| C226 | Exponentially unlikely ever to be wrong again | proved | Model.Sampling, Spec.LongRun | geometric sums of the tails of C223, also for the clock; the rows for an end time are those for the number of moves made before it, at least half the pace times the end time unless the clock deviates |
| C227 | At fixed significance levels that are small enough errors of constraint-based estimation are rare | proved | Model.Ctpc, Model.Sampling, Lemmas.ScipyAlong | as C221, but along any sequence of levels and sizes with log(1/level)/size to 0 and size times level to infinity; Chebyshev bounds of rate deviations pooled over trajectories; if the claim failed, levels below exp(-j) and large sizes with frequent errors could be chosen for every j, a contradiction |
| C228 | A fast_init that raises does no lasting harm | proved | NetworkGraph member by member, fast_init statement by statement with the state left at each possible exception; histories as lists of calls | induction on the history for edges, node keys and missing attributes; refinement to the record model; case analysis on where fast_init raises |
| C229 | The edge table is read by position for estimation but by column name for sampling | proved | pandas frames of records, where/dropna/column look-up by name, positional to_records; importer, sample path and generator constructors | characterisation of the header as the union of keys, induction on the records, inversion of the import chain |

## 4. What the proofs revealed about the code

| finding | theorems |
|---|---|
| a variable `v` and one called `v ++ "S"`: the states of the second are overwritten | `suffix_clash_overwrites` |
| only a first column called `Time` works as time key | `other_time_key_never_imports`, `time_not_first_example` |
| repeated row labels lose more than the last row | `repeated_label_drops_more` |
| `build_trajectories` twice delivers no data | `build_trajectories_twice_is_empty` |
| `get_node_id ∘ get_node_indx` fails after a removal; equality ignores label order | `node_id_of_index_breaks_after_removal`, `structure_eq_ignores_label_order` |
| strides ignore the child's cardinality: statistics wrong unless every parent has 1 or as many states as the child | `row_index_correct_iff`, `estimation_exact_iff`, `counts_exact_iff`, `smaller_parent_merges`, `larger_parent_raises` |
| parent combinations in the wrong order unless the first two parents have equal cardinality | `p_combs_correct_iff` |
| estimated CIM rows have positive sums (+1 smoothing) | `cim_row_sums_positive` |
| direct test calls can hit an unbound variable; the cache survives an exception | `direct_test_unbound`, `leak_after_exception` |
| re-running the sequential constraint-based estimator can change the answer | `sequential_rerun_differs` |
| the chi-square part is void for two-state children and unseen transitions | `chi_test_void_for_binary_child`, `chi_test_void_for_unseen_transition` |
| known edges can be exchanged away by hill climbing and tabu search | `hill_drops_known_edge`, `tabu_drops_known_edge` |
| searches fail or hang without candidates | `hill_fails_without_candidates`, `tabu_blocks_without_candidates`, `tabu_blocks_length_zero`, `tabu_fails_duration_zero` |
| spurious edges always empty after estimation; isolated nodes lost in the saved file | `spurious_edges_empty_after`, `saved_results_lose_isolated` |
| exit intensity used as a mean instead of a rate | `holding_time_multiplied` |
| the last sampled transition is overwritten by the terminator | `visible_transitions` |
| forked workers produce identical trajectories | `multi_forked_identical` |
| two-digit states, `=` in labels, networks without edges are misread from files; `variables_key` is ignored | `two_digit_states_misread`, `label_with_equals_misread`, `no_edges_not_read`, `variables_key_ignored` |
| once trajectories were built, the importer cannot serve a second sample path | `importer_used_up` |
| a failing `estimate_structure` has already deleted the true edges; a second call reports nothing about them | `estimate_call_effect`, `no_report_after_first` |
| a process number of 0 or less raises after the structure has been cleaned | `no_workers` |

## 5. Trusted base

* The Lean 4.33.0 kernel. No `native_decide`, no `bv_decide`, no axioms of our own.
* Axioms (from `#print axioms` over every theorem of the manifest): `propext`, `Classical.choice`, `Quot.sound`, with
  these exceptions:
  `propext` only: `GraphMembers.fastInit_refines`, `demo_searchInput`, `graph_remove_unknown`, `hill_drops_known_edge`, `names_must_differ`, `node_id_of_index_breaks_after_removal`, `separating_sets_raises`, `shared_labels_refuted`, `shared_structure_refuted`, `structure_eq_ignores_label_order`, `tabu_drops_known_edge`, `thumb_value_exact`, `writing_completes`.
  `propext` and `Quot.sound` only: `adjacency_matrix_fresh`, `build_trajectories_first_call_partial`, `build_trajectories_twice_is_empty`, `importer_used_up`, `new_blind_to_names`, `p_combs_wrong_example`, `parents_of_records`, `random_density_rejects`, `removable_matrix_built_iff`, `removable_matrix_exact`, `removable_matrix_unknown_label`, `remove_edge_raises_iff_absent`, `remove_node_unknown_raises`, `sample_path_accepts_iff`, `sampled_cims_independent`, `shared_edges_effect`, `stalled_unique`, `structure_eq_equivalence`, `structure_eq_same_answers_partial`, `thumb_value_pos`.
* The faithfulness of `Model/*` to the source, line by line as cited, with the decisions and gaps of section 2.
* The specifications in `Spec/*`, which are what the theorems are about.

## 6. Mutation tests

Each line of `seeded/LOG.jsonl` is one realistic bug put into a scratch copy of the model, with the theorems that then
failed to check and any theorem that was tightened because of it.
