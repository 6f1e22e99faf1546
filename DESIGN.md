# Formal model of causy in Lean 4

The code under `/repo` is read as text and never run. This file says what is modelled, how each
property of `properties.jsonl` is (to be) proved, and what has to be trusted.

## Layout

Lake project `/verif/lean`, modules under `Verif/`:

| directory | content |
|---|---|
| `Verif/Basic` | insertion-ordered dictionary, exceptions, state+exception monad |
| `Verif/Graph` | `causy/graph.py`: stored graph, queries, edits; invariants; properties C01-C13 |
| `Verif/Dag` | textbook DAGs, paths, d-separation as plain relations; decision procedure for examples |
| `Verif/Paths` | path searches, d-separation; C14-C20 |
| `Verif/Action` | `_take_action`; C21-C28 |
| `Verif/Gen` | generators; C29-C32 |
| `Verif/Pipeline` | step execution, Loop, ApplyActionsTogether; C33-C37 |
| `Verif/CI` | independence-test steps over an oracle; C38-C40 |
| `Verif/Orient` | orientation rules; C41-C44 |
| `Verif/PC` | DAG theory, oracle correctness of PC; C45-C47 |
| `Verif/Par` | steps run in the worker pool as a transition system; C77-C81 |
| `Verif/PC/Par*` | `ParallelPC` under every schedule; C82-C85 |
| `Verif/PC/Stable*` | `PCStable`; C86-C88 |
| `Verif/Dag/Meek`, `Verif/Dag/Ball`, `Verif/Dag/Equiv` | completeness of Meek's rules; d-separation as moves of a ball; equivalent DAGs separate alike |
| `Verif/PC/Cpdag*` | the result of a run as the completed graph; C93, C94 |
| `Verif/Effects` | the direct effects; C89-C92 |
| `Verif/Hooks` | the pipeline with hooks; C95-C98 |
| `Verif/Stats` | correlation formulas over the reals; C48, C49, C67, C68 |
| `Verif/Sample` | sample generators; C50, C51, C69; initial values of time series: `Initial`, `InitialSpec`, `InitialProps`; C99-C101 |
| `Verif/Linear` | the tests computed from data, data from linear equations, end-to-end correctness, constant columns; C102-C106 |
| `Verif/EndToEnd` | generate data, load them, run PC; C110, C111; `WholeProps`: the complete algorithms with effects on data, C114, C115; `CommandProps`: `causy execute` from the data file to the result file, C127 |
| `Verif/Rounding` | the formulas of the tests once more, operation by operation in an arbitrary arithmetic with rounding errors; `Limits`, `Fits`: convergence to the exact values; `Generate`: the sample generator with rounding; C128, C129, C132, C133 |
| `Verif/Rename` | graphs and runs under other names and with changed correlations, one simulation theorem for graph edits, steps, pipelines and the worker pool; C130, C131 |
| `Verif/Cli` | the command `causy execute`; C112, C113 |
| `Verif/Heap` | graphs whose metadata are references to shared dictionaries, and how runs on them follow the runs of the other models; C116, C117 |
| `Verif/Mixins` | base classes of the graph class over a history of factory calls, python's method resolution; C118, C119 |
| `Verif/Crash` | the workspace directory as texts, commands as lists of file operations, killed processes; `Yaml`: the block YAML of the witness; C120-C122 |
| `Verif/Concurrent` | requests to the UI server while results change, commands at the same time; C123, C124 |
| `Verif/Eject` | ejecting algorithms to files and executing the files; `Shipped`: PC and ParallelPC as objects; C125 |
| `Verif/Deaths` | the worker pool when workers are killed; C126 |
| `Verif/Fci` | the FCI collider rule, inducing paths; C107-C109 |
| `Verif/Data` | `create_graph_from_data`, data loaders; C52, C70 |
| `Verif/Vars` | variables.py, the variable part of the model factory and of experiment execution; C53-C56 |
| `Verif/Serial` | dumping and loading pipelines, file references, `hash_dictionary`, edge equality; C57-C60, C71-C73 |
| `Verif/Workspace` | workspace commands, result files, `diff`, result endpoints of the UI; C61-C65, C74-C76 |
| `Verif/UI` | start of the UI server; C66 |

In each directory `Model*.lean` transliterates the code, `Spec.lean` holds the independent
specification, `Lemmas*.lean` the helper lemmas, `Props.lean` the property theorems, each with an
`example` showing a concrete non-trivial instance of its hypotheses.

## Modelling conventions

* Node ids are an arbitrary type `ι` with decidable equality; python objects used as metadata are an
  arbitrary type `δ` where the code never looks inside them.
* A python `dict` is `Dict κ α`: a list of key/value pairs in insertion order; `d[k]` on a missing key
  is the exception `keyError`, iteration goes in insertion order, assignment to an existing key keeps
  its place.
* A method that may raise runs in `PyM σ α := σ → Except PyErr α × σ`: the state survives the
  exception, as in python, so partially executed edits are visible.
* `edges[u][v]` and `_reverse_edges[v][u]` hold the same python object. The model stores values and
  performs the write in both places at the point where python mutates the shared object.
* Metadata dictionaries are values too, although the code shares them between edges, records and history
  entries and two steps write into them. `Verif/Heap` models the sharing and proves that it does not show
  in the learned graph (C117), but in the history (C116).
* Orders python does not fix (iteration of `set`s, `random.shuffle`, arrival order of
  `imap_unordered`) are parameters or relations; theorems quantify over them.
* Statistical tests are an oracle `ci x y S`; theorems quantify over all oracles. The numeric
  formulas are studied over ℝ, and for C128, C129, C132 and C133 in an arbitrary arithmetic with bounded rounding errors
  (`Verif/Rounding`); the bit patterns of floating point are not modelled.
* Recursions that need not terminate in python use fuel in the model; theorems about them state either
  that a computable amount of fuel suffices, or that no amount does.
* If a property is false of the code we prove the negation on a concrete witness and a `_partial`
  theorem with the missing part named.

## Plan per property

| id | model | proof |
|---|---|---|
| C01 | all GraphManager edits as commands, `run : List Cmd → Graph` continuing after errors | invariant by induction over the command list |
| C02 | same | stronger invariant: reverse index = transpose; witness for the hard `remove_edge` |
| C03 | query functions | case analysis under the row invariant |
| C04 | edits, spec = set of ordered pairs | one effect lemma per edit, refinement by induction |
| C05 | purge loop | loop invariant |
| C06 | remove/restore | effect lemmas; witnesses for lost types |
| C07 | edits as `PyM` | branch analysis: error state = initial state; witnesses |
| C08 | updates | frame lemmas on two-level dicts |
| C09 | accessors | case analysis; witness |
| C10 | add_node | invariant + frame |
| C11 | history dict | prefix relation preserved by every command/action |
| C12 | retrieve_edges | list membership + nodup |
| C13 | double loop | induction on node list |
| C14 | DFS with visited list, fuel = unvisited nodes | DFS invariant |
| C15 | path enumeration with fuel | induction; nodup |
| C16, C17 | blocking tests | compare with textbook definition; witness |
| C18 | conditioning elements `node`/`id` | theorem that ids are ignored + witness |
| C19, C20 | recursive search with fuel | induction on acyclic rank; witnesses of divergence |
| C21-C27 | `_take_action` | induction over the result lists |
| C28 | undirected removals | permutation invariance of the final live relation |
| C29-C32 | generators | list combinatorics |
| C33 | step driver, loop and inner steps, all three ways of applying answers | each run relates to `StepRuns`, `Rounds`, `InnerRuns` (Pipeline/Spec), by induction |
| C34, C35 | Loop with rules | potential = number of live ordered pairs |
| C36 | ApplyActionsTogether | dry-run purity |
| C37 | PCStable pipeline | concrete witness by `decide` |
| C38-C40 | CI steps over oracle | invariant through chunks |
| C41-C44 | orientation rules | branch analysis |
| C45-C47 | whole PC over d-separation oracle | DAG theory: local Markov, Meek soundness |
| C48, C49, C67, C68 | formulas over ℝ, covariance matrices as Mathlib matrices | algebra, Cauchy-Schwarz, positive definiteness; regression residuals as the specification |
| C50, C51, C69 | sample generators | Kahn invariant; divergence by fuel; loop invariants |
| C52, C70 | data loading; loader construction and hash | list lemmas; case analysis |
| C53-C56 | variables | induction on nested terms |
| C57, C73 | dumped and rebuilt steps, generators, algorithms as trees | structural induction, exact characterisation |
| C58, C72 | paths as component lists and strings | string-prefix lemma on components |
| C59 | JSON text with sorted keys | sorting a permutation; unique readability of the text |
| C60 | edge equality | case analysis |
| C71 | heap of python objects | induction on the recursion limit |
| C61-C65, C74 | workspace as state machine with file system; the process keeps the imported modules | invariants, exact characterisation of each command |
| C66 | port search | well-founded induction |
| C75, C76 | the comparison table as nested dictionaries; endpoints as functions of workspace and directory | induction over the edges |
| C77-C81 | pool of workers: transitions generate, send, receive, apply; a run is any finished sequence | well-founded measure; invariants along the sequence |
| C82, C83 | stages run sequentially or in the pool | the invariant of C38 and C39 along every schedule |
| C84, C85 | `ParallelPC` | C45 and C46 if one batch holds all triples; for the negation a chain of as many nodes as needed and an explicit schedule |
| C86, C87 | `stableSkeleton` | in a dry run every question about two variables and a set is asked on the complete graph, so exactly the separable pairs are proposed; then C45's argument for a DAG |
| C88 | `pcStable` | witness by evaluation; with a purge in between, C46 |
| C89 | `effectStep` | least-squares regression specified by residuals and the length of the weights; each one-way edge is visited once, the proposals write metadata only; the shortest best fit is unique by the parallelogram identity |
| C90 | `effectStep`, `iidGenerate` | normal equations: regressing `y = Xw + ε` gives `w` plus the regression of `ε`; C51 for generated data |
| C91 | `effectStep` | the rescaled weights satisfy the rescaled normal equations; witness for a moved origin |
| C92 | `pc ++ [effectStep]` | C46 identifies the variables with an edge into a target without undirected edges as its parents; witness by evaluating the run |
| C93 | `pc`, `pcClassic` against all DAGs with the same adjacencies and unshielded colliders | the rules are sound for every such DAG (C46's invariant, proved per DAG); complete: an edge they leave open can be turned either way, by a perfect elimination order of the open part; equivalent DAGs separate alike by a chain of covered edges turned one at a time |
| C94 | the same runs, two orders at once | C93 describes both results without mentioning any order |
| C95 | the pipeline of `Pipeline/Model` again, with hooks over the graph and an arbitrary world (`Hooks/Model`) | simulation: forgetting the world maps every computation with watching hooks to the one without |
| C96 | `Hooks.takeAction` with hooks that note their calls | induction over the batch against the relation `Called`, which is stated over the batch without hooks |
| C97 | `Hooks.runPipeline` against `runPipeline` of steps with a rewritten `process` | the same simulation; filters are idempotent, which covers `ApplyActionsTogether`; two witnesses |
| C98 | `Hooks.runPipeline` with a hook that takes notes | invariant: notes and reported actions grow together; witness with `ApplyActionsTogether` |
| C99 | `Sample.initialScales`: coefficient matrix, Kronecker product, pseudoinverse, square roots | the covariance of the last values of a steady series and the computed matrix both solve `S = A S Aᵀ + Q`; powers of `A` tend to zero, so the solution is unique; a steady series is built from a matrix square root and independent normal variables |
| C100 | `tsData` with initial values of these scales | induction on time: with lag one and no shared source the covariances stay diagonal; two witnesses where the variance changes after one step |
| C101 | the same | covariances of the window of the last values: `C_t = S + A^t (C_0 - S) (A^t)ᵀ` |
| C102 | `Linear.dataTests` (all tests as functions of the data), data satisfying `Sample.Structural` (C51) | global Markov property: if a residual of `x` had a nonzero product with a node, a ball of the d-separation game could reach it (`Linear/Markov`) |
| C103 | `pc`, `pcClassic` over `dataTests` | C102 and visibility make the tests a perfect oracle, then C45, C46, C93; witness with two influences that cancel |
| C104 | the same | partial correlations are continuous in the data where the covariance matrix is regular; finitely many questions |
| C105 | `Linear.regressionAnswer`: residuals of a regression without intercept, t statistic | residuals and coefficients coincide with those of the centred regression if all averages are zero; witness with a moved origin |
| C106 | `Linear.dataTests` on a column without variance | correlations are NaN and covariance matrices singular; then C38 (edges leave only by a test) |
| C107 | `Fci.fciStep`: the rule as a step on the graph model | membership in the proposed list, then the effect of a list of marks by induction; witnesses for lost metadata and marked triangles |
| C108 | `Fci.fciStep` after the tests of `PC` and `PCClassic` | skeleton run of C45, separating sets decide colliders (C46), then C107; the tests set no marks (`Fci/Marks`) |
| C109 | `Fci.inducingPathExists` over the path searches of C19 and C20 | never True; exact condition for the exception; a direct edge is an inducing path |
| C110 | `Sample.iidGenerate`, `EndToEnd.shapedData`, `Data.createGraph`, then `PC.pc`/`PC.pcClassic` with `Linear.dataTests` on the loaded values | C50 and C51 for the columns, C52 for loading, then C103 |
| C111 | the same | the solution of the equations is Lipschitz in the draws, then C104 |
| C112 | `Cli.Executes`: the choice of the model, loading, all possible edges, the steps (parallel ones under any schedule), the result | case analysis on the choice; every step keeps the nodes and appends one entry (C33, C79); C12 for the edges |
| C113 | the same, with `Cli.printEdges` for the output | a plain or parallel last step purges marked edges (C05, C33), so the raw edge table and `retrieve_edges` agree; a final loop gives a witness against it (partial) |
| C114 | `PC.pc`/`PC.pcClassic` with `Linear.dataTests`, followed by `Effects.effectStep` on the same columns | C103 for the graph; with average zero the noise is orthogonal to the parents (induction along a topological order), so the regression of the last step finds the coefficients (C90) |
| C115 | `PC.parallelPC` with `Linear.dataTests`, followed by `Effects.effectStep`; every run of `Stages.Run` | C85 and C94 for the graph, the invariants of the last step hold after every schedule, then as C114 |
| C116 | `Heap.run`: the pipeline on a graph of references with a heap of dictionaries | the run with references and the run with values are projections of one run with pairs; between two points the values only grow (C11), so the entries agree up to the overwritten keys; witness by evaluation |
| C117 | `Heap.run` against `runPipeline` | invariant on pairs (reference, value): stored edges are exact, shared only between the two directions of one pair, records of removals share nothing with edges; a step that writes in place also proposes the written value for that pair |
| C118 | `Mixins.After`: the base classes after a history of factory calls, with C3 method resolution | induction on the history; the merge succeeds exactly if there is an order of all classes that respects the given ones, and contains exactly the classes of its arguments |
| C119 | the same | uniqueness of the defining class; three witnesses for the negation (partial) |
| C120 | `Crash.Killed`: the file operations of a command up to some point, the last one possibly torn | the journal refines `Cmd.run` (simulation); every command writes each place at most once, or removes before it writes; case analysis of the cut |
| C121 | `Crash.KilledRuns`, then `onDisk` of `execute` | invariant of the directory over killed executions (result files are beginnings of results, names are tidy), then induction on the experiments: a cut-off file is a `ValueError`, which means re-execution |
| C122 | `AllOrNothing` | case analysis of C120 for `workspace.yml`; witness with a YAML emitter and parser (partial) |
| C123 | `getLatestAt`, `getExperimentAt`: every look at the directory gets the directory of its moment | case analysis; the first listed version is the newest; witnesses for the negation (partial) |
| C124 | `Concurrent.Steps`: pending file operations of commands in progress, interleaved | a property that every command preserves alone holds for the workspace and for all workspaces still to be written; witness for the negation (partial) |
| C125 | algorithms with variables as trees, the factory's resolution of references, pipeline files, `causy execute` | structural induction: resolved steps have no references, resolving again changes nothing; witnesses: the shipped algorithms (partial) |
| C126 | the transition system of the pool with a transition that loses a batch; python's pool is assumed to replace a dead worker and never to run its batch again | simulation: a state with losses is a state without deaths in which the lost batches have not arrived; well-founded measure; a schedule in which every worker dies (partial) |
| C127 | `EndToEnd.Machine`: the shipped algorithms as functions of the loaded values, inside `Cli.Executes` on the data file | C112 for choice and report, C52 for loading, C114 or C115 on the loaded graph, then retrieving the edges |
| C128 | `Rounding.Arith`: what the operations of python, torch and scipy return; `Rounding.tests`: the three tests computed with them, in the order of the code; `Arith.Precise`: the usual error bounds of numerical linear algebra | by contradiction: a sequence of arithmetics and data with `δ = 1/k` converges to the exact tests on the ideal data (operation by operation), whose decisions are strict; then the oracle theorems of C46, C93, C94 |
| C129 | the same with the effect step and a solver that is right for data which differ only by rounding | the normal equations have a regular matrix in the limit, so that the weights converge |
| C130 | `Relabel`: new names for nodes, a change of the metadata per edge, applied to graphs, actions, yields, histories; `SameTests`, `SameOrd`, ...: tests, set orders, shuffles and dice that correspond | every function of the model commutes with the relabelling (`PSim`, `StepSim`, `StageSim`); corresponding choices exist (`Orders`); a bijective renaming can be undone |
| C131 | the tests of `Verif/Linear` on columns `a v * col v (σ i) + b v` | correlations are unchanged up to sign and the decisions of the matrix test are unchanged, also for too few samples or singular matrices (`Data`); then the simulation theorem of C130 with the names kept |
| C132 | `Rounding.generate`: the model of the generator with the sums and products of an arithmetic | the model of the generator is generic in the two operations, so it returns and satisfies the equations with rounding (C51); along a topological order the columns converge to the exact ones as the precision increases; then C129 on the loaded columns |
| C133 | the pipelines of `PCStable` and of the FCI collider rule with the tests of C128 | the tests are a perfect oracle (C128), then C87, C88 with C93, and C108 |

## Trusted base

What has to be believed in order to conclude something about the python code:

1. **Lean's kernel** (Lean 4.33.0) and the prebuilt Mathlib it checks against. There is no
   `sorry`, `admit`, own axiom, `native_decide`, `bv_decide`, `unsafe` or `implemented_by` in the
   sources. Concrete witnesses use `decide`, `decide +kernel` or `rfl`, all checked by the kernel.
2. **The axioms** `propext`, `Classical.choice` and `Quot.sound`. The list per theorem is below; it is
   produced by `#print axioms`.
3. **The transliteration**: that each Lean definition does what the cited python lines do. Nothing
   checks this mechanically. Every definition cites file and lines and names its simplifications.
4. **The specifications**: the `Spec.lean` files, which are meant to be read.
5. **The behaviour of python and of the libraries** as stated in the modelling conventions above:
   insertion-ordered dictionaries, exceptions, truthiness, pydantic validation, `json.dumps` with
   sorted keys, that constructing a pydantic model copies a dictionary and assigning to an attribute does
   not, `os.path.commonprefix` on characters, torch numerics replaced by real numbers (in C128, C129, C132 and C133 by
   real numbers with rounding errors that satisfy `Arith.Precise`).

### What is and is not modelled, per source file

| file in `/repo/causy` | modelled | not modelled |
|---|---|---|
| `graph.py` | nodes, edges, all queries and edits, history, metadata, path searches, d-separation (24-1012) | logging; `id` generation by `uuid4` (any fresh id); sharing of one edge object between the two dictionaries is replaced by writing both |
| `graph_model.py` | variables (101-183), `create_graph_from_data` (185-195), step driver (197-228), `_take_action` (293-430), serial execution (432-526), factory (529-571), its effect on the graph class in `Verif/Mixins`; the parallel path (448-471) as a transition system of feeder, workers and main process, with killed workers in `Verif/Deaths` | workers killed while they hold a lock of the pool, pickling errors, progress bars, timing; hooks (241-291) in `Verif/Hooks` only, where they cannot change the history or the algorithm of the running model; elsewhere no hooks are configured, which C95 justifies |
| `generators.py` | all four generators, chunked and not | logging; `random.shuffle` is an arbitrary permutation |
| `interfaces.py` | steps, generators, graph model interface as far as their fields are used; comparison settings, `execute`, serialisation of steps | abstract method stubs, logger mixin |
| `causal_discovery/constraint/algorithms/pc.py` | the pipelines of PC, PCStable, ParallelPC, PCClassic | |
| `causal_discovery/constraint/algorithms/fci.py` | `inducing_path_exists` | |
| `causal_discovery/constraint/independence_tests/common.py` | all four tests, over an oracle (actions) and over ℝ (formulas); the three tests that the algorithms use also with rounding errors (C128) | that torch, scipy and python meet the error bounds of `Arith.Precise`, infinities and NaN as inputs of operations (outputs have branches), torch device handling; the normal distribution function, the Student quantile and `torch.linalg.lstsq` are parameters |
| `causal_discovery/constraint/orientation_rules/pc.py` | ColliderTest with both conflict strategies, the four Meek rules, the classes' default generators | |
| `causal_discovery/constraint/orientation_rules/fci.py` | `ColliderRuleFCI` | |
| `causal_effect_estimation/multivariate_regression.py` | `ComputeDirectEffectsInDAGsMultivariateRegression` | `torch.linalg.lstsq`: a parameter, assumed to return the shortest exact solution (in C129: the solution of a problem that differs by rounding; the rank cut-off of `gelsd` is left out); the effect is written when it is applied; that `process` writes it into the stored dictionary before is in `Verif/Heap` |
| `common_pipeline_steps/*` | `Loop`, `ApplyActionsTogether`, `ExitOnNoActions`, `CalculatePearsonCorrelations` | `placeholder.py` |
| `sample_generator.py` | parsing-free core: `topologic_sort`, i.i.d. sampling, time-series loops, scales of the initial values (`Sample/Initial`) | random draws (arbitrary values), single-precision rounding, what `torch.normal` does with a scale that is not a number |
| `data_loader.py` | JSON, JSONL and dynamic loader: construction, rows, hash | the JSON parser, file reads (a parameter) |
| `variables.py` | all | `uuid`, string formatting of messages |
| `serialization.py`, `graph_utils.py` | `serialize_algorithm`, `load_algorithm_*`, `deserialize_result` for edges, `hash_dictionary`, `load_pipeline_steps_by_definition`, `retrieve_edges` | timestamps, the JSON and YAML parsers |
| `models.py`, `edge_types.py` | algorithm and result fields that are compared or stored; edge equality and type (de)serialisation | timestamps, `_resolve_node_references` |
| `workspaces/*` | every command on workspace contents, result files, re-execution decision, `diff` | prompts and printing (answers are parameters), the text of generated python and notebook files, YAML text (block YAML of a workspace in `Crash/Yaml`, for a witness); killed commands are in `Verif/Crash`, loss of power is not modelled |
| `ui/*` | port search, server start, result endpoints, containment check of algorithm files | FastAPI routing, static files |
| `math_utils.py` | `get_t_and_critical_t` (17-25) in `Linear/Model` | `sum_lists` |
| `cli.py` | `execute` (C112, C113), `eject` (C125) | the workspace sub-commands beyond `workspaces`, option parsing, the printed text |
| `contrib/graph_ui.py` | | all |

### Axioms per theorem

<!-- axioms begin -->
* no axioms: `Serial.Eject.C125_file`, `Serial.C60_custom_types_asymmetric`, `Data.C70_missing_file`, `Data.C70_dynamic_never_loads`
* `propext`: `C03_queries_agree`, `C10_add_node`, `C109_never_true`, `C117_covers`, `Sample.C51_linear_form`, `Serial.C57_full_claim_false`, `Serial.C60_live_edges`, `Data.C70_file_hash`, `Serial.C73_loaded_algorithm`
* `Quot.sound`, `propext`: `C02_ghost_parent`, `C06_hard_round_trip_fails`, `C07_not_atomic`, `C09_opposite_direction_fails`, `C107_correlation_lost`, `C107_triangle_marked`, `C112_choice`, `C116_entries_change`, `Serial.Eject.C125_no_model`, `Serial.Eject.C125_shipped_fail`, `C126_never_wrong`, `C126_pipeline`, `C130_reading`, `C18_ids_ignored_partial`, `C18_ids_and_nodes_differ`, `C19_diverges`, `C20_incomplete`, `C21_dry_run_pure`, `C25_opposite_orientations_delete`, `C28_recorded_sepset_order_dependent`, `C32_random_sample_sublist`, `C32_every_zero_keeps_all`, `C33_steps_once_in_order`, `C36_together_frozen`, `C36_inner_failure_leaves_graph`, `C37_deferred_removals_visible`, `C38_marginal_test_not_repeatable`, `C44_rules_can_delete_adjacency`, `Data.C52_loader`, `Data.C52_json`, `Vars.C53_validation`, `Vars.C53_strict_types`, `Vars.C54_resolved`, `Vars.C54_undeclared_ignored`, `Vars.C54_allowed`, `Vars.C56_none_set_keeps_references`, `Vars.C56_factory_defaults`, `Serial.C57_generator_fields`, `Workspace.C64_stored_outcome`, `UI.C66_port`, `UI.C66_nothing_to_show`, `Sample.C69_contemporaneous_edge_depends_on_set_order`, `C77_no_endless_schedule`, `C77_no_deadlock`, `C77_some_outcome`, `C77_zero_batch_size`, `C78_one_batch_is_sequential`, `C86_pc_depends_on_order`, `C95_watching_hooks_change_nothing`, `C95_batch`, `C96_hooks_called`, `C96_called_unique`, `C96_dry_run_calls_none`, `C96_post_type_change_never_called`, `C97_pre_hooks_rewrite_partial`, `C97_filters_partial`, `C97_full_statement_fails`, `C97_unapplied_fails`, `C98_post_hooks_told_history_partial`, `C98_full_statement_fails`
* `Classical.choice`, `Quot.sound`, `propext`: `C01_edits_wellformed`, `C02_parents_exact_partial`, `C02_parents_complete`, `C04_edit_effect`, `C04_history_effect`, `C05_purge_invisible`, `C05_soft_purge_eq_hard`, `C06_soft_round_trip`, `C06_hard_round_trip_partial`, `C07_failing_edit_atomic_partial`, `C07_restore_edge_failure`, `C07_remove_edge_failure`, `C08_update_edge`, `C08_update_directed_edge`, `C09_edge_accessors_partial`, `C09_edge_accessors_raise_iff`, `C10_nodes_unique_and_stable`, `Sample.C100_constant_variance_partial`, `Sample.C100_two_lags_fail`, `Sample.C100_common_source_fail`, `Sample.C101_variance_converges`, `C102_partial_correlation_zero`, `C102_tests_report_independence`, `C103_pc_recovers_cpdag`, `C103_hidden_dependence_reverses_arrow`, `C104_robust`, `C105_regression_partial`, `C105_nearly_perfect`, `C105_separated`, `C105_no_controls_raises`, `C105_shift_changes_verdict`, `C106_never_reported`, `C106_constant_stays_connected`, `C107_marks_exactly`, `C108_arrowheads_of_dag`, `C109_inducing_partial`, `C109_raises_iff`, `C109_direct_edge_denied`, `C11_history_append_only`, `C11_recorded_action_stays`, `C11_actions_append_only`, `C11_actions_reachable`, `C110_generate_and_recover`, `C111_robust_in_the_draws`, `C112_no_data`, `C112_result`, `C113_shown_is_saved_partial`, `C113_loop_shows_deleted`, `C114_graph_and_coefficients`, `C114_generated`, `C115_parallel_graph_and_coefficients`, `C116_entries_stay_partial`, `C116_exact_without_writes`, `C117_sharing_is_invisible`, `C117_algorithms`, `C118_methods`, `C118_never_lost`, `C118_no_conflict`, `C118_shipped`, `C119_implementation_partial`, `C119_other_algorithm_decides`, `C119_inheritance_may_fail`, `C119_methods_leak`, `C12_retrieve_edges_exact`, `Workspace.Crash.C120_undisturbed`, `Workspace.Crash.C120_old_new_or_one_cut`, `Workspace.Crash.C120_execute_keeps`, `Workspace.Crash.C120_clear_order`, `Workspace.Crash.C120_workspace_only`, `Workspace.Crash.C121_recovers`, `Workspace.Crash.C122_old_new_or_unreadable_partial`, `Workspace.Crash.C122_clear_may_leave`, `Workspace.Crash.C122_lost_experiment`, `Workspace.Crash.C122_not_all_or_nothing`, `Workspace.Concurrent.C123_undisturbed`, `Workspace.Concurrent.C123_version`, `Workspace.Concurrent.C123_newest_partial`, `Workspace.Concurrent.C123_saved_meanwhile`, `Workspace.Concurrent.C123_cleared_meanwhile`, `Workspace.Concurrent.C123_cut_off`, `Workspace.Concurrent.C123_not_its_version`, `Workspace.Concurrent.C124_some_sequence_partial`, `Workspace.Concurrent.C124_intact`, `Workspace.Concurrent.C124_with_executions`, `Workspace.Concurrent.C124_clear_undoes`, `Workspace.Concurrent.C124_not_one_after_the_other`, `Serial.Eject.C125_same_partial`, `Serial.Eject.C125_values_frozen`, `Serial.Eject.C125_values_live`, `C126_ends_or_waits_partial`, `C126_waits_forever`, `C127_file_to_file`, `C127_generated`, `C128_rounding`, `C129_rounding_effects`, `C13_complete_graph`, `C130_names_do_not_matter`, `C130_same_outcomes`, `C130_same_outcomes_parallel`, `C130_renamed_columns`, `C131_units_do_not_matter`, `C131_units_do_not_matter_parallel`, `C131_signs_do_not_matter`, `C131_signs_do_not_matter_parallel`, `C131_reading`, `C131_exception_depends_on_sign`, `C132_generated_data`, `C132_generate_and_recover`, `C133_stable_and_fci`, `C14_descendants_exact`, `C15_all_paths_exact`, `C16_dsep_dag_sound_partial`, `C16_dsep_single_collider`, `C16_false_answer_wrong`, `C17_dsep_cpdag_sound`, `C18_rejection`, `C19_directed_path_exists_partial`, `C19_answers`, `C19_answers_right`, `C19_terminates`, `C19_false_no_cycle`, `C19_isolated_raises`, `C19_follows_soft_deleted`, `C20_directed_paths_sound`, `C20_directed_paths_exact_partial`, `C20_raises`, `C22_taken_subsequence`, `C22_skipped_leaves_no_trace`, `C23_removals_never_raise`, `C23_remove_undirected_effect`, `C23_remove_directed_effect`, `C24_only_restores_create`, `C25_orientation_batch_effect`, `C25_orientation_keeps_adjacency`, `C26_update_edge_type_raises`, `C27_keys_stable`, `C28_removal_order_irrelevant`, `C29_all_combinations_exact`, `C29_all_combinations_raises`, `C30_pairs_with_edges_exact`, `C30_chunked_yields_twice`, `C31_neighbours_exact`, `C31_neighbours_raises`, `C33_failure_records_prefix`, `C33_purged_after_plain`, `C34_loop_terminates`, `C34_rows_in_algorithms`, `C35_exit_means_no_proposal`, `C35_exit_closed`, `C37_plain_step_partial`, `C38_missing_adjacency_certified`, `C38_single_certificate`, `C38_phase_never_raises`, `C39_phase_only_removes`, `C40_partial_test_only_on_triangles`, `C40_removals_condition_on_common_neighbour`, `C41_proposals_are_justified`, `C41_process_exact`, `C42_collider_keeps_skeleton`, `C43_rule1`, `C43_rule1_applies`, `C43_rule2`, `C43_rule3`, `C43_rule4`, `C44_rule1_keeps_adjacency`, `C44_rule2_keeps_adjacency`, `C44_rules_keep_adjacency_partial`, `C45_skeleton_recovered`, `C46_orientation_sound`, `C46_loop_exits_closed`, `C47_types_match`, `C47_types_match_actions`, `C47_types_match_collider`, `Stats.C48_value`, `Stats.C48_range`, `Stats.C48_symmetric`, `Stats.C48_affine`, `Stats.C48_self`, `Stats.C48_constant`, `Stats.C48_clamping`, `Stats.C49_triple_eq_matrix`, `Stats.C49_rescaling_cancels`, `Stats.C49_residuals`, `Stats.C49_pair_eq_matrix`, `Stats.C49_singular`, `Stats.C49_range`, `Sample.C50_topological_order`, `Sample.C50_cycle_never_returns`, `Sample.C50_edge_order_irrelevant`, `Sample.C51_structural_equations`, `Sample.C51_graph`, `Data.C52_rows`, `Data.C52_rows_errors`, `Data.C52_dict`, `Data.C52_loader_dict_wins`, `Data.C52_order`, `Vars.C55_filled`, `Vars.C55_no_reference_left`, `Vars.C55_missing_variable`, `Vars.C56_all_set_partial`, `Vars.C56_some_unset_raises`, `Vars.C56_full_claim_false`, `Vars.C56_reference_left`, `Serial.C57_roundtrip_partial`, `Serial.C57_fields`, `Serial.C57_collider_test_never_loads`, `Serial.C58_opened_partial`, `Serial.C58_inside_opened`, `Serial.C58_full_claim_false`, `Serial.C59_order_independent`, `Serial.C59_injective`, `Serial.C60_equal_iff`, `Serial.C60_equivalence`, `Workspace.C61_intact`, `Workspace.C61_remove_pipeline`, `Workspace.C61_remove_loader`, `Workspace.C62_versions`, `Workspace.C62_no_mixing`, `Workspace.C62_error`, `Workspace.C63_latest`, `Workspace.C63_clear`, `Workspace.C63_same_second`, `Workspace.C64_skipped_iff`, `Workspace.C64_executed`, `Workspace.C64_unchanged_skipped_partial`, `Workspace.C64_no_variables_reexecuted`, `Workspace.C65_update`, `Workspace.C65_flag`, `Workspace.C65_integer`, `UI.C66_given_port`, `Stats.C67_defined`, `Stats.C67_critical_value`, `Stats.C67_sign`, `Stats.C67_monotone`, `Stats.C68_order`, `Stats.C68_units`, `Stats.C68_total`, `Sample.C69_time_series`, `Sample.C69_graph`, `Serial.C71_succeeds_iff`, `Serial.C71_result`, `Serial.C71_locked_never_loads`, `Serial.C72_contained`, `Serial.C72_symlinks_checked`, `Workspace.C74_all_as_alone_partial`, `Workspace.C74_module_leak`, `Workspace.C74_false_for_modules`, `Workspace.C75_rows`, `Workspace.C75_warnings`, `Workspace.C75_agree`, `Workspace.C75_names`, `Workspace.C76_latest`, `Workspace.C76_version`, `Workspace.C76_list`, `C79_parallel_keeps_consistency`, `C80_recorded_actions_replay`, `C81_every_combination_once`, `C82_every_schedule_certified`, `C83_no_schedule_loses_adjacency`, `C83_no_schedule_raises`, `C84_parallel_skeleton_partial`, `C84_full_statement_fails`, `C84_code_sizes`, `C85_parallel_orientation_partial`, `C86_stable_skeleton`, `C86_order_independent`, `C87_stable_recovers`, `C88_purged_orientation_partial`, `C88_purged_cpdag_partial`, `C88_full_statement_fails`, `Effects.C89_effects`, `Effects.C89_last_step`, `Effects.C89_determined`, `Effects.C89_missing_values`, `Effects.C90_coefficient_plus_noise`, `Effects.C90_exact`, `Effects.C90_generated`, `Effects.C91_units_partial`, `Effects.C91_origin_matters`, `Effects.C92_structural_coefficient_partial`, `Effects.C92_undirected_confounds`, `C93_directed_iff_all_agree`, `C93_compelled_edges`, `C93_same_separations_iff`, `C94_order_irrelevant`, `C94_parallel_same_edges`, `Sample.C99_stationary_scale`, `Sample.C99_steady_exists`, `Sample.C99_single`, `Sample.C99_edges_alike_fail`
<!-- axioms end -->

## Disagreements between the code and the claims

Where the natural claim is false of the code, the model agrees with the code, the negation is proved on
a concrete witness, and a weaker theorem says what does hold.

| id | what the code does |
|---|---|
| C02 | a one-way hard `remove_edge(u, v)` leaves `u` behind as a ghost parent of `v` |
| C06 | hard removal followed by `restore_edge` loses the edge type and the metadata |
| C07 | hard `remove_edge` and `restore_edge` raise after having changed the graph |
| C09 | `edge_value`/`edge_type` raise `KeyError` or answer with stale data for pairs joined only the other way round |
| C16 | with two colliders on one path `are_nodes_d_separated_dag` may answer False for separated nodes |
| C18 | conditioning sets given as ids are ignored, given as nodes they bypass the check that rejects the endpoints |
| C19 | `directed_path_exists` follows soft-deleted edges and does not terminate on directed cycles or undirected edges |
| C20 | `directed_paths` misses paths |
| C25 | two orientation actions in opposite directions delete the connection |
| C26 | applying an `UPDATE_EDGE_TYPE` action always raises `AttributeError` |
| C28 | the skeleton does not depend on the order of results, but the recorded separating set does |
| C30 | the chunked mode yields an undirected edge twice |
| C34, C42 | a node without any row raises `KeyError` |
| C37 | after a logic step soft-deleted edges are not purged, so the next step of PCStable still sees their keys |
| C38 | the marginal test cannot be run twice on one graph: `TypeError` |
| C44 | Meek rules 2, 3 and 4 can delete an adjacency |
| C46 | needs a graph without earlier removal history |
| C50 | `topologic_sort` loops for ever on a cyclic model |
| C52 | the node order differs between data given as dictionaries and as lists |
| C56 | execution ignores the defaults of the pipeline's variables |
| C57 | constructors drop keyword arguments and falsy values; enumeration settings cannot be loaded again (so an ejected PC file cannot be loaded); generators lose `chunked` and nested generators |
| C58 | `os.path.commonprefix` compares characters: a sibling directory with a longer name is accepted |
| C60 | the live `Edge` is a dataclass whose generated `__eq__` replaces the one written; with own edge types equality is not symmetric |
| C62 | a stray file `exp_notes.json` raises `ValueError`; `exp_007.json` raises `FileNotFoundError` |
| C64 | an experiment without variables is executed again every time |
| C65 | the text `false` is stored as True for boolean variables |
| C66 | an empty `PORT` raises `ValueError` |
| C69 | effects of lag 0 depend on the order of the equations |
| C70 | `DynamicDataLoader` can never be constructed |
| C71, C73 | enumeration members are not loadable; edge types come back as dictionaries, whose use raises `AttributeError` |
| C74 | python-module pipelines leak the values of one experiment into the next, and the wrong result is kept silently |
| C84 | `ParallelPC` can keep a spurious adjacency, depending on the schedule, if the triples need more than one batch (impossible below 68 variables with the shipped sizes; the proved witness has as many variables as the batch size plus a few) |
| C86 | the skeleton of `PC` (not `PCStable`) depends on the order of the variables if the tests contradict each other: the extended test applies its removals pair by pair |
| C88 | `PCStable` orients edges against the DAG even with a perfect oracle (`2 → 1` and an isolated 0 give `1 → 2`): `ApplyActionsTogether` is a logic step, after which removed edges are not purged, and the collider test counts them as neighbours (see C37) |
| C91 | the regression of the direct effects has no intercept, so the reported effect depends on the origin of the scale: `1, 2` against `2, 3` gives `8/5`, against `1, 2` it gives `1` |
| C92 | `parents_of_node` returns undirected neighbours too, so the regression for a target with an undirected edge may condition on its own effect: on `0 → 2 ← 1`, `0 → 3 ← 1`, `2 → 3` the run reports the effect 0 for `0 → 2` although the coefficient is 1 |
| C97 | `ApplyActionsTogether` passes proposals through the pre-update hooks twice (dry, then applied), so a hook that swaps two nodes has no effect; a test that reads the results so far sees them before the hooks |
| C98 | `ApplyActionsTogether` tells post-update hooks every action twice, the first time during the dry run, before it is applied |
| C99 | of two edges with the same source, target and lag the coefficient matrix keeps the last, the data add both; outside of stable models the scale can be nan, for a random walk it is 0 |
| C100 | initial values are drawn independently for each variable, and one value is used for all times before the start, so the series does not start in its stationary distribution: `0 → 1` with lags 1 and 2 starts with variance 3 and goes on with 5 |
| C105 | the regression test has no intercept: adding 3 to two of three uncorrelated columns turns "independent" into "dependent"; without conditioning variables it raises `RuntimeError` |
| C106 | a constant column is independent of everything, but no test ever says so: NaN comparisons are false, so the variable stays connected to all others |
| C107 | the FCI collider rule replaces the whole metadata, so marked edges lose their correlation; nodes joined by a one-way edge count as not adjacent |
| C109 | `inducing_path_exists` calls `bidirected_edge_exists`, which does not exist: it never answers True, denies the inducing path of a direct edge and raises `AttributeError` for longer paths |
| C113 | `causy execute` prints the raw edge table, `retrieve_edges` leaves out marked edges: after a model that ends in a logic step (no shipped one does, custom pipelines may) removed edges are printed but not saved |
| C116 | the correlation step and the effect step write into the stored metadata dictionary, which is the data of the recorded `UPDATE_EDGE` action: at the end of `PC` the history entry of the correlation step contains direct effects |
| C118 | `model.graph`, the manager, has none of the query methods of the edge types (`directed_paths`, `only_directed_edge_exists`); they exist on `model.graph.graph` only |
| C119 | `graph_model_factory` changes the bases of the shared class `Graph`: methods of other algorithms' edge types appear or take over, depending on the order of a set; a mixin that inherits from another mixin makes the factory raise `TypeError` in some orders |
| C122 | `write_to_workspace` truncates `workspace.yml` and writes it in place: a command killed there, even `clear`, may leave a readable beginning, in which experiments are missing or refer to another pipeline |
| C123 | `get_latest_experiment` lists the directory a second time for the version number: a result saved or cleared meanwhile gives a wrong version number or `IndexError` |
| C124 | every workspace command writes the complete workspace it has read at its start (minutes before, if it asks questions), so that overlapping changes are lost; `clear` writes the workspace although it changes nothing in it |
| C125 | no ejected file of a shipped algorithm can be executed (edge types, `ColliderTest`); `causy eject` dumps the algorithm with the values of the variables filled in, although the factory keeps a copy for ejecting |
| C126 | after the death of a busy worker the step waits forever: `imap_unordered` without a timeout never gets the lost batch |
| - | `PlaceholderTest.process` builds a `TestResult` with `u=None, v=None`, which pydantic rejects; the step cannot be run (not modelled) |

Further observations met while modelling: `CorrelationCoefficientTest` divides by zero at correlation
±1; `CalculatePearsonCorrelations` mutates metadata in place; two names with the same slug share a
file; an experiment named `a_1` hides version 1 of `a` in `diff`; executing one experiment by name never
checks whether it is up to date.
