# Formal model of LBDD in Lean 4 — design

`properties.jsonl` lists the properties, `MANIFEST.json` maps each of them to the theorems that settle it,
`seeded/LOG.jsonl` records the wrong programs the theorems were tested against. This file says what is modelled, what
is trusted, how each property is expressed and proved, and what was found.

Layout of `lean/Verif`:

* `Model/` – the program, function by function; every definition cites the lines of /repo it follows.
* `Spec/` – the vocabulary of the theorem statements: what a history is, what a handle denotes, what is reachable.
  These files contain no proofs and do not use proof helpers.
* `Proof/` – invariants and lemmas. Nothing in a theorem statement of `Props/` refers to them.
* `Props/` – the theorems `Cnn_…`, and beside each of them concrete runs that meet its hypotheses (`example`s, and the
  `…_refuted…` theorems, which are concrete runs of the unchanged program that contradict the full property).

## 1. The model

* **Outcomes.** A modelled function is `M σ α = σ → Res σ α` with
  `Res σ α = ok a s | throw s | assertFail | ub | hang`. `throw s` is a C++ exception with the state at the throw
  point; `assertFail` a failing `assert` (`Cfg.ndebug` says whether asserts are compiled in, all theorems quantify over both
  builds); `ub` undefined behaviour (out-of-range vector or page access, dereference of a null, freed or past-the-end
  pointer, arcs of a sink); `hang` non-termination. A theorem that says "returns" therefore excludes crashes, failing
  asserts, undefined behaviour and endless loops.
* **Environment `Cfg`.** Build kind, machine addresses of the nodes (any injective function into addresses above the
  operation tags), the stream of random hash keys, the order of evaluation of call arguments (`rtl`; C++ leaves it open), and
  the uninitialised hash keys and mark bits of the two sinks. All theorems quantify over all of `Cfg`.
* **Manager `Mgr`.** Nodes by pool position (`page*4096 + offset`), node pool with free list, one open-addressing table per
  variable (mask, free count, timer, slots, page capacity), memo cache, mark bits.
* **API machine `Api`, `Op`, `step`.** The manager and the user's `node_ref` objects; one step is one call of a member
  function on existing handles, a copy, move, assignment or destruction of a handle, or `collect_garbage()`.
  `Reachable cfg u a`: `a` is the state after some history, of any length, whose steps are `Legal`.
* **Collections `Coll`, `COp`, `CReachable`.** Instruction and delimiter vectors and the reused working memory.
  Separate models: building entries by hand (`CollEdit`), walking over an entry (`CollNav`), page pools (`Pages`), depth table (`Depth`).
* **Loops and recursion.** Functions with a fuel argument; API entry points compute the fuel from the state and `hang` is
  returned when it runs out. The theorems prove that this does not happen, so the recursion of the program terminates; where the
  program does loop for ever (C33, C35, ranges of fewer than two elements) the model returns `hang` only where no further
  iteration can change anything.

**Disciplines of use.** `or_rec` and `xor_rec` share memo entries (finding 1) and `xor_rec` breaks the variable order (finding 2), so no
single set of theorems describes all histories well. `Use` has four disciplines: `ordered` (no xor; hand-made nodes and renamings
respect the variable order), `unordered` (no xor), `parity` (no or/ite), `mixed` (everything). Every
history of any discipline is a `mixed` history (`Reachable.mixed`), so a theorem quantified over `u`, or about `mixed`, covers all of them.
A theorem restricted to fewer disciplines is named `_partial` and has a refutation beside it where the full claim is false.

**`Legal` steps** are calls whose documented or asserted preconditions hold (ranges not empty, renamings defined on all variables that occur,
variable indices below 2^41-2, see C54) and, for `collect_garbage`, states in which the collector triggers none of its defects (`GcSafe`).
What other collections do is the subject of C31–C35, C63, whose theorems are about arbitrary collections. States after an exception are
not continued (C12_refuted shows what happens then).

**Simplifications** (repeated at the definitions):

1. the main model does not count the temporary `node_ref`s inside an operation. Model/Temps and Model/TempsColl write all functions of the manager, `export_bdd` and `add_bdd` a second time
   with every constructor and destructor of a handle, and C75 proves that nothing changes;
2. the counters `xref` (32 bit), `total_nodes`, `timer`, `nr_inserts` (64 bit) do not overflow (for `xref` between calls this is a theorem under explicit bounds on
   handles and variables, `C86_no_overflow`); memory allocation never fails;
3. one manager, one thread (the code has no threads); handles of another manager are never passed;
4. reading the uninitialised `hash_key`/`marked_` of a sink gives an arbitrary but fixed value;
5. histories (`Reachable`) contain no calls of the public `mark()`, `unmark()`, `unmark_rec()`; what happens when they are interleaved is C69;
6. vectors of a collection have fewer than 2^63 elements; the arcs of a sink entry, which wrap around in C++, are only compared with each other;
7. the page capacity in the table model is the nominal size of the pool the page comes from; `C38_pages_exchanged`, about the
   separate page-pool model, justifies this although pages wander between pools;
8. a double free is `ub`; `unordered_map` iteration order matters only in `export_graphviz`, where it is a parameter of the model (C71);
9. `bdd_collection_node` objects are positions plus a flag saying whether the entry object they refer to still exists;
10. the depth table is a separate object (as in the C++, where nothing uses it); its histories collect garbage only while all recorded nodes are needed
    (`C53_refuted_gc` shows what happens otherwise).

Not modelled: `std::cout` output, time and memory use,
`bdd_or`/`transform_to_base` (declared, not defined), the unused `memos2`, Python bindings and test programs.

## 2. Trusted base

* Lean 4.33.0's kernel. No `native_decide`/`bv_decide`, no axioms of our own; Mathlib is not imported.
* Axioms: every theorem in `MANIFEST.json` depends on a subset of `propext`, `Classical.choice`, `Quot.sound`. The complete list per theorem
  is in `AXIOMS.md`, generated by `tools/axioms.sh` with `#print axioms`.
* The faithfulness of `Model/` to /repo, argued by the line citations, and of `Spec/` to the English in `properties.jsonl`.
* `decide +kernel` is used only to evaluate concrete runs (witnesses and refutations); the kernel does the evaluation.

## 3. Per property: what is modelled and how it is proved

| Id | Modelled code | Method | Status |
|---|---|---|---|
| C01 and | `and_rec`, unique table, memo | global invariant `Inv` over all histories; induction on decision trees | proved |
| C02 or | `or_rec` | as C01; memo semantics per discipline (`Md`, `SemOr`) | partial: no xor in the history; mixed: right wherever not both operands true; refuted in general |
| C03 negate | `negate` | as C01 | proved |
| C04 xor | `xor_rec` | as C02 | partial, refuted in general |
| C05 ite | `ite_rec` | as C01 with the condition under which a sink is not opened | partial, refuted (UB) |
| C06 projections | `projection`, `neg_projection`, `add_variable` | from the `unique_find` specification | proved |
| C07 canonicity, C08 order | all histories | canonicity of ordered reduced trees; injectivity of `Repr` | partial (no xor), refuted with xor |
| C09 stable handles | all steps | cells only grow (`Grow`), gc keeps what is reachable | proved |
| C10 sharing, C11 tables | `var_struct` | probing invariant `TabOk`, rehash loop invariant | proved |
| C12 capacity | `double_cache` | case analysis of `throw`; concrete full table | partial, "usable afterwards" refuted |
| C13 memo | `memo_cache` | slot invariants, losslessness of growth; transparency: a run whose cache loses arbitrary entries between calls (`Forget`) holds the same trees as one that loses none | partial (no limited and, or and xor not mixed); both exceptions refuted |
| C14 determinism | two runs | relational refinement (`Twin`): every operation computes a fixed function of its operands' decision trees (`OpTree`, `DetTree`, `DetRun`), so two runs with different `Cfg` hold the same trees | partial (or and xor not mixed, no limited and); limited and and mixed histories refuted |
| C15–C20 ranges | templates of bdd_mgr.h | induction on ranges | C16, C20 proved; C15, C17–C19 partial + refutations |
| C21 laws | same | canonicity | partial, refuted with xor |
| C22, C23 limited and | `and_rec_limited` | as C01 with node counts; bound by the product of the numbers of paths | C22 proved, C23 false as stated, its true parts proved |
| C24–C28, C56, C58 traversals | marks-based walks | depth/breadth-first invariants over mark sets; exact orders against the unfolded tree (`Unfolds`) and the queue equation of breadth-first search | proved (C58: one partial case) |
| C29 rebase | both overloads | fold over post-order | proved |
| C30 reference counts | handles, arcs | ghost counts in `Inv` | proved |
| C31–C35, C63 collection | `remove_dead_nodes`, `free_node`, `purge` | loop invariants for arbitrary layouts (also for clean-up, findability and idempotence of every collection that returns, `Proof/GcReturn`, `Proof/GcFound`); refutations by concrete runs; with one node of garbage, a trichotomy (returns / crashes / never ends) by the layout around it | partial |
| C36–C38 pools | node pool, page pools | state-machine invariants | proved |
| C39–C41 transfer | `add_bdd`, `export_bdd`, `mgr.add_bdd` | position maps; loops over positions | C41 partial |
| C42–C46 collection and | `bdd_and` | stack/memo invariant, flipping of positions | C42, C44 partial (contradictions), rest proved |
| C47 remove | `remove` | loop invariant | partial, refuted otherwise |
| C48, C49 | `rebase`, queries | loops over an entry | proved |
| C50 or with literals | `bdd_or_var`, `reduce` | exact description of the result where `reduce` removes nothing, and whenever the call returns and the root stays (debug: always; release: fewer than 128 nodes lost, otherwise the result is shown not to be a BDD); crash condition | partial, refuted |
| C51 sinks | `botsink()`, `topsink()` | which position holds which sink | partial, refuted for `bdd_and` |
| C52 building | `new_bdd`, `add_bdd_node`, `set_*`, `close_bdd` | encoding of a node list, loop invariants | partial, refuted |
| C53 depth | `bdd_node_depth` | longest-path specification | proved |
| C54 limit | index encoding | arithmetic, concrete refutation | partial |
| C55 destruction | `~bdd_mgr` | release loop invariant | partial, refuted in debug builds with xor |
| C57 variables of results | operations | trees | proved |
| C59, C60 navigation | `bdd_collection_node` | walk = evaluate; list of positions | proved |
| C61–C64 allocation and size | operations, gc | new nodes reachable from the result; pigeonhole on argument pairs | C61 proved, others partial |
(Properties added later are described in section 5.)

No property was considered inexpressible.

## 4. Findings (confirmed by the theorems named)

1. `xor_symb()` returns the or-tag: `or_rec` and `xor_rec` answer each other's memo entries (`C02_refuted`, `C04_refuted`, `C15_*_refuted`,
   `C17_*_refuted`, `C18_refuted`, `C21_refuted`).
2. `xor_rec` splits on the larger variable: results are not ordered, canonicity is lost, destruction asserts (`C07_refuted`, `C08_refuted`, `C55_refuted`).
3. `ite_rec` treats a sink as having the last variable: arcs of a sink are followed (`C05_refuted`).
4. `at_most(r,b)` is constant false for b > n (`C19_large_bound`, `C19_refuted`).
5. `and_rec_limited`: the count is inexact, the limit is not applied to sink cases, the decision depends on memo collisions; in debug builds
   `nr_nodes` of a sink reads an uninitialised mark bit (`C23_refuted`, `C23_refuted_null`, `C14_refuted_limited`, `C24_assert`).
6. `collect_garbage`: memo entries of freed nodes survive (`C34_refuted*`), followers of a freed slot are duplicated (`C31_refuted_double_free`)
   or make the loop endless (`C33_refuted`; exactly when, for one node of garbage: `C33_single_garbage`), dead followers leak (`C32_refuted`), shrinking always crashes (`C35_*`).
7. `double_cache` throws with the mask already doubled: the manager is unusable (`C12_refuted`).
8. Collection `bdd_and` of contradictory operands evaluates to true in release builds and asserts in debug builds (`C42_contradiction`).
9. `botsink()`/`topsink()` of entries made by `bdd_and` are exchanged (`C51_and_exchanged`).
10. `close_bdd` works only in lucky layouts; handles returned by `add_bdd_node` dangle (`C52_refuted_*`).
11. `remove` reads past the end of its input unless the last entry is removed (`C47_remove_other`).
12. `bdd_or_var` reroutes only paths that test a listed variable; `reduce` crashes when children are removed (`C50_paths`, `C50_refuted*`).
13. `add_bdd` of a terminal, `nodes_bfs` of a terminal, `export_bdd` and `export_graphviz` of entries without inner nodes are undefined.
14. Variable indices 2^41-2 and 2^41-1 are accepted but are the indices of the sinks (`C54_refuted`).
15. Unique-table pages are taken from the pool of the next larger size and returned to the nominal one: harmless (`C38_pages_exchanged`).
16. Ranges of fewer than two elements: assert, or endless recursion in release builds.
17. `reduce` reads out of range on an entry that starts at position 0, and accumulates address corrections in `char`: with 128 or more removed nodes the
    arcs of the new entry are out of range (`C50_many_removed`, `C50_refuted_wrap`).
18. `bdd_or_var` on an entry whose root becomes redundant drops the root and returns a wrong entry (`C50_refuted_root`).
19. After `xor_rec`, a constant-false function need not be represented by the false sink (`C66_refuted`).
20. `get_reverse_bdd_instructions` returns the same forward range as `get_bdd_instructions` (`C74_refuted_reverse`).
21. `negate` is not memoised: negating the parity of n variables takes 2^(n+1)-1 calls (`C76_parity`).
22. `bdd_and_impl` remembers only pairs for which it created an instruction, and its branch for "second operand is a sink" is never reached (a dangling
    `else`: it belongs to the inner `if` of the case "first operand is a sink, second is not"): conjunctions of a BDD with the constant false, or with its negation, unfold the BDD into a tree (`C77_contradiction`, `C77_first`).
23. `bdd_node_depth` keeps the depth of a node that was freed: the node that takes its place has the old depth recorded, `add_node` on it fails an assertion in
    debug builds and records nothing in release builds (`C53_refuted_gc`).
24. `and_rec_limited` does not bound its result: with limit 0 a conjunction of several nodes is returned with count 0 (`C23_refuted_zero`), and a call that
    succeeded gives null when it is repeated (`C23_refuted_repeat`).

## 5. Properties added later

| property | model | proof | status |
|---|---|---|---|
| C65 walking by handles | `nodeVar`, `lowOf`, `highOf`, `isBot`, `isTop`, `isTerm` | the tree a handle represents; cofactors of ordered trees | proved |
| C66 constants | as C65 | canonicity; concrete history (x0 xor x1) ∧ x0 ∧ x1 for the refutation | partial, refuted with xor_rec |
| C67 repeating a call | every function of `Fn` but `andLimited` | the result of a call is a fixed function of the operands' decision trees (Proof/DetRun); held BDDs keep their trees; distinct nodes have distinct trees | partial, refuted for or_rec and xor_rec in one history |
| C68 laws on handles | `andOp`, `orOp`, `xorOp`, `negateOp` | the tree functions (Proof/OpTree) satisfy the laws (Proof/TreeLaw); constants: direct computation | partial, refuted for or_rec and xor_rec in one history; associativity refuted against the variable order |
| C69 user marks | `refMarked`, `refMark`, `refUnmark`, `refUnmarkRec`, `nodeMark` | two runs, one with marks: all non-traversing functions are oblivious to marks (Proof/Marks) and write only marks of nodes they allocate (Proof/Keep); traversals from arbitrary marks (Proof/Clean) | proved |
| C70 text of `print` | `printText`, `printRec`, `nodeId` (Model/Text) | the parser `readDrawing` (Spec/Text) inverts the printer; `printRec` follows the traversal `visit`; reading = the tree of the handle | proved |
| C71 text of `export_graphviz` | `graphvizText` and its parts (Model/Text), any enumeration order of the unordered map | each line is read back; the groups partition the instructions; reading = the tree of the entry | proved |
| C72 recursion depth | fuel arguments of all recursive functions of the manager | flat order `Cut` on cut-off runs (Proof/Nest): more depth never changes a run that ended; the operation specs hold from the stated depth on (`Fits`, Proof/Ops) | proved |
| C73 canonical for each other | `exportBdd`, `mgrAddBdd`, `bddAnd`, `bddAndRange`, `andOp` | reduced ordered entries and held BDDs unfold to the same reduced ordered tree; `exportBdd_hit` (Proof/Coll/Hit); sizes by `size_le` both ways | proved; refuted after `xor_rec` |
| C74 raw instructions, entry handles | `rawInstructions`, `rawOffset`, `entryAnd`, `entryAt`, wrappers (Model/CollEntry) | induction on the length of the pass (`passUp`, Spec/CollNav); `C42_and_partial` | proved; `get_reverse_bdd_instructions` refuted |
| C75 temporary handles | `stepT`, `Fn.runT`, `andRecT` … (Model/Temps): every handle object of the code | simulation `Sim` (Proof/Temps*): the two runs differ by the handles that exist; counts stay balanced on return and on exceptions | proved |
| C76 cost of negation | `negateOpK` (Model/Cost): `negateOp` with a counter | `Counts`; induction on the tree of the operand (Proof/Cost); size of the parity tree (Proof/CostTree) | proved |
| C77 cost of collection conjunction | `bddAndK`, `andImpl2K`, `bddAndNK` (Model/Cost) | a pair without common solution stores nothing (`andImpl2_dead`, Proof/Coll/Cost), hence no lookup succeeds and the calls form a tree | proved |
| C78 linear traversals | `nrNodesK`, `nodesPostorderK`, `nodesBfsK`, `variablesK` (Model/Cost) | every call either marks a new node, or is charged to the arc it came along | proved |
| C79 depth of collection conjunction | `bddAndWithin`, `bddAndNWithin` (Spec/CollNest) | `FitC` (Proof/Coll/Impl): every split removes a variable or lowers a tree; flat order `Cut` as for C72 (Proof/Coll/Nest) | proved |
| C80 nodes determined by the function, minimal | existing model; `ListsResiduals` (Spec/Residual) | inner subtrees of an ordered reduced tree correspond one to one to the inconstant residuals of its function (Props/Minimal); pigeonhole for the lower bound | proved |
| C81 store of Boolean functions | existing model; `Store`, `Fn.Means`, `Store.Step` (Spec/Store) | forward simulation: each step of the library that returns is a step of the store (Props/Store), by the functional theorems of each call and persistence of kept nodes; induction over the history | partial: false for histories that mix `xor_rec` with `or_rec`/`ite_rec` (`C81_refuted`); for every history, mixed or not, a weaker store (`Fn.WeakMeans`, `Store.WeakRuns` in Spec/StoreMixed; Proof/MixedCount, Props/StoreMixed) |
| C82 manager and collection as stores | existing model; `Sys`, `SStore`, `COp.Means`, `SStore.Step` (Spec/System) | forward simulation on top of C81: transfer, conjunction, renaming, removal and disjunction by the functional theorems of C39-C50 and `SameEntry` for the entries not concerned (Props/System); induction over the history | partial: false for histories that mix `xor_rec` with `or_rec`/`ite_rec` (`C82_refuted`); contradictory conjunctions are left unspecified (finding 8); for every history: `C82_any_system_partial` with `Fn.WeakMeans` (Spec/WorldMixed, Props/WorldMixed) |
| C83 admissible calls succeed | existing model; `Fn.Takes`, `Fn.Safe`, `Op.Safe`, `COp.Safe`, `SOp.Safe` (Spec/Safe) | the total specifications (`Spec`, `SpecG`) of all functions, for all four disciplines, together with the progress lemmas for handles, collector and collection (Props/Safe); combined with C82 to total correctness; necessity of the extra conditions (`C83_needed`, `C83_coll_needed`) | partial: the conditions of `Safe` go beyond the documented ones because of findings 3, 8, 11, 13 and the uninitialised marks of sinks (`C83_refuted`) |
| C84 numbers of calls of the memoised operations | `andRecK`, `orRecK`, `xorRecK`, `iteRecK` (Model/CostOps): the functions with a counter of calls and of overwritten memo entries (`C84_counts`) | amortised: every call beyond the first ones is paid by a key of a pair (triple) of operand nodes that enters the cache, or by an overwritten entry (`Run`, Proof/CostOps, Proof/CostIte); an insertion adds its key and loses at most what it overwrites, doubling loses nothing (Proof/CostMemo, with the invariant that every entry is in the slot of its key); exponential bound by `Fits` as for C72 | proved |
| C85 answers are determined by the functions | `Query`, `Query.run` (Model/Query) over the existing functions; `Query.Right` (Spec/Query) in terms of the store of C81 | the theorems of the single functions (C07, C27, C28, C65, C66, C80) under `Looks`; uniqueness of the right answer (pigeonhole for residuals); with C14 for the same history in two environments (Props/Observe) | proved; with `xor_rec` it fails (`C85_refuted`) |
| C86 capacity and counter range | unique tables, `xref` | fill bound of the tables, exact counts (C30); attained by the construction of C12 | proved |
| C87 deciding formulas | existing model; `Range`, `Formula`, `.value`, `.build`, `.Equiv`, `.Valid`, `.Sat` (Spec/Formula) | `Formula.build` is determined by values (`DetE` of Proof/Det, structural induction over the formula); canonicity for equality of handles; every assignment of distinct variables exists (Props/Formula) | proved, for histories that respect the variable order and do not use `xor_rec` (part of the statement) |
| C88 renamings form an algebra | `rebaseMap`, existing model; `InjectiveOn`, `IncreasingOn`, `renameAll` | algebra of `renTree` (identity, composition, inverse, subtrees) transferred by `rebaseMap_ok` (C29) and uniqueness of handles; pigeonhole between nodes for sizes (Props/Rename) | proved; identity, composition, inverse and size in all disciplines, commuting with formulas in ordered histories (part of the statement) |
| C89 several managers and collections | `World`, `WOp`, `World.Does`, `WHistory`, `WStore.Step`, `WLooks` (Spec/World) over the existing model; every manager in an environment of its own, so that the shared random generator is covered by arbitrary draws | forward simulation by C81/C82 on the components concerned; collections only depend on the build (`CReachable.congr`, `cEvaluate_congr`); transfer by C39/C40/C41 and canonicity across managers (`C89_transfer_handle`) (Props/World) | partial: as C81/C82 for managers that mix `or_rec` and `xor_rec`; `C89_any_world_partial` (Props/WorldMixed) for every program: such managers keep the weak guarantees, all others and all collections the exact ones; `C89_total_partial` adds progress (C83) |
| C90 collections are invisible | existing model; `Event`, `session`, `dropGc`, `SeenAs` (Spec/Seen) over `Query.run` (Model/Query) and the steps of the client | relational: two managers that agree except that nodes outside the nodes below the handles may be in use in one of them only (`Mirror`); all reading functions do the same in both (congruence lemmas, induction over their fuel, Proof/Mirror); collections keep this relation (`Frees`, C31, `collectGarbage_marks`); induction over the session (Props/Seen) | proved; the sequences contain no calls that create nodes, after which a collection can show (`C31_refuted_stale_handle`, `C33_refuted`: part of the statement) |
| C91 questions leave no trace | existing model; `Query.Admissible`, `dropAsk`, `SessionLegal` (Spec/Seen) | every question on the invariant: the marks a traversal sets are all cleared again (`nrNodes_ok`, `variables_ok`), the fuel of `evaluate` is the height of the diagram; an answered `nr_nodes` in a debug build shows that the mark was clear (`nrNodes_mark`); induction over the session (Props/Ask) | proved |
| C92 an exception leaves the handles unharmed | existing model; `Caught` (Spec/Caught): the states after an exception and handle operations | the exception of a growing table leaves an `Inv` state with other unique tables (`Thrown`, carried through all calls by `Fn.run_fine`); handle operations and questions do not look at the tables (`handle_tabled`, `handle_along`, `Query.same`); answers to questions are functions of the diagram, which a growing heap preserves (`answers_grow`) (Props/Caught) | proved |
