# Formal model of differential-dataflow in Lean 4

## Layout

* `lean/Verif/Spec/*.lean` — small specifications that mention no model function: accumulation of an update list at a
  time, up-sets of frontiers, strict sortedness.
* `lean/Verif/Model/*.lean` — executable model, function by function, each definition citing file and lines in `/repo`.
* `lean/Verif/Proofs/*.lean` — helper lemmas.
* `lean/Verif/Props/*.lean` — the property theorems (named `Cnn_…`) and, next to each, an `example` showing that a
  concrete non-trivial case meets its hypotheses (or a concrete counterexample where the code violates the property).

## Modelling conventions

* Times: a type with Mathlib `Lattice` (partial order `≤`, `⊔` = `Lattice::join`, `⊓` = `Lattice::meet`), decidable order.
  That the concrete Rust timestamp types satisfy these laws is itself proved (C01) for models of the concrete
  implementations. Where the code sorts times with `Ord`, the model takes a separate total order that extends `≤`
  (C04 proves that for the concrete types).
* Differences: `AddCommMonoid`/`AddCommGroup`/ring with decidable equality, `is_zero r` is `r = 0`; C05 proves the laws for models of
  the concrete types. Machine-integer overflow is not modelled (`Int` for `isize`).
* `Vec`/slices are `List`; in-place mutation returns the new value; panics and failed assertions are explicit `none`/error values;
  loops are structural recursion, folds, or recursion with fuel that is shown to be sufficient.
* `Rc`, channels, timely's progress tracking and worker scheduling are replaced by their contracts: operators are state machines
  whose schedule is an arbitrary list of steps.

## Trusted base

Lean's kernel (4.33.0); the axioms `propext`, `Classical.choice`, `Quot.sound` (at most — checked with `#print axioms`);
the reading of the Rust code embodied in `Verif/Model`. No axioms of our own, no `sorry`, no `native_decide`, no `bv_decide`.

## Plan per property

For every property: what is modelled, how it is proved, and, where the proof rests on one, the contract assumed of code outside the model. The
status and the exact theorem names are in `MANIFEST.json`. `partial` always comes with a theorem that shows what is false of the code, or a note that says what is missing.

| id | modelled | proof |
|----|----------|-------|
| C01 | `join`/`meet` of integers, `Product`, lexicographic pairs, `PointStamp`, `AltNeu` as written | lub/glb proved directly by cases/induction on vectors |
| C02 | `advance_by` as written (three cases on the frontier slice) | fold induction over the frontier |
| C03 | timely `Antichain::insert`, `antichain_join/meet` | induction over insertions |
| C04 | derived/lexicographic `Ord` of each type | cases/induction |
| C05 | `plus_equals`, `is_zero`, `negate`, `multiply` for ints, pairs, `Vec`, `Present` | induction on vectors; the literal unit law of `Vec` is false (trailing zeros) |
| C06 | in-place `consolidate_slice` scan with offset/accum/swap | loop invariant; uniqueness of sorted nonzero lists with given totals |
| C07 | `ConsolidatingContainerBuilder`, `ContainerChunker` as state machines | invariant over op lists |
| C08 | `MergeBatcher` incl. chain geometry, `VecMerger::merge/extract` | refinement to multiset of updates, invariant over histories |
| C09 | `UpdsBuilder` singleton encoding, `Vals`, builder, cursor | round trip by induction |
| C10 | `OffsetList` | invariant over pushes |
| C11 | `advance` gallop + binary search | fuel/loop invariant |
| C12, C13 | `OrdValMerger`, `OrdKeyMerger` as step machines with fuel | invariant: output + remaining = spec merge |
| C14–C17 | `Spine` with all layers, over any batch type meeting `BatchLaws`; that contract is proved of `OrdValBatch`, `OrdKeyBatch` and `ChunkBatch` (C64: of any type of chunk) | potential-function invariant; content invariant |
| C18 | `CursorList`, `OrdValCursor`, `OrdKeyCursor` | refinement to the sorted union; `seek_val` of `CursorList` moves cursors at other keys: negation with reachable batches |
| C19 | wrapper cursors and frontiers (`enter`, `enter_at`, `freeze`/frontier) | direct; `enter_at` needs the user's `prior` to be an inverse, as its documentation demands |
| C20, C21 | `TraceAgent` holds as counted frontiers; listener queues | invariants over op lists. Contracts: timely's `MutableAntichain`; `map_batches` shows batches that tile the interval (this is C15) |
| C22 | `arrange_core` as state machine, with the models of C07 and C08 inside | invariant over schedules |
| C23 | `arrange_from_upsert` | invariant: arranged = latest values. Contract `HonestView`: the trace cursor presents the inserted updates, advanced no further than permitted |
| C24, C39 | `ValueHistory`, `EditList`, `TimeHistory`, `JoinThinker`, `bilinear_wave` | loop invariants |
| C25, C26 | join driver as state machine, the iterator of deferred work, `join_core`'s closure | invariant: emitted + queued = product of acknowledged. Contracts `LegalBatch`, `LegalShown`, `ShowsThrough` on what arrives and what `batches_through` presents; `Keeps` on the container builder (proved of `ConsolidatingContainerBuilder`) |
| C27, C28 | `HistoryReplayer::compute` loop, `CursorTactic::retire`, driver | invariant (what is final is correct, and what is not is covered by pending times). False in partial orders, see below |
| C29 | `tile_descriptions` | induction over held |
| C30 | `count_total`, `threshold_total`, `distinct_total` | induction over batch history; negation for `distinct_total` |
| C31 | `iterate`, `Variable::{new, new_from, set}` and the operators it uses | the loop is an equation between streams; induction over rounds. Contract `Computes` on the body: once its input for a time is complete, its output eventually is, and is the body's function of it |
| C32 | linear operators as functions of message lists | accumulate algebra |
| C33 | `capture::iterator::Iter` | invariant over message sequences; negation for duplicates inside one message |
| C34, C40 | `PointStamp`, `PointStampSummary` | induction on vectors; negation for slice equality |
| C35 | `half_join` state machine | invariant over schedules; contract `CompactionOf` on the trace, `HalfJoinFns` on comparison and frontier function |
| C36 | delta queries of half joins; AltNeu calculus | algebra over combinations of updates; negation for AltNeu with incomparable times |
| C37 | chunk `pack`, `settle`, `VecChunk::{merge, extract, advance}`, `ChunkBatchMerger`, `ChunkMerger`, builder | loop invariants, `BatchLaws` |
| C38 | `InputSession` state machine | invariant |
| C41 | `SliceContainer`, `VecContainer` | invariant over pushes; negation for `clone_onto` |
| C42 | the sink: `UpdatesWriter`, `ProgressWriter` | invariant over activations; negation for the last statement |
| C43 | `ChunkBatchCursor`, `VecChunkCursor` | simulation: the chunk cursor and a position in the contents; then C18's refinement for lists, extended to cursors whose `seek_key` may go back |
| C44 | `cursor_through` of the spine, for each batch type | C15, C16 for the batches, C18, C43 for the cursors |
| C45 | `lookup_map`, `propose`, `propose_distinct`, `validate`, `count` (dogsdogsdogs) | invariant over activations; the arrangement by its counts (C44) |
| C46 | `extend`, `CollectionIndex` (dogsdogsdogs/src/lib.rs) | from the laws of single extenders, which C45 gives for indexed collections; the count trace only needs to be non-zero where there are values |
| C47 | `half_join2` (dogsdogsdogs) | as C35, with an invariant for blobs: ready part sorted by key, stuck part by time, capabilities tight |
| C48 | `arrange_core`, the builders, batches and cursors of `ord_neu.rs`, the spine and `join_traces` put together, as `arrange_by_key`, `arrange_by_self`, `join_map`, `semijoin`, `antijoin` do | an invariant that relates the batches of the operator to those in the trace (equal after a change of representation) and to those the join has received; it gives every assumption made in C25 |
| C49 | the operators of `collection.rs` as functions of collections (`Model/Coll.lean`) | `Op1`, `Op2`, `Enters`: an operator computes a function of collections if its output comes to hold the function of what its inputs come to hold; proved from the models of the operators (C32), and for `join_core` and `reduce` from what C25, C48, C27 and C28 conclude |
| C50 | `bfs`, `bfs_arranged` | streams connected by operators (as in C49) and a loop (as in C31); induction over rounds: round i holds the nodes up to distance i. A run is constructed for every constant graph |
| C51 | `propagate`, `propagate_at`, `propagate_core` | as C50, with `enter_at` and a variable without a source; induction over rounds: round i holds the least label that can have arrived by then. A run is constructed for every constant graph |
| C52 | `strongly_connected`, `strongly_connected_at`, `trim_edges` | as C51, with propagation nested in the rounds of an outer loop; each trimming keeps the edges of which both ends have the same label, labels are constant along what is kept, so the edges only decrease; at the fixed point the least label of a node's predecessors equals that of its successors. A run (of both nested loops) is constructed for every constant graph |
| C53 | `bidijkstra`, `bidijkstra_arranged` | as C50, with two variables; after round i each variable is a ball around each source (target), of radius i as long as one of its goals is unanswered; a distance splits at every point of a shortest path, so the least sum over meeting points is the distance. A run is constructed for every constant graph |
| C54 | `ProxyJoinTactic::prep`, `join_prep`, `join_key` over `bilinear_wave` | the backend is any pair of presentations (`ProxyPresents`), `cross` calls are recorded with their four lists; merge of sorted runs by induction, pairs by `joinAccum_cross`, replay by the invariant of C24's wave, chunks by an invariant of the buffers |
| C55 | `ProxyReduceTactic::retire` over `discover_times` and `tile_descriptions` | the backend is any set of windows that presents the updates of the changed keys (`WindowsPresent`) and any function that answers with corrections (`Corrects`); per key, the times discovered suffice: a function of accumulations that is determined at them is determined elsewhere (`discover_right`, over the loop's invariant); the rounds by an invariant per key over the meets of the moments left; windows by induction; tiles by C29. Runs of calls by induction (`ProxyRuns`). Pending times may be lost: `C55_pending_defect` |
| C56 | `prefix_sum`, `prefix_sum_at`, `aggregate`, `broadcast` | as C50, with two loops in sequence; the ranges of width 2^l are right after l rounds, by induction; states are reached bit by bit, from the highest, which gives at most 64 rounds. A run is constructed for all constant data and locations. Differences other than one are not supported, though not excluded by the documentation: `C56_counts_needed` |
| C57 | `identifiers` | as C50; by induction over rounds each record has one proposal with its difference, numbered by the rule in `Spec/Identifiers.lean`; who stopped once has precedence for ever; a record that lost m times has seen m slots taken by others. That the hash function tells records apart is needed (`C57_hash_needed`) |
| C58 | `sequence`, `_color` | as C50; by induction over rounds a node has its state once all before it have; the state is a function of `heard` in `Spec/Sequential.lean`. What happens without the condition on edges: `C58_unaddressed` |
| C59 | `capture::source::build`: MESSAGES, UPDATES, PROGRESS, FEEDBACK on any number of workers and the channels between them | transition system (`SourceState.step`), invariant over all schedules: counts held by PROGRESS and under way are those of updates not sent yet, so these hold capabilities back. Negation for partial orders: `C59_timed_defect` |
| C60 | `ReferenceThinker::compute` behind `reduce_trace_reference` | the first phase is simulated by `discover_times` with the whole history as output times (`RefSim`), whose times suffice for anything determined by which times have come (C55); the second phase by an invariant over the active times. Negation for compacted histories: `C60_pending_defect` |
| C61 | `enter_dynamic`, `leave_dynamic` (with the panic of `delayed`), `feedback_summary`, a `Variable` with it | times of a scope are split into the enclosing scope's time and the round, an order isomorphism; the split turns a run of the dynamic loop, message by message, into a run of the nested loop, so that C31 applies |
| C62 | `columnar/updates.rs`: `UpdatesIter`, `form`, `form_unsorted`, `consolidate`, `filter_zero`, `push`, `extend_from_keys`, `UpdatesBuilder`, `retain_items` | columns are values and bounds; the layout of nested lists (`Forest.layout`) is the specification, each function is shown to act on layouts as the corresponding function on nested lists. Iteration by an invariant: the position in each column is the list that holds the position below. Negation: `C62_iter_defect` |
| C63 | `columnar/trie_merger.rs` (merging a pair of tries: surveys, writing from surveys, suffixes; `extract`, `split_at`) and `columnar/trace/chunk.rs` (`ColChunk::merge`, `extract`, `advance`, `settle`, `bounds`) with `pack` of `trace/chunk/mod.rs` | surveys of a level are shown to be the run-length form of an alignment of two sorted lists, and writing from surveys to lay out the aligned merge of the contents, up to a horizon beyond which one input continues; the deque functions are then related to the functions on lists of updates by `HoldsAll` |
| C64 | `trace/chunk/mod.rs` for any type of chunk: `ChunkBatch`, `ChunkBatchMerger`, `ChunkBatchBuilder`, `ChunkMerger`, `merge_chains` | the contract of `Chunk` (`Spec/ChunkContract.lean`) says what each operation does to the sequences of updates; the loops by invariants that use only the contract; the contract is proved of `VecChunk` and of `ColChunk`; batches of chunks keeping it meet `BatchLaws`, so C14–C17 hold of spines of them |
| C65 | `columnar/trace/chunk.rs`: `ColChunkCursor`; `trace/chunk/mod.rs`: `ChunkBatchCursor` for any type of chunk with a cursor | the contract of a navigable chunk (`Spec/NavContract.lean`); the cursor over a batch is shown to move in step with the cursor of C43 over the batch of lists of the same updates; the contract is proved of `ColChunk` |
| C66 | `interactive/src/scope_ir.rs`: `Scope::optimize` and all its passes; `interactive/src/backend/mod.rs`: `render_tree`; `interactive/src/backend/vec.rs`: `render_linear` | a program's meaning is the set of solutions of the equations of its dataflow, for any backend; each rewrite keeps the solutions; vectors can fuse linear operators that do not follow a delay |
| C67 | `columnar/collection/` (`RecordedUpdates`: `negate`, `enter`, `leave`, `results_in`; `ValBuilder`; `ValDistributor::partition`; `join_function`, `leave_dynamic`, `as_recorded_updates`) and `columnar/trace/chunker.rs` (`TrieChunker`) | a container carries a list of updates if its columns are the layout of nested lists of them (C62), canonical if it is flagged consolidated; each function is shown to act on the updates carried; builder, exchange and chunker by invariants. Negations: `C67_exchange_records_defect`, `C67_exchange_twice_defect` |
| C68 | `columnar/trace/spill.rs`, `ColChunk` resident or paged (`columnar/trace/chunk.rs`), the codec of `Updates` and `RecordedUpdates` | operations run in a state with the spiller, the storage and the caches of paged chunks; a program is an inductive type of all uses of chunks. A simulation: each chunk reads as a trie, which later stores and fetches do not change, so every program gets the answers it gets on plain tries, the model of C63. The merge of a merge batcher is such a program. The budget by an invariant of packing. Negation: `C68_cache_defect` |
| C69 | `lower.rs`, the syntax of programs (`parse/mod.rs`), rendering (`backend/mod.rs`) | the meaning of a program is the solutions of the equations of its statements, without order. Lowering is modelled with its state, its worklist and the recursion on nested scopes. A lemma for expressions (the reference computes what the expression says, from any state that agrees with the values of names), one for the order the worklist takes, and recursion over nested scopes give both directions. Which programs are lowered is a separate specification (`Spec/LowerOk.lean`: names, fields, ranks); one level is an invariant on the names known after each step of the worklist, in both directions, and the rank of a name is its place in the order taken. With C66: lowered and optimized. Negations: `C69_duplicate_defect`, `C69_duplicate_defect_vars` |
| C70 | `eval` and what it calls (`interactive/src/ir.rs`), the reducers of vectors (`backend/vec.rs`) | evaluation is modelled with the environment it pushes to and pops from, and panics; its meaning is a function without a stack, bound values being a list. Induction on terms; the environment is restored for all terms, scoped or not |
| C71 | constructors, patterns and binders in `interactive/src/parse/pipe.rs`, then `eval` | terms as they are written, with names; their meaning binds names to values. An invariant says which field of which bound value each binder is; induction on terms. Which terms are accepted is a separate specification. Negation: `C71_default_defect` |
| C72 | the reverse rules of explanations (`interactive/src/explain/decouple.rs`) on rows as in `Val` (`explain/mod.rs`), `emit_lookup_flatmap`, `distinct_full`, `semijoin_data`, the rules of variables and filters | the terms each rule builds are evaluated (C70) on lists of rows; rows are given by records and demands with named parts, and each rule's result by a filter of all pairs of demands and records. Each list of fields evaluates to the parts of the row; terms that read columns only have the same value on rows with more columns (induction on terms) |
| C73 | `clone_into`, `clone_identity` and `clone_rec` (`interactive/src/explain/mod.rs`), rendering (`backend/mod.rs`) | cloning is modelled with its tables. A run is a solution of the equations of all scopes, with the values of all sites (a tree, which C66's relation forgets). First, by recursion over scopes, the clone is the original with references shifted and lifted exports after those of each child; then the equations of each item of the clone are solved by those of the item with the hosts of its sites appended, by recursion; then the same for a scope that the clone is spliced into, in both directions. Lowered programs (C69) are closed, by the invariant of lowering that every reference is to something there |
| C74 | `resolve`, `scope_at`, `Reverse` (`side`, `route`, `push`, `walk`, `site`) and the round of `explain_with` (`interactive/src/explain/mod.rs`) | what a reference names is an inductive relation; what is asked of a collection is another, with a case for the query, for bound variables and for each operator's rule (C72). The walk is a fold over a list of steps; in this list the uses of a collection come before it (induction over scopes, as references point backwards), each address is taken once, so that by induction on the list all contributions are there when they are taken. For programs that fit their shapes, rounds do not panic: all contributions are rows of demands for records of their target, an invariant of the steps that each rule keeps (C72); what is demanded is then stated for rows |
| C75 | `site_shapes`, `walk_shapes`, `shape_of_ref`, `field_width`, `proj_arity`, `apply_ops_arity`, `export_shape` (`interactive/src/explain/mod.rs`) | the records that collections can have are an inductive relation: the least one that has the sources' records and is closed under the operators, whatever the iterations, times and counts. Partial: projections are tuples of single fields and spliced rows, concatenated collections have the same shape, and no lists are collected. The walk is a fold over a list of steps, each of which adds at most one shape; an invariant says that each shape follows from others; when no step adds one, all that can follow are there. It ends since no address gets two shapes. |
| C76 | `Server` (`interactive/src/server.rs`): `install`, `install_generated`, `install_clock`, `feed`, `peek`, `drop_program`, `tick` | the specification keeps only the installed programs and what they were fed, by the answers to the commands; contents of a collection are an inductive relation over names. The model keeps the registry (traces, programs, counts of importers, epoch) and a list of dataflows that refer to each other by number, as built. Partial: no program is called `clock` or as a generated source. An invariant over all histories: each trace is an export of one installed program, each import of a dataflow is still the trace of that name, counts are exact, sessions are at the epoch, traces are compacted to before the epoch. Contents by induction on the number of the dataflow |
| C77 | `Recipe::parse`, `canonical`, `row`, `rows_len` (`interactive/src/server.rs`), `gen_row_seeded` (`interactive/src/lib.rs`) | strings as lists of characters, with `split`, `split_once`, `trim`, `strip_prefix` and `u64::from_str` as functions; names are specified by lists of settings with blanks. Decimal round trip by induction on the number; commas and equal signs do not occur in what is between them. Partial: fields are nodes only for 1 to 2^63 nodes |
| C78 | `tokenize`, `Parser` and `parse` of the applicative syntax (`interactive/src/parse/applicative.rs`), `build_builtin` (`parse/mod.rs`) | a grammar of tokens and one of terms by level of precedence, expressions and statements, as inductive relations with left recursion. Recursive descent counts down a number. Sound: induction on the number, with the loops' results spelled by what was taken before and in the loop. Complete: induction on derivations, in continuation form (the loop of a level on what follows), for all numbers from some number on; uniqueness follows from both. Partial: stray closing braces, `C78_stray_brace_defect` |
| C79 | `tokenize`, `parse_program`, `parse_stmt`, `parse_pipe_expr`, `parse_concat_expr`, `parse_atom`, `parse_join_arg`, `parse_pipe_op` and `parse` of the pipe syntax (`interactive/src/parse/pipe.rs`) | a grammar of collections, with operators as a relation between the collection before and after, on the tokens, terms and projections of C78. Sound by induction on the number, complete by induction on derivations in continuation form. Translations between the two syntaxes by induction on derivations. Partial: stray closing braces |

## Where the code does not have the property

Each is proved of the model, with a concrete reachable witness, and the property is then proved in a restricted form.

* C05: `Vec` has no literal unit; all laws hold up to trailing zeros (`C05_vec_unit_not_literal`).
* C18: `CursorList::seek_val` moves the cursors that are not at the current key, so their values for later keys are lost, or they panic (`C18_seek_val_loses`, `C18_seek_val_panics`).
* C27, C28: in partially ordered times, `reduce` skips times of the history at or beyond `upper` that are not interesting, without joining them with the new times. A pending time can be missed, and the
  output stays wrong for ever (`C27_pending_defect`, `C28_defect`, a legal run from start to end). The same loop is in `discover_times`,
  which misses pending times too, with three dimensions (`C55_pending_defect`).
* C60: the reference implementation does not advance the history when loading it, and so has not that defect, but another: a time of a compacted history at or beyond `upper` is skipped without
  joining it with new times (`C60_pending_defect`). On that input `reduce` is right, as the reference is on that of `C27_pending_defect`.
* C30: `distinct_total` never retracts a record whose count returns to zero (`C30_distinct_total_retraction`).
* C33: duplicates inside a single `Updates` message are counted twice by the replaying iterator (`C33_repetition_within_message`).
* C36: AltNeu delta queries lose combinations of updates at incomparable times (`C36_altneu_defect`).
* C40: slices with trailing zeros are equal to no `PointStamp` (`C40_slice_equality_fails`).
* C41: `clone_onto` panics if lengths differ (`C41_clone_onto_fails`).
* C42: the progress writer does not retry its last statement (`C42_progress_defect`).
* C62: the iterator over a columnar trie is documented to skip empty groups; it does not if the first key has no value or the first value no time (`C62_iter_defect`). No function of the library makes such a trie.
* C47: a `half_join2` operator that yields with ready proposals can stall: when it resumes, it does not look for stuck records of that blob that became ready, and does not ask to be activated again
  (`C47_progress_defect`).
* C66: on vectors, `enter_at` followed by `lift_iter`, or by `enter_at`, does not mean the same after the two are fused: the iteration recorded is that before the delay
  (`C66_vec_defect`), and only the second delay remains (`C66_vec_defect_twice`).
* C67: the exchange of columnar containers does not keep the number of records that timely's progress tracking counts: a container whose updates have all cancelled is sent to nobody, and its records are
  never received (`C67_exchange_records_defect`); containers that were exchanged before can gain records (`C67_exchange_twice_defect`). With several workers the first stalls all frontiers downstream.
* C69: the documentation of `lower.rs` says that duplicate names are rejected. A `var` and a `let` of the same name are both accepted, and mean something else than their equations
  (`C69_duplicate_defect`); two `var`s of the same name are accepted, and rendering them panics (`C69_duplicate_defect_vars`). An `export` in a nested scope is accepted and ignored.
* C71: a `case` whose patterns leave gaps between tags fills them with the default, which is then evaluated with the payload bound, although its names and `^k` were resolved without: in
  `case $0 { A(a) => case $1 { B(b) => b, _ => a } }` with tags 0 and 1 the default gives the field of `$1` instead of `a` (`C71_default_defect`).
* C72: `emit_lookup_flatmap` evaluates the list term on rows that are keyed by the whole row: a list that reads `$0` is another one, and the demand is lost (`C72_flatmap_key_defect`). It also takes the
  input to be in the same scope: if it is imported from an outer one, the explanation panics (`C72_flatmap_scope_defect`). In a loop, a projection or filter that reads a whole row other than by splicing it,
  as `len($1)` or `tuple($1)`, also reads the iterations that follow the fields, and the demand is lost (`C72_whole_row_defect`).
* C75: `site_shapes` gives a collected list one field, but the value is the bare list, not a tuple of one field, except in nested scopes, where `append_iter` wraps it. At the root, the rules read the first element of the list
  as the field. An explanation of a collected list that is read through a concatenation demands nothing (`C75_collect_defect`). A variable that is bound to itself gets no shape, and `walk` panics (`C75_empty_defect`).
* C76: a program that is called `clock` is replaced in the registry when the clock is started: it can be neither fed nor dropped, and its traces stay registered for ever (`C76_clock_name_defect`). A program that is called as a generated source in a spelling that is not the canonical one
  is accepted, but `feed` and `drop` look for the canonical name (`C76_source_name_defect`).
* C77: `random:nodes=0,edges=1` is accepted as a recipe, and a program that imports it panics the server's workers (`h % nodes`, `C77_no_nodes_defect`). With more than 2^63 nodes fields are negative (`C77_many_nodes_defect`).
* C78: `parse_program` stops at a closing brace also at the top level, and `parse` does not look at what is left: a program with one brace too many is accepted without the statements after it (`C78_stray_brace_defect`).
* C79: the same in the pipe syntax (`C79_stray_brace_defect`).
* C68: the documentation of the spiller says that it bounds the resident set. The records of committed chunks kept are bounded (`C68_budget`), but a paged chunk read by a cursor keeps what was fetched
  for as long as it exists, and this is not counted (`C68_cache_defect`).

## Simplifications

Beyond the conventions above; each is also stated where the definition is.

* Numbers are unbounded, except where a bound is the point (rounds of iterations are `u64` with `checked_add`; `Spine` theorems assume fewer than `isize::MAX` updates). The
  shifts `8 << batch_index` and `1 << length` of the spine overflow for 60 and 31 layers; C17 shows that many layers need that many doublings.
* Upper frontiers in C15 are equal up to the order of their elements, as `Antichain`'s equality is.
* Cursors in operators are given by what they present (`Contents`, `Pos`); that the cursors of batches and of batch lists present contents is C18.
* Buffers: whether a buffer is full depends on the allocator and is an arbitrary `Bool` per call.
* C24: elements `((V, T), D)` are written `(V, T, D)`, stacks read by `last()` are stored back to front.
* C25: events are smaller than activations, so that runs of the model include all runs of the operator. `rounds` bounds loops.
* C33, C42: hash sets are lists without duplicates; `ChangeBatch` is a list of changes; answers of the writer are lists of `Bool`.
* C35: the stash is an association list visited in any order; the yield function is the number of calls that return `false`.
* C48: one worker. The channel from an arrangement to the join is a queue of batches with their times; what timely promises about it is that frontiers are not past waiting messages, held capabilities, or
  messages to come. Compaction requests of all readers of a trace are combined into one, which the join must have permitted (that this is what the trace gets is C20).
* C49, C50 and the other algorithms: differences are integers without overflow (`isize`). A program is the record of its streams and of the operators that connect them: what timely does to bring
  about the streams is not modelled beyond C31. That each operator computes its function of collections is proved in C49 for those of C32, is C48 for `join_core`, and is an assumption for `reduce` in
  loops, since C28 is proved only for totally ordered times or under further conditions.
* C55: hashes and identifiers are natural numbers. The backend's answers are data: `reduce_corrections` a function of its arguments, windows a list. Reused vectors are fresh.
* C56: positions are `usize`, 64 bits wide; shifts and additions wrap.
* C57: hashes are natural numbers, the number of attempts (`i32`) does not overflow.
* C59: the token that stops reading is never dropped. Timely's promise is that the frontier shown to UPDATES is not beyond a capability held, and does not go back. Progress statements count as correct only if their counts are.
* C58: colors (`u32`) do not overflow: none exceeds the number of neighbours by more than one.
* C47: sets of capabilities are antichains of times, `MutableAntichain`s the lists of times they count.
* C45, C46: the arrangement read by an activation is given by what its cursor counts; in C46 operators are given by what they compute once complete, and the trace of counts only needs to be non-zero
  wherever there are values.
* C37: the chunk type is `VecChunk` (C64: any), the data in lexicographic order; `Rc` sharing and recycled allocations are not modelled.
* C68: the store, of the caller, and the encoding of one column, of the crate `columnar`, are parameters with laws: what is stored is loaded later, and what is written is read, in the announced size.
  Sizes are of 64 bits. What a cursor shows of a chunk is a function of its trie (C65). I/O errors of the store panic and are not modelled.
* C69: a program is its list of statements; for the applicative parser see C78. The six linear operators of expressions are one, with any set of operators. Maps and sorted sets are lists.
* C70: integers are unbounded, and a parameter says what arithmetic does with a result that does not fit (panic, or wrap); the sum of `count` is not bounded.
* C71: grouping of tokens is not modelled; a term is a tree with names.
* C72: collections are lists of rows without negative multiplicities, as in the in-memory dataflow of `decouple.rs`; `Distinct` keeps first occurrences.
* C74: the code emits operators into an iterative scope; the model computes what they compute in one round, from given values of the demand variables, on lists of rows as C72. The visible collections of the
  witness and forward copies (`wit`, `fwd`, `ex_src`, `fwd_inputs`) are a total function `pair`; that they exist is C73. The recursion of `resolve` has a bound, and `C74_resolves` shows that there is one that suffices. Shapes (`site_shapes`) are a parameter; they are C75.
* C73: names of lifted exports and the operator `LiftIter` are parameters; the collections that stand for imports are not arrangements, as in `explain_with`.
* C76: the workers are modelled together, as one collection each; that `tick` waits until the exports caught up, and that a dataflow computes its program at each time (C66), is taken as given. `Recipe::parse` and `canonical`, and the rows of a recipe, are parameters; they are C77. A dataflow that was removed has no contents.
* C78: strings are lists of characters; loops that push are recursions.
* C79: the functions for terms and projections are those of C78, whose text is the same in both files. No `con`, `case`, `=>` and names in terms, which are in C71, and no `fold`: the model's tokenizer refuses them.
* C67: `LINK_TARGET` is a parameter. Timely's sessions extract from the builder after each item and finish it in the end. Hashes and record counts are natural numbers.
* C31: the outer part of the loop's summary is the identity; delivery is in any order, with any delay.

## Not modelled

Timely itself (progress tracking, exchange of data between workers, activation, logging), the byte representation of single columns and the parts of `columnar/` not listed above, the
retire loop of the alternative reduce implementation `ReferenceTactic` (the same text as that of `CursorTactic`), the algorithms in `algorithms/` other than those listed above,
the crate `interactive` except its lowering, its optimizer, rendering, the linear operators on vectors and scalar terms and the
explanations, server and both syntaxes (C66, C69-C79), the crates `experiments`,
`server`, `diagnostics`, `doop`, `tpchlike`, `advent_of_code_2017`, and serialization.
