{"id": "C01", "title": "Timestamps form lattices under join and meet", "statement": "For every timestamp type the library provides a Lattice implementation for (integers, Product, lexicographic pairs, PointStamp, AltNeu), join returns the least upper bound and meet the greatest lower bound of its two arguments in the type's partial order.", "quantifier": "all timestamp types in the list, and all pairs of timestamps of each type", "why_tests_cant": "The domain of timestamps is infinite (nested products, variable-length point stamps); least-ness quantifies over every possible upper bound.", "anchors": ["differential-dataflow/src/lattice.rs: impl Lattice for Product, (T1,T2), integers", "differential-dataflow/src/dynamic/pointstamp.rs: impl Lattice for PointStamp", "dogsdogsdogs/src/altneu.rs: impl Lattice for AltNeu"]}
{"id": "C02", "title": "Advancing a time by a frontier is invisible to later readers, and is canonical", "statement": "If t' is t advanced by frontier F then for every time q that is beyond some element of F: t <= q iff t' <= q. The operation never moves a time backwards, is idempotent, is monotone, and two times that no reader at or beyond F can distinguish advance to the same time.", "quantifier": "all lattices, all times t, all frontiers F including the empty one, all reader times q beyond F", "why_tests_cant": "The claim is about indistinguishability at all later times; compaction bugs only show at the reader time a test did not pick.", "anchors": ["differential-dataflow/src/lattice.rs: Lattice::advance_by"]}
{"id": "C03", "title": "Frontiers built by insertion are antichains with the right up-set", "statement": "Inserting any sequence of times into an empty frontier yields a set of mutually incomparable times whose up-set is exactly the union of the up-sets of the inserted times, whatever the order of insertion; the join of two frontiers accepts exactly the times both accept and the meet exactly the times either accepts, and the results are again antichains.", "quantifier": "all sequences of insertions, all pairs of frontiers over any lattice, all probe times", "why_tests_cant": "Depends on every insertion order and on incomparable elements of an arbitrary partial order.", "anchors": ["differential-dataflow/src/lattice.rs: antichain_join, antichain_join_into, antichain_meet, impl Lattice for Antichain"]}
{"id": "C04", "title": "The total order used for sorting times extends the partial order", "statement": "For every provided timestamp type, if s <= t in the partial order then s precedes or equals t in the type's Ord order. Operators that replay history by repeatedly taking the Ord-least time therefore never see a time before one of its predecessors.", "quantifier": "all timestamp types provided, all pairs of times", "why_tests_cant": "A violation requires a specific pair in an infinite type; PointStamps that are not normalized do violate it.", "anchors": ["differential-dataflow/src/lattice.rs", "differential-dataflow/src/dynamic/pointstamp.rs: derive(Ord), PointStamp::new, PartialOrder", "dogsdogsdogs/src/altneu.rs"]}
{"id": "C05", "title": "Difference types obey the algebra that consolidation and join assume", "statement": "For every provided difference type, addition is commutative and associative, a value reporting is_zero is a unit for addition, negate gives an inverse, and multiply distributes over addition on each side and maps zero to zero, where those operations are provided. This includes the variable-length vector type, whose unequal lengths are padded with zeros, and pairs.", "quantifier": "all difference values of each provided type, vectors of any lengths", "why_tests_cant": "The laws quantify over all values, including vectors of unequal lengths.", "anchors": ["differential-dataflow/src/difference.rs: Semigroup, Monoid, Abelian, Multiply, Present"]}
{"id": "C06", "title": "Consolidation keeps the accumulation and produces the canonical form", "statement": "Consolidating any list of (data, difference) or (data, time, difference) entries yields a list strictly increasing in data (and time) with no zero difference, whose total for each data (and time) equals the total in the input. Two inputs with the same totals consolidate to the same list.", "quantifier": "all lists of any length with any repetition and cancellation pattern, all difference monoids, any offset at which consolidation starts", "why_tests_cant": "In-place scan with swap; correctness depends on every interleaving of runs, zeros and positions.", "anchors": ["differential-dataflow/src/consolidation.rs: consolidate, consolidate_from, consolidate_slice, consolidate_updates, consolidate_updates_from, consolidate_updates_slice"]}
{"id": "C07", "title": "The consolidating container builder and the chunker neither lose nor invent updates", "statement": "For every sequence of pushes, extractions and a final finish, the containers handed out by ConsolidatingContainerBuilder, and the chunks handed out by ContainerChunker, together have for each (data, time) the same total difference as the pushed updates; every chunk is non-empty, sorted and consolidated; after finish nothing is retained.", "quantifier": "all push sequences, all capacities, all positions at which containers are extracted", "why_tests_cant": "Flush points depend on buffer length, capacity, and on how much cancels at each flush.", "anchors": ["differential-dataflow/src/consolidation.rs: ConsolidatingContainerBuilder", "differential-dataflow/src/trace/implementations/chunker.rs: ContainerChunker"]}
{"id": "C08", "title": "Sealing a batcher partitions the buffered updates exactly by time", "statement": "For every sequence of pushed chunks and seals with any frontiers, each seal(upper) yields a batch content that contains exactly the consolidated totals of not-yet-sealed updates whose time is not at or beyond upper, in sorted order without zeros; updates at or beyond upper remain buffered; and the reported frontier is the set of minimal times of what remains. Descriptions of consecutive seals are contiguous.", "quantifier": "all histories of pushes and seals, all chunkings of the input, all frontiers", "why_tests_cant": "Merge schedule depends on chain weights and history; loss would depend on a specific interleaving of chunk sizes and frontiers.", "anchors": ["differential-dataflow/src/trace/implementations/merge_batcher.rs: MergeBatcher::{push_into,seal,frontier,insert_chain,merge_by}, vec::VecMerger::{merge,extract}"]}
{"id": "C09", "title": "A batch built from updates reads back as exactly those updates", "statement": "Building a batch from a sorted consolidated list of ((key,val),time,diff) and walking it with its cursor (keys, then values, then times) yields exactly the updates of the list, in order, for both key-value and key-only layouts; the number of updates reported is the length of the list.", "quantifier": "all sorted consolidated lists, including single-update values compressed by the singleton encoding, for all sizes", "why_tests_cant": "The singleton encoding stores nothing for a repeated (time,diff); correctness depends on neighbouring values.", "anchors": ["differential-dataflow/src/trace/implementations/ord_neu.rs: layers::{Vals,Upds,UpdsBuilder}, val_batch::{OrdValBuilder,OrdValCursor}, key_batch"]}
{"id": "C10", "title": "Offset lists return what was pushed", "statement": "After any sequence of pushes of offsets to an OffsetList, its length is the number of pushes and index i returns the i-th pushed value, whichever of the compact, 32-bit and 64-bit regions it is stored in.", "quantifier": "all sequences of 64-bit offsets, including non-monotone and large ones, all indexes", "why_tests_cant": "The representation switches irrevocably between three encodings depending on history and magnitude (2^32).", "anchors": ["differential-dataflow/src/trace/implementations/mod.rs: OffsetList::{push,index,len}"]}
{"id": "C11", "title": "Galloping search finds the first element past the predicate", "statement": "On any container range whose elements satisfy the predicate on a prefix, advance(start,end,pred) returns exactly the number of elements from start that satisfy it, without reading outside [start,end).", "quantifier": "all sorted containers, ranges and monotone predicates of any length", "why_tests_cant": "Exponential and binary search have size-dependent boundaries around powers of two and the small limit of 8.", "anchors": ["differential-dataflow/src/trace/implementations/mod.rs: BatchContainer::advance", "differential-dataflow/src/trace/chunk/vec.rs: gallop"]}
{"id": "C12", "title": "Merging two batches preserves accumulations at all times beyond the compaction frontier, whatever the fuel", "statement": "For two adjacent batches and a compaction frontier F, the merged batch reached by any sequence of fuel amounts has, for each key and value and each time q at or beyond F, the same accumulated difference at q as the two batches together; it is sorted, free of zeros and of empty keys and values; it has lower of the first, upper of the second; and the sequence of fuel amounts does not affect the result.", "quantifier": "all pairs of batches, all frontiers F, all sequences of fuel amounts that lead to completion, all reader times beyond F", "why_tests_cant": "Suspended merges resume from cursors into both inputs; failures depend on where fuel ran out.", "anchors": ["differential-dataflow/src/trace/implementations/ord_neu.rs: OrdValMerger::{new,work,done,merge_key,copy_key,stash_updates_for_val}, OrdKeyMerger"]}
{"id": "C13", "title": "A merge receives enough fuel iff it completes", "statement": "Each call to a merger's work either completes the merge, leaving fuel positive, or consumes at least the fuel supplied; the total fuel consumed over all calls never exceeds the number of updates in the two inputs. Hence a merge completes once total supplied fuel exceeds the number of input updates.", "quantifier": "all pairs of batches, all fuel sequences", "why_tests_cant": "It is the amortisation contract the spine relies on not to panic, over all fuel schedules.", "anchors": ["differential-dataflow/src/trace/mod.rs: Merger::work", "differential-dataflow/src/trace/implementations/ord_neu.rs: OrdValMerger::work"]}
{"id": "C14", "title": "The merging spine never attempts to over-fill a layer", "statement": "From an empty spine, no sequence of batch insertions of any sizes, compaction frontier changes and exert calls, with any non-negative effort, ever reaches the state in which a third batch would be inserted at a layer that already merges two, so that the insertion assertion cannot fail.", "quantifier": "all operation sequences, all batch sizes, all effort settings", "why_tests_cant": "An amortised-analysis invariant across unbounded histories; a violation would need a particular sequence of sizes.", "anchors": ["differential-dataflow/src/trace/implementations/spine_fueled.rs: Spine::{introduce_batch,roll_up,apply_fuel,insert_at,tidy_layers,exert_effort,begin_merge}"]}
{"id": "C15", "title": "A spine always represents exactly the updates inserted", "statement": "After any sequence of insertions, exertions and compaction changes, for each key, value and time q at or beyond the current logical compaction frontier, the total over the batches the spine exposes equals the total of all inserted updates at times less or equal to q; the batches are contiguous from the minimum frontier to the reported upper.", "quantifier": "all operation sequences, all merge progress states, all reader times beyond the compaction frontier", "why_tests_cant": "Content is spread over layers in every stage of merging, and which stage depends on the full history.", "anchors": ["differential-dataflow/src/trace/implementations/spine_fueled.rs: Spine::{insert,exert,set_logical_compaction,set_physical_compaction,map_batches,consider_merges}", "differential-dataflow/src/trace/mod.rs: TraceReader"]}
{"id": "C16", "title": "A cursor through a frontier sees exactly the updates before that frontier", "statement": "If batches_through(F) returns batches then, for each key, value and time q beyond the logical compaction frontier, their total equals that of exactly the inserted batches whose upper is at or before F; it does not fail for frontiers that are batch boundaries not before the physical compaction frontier.", "quantifier": "all histories, all frontiers F that are boundaries of inserted batches and not before the physical frontier", "why_tests_cant": "Requires that no merge ever crossed the physical compaction frontier, over all histories.", "anchors": ["differential-dataflow/src/trace/implementations/spine_fueled.rs: Spine::batches_through, consider_merges", "differential-dataflow/src/trace/mod.rs: TraceReader::cursor_through"]}
{"id": "C17", "title": "Spines hold logarithmically many batches", "statement": "The number of batches a reader of a spine must merge, apart from those inserted batches whose upper frontier the physical compaction frontier has not yet reached, is at most 2(1 + log2 N), where N counts a constant for each update ever inserted, each batch inserted and each unit of effort requested.", "quantifier": "all operation sequences", "why_tests_cant": "Unbounded histories.", "anchors": ["differential-dataflow/src/trace/implementations/spine_fueled.rs: Spine::{introduce_batch,roll_up,tidy_layers}"]}
{"id": "C18", "title": "A cursor over several batches presents the sorted union", "statement": "Stepping and seeking keys and values through a CursorList presents each key present in any batch exactly once in increasing order, under it each value exactly once in increasing order, and under it all (time,diff) of all batches. Seeking a key or value positions at the first key or value not before the target.", "quantifier": "all lists of batches and all sequences of step, seek and rewind calls respecting validity", "why_tests_cant": "The minimal index sets depend on which cursors share a key; failures appear only with particular overlaps (seek_val moves cursors that are not on the current key).", "anchors": ["differential-dataflow/src/trace/cursor/cursor_list.rs: CursorList", "differential-dataflow/src/trace/cursor/mod.rs: Cursor"]}
{"id": "C19", "title": "Entered, delayed and frontier-limited traces read as the transformed collection", "statement": "Reading a batch through the enter wrapper yields each update at the injected time, through enter_at at the time given by the user's function, and through the frontier wrapper advanced by since with updates at or beyond until suppressed; each with unchanged key, value and difference. For a reader at q beyond since and not beyond until, the frontier-limited trace accumulates as the original.", "quantifier": "all batches, all injections, all since and until frontiers, all reader times", "why_tests_cant": "Quantifies over all times and frontiers in partially ordered time.", "anchors": ["differential-dataflow/src/trace/wrappers/enter.rs", "differential-dataflow/src/trace/wrappers/enter_at.rs", "differential-dataflow/src/trace/wrappers/frontier.rs"]}
{"id": "C20", "title": "No live trace handle ever sees its history compacted past its own frontier", "statement": "For every sequence of clones, drops and compaction requests on the handles sharing an arranged trace, the frontier applied to the underlying trace is less or equal to every live handle's own frontier, for logical and for physical compaction; and handles' frontiers only advance.", "quantifier": "all sequences of clone, drop and set_*_compaction calls, any number of handles", "why_tests_cant": "Requires reference counting to be exact over unbounded interleavings.", "anchors": ["differential-dataflow/src/operators/arrange/agent.rs: TraceAgent::{set_logical_compaction,set_physical_compaction,clone,drop}", "differential-dataflow/src/operators/arrange/agent.rs: TraceBox::adjust_logical_compaction"]}
{"id": "C21", "title": "Importing a trace delivers each batch exactly once", "statement": "A listener created at any point of a trace's life receives instructions whose batches are first the batches in the trace at the time of the creation and afterwards each batch inserted, contiguous and exactly once, with frontier advancements that never pass an undelivered batch.", "quantifier": "all interleavings of batch insertion, seal, listener creation and consumption", "why_tests_cant": "Interleavings are unbounded; loss or duplication depends on when the listener is created.", "anchors": ["differential-dataflow/src/operators/arrange/agent.rs: TraceAgent::new_listener, import_core", "differential-dataflow/src/operators/arrange/writer.rs: TraceWriter::{insert,seal}"]}
{"id": "C22", "title": "Arrange emits contiguous batches containing each update exactly once", "statement": "For every schedule of input batches and frontier advances, the batches emitted by arrange tile time from the minimum frontier to the input frontier without gaps or overlaps, each update received appears in exactly one batch, the one whose interval contains its time, each batch is sent at a capability the operator holds, and the operator does not panic.", "quantifier": "all input histories respecting the input frontier, all frontier advancement sequences including partially ordered multi-element frontiers", "why_tests_cant": "Multiple incomparable capabilities split one frontier advance into several batches; histories are unbounded.", "anchors": ["differential-dataflow/src/operators/arrange/arrangement.rs: arrange_core", "differential-dataflow/src/operators/arrange/writer.rs: TraceWriter"]}
{"id": "C23", "title": "Upsert arrangements hold the latest value for each key", "statement": "With totally ordered times, at each completed time the arranged collection contains for each key exactly the value of the last upsert at or before the time (the greatest of the values offered at that time), once, or nothing if it was a deletion or there was none.", "quantifier": "all streams of upserts, all schedules of frontier advances, all keys and completed times", "why_tests_cant": "Depends on previous output read back from the trace over unbounded histories.", "anchors": ["differential-dataflow/src/operators/arrange/upsert.rs: arrange_from_upsert"]}
{"id": "C24", "title": "Joining per-key histories equals the cross product of their updates", "statement": "For the histories of values of one key from two inputs, the output of the per-key join accumulates, for each pair of values and each time q beyond the compaction meet, to the sum of products of differences over pairs of updates whose joined times are at or before q; the small-history and time-ordered replay strategies agree.", "quantifier": "all pairs of histories of any length over any lattice-ordered times", "why_tests_cant": "Replay advances and consolidates buffers as it goes; error depends on the time lattice and the order of history.", "anchors": ["differential-dataflow/src/operators/join.rs: JoinThinker::think", "differential-dataflow/src/operators/common.rs: bilinear_wave", "differential-dataflow/src/operators/mod.rs: ValueHistory, EditList"]}
{"id": "C25", "title": "Join is bilinear and pairs each pair of updates exactly once under every schedule", "statement": "For all interleavings of arrivals of batches on the two inputs, frontier advances, fuel-limited work and trace compaction, the total join output at any time q completed on both inputs is, for each key and pair of values, the product of the input accumulations at q.", "quantifier": "all schedules, all batch boundaries, all preloaded trace contents, all compaction progress", "why_tests_cant": "The exactly-once pairing of new against old is a property of all interleavings.", "anchors": ["differential-dataflow/src/operators/join.rs: join_with_tactic, CursorTactic, Deferred"]}
{"id": "C26", "title": "Joins never regress or overflow their work obligations", "statement": "Compaction permissions that the join gives to its input traces are never beyond what queued or future work needs: each deferred unit of work reads the trace at times at or beyond the granted logical compaction frontier.", "quantifier": "all schedules and frontier advances", "why_tests_cant": "Depends on unbounded histories of two independently advancing inputs.", "anchors": ["differential-dataflow/src/operators/join.rs: join_with_tactic"]}
{"id": "C27", "title": "Reduce recomputes outputs at every time at which they may change", "statement": "For one key, after the per-key computation is run for an interval [lower, upper), for each time t before upper the accumulated output at t equals the user's function applied to the accumulated input at t; times at or beyond upper at which the output may change are reported as pending.", "quantifier": "all input histories in a partially ordered lattice of times, all user functions, all earlier correct outputs and pending times", "why_tests_cant": "Output must change at joins of update times at which no input changes; which joins matter depends on the whole history.", "anchors": ["differential-dataflow/src/operators/reduce.rs: history_replay::HistoryReplayer::compute, CursorTactic::retire", "differential-dataflow/src/operators/common.rs: discover_times"]}
{"id": "C28", "title": "Reduce maintains the correct output across all rounds", "statement": "After any sequence of intervals of input batches the reduce output, at all times not at or beyond the completed frontier, equals the user's function applied to the input accumulation at that time (nothing for keys with empty input).", "quantifier": "all sequences of input batches and frontiers, all keys", "why_tests_cant": "Inductive invariant across unbounded rounds with pending times carried.", "anchors": ["differential-dataflow/src/operators/reduce.rs: reduce_with_tactic, CursorTactic::retire"]}
{"id": "C29", "title": "Output batches tile the interval and carry updates their capability may send", "statement": "For an interval [lower, upper) and held capability times, the produced descriptions are contiguous from lower to upper, non-empty as intervals, and each update time in the interval that is beyond some held time is in exactly one description whose associated capability time is at or before it.", "quantifier": "all frontiers lower <= upper and held antichains", "why_tests_cant": "Splitting of a region of a partial order by a set of incomparable times has unboundedly many shapes.", "anchors": ["differential-dataflow/src/operators/common.rs: tile_descriptions", "differential-dataflow/src/operators/reduce.rs: CursorTactic::retire"]}
{"id": "C30", "title": "Counting and thresholding in total order produce the right differences", "statement": "With totally ordered times, count_total's output accumulates at each time to exactly the key's nonzero count with multiplicity one, and threshold_total's to the threshold function of the count. distinct_total accumulates to one copy of each key with nonzero count.", "quantifier": "all histories and batchings", "why_tests_cant": "Retractions to zero and re-additions must be handled in all histories; distinct_total fails for retractions to zero.", "anchors": ["differential-dataflow/src/operators/count.rs: count_total_core", "differential-dataflow/src/operators/threshold.rs: threshold_semigroup, threshold_total, distinct_total"]}
{"id": "C31", "title": "Iteration computes the iterates of its body", "statement": "In an iterative scope whose body is a function of the collection at each (outer, round) time, the loop variable at round i holds the i-th iterate of the body from the source collection, and if it reaches a fixed point then the collection leaving the scope holds the fixed point.", "quantifier": "all bodies acting pointwise in time, all sources, all rounds", "why_tests_cant": "Quantifies over all bodies and unbounded iteration counts.", "anchors": ["differential-dataflow/src/operators/iterate.rs: iterate, Variable::{new,new_from,set}", "differential-dataflow/src/collection.rs: enter, leave, results_in, negate, concat"]}
{"id": "C32", "title": "Linear operators act on accumulated collections", "statement": "map, filter, flat_map, concat, negate, explode, enter, leave, delay and consolidate, at each time, produce the collection obtained by applying the corresponding function to the accumulated input collection; antijoin is the input minus its semijoin, and restricted to sets keeps exactly the records whose key is absent.", "quantifier": "all collections, functions and times", "why_tests_cant": "All inputs and user functions.", "anchors": ["differential-dataflow/src/collection.rs: Collection"]}
{"id": "C33", "title": "A captured stream is decoded to the same collection, in spite of duplication and reordering", "statement": "Feeding the messages of a capture to the decoding iterator in any order and with any duplication of messages yields each (data, time) update exactly once, no update is yielded before it is certain to be final, the frontier announced never passes an undelivered update, and once all messages arrived everything is delivered.", "quantifier": "all message sequences derived from a well-formed history by reordering and duplication", "why_tests_cant": "All permutations and duplications of unbounded histories.", "anchors": ["differential-dataflow/src/capture.rs: iterator::Iter::next, Progress, Message, sink::build"]}
{"id": "C34", "title": "Dynamic timestamps: iteration summaries compose", "statement": "Applying the followed_by of two PointStamp summaries equals applying them in turn, results_in is monotone in its time argument and non-decreasing when the actions are, the summary order implies pointwise order of results, and leaving a dynamic scope truncates coordinates so that re-entering preserves order on the retained prefix.", "quantifier": "all summaries and point stamps of any length", "why_tests_cant": "Variable-length vectors with implicit trailing minima.", "anchors": ["differential-dataflow/src/dynamic/pointstamp.rs: PointStampSummary, impl PathSummary", "differential-dataflow/src/dynamic/mod.rs"]}
{"id": "C35", "title": "Half joins deliver each match exactly once", "statement": "For each proposal (key, value, time at initial time) the half_join operator emits, over all schedules, exactly one output per update of the arranged trace for which the comparison with the initial time holds, at the join of the times, with the product of differences, and only once the trace is complete for that comparison.", "quantifier": "all schedules of proposals, trace batches and compaction", "why_tests_cant": "Proposals are stashed and revisited depending on frontiers.", "anchors": ["dogsdogsdogs/src/operators/half_join.rs: half_join_internal_unsafe, process_proposals"]}
{"id": "C36", "title": "Delta queries over Alt/Neu times compute the full join", "statement": "Summing the half-join updates over relations with strict comparison for earlier and weak for later relations (AltNeu order) yields for two or more relations each combination of updates exactly once; integrating the differentiated collection gives back the original.", "quantifier": "all collections and times", "why_tests_cant": "Quantifies over all histories and concurrent updates at equal times.", "anchors": ["dogsdogsdogs/src/altneu.rs", "dogsdogsdogs/src/calculus.rs"]}
{"id": "C37", "title": "Chunked batches keep graded chunks and merge like flat ones", "statement": "Chunk packing yields chunks of at most the target size with any two adjacent exceeding it, and preserves the sequence of updates; merging, extracting and advancing chunked runs yields the same updates as on the flat sequences.", "quantifier": "all sequences of chunks of all sizes", "why_tests_cant": "Chunk boundaries fall anywhere in keys, values or times, and work is suspended at every chunk.", "anchors": ["differential-dataflow/src/trace/chunk/mod.rs: pack, Chunk, ChunkBatchMerger", "differential-dataflow/src/trace/chunk/vec.rs: VecChunk"]}
{"id": "C38", "title": "Input sessions deliver each update at its time", "statement": "For every sequence of update, update_at, advance_to, flush and drop calls that satisfies the documented preconditions, the updates delivered downstream are exactly those supplied, each at a time not before the session's epoch when sent and the capability never passes an undelivered update.", "quantifier": "all call sequences", "why_tests_cant": "Buffering makes delivery depend on the whole call history.", "anchors": ["differential-dataflow/src/input.rs: InputSession"]}
{"id": "C39", "title": "Replaying histories exposes the collection at each time", "statement": "Replaying a loaded value history up to any time with buffer advancement yields buffers whose accumulation at each time not before the remaining meet equals that of the history stepped so far; the remaining meet is the greatest lower bound of the times not yet stepped.", "quantifier": "all histories and all step sequences", "why_tests_cant": "Depends on suffix meets and repeated in-place consolidation.", "anchors": ["differential-dataflow/src/operators/mod.rs: ValueHistory, EditList", "differential-dataflow/src/operators/common.rs: TimeHistory"]}
{"id": "C40", "title": "Point stamp equality is consistent", "statement": "Comparing a PointStamp with a slice agrees with comparing it with the PointStamp made from that slice.", "quantifier": "all point stamps and slices", "why_tests_cant": "A false positive needs a slice extending the stamp.", "anchors": ["differential-dataflow/src/dynamic/pointstamp.rs: impl PartialEq<[T]> for PointStamp"]}
{"id": "C41", "title": "Slice containers return what was pushed", "statement": "A container of slices returns at each index exactly the slice pushed there, and copying a stored slice onto an owned value makes that value equal to the slice.", "quantifier": "all sequences of pushed slices and all owned values", "why_tests_cant": "Offsets depend on all earlier pushes, and the target value may have any length.", "anchors": ["differential-dataflow/src/trace/implementations/mod.rs: SliceContainer::push_into, index, clone_onto"]}
{"id": "C42", "title": "A capture sink writes a complete and true capture", "statement": "Capturing a consolidated stream writes every update received, in messages that are accepted once the writer accepts them, and progress statements that are true of the whole stream and lead without gaps from the minimal time to the stream's frontier, so that decoding what was written yields each update exactly once.", "quantifier": "all batches on all workers, all interleavings of activations, and all answers (accept or retry) of the writers", "why_tests_cant": "Retries can happen at any message, in particular at the last one, and counts and frontiers arrive in any interleaving.", "anchors": ["differential-dataflow/src/capture.rs: sink::build, Writer"]}
{"id": "C43", "title": "Cursors over chunked batches present the batch", "statement": "Under every sequence of seeks, steps and rewinds, a cursor over a batch stored in chunks shows exactly the keys, values and updates of the batch, each key and value once, although the updates of a key or of a value may be spread over several chunks; a cursor over several such batches shows their union.", "quantifier": "all chunked batches, all ways they are cut into chunks, all sequences of cursor calls", "why_tests_cant": "Keys, values and times can straddle any number of chunk boundaries, and cursor state depends on the whole sequence of calls.", "anchors": ["differential-dataflow/src/trace/chunk/mod.rs: ChunkBatchCursor", "differential-dataflow/src/trace/chunk/vec.rs: VecChunkCursor"]}
{"id": "C44", "title": "Reading a trace shows the updates inserted into it", "statement": "At every moment, after any history of insertions, compaction and maintenance, the cursor obtained from a trace (or through the upper frontier of some inserted batch) navigates a sorted collection whose count, for each key and value and at each time not before the compaction frontier, is that of the inserted batches (up to that frontier).", "quantifier": "all traces of each batch type, all call histories, all frontiers between batches, all sequences of cursor calls, all keys, values and times", "why_tests_cant": "The cursor sees batches merged or in the middle of a merge, depending on the whole history.", "anchors": ["differential-dataflow/src/trace/implementations/spine_fueled.rs: Spine::cursor_through, batches_through", "differential-dataflow/src/trace/mod.rs: TraceReader::cursor", "differential-dataflow/src/trace/cursor/cursor_list.rs: CursorList"]}
{"id": "C45", "title": "Lookups answer each prefix once, as of its time", "statement": "For every schedule, each prefix given to lookup_map is answered exactly once, after the arrangement is complete for its time, with what the arrangement associates with its key at that time; propose, propose_distinct, validate and count follow their documentation. The arrangement may be compacted meanwhile, but not past a time still to be looked up.", "quantifier": "all histories of prefixes, arrangements, frontiers and activations; all output functions", "why_tests_cant": "Prefixes wait under capabilities while the arrangement grows and is compacted.", "anchors": ["dogsdogsdogs/src/operators/lookup_map.rs: lookup_map", "dogsdogsdogs/src/operators/propose.rs: propose, propose_distinct", "dogsdogsdogs/src/operators/validate.rs: validate", "dogsdogsdogs/src/operators/count.rs: count"]}
{"id": "C46", "title": "Extending prefixes with several relations computes their join", "statement": "extend, given any number of extenders, extends each prefix at its time by exactly the values that all relations associate with it; for relations that are sets, with the weight of the prefix. The values are proposed by the relation that has the fewest for the prefix.", "quantifier": "all prefix collections, relations, numbers of extenders and times", "why_tests_cant": "Which relation proposes depends on the counts, for each prefix and each time.", "anchors": ["dogsdogsdogs/src/lib.rs: ProposeExtensionMethod::extend, CollectionIndex, CollectionExtender"]}
{"id": "C47", "title": "The second half join delivers each match exactly once, and does not stall", "statement": "However its activations are scheduled and whenever it yields, half_join2 delivers for each proposal each match with earlier arranged updates (by the caller's comparison) exactly once, at the proposal's initial time, and keeps the capabilities for what it still owes; once both inputs are complete it delivers everything that remains.", "quantifier": "all histories of proposals, arranged updates, frontiers, compaction and yields; all comparisons by the total order", "why_tests_cant": "Proposals wait in blobs of which only a part can be answered; which part depends on frontiers, and yields stop the work anywhere.", "anchors": ["dogsdogsdogs/src/operators/half_join2.rs: half_join, half_join_internal_unsafe, Blob"]}
{"id": "C48", "title": "From input updates to the outputs of a join", "statement": "Collections that are arranged and then joined (join, join_map, semijoin, antijoin) yield, at every time complete on both inputs, the join of all updates that the arrangements received, and a reader of an arrangement sees through its frontier exactly the updates received before that frontier, at all times not before the compaction frontier; nothing panics, and no work stays outstanding.", "quantifier": "all updates and times, all interleavings of the activations of the arrange and join operators, all chunk sizes, merge efforts, work budgets and container sizes, and all compaction that the readers permit", "why_tests_cant": "Each operator is right only if the ones before it keep their promises under every schedule: batches must tile, traces must show what was received through the frontiers that readers hold, while merging and compacting.", "anchors": ["differential-dataflow/src/collection.rs: arrange_by_key, arrange_by_self, join_map, semijoin, antijoin", "differential-dataflow/src/operators/arrange/arrangement.rs: arrange_core", "differential-dataflow/src/operators/join.rs: join_traces", "differential-dataflow/src/trace/implementations/spine_fueled.rs: Spine", "differential-dataflow/src/trace/implementations/ord_neu.rs"]}
{"id": "C49", "title": "Operators compute functions of collections, time by time", "statement": "map, flat_map, filter, concat, negate, enter, enter_at, join, semijoin, antijoin, reduce, threshold, distinct, count and consolidate each compute, at each time, a function of what their inputs accumulate to at that time, whatever updates at whatever times bring that about: once the inputs are complete for a time, so is the output.", "quantifier": "all streams of updates, all times, all closures", "why_tests_cant": "The same collection can come about by arbitrarily many different histories of updates at partially ordered times.", "anchors": ["differential-dataflow/src/collection.rs: map, flat_map, filter, concat, negate, enter, enter_at, join_core, semijoin, antijoin, reduce, threshold, distinct, count, consolidate"]}
{"id": "C50", "title": "bfs computes distances", "statement": "At each time, the output of bfs is each node that can be reached from a root, exactly once, with the length of a shortest path from a root; the iteration stops after at most as many rounds as there are edges. (For fewer than 2^32 edge updates.)", "quantifier": "all graphs and roots changing over partially ordered times without negative multiplicities, all times, all orders in which updates circulate", "why_tests_cant": "Distances depend on whole graphs, which change over time while the iteration runs.", "anchors": ["differential-dataflow/src/algorithms/graphs/bfs.rs: bfs, bfs_arranged", "differential-dataflow/src/operators/iterate.rs: iterate"]}
{"id": "C51", "title": "Propagation computes the least label that reaches a node", "statement": "At each time, the output of propagate (and propagate_at, propagate_core) is each node that can be reached from a labelled node, exactly once, with the least label of the nodes from which it can be reached; when labels are introduced (the logic given to propagate_at) makes no difference to the outcome, and the iteration stops.", "quantifier": "all graphs and labelled nodes changing over partially ordered times without negative multiplicities, all times, all functions that say when labels are introduced, all orders in which updates circulate", "why_tests_cant": "Labels travel along paths of any length, and are introduced in different rounds.", "anchors": ["differential-dataflow/src/algorithms/graphs/propagate.rs: propagate, propagate_at, propagate_core"]}
{"id": "C52", "title": "strongly_connected keeps the edges within components", "statement": "At each time, the output of strongly_connected (and strongly_connected_at) is exactly the edges of which both ends are in the same strongly connected component, with their multiplicities; when labels are introduced makes no difference to the outcome.", "quantifier": "all graphs changing over partially ordered times without negative multiplicities, all times, all functions that say when labels are introduced", "why_tests_cant": "A fixed point of trimming, with two propagations nested in each of its rounds: that it has been reached, and that it is the components, depends on the whole graph.", "anchors": ["differential-dataflow/src/algorithms/graphs/scc.rs: strongly_connected, strongly_connected_at, trim_edges"]}
{"id": "C53", "title": "bidijkstra answers each goal with its distance", "statement": "At each time, the output of bidijkstra is each goal (source, target) whose target can be reached from its source, as often as the goal is present, with the length of a shortest path; goals that cannot be reached are absent, although the search extends only around the sources and targets of goals not yet reached. The iteration stops after at most one more round than there are edges.", "quantifier": "all graphs and goals changing over partially ordered times without negative multiplicities, all times, all orders in which updates circulate", "why_tests_cant": "Two searches meet in the middle and stop at different rounds for different goals, sharing sources and targets; what is found depends on the whole graph.", "anchors": ["differential-dataflow/src/algorithms/graphs/bijkstra.rs: bidijkstra, bidijkstra_arranged"]}
{"id": "C54", "title": "The proxy join hands its backend exactly the matches", "statement": "A join tactic over integer proxies (ProxyJoinTactic) calls its backend's cross with exactly the matches of the records presented to it: whatever a backend presents for the two inputs of a unit of work (in order of hashes, the older side restricted to the hashes asked for, possibly compacted to the unit's time), the calls together accumulate, at each time at or beyond the unit's time, to the product of both sides for each pair of records with equal hashes and to nothing for other pairs; no match is at an earlier time; each call has four lists of the same length, at least one and at most 2^20 matches.", "quantifier": "all presentations of both inputs, both choices of the fresh input, all partially ordered times, all bilinear products of differences", "why_tests_cant": "Small histories are joined pair by pair, large ones by a replay that compacts as it goes, and output is cut into calls in the middle of either.", "anchors": ["differential-dataflow/src/operators/int_proxy/join.rs: ProxyJoinTactic, join_prep, join_key", "differential-dataflow/src/operators/common.rs: bilinear_wave"]}
{"id": "C55", "title": "The proxy reduce retires an interval with the right output", "statement": "A reduce tactic over integer proxies (ProxyReduceTactic), asked to retire an interval of times, ends without panicking, and afterwards the output of each key, as hashed, is the user's function of the key's input at each time of the interval; the output batches it describes tile the interval and each emitted update is in the batch that covers its time, at or beyond the held time the batch is sent with; pending times it keeps are at or beyond the interval's end and the frontier it returns; and the output is right at each later time that is not at or beyond a pending time, so that calls for consecutive intervals together give the right output at all times.", "quantifier": "all inputs and outputs presented by a backend, in any windows over the changed keys and however compacted, all pending times, all partially ordered times and frontiers, all user functions", "why_tests_cant": "Which times need evaluation depends on joins of arbitrary sets of times; keys are evaluated together in rounds, and corrections of one round are input to later ones.", "anchors": ["differential-dataflow/src/operators/int_proxy/reduce.rs: ProxyReduceTactic, ReduceBackend, ReduceWindow, KeyState", "differential-dataflow/src/operators/common.rs: discover_times, tile_descriptions"]}
{"id": "C56", "title": "Prefix sums accumulate everything before a location", "statement": "At each time, the output of prefix_sum_at is each location asked about, as often as it is, with the accumulation (combine, starting from zero) of the data of its key at all positions before it, in the order of positions; prefix_sum does so for the locations of the data. Data has one value for each position and key with difference one, combine is associative and zero a right identity. Both iterations stop within 64 rounds. The ranges aggregate returns are the accumulations of the aligned ranges with data.", "quantifier": "all data and locations (of type usize) changing over partially ordered times, all times, all associative operations, commutative or not, all orders in which updates circulate", "why_tests_cant": "Sums are put together from ranges of widths 2^i, aggregated by one loop and walked along the binary digits of each location by another; a wrong boundary concerns particular locations only.", "anchors": ["differential-dataflow/src/algorithms/prefix_sum.rs: PrefixSum, prefix_sum, prefix_sum_at, aggregate, broadcast"]}
{"id": "C57", "title": "identifiers gives different records different identifiers", "statement": "At each time, the output of identifiers is each record of the collection with its difference and one identifier; different records present at that time have different identifiers, even if their hashes collide; the identifier is determined by the records present, and is the record's own hash unless a smaller record has the same. The iteration stops if the hash function gives each record, over some number of attempts, at least as many values as there are records; it does not stop if two records always collide.", "quantifier": "all collections changing over partially ordered times, with any differences, all times, all hash functions, however many collisions they have, all orders in which updates circulate", "why_tests_cant": "Collisions of a 64-bit hash cannot be produced in tests; losers move on to new proposals that collide again, and all is maintained as changes of changes.", "anchors": ["differential-dataflow/src/algorithms/identifiers.rs: Identifiers, identifiers"]}
{"id": "C58", "title": "sequence applies its logic to nodes one after the other", "statement": "At each time, the output of sequence is each node that another node has an edge to, once, with the state the user's logic makes of its complete list of neighbours: the new states of those with smaller identifiers and the old states of those with larger ones, sorted, each with its multiplicity. This needs that each node with an edge to another has a state and an edge from another; otherwise the node, and nodes waiting for it, are missing. The iteration stops after at most one more round than there are nodes. Colors chosen with it are different for adjacent nodes of an undirected graph, and each is the smallest not taken by smaller neighbours.", "quantifier": "all graphs and states changing over partially ordered times without negative multiplicities, all times, all logic functions, all orders in which updates circulate", "why_tests_cant": "A node is evaluated only when those before it have been, which takes as many rounds as the longest increasing path, and is undone and redone as the graph changes.", "anchors": ["differential-dataflow/src/algorithms/graphs/sequential.rs: sequence, _color"]}
{"id": "C59", "title": "Reading captured messages back sends each update once", "statement": "capture::source, on any number of workers, turns captured messages into a stream: every update is sent at most once, only captured updates are sent, once no worker's capability allows a time every update at that time was sent, capabilities only advance, nothing panics, and once the messages of a capture up to a frontier have been read and processed, capabilities reach that frontier and exactly the updates before it were sent. Messages may be read by any worker, duplicated, and in any order, and updates are sent with a capability that allows their time if times are totally ordered (in partial orders they may not be).", "quantifier": "all captured collections with one difference for each record and time, all multisets and orders of correct messages, all distributions of them to workers, all schedules of the operators and deliveries between them, all hash functions", "why_tests_cant": "Deduplication, counting and frontiers are spread over four operators on each worker that exchange messages; losing an update or advancing too far needs a particular interleaving.", "anchors": ["differential-dataflow/src/capture.rs: source::build"]}
{"id": "C60", "title": "The reference implementation of reduce computes the same output", "statement": "reduce_trace_reference computes, for each key and interval of times, an output that is the user's function of the input at each time of the interval, as reduce does; the outputs of the two add up to the same at every time before the end of the interval; each update is put with a held time at or before its own, and pending times are at or beyond the end of the interval. If the history of the key has no times at or beyond that end, the output is right at every later time that is not at or beyond a pending time, in every partial order.", "quantifier": "all contents of input, output and new updates of a key, however compacted, all pending times, all partially ordered times and frontiers, all user functions", "why_tests_cant": "The times are determined first, from times alone, and the corrections computed afterwards; a missed join of times shows only for particular histories in particular orders.", "anchors": ["differential-dataflow/src/operators/reduce.rs: reduce_trace_reference, reference::ReferenceThinker::compute"]}
{"id": "C61", "title": "Dynamic scopes emulate nested iterative scopes", "statement": "Collections in a dynamic scope of a given level (enter_dynamic, leave_dynamic, feedback_summary) behave as in a nested iterative scope: the scope's times are pairs of a time of the enclosing scope and a round, with the same order, joins and meets; entering puts updates at round zero; leaving never panics, gives each update the enclosing scope's part of its time and keeps messages at or before their updates. A loop made with a Variable and feedback_summary(level, 1) comes to hold, for each complete time of the enclosing scope and each round, the iterate of its body, and what leaves it is the fixed point if there is one.", "quantifier": "all levels, all nestings, all collections changing over times of the enclosing scope, all bodies that compute a function of collections, all orders in which updates circulate, all rounds of 64 bits", "why_tests_cant": "The level is a runtime argument, times have any number of coordinates and trailing minima are removed; a wrong coordinate shows only at particular nestings and rounds.", "anchors": ["differential-dataflow/src/dynamic/mod.rs: enter_dynamic, leave_dynamic, feedback_summary", "differential-dataflow/src/dynamic/pointstamp.rs: PointStamp, PointStampSummary", "differential-dataflow/src/operators/iterate.rs: Variable"]}
{"id": "C62", "title": "Columnar tries hold exactly the updates put into them", "statement": "A columnar container of updates (UpdatesTyped) gives back by iteration exactly the updates pushed into it, in order; made from any updates with form_unsorted, or consolidated, it holds them sorted by key, value and time, each once, with the sum of its differences, and no zeros, in one canonical layout, which is determined by the updates held; a builder into which containers are melded in order holds their updates one after the other, joining a key or value split across containers; filter_zero leaves the canonical container of the updates that did not cancel; extend_from_keys copies a range of keys with all below them. None of these panics. Iteration over a container whose first key has no value, or whose first value has no time, attributes updates wrongly.", "quantifier": "all lists of updates, all containers with any grouping of keys, values, times and differences, empty lists among them, all ranges, all sequences of containers in order", "why_tests_cant": "Four columns of values and bounds are navigated by index arithmetic; errors show only when particular boundaries of lists coincide.", "anchors": ["differential-dataflow/src/columnar/updates.rs: UpdatesTyped, UpdatesView::iter, UpdatesIter, form, form_unsorted, consolidate, filter_zero, push, extend_from_keys, UpdatesBuilder, retain_items"]}
{"id": "C63", "title": "Columnar chunks are merged, split, advanced and packed as the updates they hold", "statement": "Chunks stored as columnar tries (ColChunk) behave as the sorted sequences of updates they hold: merge never panics, always makes progress, and what it outputs followed by the consolidation of what it leaves is the consolidation of its inputs, cancelled updates removed; extract ships exactly the updates before a frontier and keeps the others, in order; split_at splits after any number of updates; advance outputs the consolidation of updates with times advanced to a frontier and holds back the last key and value; settle packs chunks maximally, keeping their sequence; bounds gives the first and last update. Every chunk produced is in the canonical layout.", "quantifier": "all keys, values, partially ordered times and differences, all tries however a key or value is split across chunks, all deques of chunks, all frontiers, all targets and deliveries", "why_tests_cant": "The merge surveys whole columns in bulk and writes ranges, resuming inside a key, value or time; errors show only when particular boundaries coincide.", "anchors": ["differential-dataflow/src/columnar/trie_merger.rs: merge_pair, survey, write_from_surveys, suffix_chunk, extract, split_at", "differential-dataflow/src/columnar/trace/chunk.rs: ColChunk (Chunk, NavigableChunk), advance_trie", "differential-dataflow/src/trace/chunk/mod.rs: pack, pack_absorb"]}
{"id": "C64", "title": "Batches of chunks merge, build and extract correctly whatever the type of chunk", "statement": "ChunkBatch, ChunkBatchMerger, ChunkBatchBuilder, ChunkMerger and merge_chains work for every type of chunk whose operations keep the documented contract of the trait Chunk: a batch merge given any fuel in any number of calls never panics, uses no more fuel than there are updates, and ends with a maximally packed batch of the consolidation of both inputs with times advanced to the frontier; the batcher's merge is the consolidation of two chains; its extraction splits a chain by a frontier; a builder, seal and merge_chains keep the sequence of updates. Both types of chunk in the library, lists of updates and columnar tries, keep the contract.", "quantifier": "all types of chunk that keep the contract, all batches and chains of consolidated updates, all frontiers, all sequences of fuel, all targets", "why_tests_cant": "merge may leave part of either input, advance and settle hold back what may still change; a chunk type that makes progress differently takes other paths through the harness.", "anchors": ["differential-dataflow/src/trace/chunk/mod.rs: Chunk, ChunkBatch, ChunkBatchMerger, ChunkBatchBuilder, ChunkMerger, merge_chains, settle_all", "differential-dataflow/src/columnar/trace/chunk.rs: ColChunk", "differential-dataflow/src/trace/chunk/vec.rs: VecChunk"]}
{"id": "C65", "title": "Cursors over columnar chunks, and over batches of any chunks, show the updates without the cuts", "statement": "A cursor over a columnar chunk (ColChunk) never panics under any sequence of valid moves and shows exactly the keys, values, times and differences the chunk holds. For every type of chunk whose own cursor behaves and whose bounds are its first and last update, the cursor over a batch of such chunks (ChunkBatchCursor) shows the updates as if they were in one piece, however keys and values straddle chunks, under every valid sequence of stepping, seeking and rewinding; batches of columnar chunks are such. A list of such cursors (CursorList) shows the sorted union of its batches.", "quantifier": "all types of navigable chunks that keep the contract, all batches of consolidated updates, all ways of cutting them into chunks, all valid sequences of moves", "why_tests_cant": "The cursor opens chunks lazily and decides by their bounds whether a key or value goes on in the next chunk; errors show only for particular cuts and sequences of moves, and a second chunk type has a cursor of its own.", "anchors": ["differential-dataflow/src/columnar/trace/chunk.rs: ColChunkCursor, ColChunk (NavigableChunk)", "differential-dataflow/src/trace/chunk/mod.rs: NavigableChunk, ChunkBatchCursor", "differential-dataflow/src/trace/cursor/cursor_list.rs: CursorList"]}
{"id": "C66", "title": "Optimizing an interactive program does not change what it computes", "statement": "optimize on a scope tree of the interactive crate (collapsing arrangements of arrangements, fusing chains of linear operators, sharing equal operators, dropping dead ones, in all nested scopes) never panics on a program whose references point at earlier items of the right kind, ends, and gives such a program with the same imports, variables and exports, whose dataflow has the same solutions: the same outputs for the same inputs at all times, for every backend able to fuse linear operators. The backend on vectors is, except that enter_at followed through linear operators by enter_at or lift_iter is not fused faithfully.", "quantifier": "all programs with any nesting of scopes, any variables and feedback, all meanings of joins, reductions and arrangements, all terms, all inputs", "why_tests_cant": "Each pass rewrites references of the whole scope and the passes enable each other; an unsound interaction shows only for particular shapes of programs, and particular times.", "anchors": ["interactive/src/scope_ir.rs: Scope::optimize, collapse_arranges, fuse_linear, dedup, compact, use_counts, redirect", "interactive/src/backend/mod.rs: render_tree", "interactive/src/backend/vec.rs: render_linear"]}
{"id": "C67", "title": "Columnar collections carry their updates through builders, operators, exchange and chunkers", "statement": "Containers of columnar updates (RecordedUpdates) behave as the lists of updates they carry: a builder puts every update given to it into exactly one container, consolidated; negate, enter, leave, results_in, join_function and leave_dynamic act update by update, and the flag for consolidated updates is never wrong; the exchange sends each worker exactly the updates of its keys, and as many records in total as it was given; as_recorded_updates gives back the updates of batches; and the chunker, however pushes, extractions and finishes alternate, hands out non-empty consolidated chunks, large ones until it is finished, which together add up to what was pushed. None of these panics.", "quantifier": "all updates, all containers whether sorted or not, all numbers of workers and hash functions, all closures, all levels, all sequences of pushes, extractions and finishes, all targets", "why_tests_cant": "Consolidation flags, record counts and thresholds interact; an update lost at a boundary of groups or thresholds, or a record miscounted, needs particular contents, and a miscount shows only as a stall with several workers.", "anchors": ["differential-dataflow/src/columnar/collection/container.rs: RecordedUpdates", "differential-dataflow/src/columnar/collection/builder.rs: ValBuilder", "differential-dataflow/src/columnar/collection/exchange.rs: ValDistributor", "differential-dataflow/src/columnar/collection/operators.rs: join_function, leave_dynamic, as_recorded_updates", "differential-dataflow/src/columnar/trace/chunker.rs: TrieChunker"]}
{"id": "C68", "title": "Spilling chunks to storage does not change what a program computes", "statement": "Columnar chunks may be paged out to a store when they are committed over a budget, and are fetched on demand. Whatever a program does with chunks (making, cloning, reading, changing, merging, extracting, advancing and settling them, asking for lengths and bounds, installing and removing spillers), it gets the same answers as when all chunks stay in memory, and it does not panic on account of spilling unless it commits an empty chunk or one too large to be encoded. The encoding of a trie, and of a container sent between workers, is decoded to what was encoded, in the announced number of bytes. The records of committed chunks kept in memory never exceed the budget, and nothing is paged out unless the records committed exceed it.", "quantifier": "all programs that use chunks, all budgets and changes of spiller at any time, all stores that return what they were given, all encodings of columns that can be decoded, all tries", "why_tests_cant": "A chunk is paged out or not depending on all that was committed before on that worker; errors in fetching, bounds or encoding show only when a particular chunk is paged out and a particular operation follows.", "anchors": ["differential-dataflow/src/columnar/trace/spill.rs: install, uninstall, try_page, decode, BytesStore, BytesSource", "differential-dataflow/src/columnar/trace/chunk.rs: ColChunk, PagedChunk, seal_chunk, trie, into_trie, updates_mut, merge, extract, advance, settle", "differential-dataflow/src/columnar/updates.rs: write_to, read_from, length_in_bytes", "differential-dataflow/src/columnar/collection/container.rs: into_bytes, from_bytes, length_in_bytes"]}
{"id": "C69", "title": "Lowering an interactive program keeps its meaning, whatever the order of its statements", "statement": "lower_tree turns the statements of a program of the interactive crate into a scope tree. Whenever it returns, for a program in which no name is defined twice in the same scope, the references of the tree are in order, its exports are those of the program, and its dataflow has exactly the solutions of the equations the statements stand for: a let is its expression, a var what its expression feeds back, a name not defined in a scope is the one outside, entered, and a field of a scope is the name inside, leaving. So the order in which statements are written, at any level, does not matter, and neither does optimizing afterwards. It returns exactly for programs whose names are all defined, whose inputs and imports are at the root, and whose lets and scopes do not depend on each other in a cycle. Duplicate names, which are documented to be rejected, are not all.", "quantifier": "all programs, with any nesting of scopes and any order of statements, all backends, all inputs and named traces", "why_tests_cant": "Lowering sorts statements by dependency, threads names through all scopes between definition and use, and numbers imports, fields and variables; a wrong number shows only for particular nestings and orders.", "anchors": ["interactive/src/lower.rs: lower_tree, lower_scope_tree, ScopeLower, qualified_fields, collect_body_free_names", "interactive/src/parse/mod.rs: Expr, Stmt", "interactive/src/backend/mod.rs: render_tree"]}
{"id": "C70", "title": "Scalar terms of interactive have the value their definition says", "statement": "The terms in projections, filters and joins of the interactive crate (rows, tuples, lists, variants, case, fold, arithmetic, comparisons, hashes) evaluate to what their definition says, and panic exactly where it has no value: a case or fold binds values seen only inside, counted from the innermost, the rows stay addressable at any depth, and evaluation leaves the environment as it was, so that key and value of a projection are independent. A term has the same value however deep it is nested. Values are totally ordered, and comparisons follow that order. A hash with a positive bound is between zero and it. min gives the least value, collect the sorted list of values with their multiplicities, count its length; collecting a flattened list gives back its elements in order.", "quantifier": "all terms, all rows of values of any shape and nesting, with and without overflow checks", "why_tests_cant": "Evaluation shares one stack and has a shortcut for places; an index that is off shows only for particular nestings of binders.", "anchors": ["interactive/src/ir.rs: eval, eval_ref, build_seq, eval_unary, eval_binary, Value", "interactive/src/lib.rs: hash_u64", "interactive/src/parse/mod.rs: Term, Reducer", "interactive/src/backend/vec.rs: reduce"]}
{"id": "C71", "title": "Names in patterns mean the fields of the constructor that was matched", "statement": "In a term of the interactive crate's pipe syntax, a name bound by a pattern of a case is the field of the payload that was matched, at any depth of patterns and folds, the innermost pattern that binds it counting; a case takes the first arm whose constructor has the tag of the value, or else the default. A term is accepted exactly if its names are bound, its constructors declared with the right arity, and each case has an arm or a default for each tag up to its greatest. A default that uses binders is evaluated wrongly if it fills a gap between tags.", "quantifier": "all terms with any nesting of patterns and folds, all declarations of constructors, all rows", "why_tests_cant": "Names are resolved to positions on a stack whose depth the parser tracks; an offset shows only for particular nestings and tags.", "anchors": ["interactive/src/parse/pipe.rs: resolve_binder, parse_primary_term, parse_fold, parse_pattern_case, parse_args", "interactive/src/ir.rs: eval"]}
{"id": "C72", "title": "Explanations demand exactly the records that can have produced what is asked for", "statement": "An explanation of results of an interactive program is traced backwards, operator by operator. For each operator, the records of its input that are demanded are exactly those that can have produced a demanded record of its output, in iterations of the enclosing loops that are no later, compared from the outermost loop inwards; each on behalf of the query of the demand. Concatenation, and changes of scope: the equal records. A reduction: the records with the key, for min those with the value. A projection: the records with that projected key. A join: the pairs that are joined to it, on both sides. A filter: what passes. A variable: what it was bound to one iteration before, and nothing in iteration 0. A flatmap: the records whose list has the element at the position. Repeated demands are dropped, and the records of a source are those demanded. Projections and filters that read a whole row rather than its fields, and flatmaps that read the key or are in another scope than their input, are explained wrongly.", "quantifier": "all demands and records, of any number of fields and depth of scopes of either, all projections and terms that read rows by fields", "why_tests_cant": "The rules address fields by position in rows that mix data, iterations of several loops and the query; a position that is off shows only for particular numbers of fields and depths.", "anchors": ["interactive/src/explain/decouple.rs: shape_preserving_lookup, keyed_lookup, lossy_lookup, join_lookup", "interactive/src/explain/mod.rs: Val, expand_value_fields, emit_lookup_flatmap, distinct_full, semijoin_data, Reverse::walk"]}
{"id": "C73", "title": "Clones of programs compute the same and show what happens inside", "statement": "An explanation runs copies of an interactive program inside another one. Copying a closed program never panics. The copy computes the same exports as the original, in every run and for every backend; and each operator and variable of the original, at any depth of nested loops, has exactly one reference outside the copy, which gives its collection in the same run, with the round of each enclosing loop appended to the values.", "quantifier": "all programs of any nesting whose references are in order, all scopes they are copied into and all completions of these, all backends, all runs", "why_tests_cant": "References are renumbered differently in each scope, and the lifted collections pass through one more export at each level; an index that is off shows only for particular nestings.", "anchors": ["interactive/src/explain/mod.rs: clone_into, clone_identity, clone_rec, map_ref, clone_node, Addr, Site"]}
{"id": "C74", "title": "Explanations ask of each collection what all its uses ask", "statement": "An explanation (interactive's explain) of records of a program's result asks of every operator of the program, in every nested scope, exactly the records that its uses ask for: the query if it is the explained result, every variable that is bound to it (for the iteration before), and every operator that reads it, directly, through an import of a nested scope or through an export of one, each as traced by that operator's rule from what is asked of the operator itself. No use is missed because it is visited too late, none is counted for another collection, and nothing is asked of a collection that no use asks for. What is asked of a source is added to the records demanded of it so far if the source has it.", "quantifier": "all programs with nested scopes whose references point backwards, all queries, all witness and forward collections, all values of the demand variables, all rounds", "why_tests_cant": "The order in which uses are visited depends on how scopes nest and on imports and exports through several levels. A wrong order loses part of an explanation only for programs in which a collection has several uses in particular positions.", "anchors": ["interactive/src/explain/mod.rs: resolve, Reverse::walk, Reverse::site, Reverse::push, Reverse::route, explain_with"]}
{"id": "C75", "title": "Explanations know how many fields the records of each collection have", "statement": "An explanation addresses the fields of records by position. For this it infers, from the numbers of fields of the sources, those of the keys and values of every collection of the program, in every nested scope and through loops. The inference ends, without a panic. Every collection that can have a record in some run, in any iteration, gets numbers, and all its records have exactly that many fields. Lists that are collected break this: they are taken for a value of one field, and an explanation that reads them through a concatenation finds nothing. A variable that is only bound to itself gets no numbers, and explanations of programs with one panic.", "quantifier": "all programs with nested scopes and loops whose projections are flat, all numbers of fields, all records of the sources", "why_tests_cant": "Shapes propagate through feedback loops, and a count that is off makes explanations empty only for programs that use the operator in a particular place.", "anchors": ["interactive/src/explain/mod.rs: site_shapes, walk_shapes, shape_of_ref, field_width, proj_arity, apply_ops_arity, export_shape"]}
{"id": "C76", "title": "The server shows what its installed programs compute from what they were fed", "statement": "For every history of commands (install, feed, tick, drop) to a server of the interactive crate: no command panics. A program is installed exactly if its name is free, each of its imports is published by an installed program or can be generated, and none of its exports is published. A row is taken exactly if its time is not before the current epoch and it is for an input of an installed program. A program is dropped exactly if no installed program imports what it publishes, and a refused drop changes nothing; so what an installed program imports is always there. A peek shows the contents of the collection at the last closed time: what the program that publishes it computes from the contents of its imports at that time, down to all rows that were fed up to then, the generated sources, each row once whatever the number of workers and however the source is spelled, and the clock, which has one row. Compaction of the traces at each tick does not show. Programs that are called clock, or as a generated source, break this.", "quantifier": "all histories of commands, all programs with any imports and exports, all names of sources, all rows and times, all numbers of workers", "why_tests_cant": "Counts of importers, names and compaction depend on the whole history of installs and drops; a stale count or a wrong bound shows only after particular sequences.", "anchors": ["interactive/src/server.rs: Server::install, install_generated, install_clock, feed, peek, drop_program, tick, canonical_source_name"]}
{"id": "C77", "title": "Names of generated sources mean what they say, however they are spelled", "statement": "The server's generated sources are named by recipes. A random graph is named by its parameters in any order, with any blanks; the last setting of a parameter counts, and arity and seed have defaults. Two names are taken for the same source exactly if they name the same recipe; the canonical name of a recipe is a name of it, and making a name canonical twice is making it canonical once. A random graph has as many rows as edges, each with as many fields as the arity, each field a node; iota:N has the rows 0 to N-1, each once. A random graph with no nodes but edges is accepted as a recipe and panics when it is generated; with more than 2^63 nodes fields are negative.", "quantifier": "all recipes, all orders, repetitions and blanks of parameters, all 64 bit numbers, all rows", "why_tests_cant": "Spellings and numbers are unbounded; a round trip through text is tested only for examples.", "anchors": ["interactive/src/server.rs: Recipe::parse, Recipe::canonical, Recipe::rows_len, Recipe::row, canonical_source_name", "interactive/src/lib.rs: gen_row_seeded"]}
{"id": "C78", "title": "Programs in the applicative syntax mean what its grammar says", "statement": "A text in the applicative syntax is accepted exactly if it can be read as tokens that spell a program, and the program parsed is the one spelled: symbols, numbers and words are as long as possible, comments and blanks are skipped, `&&`, sums and products associate to the left in this order of precedence around comparisons, which do not associate, unary minus and indexes bind tighter, and a bare row in a projection is spliced. No text has two readings and no tokens spell two terms, expressions or programs. Not so after a stray closing brace: what follows it is dropped without a word.", "quantifier": "all texts, all lists of tokens, all terms, expressions and programs of any depth", "why_tests_cant": "Texts and nesting are unbounded; tests parse a few programs and see neither a wrong grouping elsewhere nor a dropped rest.", "anchors": ["interactive/src/parse/applicative.rs: tokenize, Parser, parse", "interactive/src/parse/mod.rs: build_builtin"]}
{"id": "C79", "title": "Programs in the pipe syntax mean what its grammar says", "statement": "In the pipe syntax an operator applies to all that is before it, also to a sum or difference; parts of a sum and the argument of a join need parentheses where they have operators, respectively where they are sums. A text is accepted exactly if it can be read as tokens that spell a program, and the program parsed is the one spelled; no text has two readings and no tokens spell two collections or programs. Every program of the pipe syntax can be written in the applicative syntax, and the other way round up to sums of one collection. Not so after a stray closing brace: what follows it is dropped without a word.", "quantifier": "all texts, all lists of tokens and all programs without constructors, patterns and folds, of any depth", "why_tests_cant": "Chains of operators and nesting are unbounded; tests parse a few programs and see neither a wrong grouping elsewhere nor a dropped rest.", "anchors": ["interactive/src/parse/pipe.rs: tokenize, parse_program, parse_stmt, parse_pipe_expr, parse_concat_expr, parse_atom, parse_join_arg, parse_pipe_op, parse"]}
