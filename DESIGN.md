# DESIGN

A formal model of eth-easl/mixtera (pinned commit, source in /repo) in Lean 4.33, and proofs about it. The code is never
run: every definition of the model carries a comment with the file and the lines it models and says what it leaves out.

* `properties.jsonl` – the properties, in words.
* `lean/Verif/Model/` – the model, one file per part of the code. `lean/Verif/Spec/` – small specifications that mention
  no function of the model that a bug could hide in (bags of samples, request histories, trees, rows of a database).
* `lean/Verif/Lemmas/` – invariants and auxiliary lemmas. `lean/Verif/Props/` – the property theorems `cNN_*`, each with
  an `example` next to it in which its hypotheses are met by a concrete, non-trivial case.
* `MANIFEST.json` – property → theorems. `seeded/LOG.jsonl` – wrong programs tried against the theorems.
* `AXIOMS.txt` – output of `#print axioms` for every theorem in the manifest.

## 1. Trusted base

1. **Lean's kernel.** No axiom is added, no `native_decide`, no `bv_decide`, no unfinished proof. `decide +kernel` and
   `rfl` are kernel evaluation. `vcheck` replays every module.
2. **Axioms.** Every theorem depends on a subset of `propext`, `Quot.sound`, `Classical.choice`, Lean's three standard
   axioms; the subset for each theorem is listed in `AXIOMS.txt`.
3. **The correspondence between the model and the code**, by reading. It is what the comments document. The
   simplifications that hold everywhere are these:
   * Python `float`/`float32` arithmetic is exact arithmetic over the rationals or a linear ordered field. Rounding
     errors are not modelled, with exceptions: for the computation of row counts (mixtures, redistribution of missing
     samples) `Model/Float64.lean` rounds every operation to binary64 and C86 bounds the effect; `Model/FloatWindow.lean` does
     so for window counts, reader processes and the mixture inferred from a chunk (C87), `Model/FloatDynamic.lean` for the
     dynamic mixture (C89), and `Model/Float32Averages.lean` rounds the averaging algorithm to binary32 (C92).
   * `dict` is an association list in insertion order with distinct keys; a `MixtureKey` as dictionary key is
     compared by its contents (C26, C27 justify this and show where the code's hash and equality deviate).
   * A coroutine/generator is a state machine whose state is what survives a suspension; an exception is a value
     (`Except Err`), with the kind of exception but not its message. Logging has no effect.
   * Random shuffles, seeds, hash functions, directory listing order, C++ hash map order, thread and task schedules,
     the fragmentation of network streams and the points where a process dies are universally quantified.
   * `pickle`/`dill`, DuckDB's storage and executor, PyArrow, the file system and sockets are represented by their
     contracts: encode/decode are inverse, a SQL statement has SQL's bag semantics and three-valued logic and is one
     atomic step (DuckDB is in auto-commit mode), a file is a list of lines or row groups, a socket is a stream of bytes.
   * Memory, time, log output and performance are not modelled.
4. **What the statements mean**: each theorem, its specification in `Spec/` or at the top of its `Props/` file, and the
   definitions of the model's *interface* types (states, requests, chunks) must be read.

## 2. What is modelled

| code in /repo/mixtera | model | not modelled |
|---|---|---|
| core/query/query_result.py | Component, ChunkGen, Session, ResultFiles, ResultMeta, MixtureLog, LogRestore | multiprocessing locks of the single generator, `_parallel_write`/copytree as file operations (their result is taken as the identity), `_add_to_index` statistics logging |
| core/query/chunk_distributor.py | Distributor | the asynchronous copy of a checkpoint's query cache (taken as complete), timings of `_wait` |
| core/query/result_chunk.py | ChunkRead, Tokenizing, FloatWindow | shared memory of the reader processes (queues are lists), the branch for a dead parent process, tokenizer itself (a parameter) |
| core/query/mixture/*.py | MixtureKey, Mixture, Float64, FloatDynamic (binary64 rounding) | text output, overflow to infinity, NaN |
| core/query/chunker/src/chunker.cpp, query.py | Intervals, Chunker, Select | Arrow buffers and the GIL, DuckDB's SQL parser |
| core/query/operators, query_plan.py, query_cache.py | Select, QueryCache | the text of values that are not strings |
| core/query/operators/select.py | Select | – |
| core/datacollection/mixtera_data_collection.py | Database, ColumnTypes, Opening | DuckDB's thread-local view handling, logging, multiprocessing of the parsers (C55 covers numbering) |
| core/datacollection/datasets/*, webdataset_utils, core/filesystem/* | Datasets, Parser, WebSamples, FileFind | the decoders themselves, the tar format, wids' splitname (parameters); links, a changing disk |
| core/datacollection/index/parser/parser_collection.py | ParserCollection, Parser | floats in JSON, `1 == True` |
| core/datacollection/index/* | IndexStore, Parser | – |
| core/processing/property_calculation/* | PropertyCalc | Ray (raises everywhere) |
| core/algo/* | Mixing, ScalingFit, Feedback, FeedbackRestore, FeedbackRestarts, DynamicQuery, Float32Averages (binary32 rounding) | the optimiser and the Savitzky-Golay filter (parameters), logging of ADO, torch/numpy types |
| core/client/*, network/server/server.py | Server, Remote | argument parsing, `entrypoint.py` |
| network/network_utils.py, server_connection.py | Network, Protocol, Remote, RemoteFile | TCP itself, retries' waiting times |
| torch/mixtera_torch_dataset.py, utils/checkpoint.py, utils/feedback.py | Torch, WorkerShm, CheckpointRun | torch's DataLoader beyond per-worker FIFO delivery |
| utils/utils.py, prefetch_iterator.py, tokenizing_iterator.py | Utils, Tokenizing | seeding, environment checks |
| hf/mixtera_hf_dataset.py | HFDataset | the `datasets` library (its calls are as the code's comments say), features |
| network/server/server.py, server_connection.py (registration), server_stub.py (waiting) | Registration | waiting times |
| utils/dataset_utils.py | DatasetSearch | names of attributes, attributes that raise |
| cli/*, examples, docs | – | not modelled |

## 3. Plan and method per property

The plan was written before the proofs; the status and the theorems are those of the current model. "Partial" means: the
code does not have the full property. The theorem with suffix `_partial` then carries the needed hypothesis, and a
theorem next to it exhibits a run of the model in which the full property fails.

* **C01** One property combination is handed out exactly once, in order, in exactly the requested sizes. *`Model/Component.lean`: coroutine as a state machine whose state is the list of unread ranges; `send`. Induction over the range list and over the request list.* **proved**: `c01_serve_refines`, `c01_concatenation`, `c01_order`. State machine of the component iterator against the plain list of selected samples, for every list of ranges and every sequence of requests.
* **C02** A strict mixture chunk has exactly the requested rows per key. *`Model/ChunkGen.lean`: one chunk attempt as nested folds over sorted keys/components with fuel-free well-founded recursion; loop invariant `taken(k)+remaining(k)=rows(k)`.* **proved**: `c02_strict_chunk`.
* **C03** A best-effort chunk keeps its size and reports its true composition. *Same model; loop invariant `taken(k)+remaining(k)=mixture(k)` plus `sum mixture = sum rows`; uses C30.* **proved**: `c03_best_effort_chunk`.
* **C04** No sample is delivered twice and every delivered sample was selected by the query. *Global conservation invariant of the generator state machine: multiset(unread) + multiset(delivered) + multiset(discarded) = multiset(index).* **proved**: `c04_delivered_subperm`, `c04_no_duplicates`.
* **C05** Samples listed under a mixture key match that key. *Same state machine; provenance invariant by induction over attempts.* **proved**: `c05_listed_under_matching_key`.
* **C06** Ranges of a file inside a chunk are sorted and non-overlapping. *Same; sortedness from C29, disjointness from C04. c06_ranges_readable includes the empty ranges that a request for 0 samples produces (the readers check those too), by an invariant over whole attempts (Lemmas/Chain); c06_files_listed: every listed file has samples in the index.* **proved**: `c06_ranges_sorted_disjoint`, `c06_ranges_readable`, `c06_files_listed`.
* **C07** Without a mixture, iteration delivers everything and ends. *Arbitrary branch of the generator, one rotation step as a relation; measure for one key/odd number of keys; negation witness for the even case.* **partial**: `c07_delivers_everything`, `c07_chunk_shape`, `c07_terminates_partial`, `c07_endless_loop`, `c07_endless_every_even`, `c07_ends_iff_odd`. Completeness and chunk shape hold for all histories; termination proved for an odd number of property combinations and refuted for every positive even number (c07_endless_every_even; c07_ends_iff_odd: exactly the odd numbers and zero; c07_endless_loop: smallest case): the loop skips two keys past an exhausted one and never ends.
* **C08** Chunk i does not depend on which consumer asks for it. *Generator state machine: simulation between a run with targets and a sequential run.* **proved**: `c08_schedule_independent`.
* **C09** Semantically equal mixtures give equal chunks. *Sorting a permutation by a total order gives the same list (uses C26).* **proved**: `c09_dictionary_order_irrelevant`.
* **C10** A mixture update applies to the next chunk. *`Model/QueryResult.lean`: session state machine incl. suspension point; witness for the violated case.* **partial**: `c10_update_applies_partial`, `c10_feedback_applies_partial`, `c10_update_ignored_after_none`. c10_update_applies_partial and c10_feedback_applies_partial: the update is in force for the next chunk whenever the previous request got a chunk. Refuted when the previous request returned None: the value sent to the generator is dropped (c10_update_ignored_after_none).
* **C11** Best effort gives up only when all requested data is used up. *Termination measure (number of open keys) and exhaustion invariant of the attempt loop.* **proved**: `c11_best_effort_exhausts`, `c11_best_effort_short`, `c11_best_effort_delivers`.
* **C12** Strict mode gives up only when some requested data is used up. *Same, strict branch.* **proved**: `c12_strict_exhausts`, `c12_strict_short`, `c12_strict_delivers`.
* **C13** Restoring a cached query result continues where it stopped. *Session state machine with mixture log; replay function; simulation for None-free histories; witnesses for the violated cases. c13_restore_from_files_partial: the same with the index written to and read from files in any order and the order of the keys recomputed (C31, C78).* **partial**: `c13_restore_continues_partial`, `c13_restore_fails_after_none`, `c13_restore_diverges_unnoticed`, `c13_restore_loses_pending_update`, `c13_restore_from_files_partial`, `c13_restore_schedule_repeats`. Restoring continues with the same chunks when every request so far got a chunk and every mixture change was followed by a request. Refuted otherwise: a None in the history makes the replay fail, an unnoticed change makes it diverge, and a pending update is lost. Also refuted for a mixture schedule that begins without a mixture (c13_restore_schedule_repeats): the log keeps a reference to it. c13_restore_from_files_partial: the same conclusions when the index goes through its files (C31) and the order of keys is recomputed by a process with another random state (C78).
* **C14** Key ids are unique, dense and never change. *Assoc-list model of the id map, induction over updates.* **partial**: `c14_chunk_keys_have_ids_partial`, `c14_chunk_keys_known_partial`, `c14_key_without_id`, `c14_key_ids`, `c14_order_independent`. Ids are distinct, dense and stable for every history (c14_key_ids), and independent of dictionary order. That every chunk key has an id holds when the mixture change has been taken over (c14_chunk_keys_have_ids_partial).
* **C15** Nodes of one data parallel group see the same chunks. *`Model/Distributor.lean`: init/step machine; ghost log of fetches; invariant over all request lists.* **proved**: `c15_construction`, `c15_zero_groups`, `c15_nodes_see_same_chunks`.
* **C16** Different groups and workers get different chunks and none is skipped. *Same.* **proved**: `c16_partition`.
* **C17** A chunk needed by a slower node stays available, and the cache stays bounded. *Same.* **proved**: `c17_refines_unbounded_memory`, `c17_cache_contents`, `c17_cache_bound`, `c17_single_node`, `c17_no_internal_error`.
* **C18** Running out of data leaves the distributor unchanged. *Same.* **proved**: `c18_exhausted_unchanged`, `c18_others_unaffected`.
* **C19** A checkpoint is started exactly when every node has reported once. *Checkpoint report state machine in `Model/Checkpoint.lean`; witness for the wedged state.* **partial**: `c19_rounds_partial`, `c19_failed_validation_is_final`, `c19_unknown_node_counts`, `c19_fresh_after_restore`. c19_rounds_partial: for reports that all belong to known nodes and agree with the distributor's state, a checkpoint starts exactly when all have reported. Refuted otherwise: after one failed validation checkpointing is stuck for good (c19_failed_validation_is_final), and reports for ids that do not exist count (c19_unknown_node_counts).
* **C20** Resuming from a checkpoint repeats only the current chunk from the reported sample. *Persist/restore functions on distributor states, simulation proof.* **proved**: `c20_resume`, `c20_skip_is_largest_report`, `c20_checkpoint_succeeds`, `c20_checkpoint_after_restart_fails`.
* **C21** Static mixtures are rounded to exactly the chunk size. *`Model/Mixtures.lean` over the rationals; largest remainder rounding.* **proved**: `c21_static`, `c21_static_renormalised`, `c21_static_rejects`, `c21_rounding_slack`, `c21_tolerance`.
* **C22** Hierarchical mixtures multiply weights along the tree and fill the chunk. *Tree recursion over the rationals.* **proved**: `c22_leaf_weights`, `c22_rows`, `c22_unnormalised_overfull`, `c22_same_leaf_twice`, `c22_no_components`.
* **C23** Inferring mixtures reproduce the data distribution. *Corollary of the rounding theorem. Then compare the roundings of one index in two orders (exchange argument on the largest remainders) and of a stored and reloaded index (C31).* **proved**: `c23_index_order`, `c23_restored`, `c23_inferring`, `c23_without_samples`. c23_inferring: for every non-empty index; c23_without_samples: the rest. c23_index_order: what happens if the same index comes in another order (same rows up to one per key, equal unless fractional parts tie); c23_restored: a stored and reloaded index gives every mixture object the same information.
* **C24** A mixture schedule uses the latest entry that has started and never goes back. *Schedule lookup and step maximum; induction over reports.* **proved**: `c24_current`, `c24_never_back`, `c24_process_index`, `c24_current_informed`, `c24_later_inferring_uninformed`, `c24_rows_not_adjusted`, `c24_chunks`, `c24_strictness_ignored`. c24_chunks composes this with the chunk generation. Findings beside it: the strictness of entries is ignored, later inferring entries are not informed, rows are not adjusted to the chunk size.
* **C25** A dynamic mixture only ever holds valid mixtures. *Dynamic mixture state machine over the rationals.* **proved**: `c25_update`, `c25_distribution_accepted`, `c25_not_distribution`, `c25_rows_sum`, `c25_initial_not_adjusted`, `c25_zero_rows`.
* **C26** The order on mixture keys is a strict total order on key contents. *`Model/MixtureKey.lean`: comparator mirrored branch by branch; lexicographic order proof.* **proved**: `c26_strict_total_order`, `c26_generator_order`, `c26_canonical_form`.
* **C27** Mixture keys with different contents hash differently before mixing. *Injectivity of the concatenation for separator-free strings; witness of ambiguity otherwise.* **partial**: `c27_same_contents_same_text`, `c27_text_iff_contents_partial`, `c27_colon_collision`, `c27_empty_collision`. The text hashed determines the contents when no name contains ':' or NUL, no value contains NUL, values containing ':' are the only value of their property, and no property is empty (c27_text_iff_contents_partial); c27_colon_collision and c27_empty_collision show collisions otherwise.
* **C28** Mixture key matching means: all my properties, a common value each. *Direct model and iff-characterisation.* **proved**: `c28_match_iff`, `c28_same_contents_match`, `c28_monotone`, `c28_order_independent`, `c28_not_an_equivalence`.
* **C29** Merging sorted range lists is a sorted permutation. *Induction.* **proved**: `c29_merge_sorted_lists`.
* **C30** distribute_by_ratio hands out exactly n, fairly. *Shared rounding lemmas.* **proved**: `c30_distribute_by_ratio`, `c30_distribute_by_ratio_small`, `c30_distribute_rejects`.
* **C31** Storing and loading the chunker index is lossless. *Pair of functions on nested dictionaries, round trip.* **proved**: `c31_round_trip`, `c31_empty_key_lost`.
* **C32** Query intervals cover exactly the selected samples. *Gaps-and-islands as a fold; spec: maximal runs. c32_maximal_runs characterises the intervals exactly; c32_scan_order: the result does not depend on the order of the rows.* **proved**: `c32_coverage`, `c32_sorted_disjoint_maximal`, `c32_maximal_runs`, `c32_scan_order`.
* **C33** The chunker index contains every selected interval under its own properties, whatever the thread count. *C++ merge as fold over per-batch maps, batch partition arithmetic. For arbitrary values: an index predicate up to permutation (Lists) is preserved by the merge without any sortedness; the Python dictionary keeps, per key, the entry of the last text in iteration order (ChunkerExact).* **partial**: `c33_cpp_index`, `c33_rejects`, `c33_index_partial`, `c33_thread_independent`, `c33_value_order_loses`, `c33_selected_samples_partial`, `c33_any_values`, `c33_any_values_sorted`, `c33_any_survivor`, `c33_complete_iff`. The full claim (c33_index_partial) is proved for property values without the separator characters and tables in which rows with the same contents list the values in one order; it is false otherwise (c33_value_order_loses). For arbitrary values the outcome is characterised exactly: c33_any_values (for every table, threads, batches and hash orders the index has the keys of the rows' texts and lists under each key exactly the intervals of the rows with one of its texts, nothing invented), c33_any_survivor (which text survives is decided by the hash order alone: every choice occurs), c33_complete_iff (the index is complete for all hash orders iff no two texts of the table share a Python key), c33_any_values_sorted (order of the ranges). c33_rejects: which tables raise.
* **C34** Property combination keys survive the text form used by the chunker. *getline splitting modelled on character lists. Exactly: the pieces getline delivers are free of the delimiter, and joining and splitting is the identity iff no piece contains the delimiter and the last is not empty (Props/KeyText).* **partial**: `c34_round_trip_partial`, `c34_separators`, `c34_round_trip_iff`. c34_round_trip_iff characterises exactly which rows survive: distinct property names free of ':' and ';', values free of ',' and ';', no property ending with an empty value. c34_separators shows what happens to the others.
* **C35** Chained selects mean OR of ANDs. *Expression AST with parameter list and SQL three-valued evaluation.* **partial**: `c35_exact_meaning`, `c35_or_of_ands_partial`, `c35_empty_select_ignored`, `c35_none_in_list`, `c35_ordering_on_list_column`. OR of ANDs proved when every select has only usable conditions; c35_exact_meaning gives the exact meaning for all chains (empty selects vanish); witnesses show the deviations.
* **C36** A cached query result is reused only if nothing changed. *State machine database x cache directory, crash points as steps.* **partial**: `c36_keeps_others`, `c36_stored`, `c36_second_hit`, `c36_text_identifies_query`, `c36_hit`, `c36_current_result_partial`, `c36_crashed_remove`, `c36_race`, `c36_lost_update`, `c36_torn_metadata_blocks`. Proved for all histories of completed operations, crashed registrations and completed or crashed queries; refuted for crashed removals (c36_crashed_remove), operations completing while a query runs (c36_race) and concurrent registrations (c36_lost_update).
* **C37** Dataset registration and removal touch only that dataset. *Relational state machine.* **proved**: `c37_only_that_dataset`, `c37_crash`, `c37_register_iff`, `c37_register_adds`, `c37_register_taken`, `c37_no_files_keeps_name`, `c37_remove`, `c37_round_trip`.
* **C38** Reading a chunk without window returns every sample once. *Round robin over list-valued streams.* **proved**: `c38_round_robin`, `c38_every_sample_once`.
* **C39** Windows reflect the mixture. *Same with per-window counts; witness for the infinite loop.* **partial**: `c39_window_samples`, `c39_full_window`, `c39_no_repeats`, `c39_strict`, `c39_best_effort_partial`, `c39_best_effort_stuck`, `c39_counts`, `c39_small_share_stuck`. Proved in full without best effort; with best effort proved when every key has at least one sample per window, and refuted otherwise: reading never ends (c39_best_effort_stuck, c39_small_share_stuck). Float rounding of the shares is taken exactly here; C87 has the rounded shares.
* **C40** Skipping already consumed samples is exactly dropping a prefix. *Composition with the skip wrapper.* **proved**: `c40_skip`, `c40_index`, `c40_resume`.
* **C41** Reading with many processes delivers the same samples. *Reader/consumer transition system over bounded queues.* **partial**: `c41_deterministic_partial`, `c41_all_samples_partial`, `c41_no_wrong_samples`, `c41_partitions`, `c41_like_one_process_partial`, `c41_workload`, `c41_chunk_samples_partial`, `c41_timeout_race`, `c41_crash_loses`, `c41_marker_loses`, `c41_slow_reader_partial`, `c41_process_counts`. Every fair schedule without timeouts and crashes and without a sample equal to the end marker delivers everything exactly once; with them only c41_no_wrong_samples holds, and c41_timeout_race, c41_crash_loses, c41_marker_loses show silent loss.
* **C42** Tokenized sequences are consecutive windows of the token stream. *Buffer machine vs. windows of the concatenation.* **proved**: `c42_windows`, `c42_covers`.
* **C43** Threaded tokenization equals sequential tokenization. *Producer/consumer transition system.* **partial**: `c43_same_samples_partial`, `c43_terminates_partial`, `c43_exception_hangs`. Proved for wrapped iterators that do not raise; c43_exception_hangs shows that an exception in the wrapped iterator makes the consumer wait forever.
* **C44** Prefetching does not change the stream. *Streams with errors.* **partial**: `c44_same_partial`, `c44_none`, `c44_exception`. Proved for streams whose first item exists and that do not raise; c44_none and c44_exception show that a leading None or an exception silently ends the stream.
* **C45** The JSONL reader returns exactly the requested lines. *Line iterator with the reader's early exits.* **proved**: `c45_lines`, `c45_rejects`, `c45_web`, `c45_web_missing`.
* **C46** The Parquet reader returns exactly the requested rows. *Two-pointer loop over row groups.* **proved**: `c46_rows`, `c46_unsorted_loses`.
* **C47** Network frames round trip. *Big-endian encode/decode on byte lists.* **partial**: `c47_int`, `c47_bytes_partial`, `c47_empty_bytes`, `c47_coded_partial`, `c47_float`, `c47_array_partial`, `c47_sign_bit`, `c47_too_long`, `c47_conversation_partial`. Round trip proved for every kind of message and for whole conversations, for non-empty byte strings shorter than half the header's range; c47_empty_bytes (b'' comes back as None) and c47_sign_bit (lengths with the header's top bit set are read back as empty and desynchronise the connection) show the rest fails. Text, pickle, float and array codecs are parameters assumed to be inverse.
* **C48** Reading is independent of how the transport fragments the data. *Reader over a list of fragments.* **partial**: `c48_read_bytes`, `c48_fragmentation`, `c48_delays`, `c48_cut_partial`, `c48_cut_after_header`, `c48_closed`. Independence of the fragmentation proved for all read helpers and all programs made of them; a cut inside the header or the body raises, but a cut exactly after the header gives None (c48_cut_after_header).
* **C49** Loss accumulation of dynamic mixing is exact. *Vectors as lists over the rationals.* **proved**: `c49_accumulate`, `c49_newer_mixture`, `c49_half_applied`, `c49_algorithms`. reset_state is never called in the code base, so the sums run over the whole job. Float rounding is not modelled. c49_half_applied: a report whose counts do not fit raises after its losses were added.
* **C50** ADO always produces a distribution with a floor on every domain. *Over the rationals.* **partial**: `c50_mixture_partial`, `c50_below_minimum`, `c50_undisturbed`, `c50_new_domain_fails`, `c50_short_report_fails`. Every returned mixture is a distribution, for all report histories; the floor is delta_min/(1+n*delta_min), not delta_min (c50_below_minimum). c50_undisturbed: no exceptions while the set of domains is fixed; c50_new_domain_fails and c50_short_report_fails: IndexError when it changes between fits. Scaling-law fitting, exp and powers are parameters.
* **C51** Metadata parsing accepts exactly what the property schema allows. *Branch by branch model.* **partial**: `c51_reserved`, `c51_accepts_partial`, `c51_required`, `c51_undeclared`, `c51_reserved_name`, `c51_empty_list`, `c51_imagenet_missing`. Exact acceptance condition and exact record proved for every schema with distinct, unreserved names. Not as one would expect: undeclared values are dropped silently (c51_undeclared), sample_id is not reserved (c51_reserved_name), an empty list counts as a value (c51_empty_list), an ImageNet sample without label is registered under the text None (c51_imagenet_missing).
* **C52** A job id is executed once. *Stub state machine.* **proved**: `c52_first_wins`, `c52_at_most_one`, `c52_jobs_separate`, `c52_status_success`, `c52_no_deadlock`, `c52_status_misleading`, `c52_local_race`. Proved for the server, for every interleaving of its background tasks. Witnesses: c52_status_misleading (a refused second registration turns the status of the running job to failed), c52_local_race (two threads that use one local stub without the server's lock can both succeed).
* **C53** Property calculation covers each sample once and in order. *Batch partition and in-order concatenation.* **partial**: `c53_results_partial`, `c53_batch_size`, `c53_succeeds`, `c53_parallel_refused`, `c53_never_stored`. The calculation itself is exact for every batch size (c53_results_partial, c53_batch_size, c53_succeeds); a degree of parallelism above 1 is refused (c53_parallel_refused) and add_property never stores anything because the storing functions always raise (c53_never_stored).
* **C54** Loss averaging returns the normalised average losses. *Loss sums and counts as lists over a field; the returned mixture compared with the normalised quotients.* **proved**: `c54_average`, `c54_returned`. Exact arithmetic instead of float32.
* **C55** The number under which a sample is registered is the number under which it is read. *Registration numbers samples in reading order (`Model/Parser.lean`, `Model/Database.lean`); composed with the readers of C45/C46.* **proved**: `c55_numbering`, `c55_batches`, `c55_same_sample`. Composes the numbering at registration with the readers of C45 and C46.
* **C56** A restore switches the job over completely. *Server and stub as a transition system whose background tasks interleave arbitrarily; coherence invariant over all histories.* **partial**: `c56_coherent`, `c56_restored`, `c56_failed`, `c56_early_status`, `c56_switching`. Proved for every history after the restore (c56_restored), coherence outside the switching window (c56_coherent), failed restore (c56_failed). Refuted: the status can report success before the restore has started (c56_early_status); while the switch is under way chunks come from the old and metadata from the new distributor (c56_switching).
* **C57** Remote workers get the distributor's chunks. *The client program and the server handler for chunks as programs over byte streams (`Model/Remote.lean`), composed with the distributor machine; corollary of C47/C48/C60.* **proved**: `c57_same_as_local`, `c57_any_network`, `c57_stream`, `c57_lost_chunk`. Finding c57_lost_chunk: a lost reply, an unreachable server and a failed handler all look like the normal end of the stream, and the lost chunk is never sent again.
* **C58** Files read through the server give the same samples. *File server, file client and the readers composed (`Model/RemoteFile.lean`); equality with reading the local file.* **proved**: `c58_lines`, `c58_rows`, `c58_same_samples`, `c58_any_network`, `c58_silently_missing`, `c58_phantom_line`. Findings: c58_silently_missing (a failed fetch is an empty file, without an error), c58_phantom_line (a range past the end gives an extra empty line through the server only).
* **C59** The mixture id reported with feedback. *Training machine (`Model/Torch.lean`): loaders, per-worker queues, the node's current mixture id; induction over events.* **proved**: `c59_current_id`, `c59_monotone`, `c59_feedback`, `c59_gone_while_streaming`. Finding c59_gone_while_streaming: one worker's stream end removes the id although other workers of the node still deliver samples; feedback then fails its assertion.
* **C60** Client and server understand each other. *Each request as a pair of programs over the same byte stream (`Model/Protocol.lean`): what the client writes is what the handler reads, for every kind of request.* **proved**: `c60_request`, `c60_cut`, `c60_reply`, `c60_call`, `c60_handler_raises`, `c60_any_network`, `c60_acts_on_cut_request`. c60_request/c60_cut/c60_reply for every one of the 16 kinds of request; c60_call and c60_any_network for whole exchanges. Arguments whose encoding is as long as half the header range are excluded (see C47/C48). Also shown: a failing handler looks like the answer 'nothing' (c60_handler_raises), and some handlers act on cut requests with None arguments (c60_acts_on_cut_request).
* **C61** The mixing algorithm starts from the mixture in force. *First contact of the dynamic mixture with its algorithm: position-wise shares; induction over the id map.* **proved**: `c61_told`, `c61_accepted`, `c61_kept`, `c61_stay`, `c61_not_told_again`. Float rounding of the shares is exact rational arithmetic in the model. c61_not_told_again shows that ids that appear later are not announced to the algorithm.
* **C62** A training job resumes at the right sample. *Training machine of C59 plus restart: the reported index against what was handed over; composition with C20 and C40.* **partial**: `c62_resume_partial`, `c62_no_gap_partial`, `c62_stale_status_loses`, `c62_prefetched_lost`. Proved for loaders that have handed over at least one sample of their current chunk, given that the query result continues as the original one (C13). False otherwise: c62_stale_status_loses (a chunk received but not begun loses as many samples as the previous chunk's last index), c62_prefetched_lost (samples waiting in the data loader's queue are lost).
* **C63** From query to training samples, end to end. *Model/QueryEval composes the database, select, interval and chunker models into query execution; the theorems compose C35, C32/C33, C04, C05, C28 and C07 and are stated only in terms of registered rows, conditions and delivered positions.* **partial**: `c63_index_partial`, `c63_training_partial`, `c63_complete_partial`, `c63_value_order_loses`, `c63_index_any_values`, `c63_index_value_orders`, `c63_training_value_orders`, `c63_training_any_values`, `c63_complete_any_values`, `c63_shared_text_unreadable`. Composition of C35, C32, C33/C34, C04, C05, C07, C28 in one theorem about the database table. The full claim needs PlainDb and GoodQuery, which exclude the situations in which C33, C34 and C35 fail; c63_value_order_loses shows on the whole pipeline that samples are lost without them. For arbitrary property names and values (c63_index_any_values, c63_training_any_values, c63_complete_any_values): nothing is delivered twice, everything delivered is registered and wanted, and iterating to the end delivers exactly the wanted samples whose text survives - all of them if no two texts share a key. With values free of separators but listed in any order (c63_index_value_orders, c63_training_value_orders) only completeness is lost. c63_shared_text_unreadable: samples with different properties and one text make a file's ranges unsorted, and reading the chunk raises.
* **C64** ADO fits its scaling laws on schedule, to everything reported, and the variants react when they should. *Model/Mixing.lean (Ado.record, fitDue, wait, credit); Props/AdoHistory.lean: invariant Recorded by reverse induction over the reports ties the stored tables to tables defined from the list of reports alone; frame lemmas for calc_mixture give the schedule; WaitStep invariant for the variants.* **proved**: `c64_fitted_history`, `c64_recorded`, `c64_v2_catches_up`, `c64_credit_only_newer`, `c64_v3_waits`, `c64_new_laws_answer`. Real arithmetic (ordered field); the curve fitting itself is a parameter that may raise. Reports with fewer domains than earlier ones are excluded (they raise, see C50).
* **C65** The data loader workers' positions are always visible, and their shared memory is released by the last one out. *Model/WorkerShm.lean: one transition per event of a process (start, sample, end, early exit, kill, end of the main process) on the two arrays and the segments' names; Props/WorkerShm.lean: invariants Flags (any history) and Epoch (one undisturbed epoch) by reverse induction over the events; position is a fold over the history alone.* **proved**: `c65_status`, `c65_unlinked`, `c65_last_unlinks`, `c65_fork_again`, `c65_spawn_once`, `c65_in_main_once`, `c65_too_few`, `c65_too_many`, `c65_unlinked_once`. All interleavings of worker processes; the deviations (spawned and in-process loading for one epoch only, wrong numbers of workers) are theorems of their own.
* **C66** A HuggingFace iteration streams as the loader worker it runs in. *Model/HFDataset.lean: the sharding calls, validate_state and the checks of __iter__ as Except functions of the setup; Props/HFDataset.lean: case analysis gives an exact characterisation of the setups in which an iteration starts and of its worker id.* **proved**: `c66_accepted`, `c66_intended`, `c66_distinct`, `c66_unsplit_raises`, `c66_wrong_number`. Exact characterisation of the accepted setups; the deviations are theorems of their own. The datasets library is represented by its calls as the code's comments describe them.
* **C67** What a client learns about a registration or a query at the server is true. *Model/Registration.lean: calls, the server's background tasks and status table, connections that deliver, close or fail, restarts; Props/Registration.lean: invariant Inv between the state and the log of what was observed, by reverse induction over the events; waitLoop by induction on its bound.* **partial**: `c67_true`, `c67_own_task`, `c67_false_partial`, `c67_next_poll`, `c67_restart_waits_forever`, `c67_lost_answer`, `c67_wait`. True is always true; False and exceptions mean a failed registration only if the exchanges are delivered (c67_false_partial, c67_lost_answer); a restart makes the call wait forever (c67_restart_waits_forever).
* **C68** The dataset a checkpoint is taken of. *Model/DatasetSearch.lean: objects as elements of a type with their attributes, the depth-first search with its visited set and recursion depth, the stack loop over HuggingFace wrappers; Props/DatasetSearch.lean: soundness by induction on the depth, completeness by the closure of the visited set, depth by the number of unvisited objects, the loop by 2*unvisited + stack.* **partial**: `c68_sound`, `c68_complete`, `c68_decides_partial`, `c68_endless_partial`, `c68_wrapped`, `c68_recover`, `c68_direct`, `c68_found_partial`, `c68_not_installed`, `c68_nested_partial`. Soundness (c68_sound, c68_recover), completeness (c68_complete), direct cases (c68_direct) and HuggingFace wrappers (c68_wrapped) for all graphs; deciding the attribute search needs fewer objects than the recursion limit (c68_decides_partial): c68_endless_partial shows a RecursionError for objects with endlessly fresh attributes (such as tensors), c68_nested_partial that a dataset in a list within a list is overlooked.
* **C69** The mixture ids of chunks count the changes of the mixture. *Props/MixtureIds.lean: relation Track between the generator's state and the list of mixtures served, preserved by every iteration, run and request; mixChanges is defined on that list alone.* **proved**: `c69_ids`, `c69_monotone`, `c69_first`. Mixtures are compared as dictionaries, as the code does; what a request is served with after an unserved one is the old mixture (C10).
* **C70** A checkpoint that has been waited for can be restored. *Model/CheckpointRun.lean: all nodes' calls, the distributor's rounds (Chk.report of C19), the persisting processes file operation by file operation, crashes, restores, executions and removal of cache directories as interleaved atomic events; Props/CheckpointRun.lean: invariants DInv (files against processes) and Inv (rounds against what has been observed since the distributor was created) by reverse induction over the events; stability of complete files.* **partial**: `c70_barrier`, `c70_id_file`, `c70_durable`, `c70_restorable_partial`, `c70_starts`, `c70_restore_complete`, `c70_next_number`, `c70_first_unfinished_partial`, `c70_other_query_partial`, `c70_id_before_data_partial`, `c70_uncached_partial`, `c70_cache_removed_partial`, `c70_cache_replaced_partial`. Barrier, id file, durability and no overwriting proved for all histories (c70_barrier, c70_id_file, c70_durable), restorability when one job id is used for one query and the first checkpoint has been waited for (c70_restorable_partial). Refuted: c70_first_unfinished_partial (a later checkpoint is reported complete while the first still copies the query result), c70_other_query_partial (a job id reused for another query mixes old query result and new state), c70_id_before_data_partial (mixtera.id names an unfinished checkpoint after a crash), c70_uncached_partial (no checkpoints without query cache), c70_cache_removed_partial (none after the cache directory was removed), c70_cache_replaced_partial (the first checkpoint contains another job's query result if the same query was executed after a dataset change, because the number of the removed cache directory is given out again).
* **C71** Registering a location finds each of its files exactly once. *Model/FileFind.lean: paths as strings, Path(s) as its parts, from_path, is_dir, glob and iterate_files over an arbitrary disk; Props/FileFind.lean: specification Denotes (spelling of a path) and Listing; suffix-disjointness of the extensions gives no duplicates; composition with c37_register_iff / c37_register_adds.* **partial**: `c71_directory`, `c71_spelling`, `c71_file`, `c71_missing`, `c71_relative`, `c71_scheme_partial`, `c71_registers`. Proved for absolute paths (c71_directory, c71_spelling, c71_file, c71_missing, c71_relative) and composed with registration (c71_registers). Refuted for file:// locations, which are documented and accepted but looked up as relative paths (c71_scheme_partial).
* **C72** A web dataset sample contains exactly its tar members, decoded. *Model/WebSamples.lean: group_by_key, __getitem__, decode over arbitrary splitname and decoders; Props/WebSamples.lean: induction over the member names for the grouping, last-write lemma for the dictionary, table of decoders as specification.* **partial**: `c72_partition`, `c72_one_key`, `c72_maximal`, `c72_item_partial`, `c72_succeeds`, `c72_fails`, `c72_range`, `c72_same`, `c72_gz_unknown`, `c72_repeated_loses`. Grouping, contents and agreement of parser and reader proved for all tar files (c72_partition, c72_one_key, c72_maximal, c72_item_partial, c72_succeeds, c72_same, c72_range). Refuted for compressed members of unknown type, whose stream is left read to its end (c72_gz_unknown), and for repeated extensions, of which only the last is kept (c72_repeated_loses). group_by_key of the library wids is modelled as documented.
* **C73** The built-in metadata parsers record exactly the documented fields. *Model/ParserCollection.lean: JSON values, the built-in parse methods, the factory; Props/ParserCollection.lean: relations At/Languages/Date as specification, through c51_accepts_partial; factory by reverse induction over the history.* **proved**: `c73_slim`, `c73_pile`, `c73_fineweb`, `c73_coco`, `c73_redpajama`, `c73_null_meta`, `c73_factory`. Exact acceptance conditions and records for all JSON payloads, through add_metadata; c73_null_meta shows that the optional meta object may be missing but not null. ImageNet's missing label is c51_imagenet_missing. Floats and equality of 1 and True are not modelled.
* **C74** Which mixture ADO returns. *Model/Mixing.lean (Ado.totals, scaled, domainCounts, derivative, preference, history); Props/AdoFormula.lean: a specification by functions ℕ → F and finite sums over the list of reports (memoryAfter, mixtureAt), a simulation relation Tracks between it and the stored tables, preserved by every report; the slope is compared with Mathlib's HasDerivAt.* **proved**: `c74_mixture`, `c74_slope`, `c74_preference`. All variants; undisturbed runs (the scaling laws can be fitted, as for C50) in which all reports are about the same domains. c74_mixture also characterises exactly which reports are answered.
* **C75** Scaling laws are fitted to the right data and the best fit is chosen. *Model/ScalingFit.lean (column, cumsum, fill, series, smoothed, selected, searchGrid, fitDomain, fitAll; Shared.work/run for the processes; huber, penalty, lawLoss over the reals); Props/ScalingFit.lean: the data as filtered lists over the reports (usable, FitData), the choice as BestOf over all guesses; an invariant per domain for arbitrary schedules of the processes; run_congr replaces the fit outside the tables that occur, so that C50 and C74 apply with a realistic contract for the optimiser.* **partial**: `c75_fitted`, `c75_succeeds`, `c75_isolated`, `c75_defined`, `c75_mixture`, `c75_undisturbed`, `c75_too_little`, `c75_first_fit_empty_partial`, `c75_exact`, `c75_range`, `c75_beats_guesses`. Everything except the last sentence is proved (c75_fitted, c75_succeeds, c75_isolated, c75_defined, c75_mixture, c75_undisturbed, c75_too_little, c75_exact, c75_range, c75_beats_guesses). The last sentence is false: one step more is ignored, so that with start_step = ignore_initial_steps + 1, which the constructor accepts, the first fit has no data for any domain (c75_first_fit_empty_partial).
* **C76** A delivered chunk can be configured and read completely. *Model of configure_result_streaming (Model/ChunkConfig.lean) on the chunks of the generator model. A new invariant of the chunk-building loops (Lemmas/Listed.lean): a key that was asked for is in the mixture, and in the chunk, only with samples; and every key kept to the end is listed or its components are empty. With these the key check is decided for every delivered chunk; reading composes with C38, C39 and C41.* **partial**: `c76_listed`, `c76_configures_partial`, `c76_settings`, `c76_mixture`, `c76_zero_row_fails`, `c76_single_process`, `c76_read_partial`, `c76_windows_partial`. Proved for every chunk whose requested mixture has no zero-valued key (and for chunks without mixture): configuring succeeds iff the arguments are valid, and reading yields exactly the listed samples (overall mode; windows when every share is at least one sample, strict windows always). False of the code for mixtures with a zero-valued key: c76_zero_row_fails shows that the client then always raises, as long as matching samples are left. Token mode: configuration only; the tokenised streams are C42-C44.
* **C77** A remote call reaches the server at most once and never reports success without it. *Model `_connect_to_server` as the state machine of an async generator (suspended in attempt k, suspended without connection, ended) driven by tenacity's retry loop and by `asynccontextmanager` (next / throw), log every attempt, body run and close. Prove by induction over the attempts what the loop does for every outcome sequence, then all cases of leaving the body; compose the body with the byte-level exchange of C60 to get the value every method returns.* **partial**: `c77_connected`, `c77_unreachable`, `c77_exception_partial`, `c77_once`, `c77_exception_lost`, `c77_call`, `c77_positive`, `c77_unreachable_value`, `c77_no_answer`, `c77_restore_silent`, `c77_idle`. Proved: connecting, exactly-once use of the first connection, failure values, and that positive answers are the server's, on top of the byte protocol of C60. Partial because an exception in the exchange does not reach the caller: the retry loop swallows it, connects again (leaking the first connection), and the caller always gets 'generator didn't stop after athrow()' (c77_exception_partial, negation witness c77_exception_lost); and restore_checkpoint returns normally when nothing was restored (c77_restore_silent). Waiting times and cancellation are not modelled.
* **C78** The same query gives the same chunks and the same order of samples. *Model the global generator explicitly: an arbitrary seeding function and an arbitrary choice of a permutation per state and length; `hash_list` sorts, joins and hashes. Thread the state through the key order of a query result and the three shuffles of reading a chunk. Prove that seeding forgets the state and depends on the texts as a multiset, then a simulation between two query results that differ in the order of their index only (induction over the operations), and compose it with the chunker (C33) and with reading (C76). For the exact condition: every choice of surviving texts occurs for some iteration order (C33), so results agree for all orders iff there is nothing to choose. For inferring mixtures: uniqueness of the largest remainder rounding without ties, then C09.* **partial**: `c78_scan_order_partial`, `c78_database_partial`, `c78_inferring_partial`, `c78_inferring_varies`, `c78_key_order`, `c78_same_chunks_partial`, `c78_reading`, `c78_read_once_partial`, `c78_resets_generator`, `c78_chunk_order_matters`, `c78_database_iff`, `c78_value_orders_vary`. c78_key_order: the order of the keys in which a query result walks its index depends on the set of keys only. c78_same_chunks_partial: two indices built from permuted tables, in any batches, threads and hash-map orders and any generator states, give equal answers to every operation sequence (and the same key ids). c78_reading: reading a configured chunk with the global generator threaded through equals reading it with fixed shuffles, so the state is irrelevant. c78_read_once_partial: for every chunk that can be delivered, type 'simple' reads exactly its samples, each once, in an order that depends on the chunk only. c78_resets_generator, c78_chunk_order_matters: side effects and limits (findings). c78_database_iff: without separators the samples in the result are independent of the hash maps' iteration order if and only if the wanted samples list equal values in one order (c78_value_orders_vary: a database for which they are not). c78_inferring_partial: jobs with InferringMixture on two executions get the same answers if no fractional parts are equal; c78_inferring_varies: otherwise the rows and the chunks can differ. Partial: as in C33, names and values without the separators and equal property sets listed in the same order; read_once only for 'simple' (for the other types see C39/C40/C76); the order of the samples in a chunk depends on the order of the chunk's dict. c78_database_partial: composed with the evaluation of queries (C63). c78_scan_order_partial: the index does not depend on the order in which the rows of the sample table are stored or scanned (from c32_maximal_runs, c32_scan_order).
* **C79** A whole training run hands over every sample of the query at most once, and all of them with ArbitraryMixture. *Instantiate the distributor's abstract source with the query result model (including the assertion in the chunk's constructor) and the loaders on top of it. Carry an invariant of the query result through all requests and mixture operations (its generator is the result of some history of requests, all mixtures usable, every key known), so that the list of chunks taken from it is a history of C04/C05/C76; then use C16 (partition by group and worker) and the loader's stream equation of C62 to go from chunks to samples. Completeness: a second invariant for ArbitraryMixture (unread + taken = all). Compose with C63 for the database. Restarts: by induction over the lives of a job, what was handed over in all lives is a sublist of what one uninterrupted run hands over (C20, C62). Conversely every sample of that uninterrupted run is covered by the lives: the loader furthest ahead with the same worker number handed over what the others skip.* **partial**: `c79_restored_source_partial`, `c79_restarts_partial`, `c79_restart_repeats_partial`, `c79_restarts_complete_partial`, `c79_once`, `c79_replicas`, `c79_key_ids`, `c79_failures`, `c79_complete`, `c79_composition`, `c79_simple_reading`, `c79_any_streams`, `c79_reader_processes_partial`, `c79_any_reading`, `c79_database_partial`, `c79_database_complete_partial`, `c79_database_any_values`, `c79_database_complete_any_values`, `c79_database_value_orders`. Composition of the models of C02-C16, C38, C59, C63, C76 and C78. "At most once" is proved for every reading of chunks that yields listed samples, none twice, under their keys; c79_any_reading: the reading with one reader process is such a reading for all arguments (simple, window, token, valid or not); c79_any_streams: so is every reading whose key iterators yield the listed samples in any order; c79_reader_processes_partial: reader processes are such iterators under the schedules of C41. Completeness and composition need a reading that yields each listed sample once (c79_simple_reading: the type "simple"). Partial: needs usable mixtures (no zero rows, C76) and feedback without unknown keys; the database version inherits the restrictions of C63 - the safety half needs none on the property values (c79_database_any_values; with the key's description: c79_database_value_orders), completeness only that no two texts of wanted samples share a key (c79_database_complete_any_values); the end of the stream with ArbitraryMixture is a hypothesis (C07: it may be endless for an even number of keys); restarts: c79_restarts_partial (any number of interruptions: nothing twice over all lives, up to the last sample before each checkpoint), c79_restarts_complete_partial (nothing is lost over all lives: once every loader has read to the end after the last restart, every sample has been handed over), c79_restored_source_partial (the restored query result under the conditions of C13), c79_restart_repeats_partial (a checkpoint before the first sample after a restart repeats samples). c79_composition: every chunk received after the last mixture change is composed by the mixture then in force (if no loader was told the stream ended before); c79_failures: the only failures a loader can see are those the chunk generator itself reports.
* **C80** The mixture log says which mixture every chunk was made with. *Model/MixtureLog.lean: the query result of C10 with its real log (copies, or references to mixtures without rows) and the contents of mixture.log and chunk.idx. Invariant over all histories: the log is sorted, its last entry has the rows the generator remembers, and every chunk so far has its entry; then the dictionary of the file is looked up.* **partial**: `c80_log_partial`, `c80_ids_partial`, `c80_chunk_idx`, `c80_curr_chunk_idx_partial`, `c80_schedule_rewrites_log`. Proved for all histories in which a mixture object either always or never has rows (all mixture classes but schedules mixing both); refuted for such schedules (c80_schedule_rewrites_log). Keys with different text forms are assumed (C27/C34 discuss collisions). Crashes in the middle of writing a file and the files during a replay are in C88.
* **C81** The jobs of one server do not influence each other. *Model LocalStub with any number of jobs (Model/Jobs.lean): job map, shared query cache and database, heap of mixture objects, checkpoint directories; the query result and the distributor are those of the other modules. Prove by a simulation between the full history and the one without the other jobs; a cached query result starts exactly as a fresh one; C36 gives that the cache returns what would be evaluated.* **partial**: `c81_isolation`, `c81_running`, `c81_checkpoints_partial`, `c81_shared_mixture_partial`, `c81_checkpoint_of_other_data_partial`. Proved for all histories in which no mixture object is passed to this job and to another one: everything but checkpoints (c81_isolation), a running job with restores independently of dataset changes too (c81_running), checkpoints if no dataset changes after the job's first event (c81_checkpoints_partial). Refuted otherwise: c81_shared_mixture_partial (a shared InferringMixture object is overwritten by the other job's data), c81_checkpoint_of_other_data_partial (the first checkpoint copies the query result another job has put in the same cache directory; restoring delivers samples twice). Operations are atomic in this model (overlapping ones: C36, C52, C56, C70).
* **C82** A job that finds its query in the cache is served as if the query had been executed. *Model of the stored directory (pickled attributes, files of the index) and of what execute_query does with a cached result. Chain of simulations: loaded result ~ stored result up to the order of the index (C31, C78), reset key ids and new mixture ~ constructor (the simulation of C13), new execution ~ same index up to order (C32, C33). Then compose with the cache's invariant (C36) and the evaluation of queries (C63).* **partial**: `c82_reused_like_fresh`, `c82_reused_table_partial`, `c82_execute_query_partial`. Given an index in which every key and dataset has a file (C33: all indices of queries), proved without further conditions (c82_reused_like_fresh). Partial: the composition with the table (c82_reused_table_partial) and with database and cache (c82_execute_query_partial) inherits the restrictions of C33, C36 (crashed removals, races) and C63. The mixture's view after process_index is given; c23_restored: a reloaded index tells every mixture object the same as the stored one; c23_index_order: indices in another order do, except for ties of an inferring mixture.
* **C83** A model is trained on the registered records. *Model/ResultMeta adds the metadata of a query result, the dataset classes, parsing at registration and reading a chunk's ranges. c83_no_dangling is an invariant over all statements of registering and removing (a state predicate that holds at every crash point); the main theorem composes it with C55, C63, C06, C45 and C46. TrainedCache shows that the result with its metadata depends only on what C36 calls visible, so that C36 applies to it. SampleBlind shows that reading, distributor and loaders are natural in the samples (a run with mapped samples is the mapped run), so that the theorems of C79 about positions carry over to the items read from the files (TrainingRecords). RestartRecords combines this with the virtual uninterrupted run of C79 (Lives.virtual, SmoothLives.covered), which is generic in the samples.* **partial**: `c83_restarts_partial`, `c83_restarts_complete_partial`, `c83_no_dangling`, `c83_through_cache_partial`, `c83_trained_records_partial`, `c83_concurrent_dangling`, `c83_training_run_partial`, `c83_training_complete_partial`. c83_trained_records_partial composes C37 (crash points), C55, C51, C63, C06, C45 and C46 in one theorem from files to trained items; c83_through_cache_partial adds the query cache of C36: the result may come from the cache; c83_training_run_partial and c83_training_complete_partial go on to the whole training run (C79): what the loaders hand over are the parsed records, each once, and with ArbitraryMixture all of them; c83_restarts_partial and c83_restarts_complete_partial do the same for jobs that are interrupted any number of times and continued from checkpoints; c83_no_dangling holds for all histories and crash points. All safety theorems allow the same values in different orders (ReadableDb). Completeness needs one order of values among the wanted samples (OneOrder). Partial because it inherits ReadableDb/GoodQuery from C63 and assumes that the files do not change; c83_concurrent_dangling shows that concurrent registration and removal of one name leaves samples that no query can resolve and that cannot be removed.
* **C84** What is stored of a dataset does not depend on the datasets registered before. *Model/ColumnTypes models what Model/Database leaves out: enumeration types, column types, ALTER TABLE, pyarrow conversion and DuckDB's casts. Each statement is an atomic step. A simulation relates the typed program to the program without types run with a parser that returns the cast values, so that the theorems of C37 characterise success and content exactly; an invariant over all statements gives the histories. The spec (StoredAs, typeIn, Valid) is separate from the cast function.* **partial**: `c84_register_iff`, `c84_register_adds`, `c84_type_for_ever`, `c84_unchanged_partial`, `c84_history_partial`, `c84_conflict`, `c84_fineweb_after_redpajama`, `c84_redpajama_after_fineweb`, `c84_list_as_text`. Violated by the code. Proved for all inputs: c84_register_iff (exactly when a registration succeeds, given the columns of the database), c84_register_adds (exactly what is stored), c84_type_for_ever (column types never change, over all histories and crash points). The part that holds: c84_unchanged_partial (if the existing columns take the declared values, the run is the run without types at every crash point) and c84_history_partial (if all parsers declare alike, every reachable database is one of the model without types, so C37, C63, C83 apply). Violations: c84_conflict (a value the column does not take: the call raises, the dataset stays registered with its files, without samples, and its name is taken), c84_fineweb_after_redpajama and c84_redpajama_after_fineweb (two built-in parsers), c84_list_as_text (a list silently becomes one text). DuckDB's text form of lists is a parameter; column names are compared exactly.
* **C85** A directory can be reopened at any time. *Model `Model/Opening.lean`: the directory with the database file, of which the first `stage` of the eight statements of `_init_database` have been committed; opening as a program of statements; all operations of the data collection again, each statement requiring its tables and each function catching exactly the exceptions the code catches. Proof: on a complete file the programs agree, statement by statement, with the programs of Model/Database (relation EqOn, closed under sequencing and loops), so histories reduce to DbReach; on an incomplete file an invariant over all statements (stage unchanged, result not True); crash points of the opening enumerated exactly.* **partial**: `c85_complete_file`, `c85_reopen`, `c85_missing`, `c85_first_open`, `c85_first_open_crash`, `c85_reopen_any_time_partial`, `c85_never_repaired`, `c85_usable_iff`, `c85_false_but_listed`, `c85_nothing_listed`, `c85_late_first_opening`. Proved for all histories after a completed first opening (c85_reopen_any_time_partial, c85_reopen, c85_complete_file: the operations and their crash points are those of the database model). Violated by crashes during the first opening: the tables are created by eight separately committed statements and only if the file does not exist, so a crash in between leaves a file that every later opening accepts and nothing ever completes (c85_never_repaired: no registration or removal ever returns True and every query raises, for all histories; c85_usable_iff: exactly these crash points). In such a directory register_dataset returns False although the dataset is listed from then on (c85_false_but_listed).
* **C86** Row counts are right although they are computed with floats. *Model `Model/Float64.lean`: binary64 rounding (`fl`: nearest, ties to even, gradual underflow, no overflow) as a function on ℚ, and again the functions that turn shares into row counts, every float operation rounded. `Lemmas/Float64.lean` proves the error bound of one rounding, that integers up to 2^53 and the integral and fractional part of a float are floats. Then: the counts are the largest-remainder rounding of the computed products (fractions are computed exactly), the products deviate from the exact ones by less than one row in total, and a general lemma about largest remainders with a total error below one gives the rest. `sum` is a parameter with a bound on its error; the loop of additions is proved to meet it.* **partial**: `c86_static`, `c86_static_loop`, `c86_sum_check`, `c86_inferring`, `c86_redistribute`, `c86_redistribute_loop`, `c86_hierarchical_partial`, `c86_hierarchical_off_by_one`. Proved for static and inferring mixtures and for the redistribution. Hierarchical mixtures violate the part about whole-number amounts (c86_hierarchical_off_by_one: 0.71/0.29 of 100 rows gives 72/28); c86_hierarchical_partial proves the total and the bounds. Overflow, infinities and NaN are not modelled.
* **C87** Windows and inferred chunk mixtures with float shares. *Model `Model/FloatWindow.lean`: `_get_element_counts`, `_get_process_counts` and `_infer_mixture` with every float operation rounded to binary64. One lemma (`floor_share`): the rounded product of n and the rounded quotient v/chunk, cut off, is the exact share rounded down, or one less if the share is a whole number. The window loop of C39 is stated for arbitrary integer counts, so its theorems apply to the rounded counts. The inferred mixture: quotients v/total are rounded, the total deviation is below one row, so largest remainders give the integers back.* **partial**: `c87_window_counts`, `c87_strict`, `c87_best_effort_partial`, `c87_one_sample_stuck`, `c87_whole_chunk_off_by_one`, `c87_readers`, `c87_inferred`, `c87_inferred_loop`. Strict windows, reader processes and the inferred mixture in full. Best effort is proved when every key's share is more than one sample per window; a share of exactly one sample can be rounded to none, and reading then never ends (c87_one_sample_stuck). A whole-number share can be one less (c87_whole_chunk_off_by_one), which the statement allows.
* **C88** The mixture log on disk over crashes and restores. *Model/LogRestore.lean: the log directory with missing, torn and complete files; the writes of a request and of replay in their order, and the directory at every point of them. A replay is shown to write, chunk by chunk, the log of the checkpoint (run of the generator on a log that already has all entries), so its last writes are the files of the checkpoint; the continuation is the alikeness of restored query results (C13) together with the invariant of C80 for both. Crash points in operation are reduced to C80 for the history with and without the request.* **partial**: `c88_restored_partial`, `c88_restore_crash_partial`, `c88_continued_partial`, `c88_crash_partial`, `c88_crash_idx`, `c88_log_torn`. The clause about chunk.idx is proved in full. The clauses about restores are proved under the conditions of C13 under which a checkpoint can be restored exactly (all answers chunks, changes of the mixture noticed), for mixture objects that stay with or without rows. mixture.log is overwritten in place, so it can be torn with chunks delivered (c88_log_torn): nothing then says with which mixtures they were made until the log is written again. The crash points are before, during and after each file write; writes reaching the disk out of order are not modelled.
* **C89** Mixtures of a dynamic algorithm in float arithmetic. *Model/FloatDynamic.lean: enforce_min_probability, numpy's isclose and _process_losses with every operation rounded (fl), np.sum and sum as parameters with a bounded relative error. The quotients by the computed total are near the quotients by the exact one, the error of np.sum cancels in the shares; then the apportionment theorem of C86.* **proved**: `c89_shares`, `c89_every_domain`, `c89_small_chunk`. Overflow, infinities and NaN are not modelled, and the policy before enforce_min_probability is arbitrary (its computation is in C50 and C74, in exact arithmetic). Chunks too small for the minimum probability get rows of zero samples, which the client cannot configure (c89_small_chunk, C76).
* **C90** The mixture in force follows the losses reported. *Model/Feedback.lean joins the call of a rank, process_client_feedback, DynamicMixture and an arbitrary algorithm into one machine with histories of events. The step is a fold of max over the first rank's calls. An invariant along the history (the accumulators are a fold over the reports heard; the mixture is the rounding of the last distribution over the known keys, which survives the growth of the id map) together with C25 and C54 gives the mixture as a function of the totals; with C50 the rows every sampled domain is guaranteed under ADO.* **proved**: `c90_step`, `c90_silent`, `c90_accepted`, `c90_average`, `c90_initial`, `c90_ado`. Exact (rational) arithmetic; C89 treats rounding. The averaging part assumes what the training sends: as many losses as counts, no negative loss, and only domains whose keys are known. The transport between client and server is C60 and C77, the id a client sends is C59.
* **C91** Storing and loading a query result keeps what a dynamic mixture has learnt. *Model/FeedbackRestore.lean adds to the machine of C90 the mixture log with its copies of mixture and algorithm (and the algorithms taken away from earlier entries), chunk requests, and the loop of replay. An invariant over histories identifies the last entry with the state at the last chunk of a new mixture; the replay installs the last entry since the indices increase and lie below the number of chunks. The moment is unique, so the theorems can be stated about any given decomposition of the history.* **partial**: `c91_restored`, `c91_forgets`, `c91_kept_partial`, `c91_rows`, `c91_average`, `c91_reports_lost`. The code does not have the full property: c91_reports_lost. Proved for every algorithm: what comes back is the mixture, algorithm and step of the last chunk with a new mixture (c91_restored), later feedback acts as if nothing after that had been reported (c91_forgets, c91_average), the rows are those of the last chunk (c91_rows), and all is kept if nothing was reported since (c91_kept_partial). Requests that are not answered with a chunk are C13. This is about to_cache and from_cache of the query result; the checkpoint of a job stores the current algorithm as well (C94).
* **C92** Average losses in single precision. *Model/Float32Averages.lean rounds every operation of _update_state and calc_mixture to binary32 (to binary64 where numpy promotes, then casts); np.sum is a parameter with a relative error bound (sums_loop proves one for a loop from the left). Lemmas/Float32.lean has the algebra of 'equal up to (1 + v)^k' (sums, quotients, transitivity, rounding of normal numbers); the theorems chase the exponent through the accumulators, averages, weights and the final normalisation. The refutation for long histories is a closed-form history by induction on its length.* **partial**: `c92_totals`, `c92_weights`, `c92_accepted`, `c92_no_losses`, `c92_ignored`, `c92_stuck`. For any history: c92_totals bounds the accumulators with a factor (1 + 2^-23) per report. For up to a million reports and domains, averages in [2^-40, 2^40] and counts below 2^53: c92_weights, c92_no_losses, c92_accepted (the sum passes np.isclose). For long histories the code does not have the property: c92_ignored (a loss below half the last place of the total never counts), c92_stuck (a domain with the same average as another gets a fifth of the chunk).
* **C93** Chunks follow the reported losses. *Model/DynamicQuery.lean puts the machine of feedback (C90) and the query result (C10, C14) together: one mixture object in the heap, changed in place by calls and read by the generator. An invariant over all interleavings gives: the heap holds the view of the mixture reached by the calls alone, the generator's reference never goes stale, and the keys of every mixture already have ids, so no request passes on new ones. The composition theorems of the chunk generator then apply to the mixture of C90.* **proved**: `c93_next`, `c93_average`, `c93_initial`. c93_next holds for any algorithm (what is raised is ignored, as the server does); it composes the machine of C90 with the one of C10, without the restriction of C10 since feedback changes the mixture object in place. Numbers are rational (C89, C92 are about rounding). A best-effort chunk may have other shares where data has run out (C03, C11).
* **C94** However often a job restarts, every report that a checkpoint includes counts exactly once. *Model/FeedbackRestarts: what a job's checkpoint stores (the mixture log with the current algorithm in its last entry, the number of chunks), the replay with the generator it leaves behind, and a job as a machine of calls, chunks, checkpoints and crashes. Specification: the calls that no crash took back, run without interruption. Proved by an invariant over the life: the algorithm is that of the remaining calls, the mixture object and every log entry that of a prefix of them, the log is in order with consecutive entries different (so that the replay goes through). One lemma compares what a call does to two mixtures that differ in the current mixture only.* **partial**: `c94_learnt_partial`, `c94_next_partial`, `c94_average_partial`, `c94_rows_partial`, `c94_resumes`, `c94_stale`, `c94_early`. The code does not have the full property: the mixture in force and the step can be old ones after a restart (c94_stale), and a checkpoint before the first chunk forgets all reports and even the job's mixture (c94_early). Proved for lives of any length without such early checkpoints: the algorithm is exactly the one of the uninterrupted history (c94_learnt_partial), the first report with which the algorithm decides on a mixture makes the whole mixture the one of that history (c94_next_partial; with averaging its shares are the average losses over all reports that remain, c94_average_partial), until then the rows are those of the last chunk before the checkpoint (c94_rows_partial); restoring always succeeds (c94_resumes). Every request is answered with a chunk (running out of data is C13); chunk contents are not in this model.
* **C95** Domain ids after restoring a job's checkpoint. *Model `startJob` (cache hit: ids reset and mixture replaced; miss: new result), the checkpoint's part of the query result and `restoreJob` (cache directory loaded without replay, log of the checkpoint, replay). Induction over the job's operations for the ids; for the restored job the replay lemma of C13 from a directory with other ids, and a lemma that ids have no influence on chunks. The ids of a start depend only on the set of domains. Two concrete counterexamples show what is missing.* **partial**: `c95_ids_while_running`, `c95_restored_answers_partial`, `c95_restored_chunks_partial`, `c95_many_restores_partial`, `c95_same_domains_same_ids`, `c95_other_ids`, `c95_other_mixture`. The ids while the job runs are proved without restriction (c95_ids_while_running). For the restored job: whatever the first mixture, chunks and mixture log are those of the uninterrupted job if at least one chunk was taken (c95_restored_chunks_partial), and this for any number of restores, each from a checkpoint right after a chunk (c95_many_restores_partial). The restored job's ids are those of the first mixture (c95_restored_answers_partial, for first mixtures that know all domains of the job's; in general the first mixture's ids are kept and others added), so they are the job's if both have the same domains (c95_same_domains_same_ids) and else not (c95_other_ids, a bug: execute_query resets the ids, from_checkpoint does not). Before the first chunk the restored job has the wrong mixture (c95_other_mixture). The restrictions of C13 (unanswered requests, unnoticed mixture changes) remain.

## 4. Where the code does not have the property

Each item names the theorem that exhibits it (a concrete run of the model, evaluated by the kernel) or says that it was
only noticed while reading.

**Chunk generation** – without a mixture and with an even number of property combinations the generator loops forever
once a combination is exhausted (`c07_endless_loop`); an update or feedback after a request that got no chunk is ignored
(`c10_update_ignored_after_none`), and keys without an id can reach a chunk then (`c14_key_without_id`); restoring fails
after an unserved request, diverges after a change that the row counts do not show, loses an update that no request has
followed (`c13_*`). Data taken by a failed attempt is discarded (part of C04's accounting).

**Distributor and checkpoints** – one failed validation blocks checkpointing for good (`c19_failed_validation_is_final`);
reports of nodes that do not exist count (`c19_unknown_node_counts`); a checkpoint of a job without loader workers cannot
be taken after a restart (`c20_checkpoint_after_restart_fails`). Read only: the second checkpoint relies on the first
one's background copy having finished.

**Mixtures** – hash text collisions of keys (`c27_*`), key matching is not symmetric or transitive
(`c28_not_an_equivalence`), hierarchical weights are not checked and equal leaves overwrite each other
(`c22_unnormalised_overfull`, `c22_same_leaf_twice`), schedule entries and the initial dynamic mixture are not adjusted to
the chunk size (`c24_rows_not_adjusted`, `c25_initial_not_adjusted`), tiny weights give keys without rows
(`c25_zero_rows`), ids that appear later are not announced to the algorithm (`c61_not_told_again`). The `strict` flag of schedule entries is
ignored (`c24_strictness_ignored`); the mixture log keeps a reference to a mixture without rows, so a schedule that begins
without a mixture rewrites its log (`c80_schedule_rewrites_log`) and delivers samples twice after a restore
(`c13_restore_schedule_repeats`).

**Queries** – separator characters in values change the property combination (`c34_separators`), a list in another order
loses samples (`c33_value_order_loses`; which ones is up to the iteration order of a hash map, `c33_any_survivor`), two
kinds of samples with one text make a file's ranges unsorted and reading fails (`c63_shared_text_unreadable`), an empty select vanishes from an OR (`c35_empty_select_ignored`), `None` in a
`!=` list selects nothing (`c35_none_in_list`).

**Data collection and cache** – a registration without files fails and keeps the name (`c37_no_files_keeps_name`); stale
hits after a crashed removal, a registration during a query, or two registrations at once (`c36_crashed_remove`,
`c36_race`, `c36_lost_update`); a crash while writing metadata blocks the query (`c36_torn_metadata_blocks`);
`add_property` never stores anything (`c53_never_stored`).

**Reading** – best-effort windows with a share that rounds to zero never end (`c39_best_effort_stuck`,
`c39_small_share_stuck`); reader timeouts, crashes and a sample equal to the end marker lose samples silently
(`c41_timeout_race`, `c41_crash_loses`, `c41_marker_loses`); an exception in the wrapped iterator hangs the threaded
tokenizer (`c43_exception_hangs`) and ends the prefetched stream silently (`c44_exception`); unsorted ranges lose Parquet
rows (`c46_unsorted_loses`). Read only: JSONL `iterate_files` on a single file yields it twice.

**Network and server** – `b""` arrives as `None` (`c47_empty_bytes`), a length with the header's top bit set
desynchronises the connection (`c47_sign_bit`), a connection cut right after a header reads as `None`
(`c48_cut_after_header`), failing handlers look like the answer "nothing" (`c60_handler_raises`), some handlers act on cut
requests (`c60_acts_on_cut_request`), a lost chunk looks like the end of the stream and is never sent again
(`c57_lost_chunk`), failed file fetches read as empty files (`c58_silently_missing`), ranges past the end give an extra
line through the server (`c58_phantom_line`), misleading job status (`c52_status_misleading`, `c56_early_status`),
unlocked local stub (`c52_local_race`), unanswered polls and restarts during a registration (`c67_lost_answer`,
`c67_restart_waits_forever`), an exception during an exchange is replaced by `generator didn't stop after athrow()` after
further, unused connections have been opened (`c77_exception_lost`), a restore that never reached the server returns normally
(`c77_restore_silent`), mixed answers during a restore (`c56_switching`).

**Training side and algorithms** – a restart loses samples when a worker has received a chunk but not begun it, or when
samples wait in the data loader (`c62_*`); one worker's end of stream removes the node's mixture id
(`c59_gone_while_streaming`); ADO's floor is below the configured minimum, and new domains or short reports raise
(`c50_*`); losses are added before a malformed report is rejected (`c49_half_applied`);
a dataset object used with spawned workers or without workers serves one epoch only (`c65_spawn_once`, `c65_in_main_once`),
and a wrong number of workers leaks or removes the shared memory (`c65_too_few`, `c65_too_many`); an unsplit
`MixteraHFDataset` always raises (`c66_unsplit_raises`), and the number of dp groups is accepted as number of loader workers
(`c66_wrong_number`).

**Taking checkpoints** – a checkpoint taken while the first one still copies the query result is reported as complete on
disk although it cannot be restored if the server dies now (`c70_first_unfinished_partial`); a job id reused for another
query after a server restart pairs the old query result with the new state (`c70_other_query_partial`); `mixtera.id` is
written before the checkpoint is (`c70_id_before_data_partial`); with the query cache switched off `to_cache` is called for a
directory that does not exist, so no checkpoint can be taken (`c70_uncached_partial`), and neither once the cache directory
was removed because another job ran the same query after the database changed (`c70_cache_removed_partial`); worse,
the number of the removed directory is given out again, so the first checkpoint of a job can silently contain the other
job's newer query result, and a restore delivers samples twice (`c70_cache_replaced_partial`,
`c81_checkpoint_of_other_data_partial`); a checkpoint taken right after a restart, before
a loader has handed over a sample of the chunk it was given again, records position 0 for it, so that the next restart hands
over samples a second time (`c79_restart_repeats_partial`); a mixture object such as `InferringMixture` shared by two local jobs is
overwritten by the second execution (`c81_shared_mixture_partial`); the search for
the dataset runs into a `RecursionError` on objects with endlessly fresh attributes (`c68_endless_partial`) and overlooks
datasets in nested lists (`c68_nested_partial`).

`file://` locations are documented and accepted but looked up as the relative path `file:/...` and refused
(`c71_scheme_partial`); in a web dataset, compressed members of an unknown type are handed over as an exhausted stream
(`c72_gz_unknown`) and of several members with the same extension only the last is kept (`c72_repeated_loses`); RedPajama
accepts lines without `meta` but a `null` there aborts the registration (`c73_null_meta`).

ADO ignores one more report than `ignore_initial_steps` says; with `start_step = ignore_initial_steps + 1`, which the
constructor accepts, the first fit has no data at all (`c75_first_fit_empty_partial`).

A mixture may give a key zero rows (a small weight in a small chunk). The chunk then lists this key with an empty range, as
long as matching samples are left; the client drops zero-valued keys from the mixture, finds that the keys differ, and
raises an error for every such chunk (`c76_zero_row_fails`). A window size below one becomes 128 even if that is more than
the chunk size, because the two corrections are made in the wrong order (`c76_settings`).

Reading a chunk seeds the process's global random number generator from the chunk's contents, so random numbers that a
training loop draws between chunks repeat with the chunks (`c78_resets_generator`). Two chunks with the same contents whose
dicts list the keys in another order may be read in another order (`c78_chunk_order_matters`).

The native chunker builds its index in hash maps whose iteration order differs from process to process (absl). Two things depend on
it: which samples are lost when equal values are listed in different orders (`c78_value_orders_vary`: two executions of one query
without a common sample; `c78_database_iff`: exactly then), and to which keys `InferringMixture` gives the rows left over by
rounding when fractional parts are equal (`c78_inferring_varies`), so that such a job is not reproducible. A job restored from a
checkpoint is not affected: the stored index keeps its order (`c23_restored`).

The sample table has no foreign keys. If `remove_dataset` runs while the same name is being registered, the samples inserted
afterwards belong to a dataset and files that are gone: every query that selects one raises a RuntimeError when the metadata of
the result is collected, and `remove_dataset` cannot delete them (`c83_concurrent_dangling`).

Datasets whose parsers declare a property of the same name share a column, whose type is fixed by the first declaration and never
changes, not even when all these datasets are removed (`c84_type_for_ever`). The built-in parsers of RedPajama and FineWeb both
declare `language`, but differently: whichever is registered second raises, and is left registered with its files but without
samples, so that its name can only be reused after a removal (`c84_fineweb_after_redpajama`, `c84_redpajama_after_fineweb`). If the column holds
single strings, a list is silently stored as one text such as `[en, de]` (`c84_list_as_text`).

If the process dies while a directory is opened for the first time, after the database file has been created and before the last
of the eight statements that create the tables, the directory is lost: every later opening succeeds, but no registration ever
returns True and every query raises (`c85_never_repaired`, `c85_usable_iff`); datasets whose registration returned False are listed
(`c85_false_but_listed`).

`HierarchicalStaticMixture` rounds every product down and gives the rest to the first key, so the rounding error of one float
multiplication moves a whole row: weights 0.71 and 0.29 with 100 rows give 72 and 28 (`c86_hierarchical_off_by_one`).
`StaticMixture`, `InferringMixture` and the redistribution of missing samples are immune to this (`c86_static`, `c86_inferring`,
`c86_redistribute`).

**Float rounding in windows** (result_chunk.py:479). `49 * (1 / 49)` is less than 1, so in a window of 49 samples a key with one 49th
of the chunk gets no sample; strict windows then never contain it, and best-effort reading never ends (`c87_one_sample_stuck`). A window
as large as the chunk need not have the chunk's mixture: 71/29 becomes 72/28 (`c87_whole_chunk_off_by_one`).

**Torn mixture log** (query_result.py:116-136). `mixture.log` is truncated and written anew in place whenever a mixture is noticed. A
crash in between leaves nothing that says with which mixtures the chunks so far were made (`c88_log_torn`); a temporary file renamed over
the old one would not. Restoring a checkpoint repairs the file (`c88_restored_partial`), but one without chunks leaves a stale log of
a later run in the directory, until the first chunk is delivered.

**Moved server directories** (query_result.py:89-91, `from_cache`). The path of the log directory is pickled with the query result and created again
without its parents when it is loaded; after the server directory has been moved or copied, cached queries and checkpoints raise
`FileNotFoundError`.

**Small chunks and dynamic mixtures** (dynamic_mixture.py:101). The weights that are zero are left out of the new mixture, but not those too
small for one sample of a chunk: with the default minimum probability of 0.01 and chunks of less than about 50 samples, the new mixture
has keys with zero rows, and the client cannot configure its chunks (`c89_small_chunk`, `c76_zero_row_fails`). `c89_every_domain` says
how large chunks have to be.

**Stored query results with dynamic mixtures** (query_result.py:331-348, 691-737). `to_cache` and `from_cache` do not bring back the mixing
algorithm as it was, but the copy in the last entry of the mixture log, which was made when the mixture last changed at a chunk request:
losses reported since are forgotten, and so are the training steps (`c91_reports_lost`, `c91_forgets`). The checkpoint of a job makes up
for this by storing the current algorithm (chunk_distributor.py:395-411; C94 below).

**Losses in single precision** (dynamic_mixing.py:22, 66). The losses are accumulated in `float32`. Once the total of a domain is so large
that a report is below half of its last place, the report does not change it any more (`c92_ignored`), while the counts keep growing: the
average sinks towards zero. With losses around one and one sample per report this starts at 2^24 samples, and a domain
can lose most of its share to another of the same average loss (`c92_stuck`). Up to a million reports the relative error is bounded
(`c92_weights`).

**Restarting a job with a dynamic mixture** (C94). The checkpoint stores the current mixing algorithm, but the mixture of the last chunk: a
report that came after it has changed the algorithm and not the mixture that the resumed job starts with, nor its training step
(`c94_stale`); the next report puts the mixture right (`c94_next_partial`). A checkpoint that is taken before the first chunk stores nothing of
the mixture: the resumed job gets the mixture of the job that first executed the query, since `execute_query` takes a cached query
result, installs the job's own mixture, and the first checkpoint copies the cache directory (`c94_early`).

**Domain ids after a restore (C95).** `execute_query` resets the key ids of a query result from the cache, because another job
may have stored it with another mixture; `from_checkpoint` loads the copy of the same cache directory and does not. If the first
mixture has a domain that sorts before those of the job, the restored job gives other ids to the domains than before
(`c95_other_ids`), and losses are credited to the wrong domains; with no chunk before the checkpoint it even uses the first mixture
(`c95_other_mixture`).

## 5. Wrong programs

`seeded/LOG.jsonl` records every seeded bug: the definition edited, the edit, the property it breaks, what failed to
prove, and which theorems were tightened when it survived. Edits that survived without being tightened are equivalent
programs; the entry says so.
