{"id": "C01", "title": "One property combination is handed out exactly once, in order, in exactly the requested sizes", "statement": "Requesting n1, n2, n3, ... samples one after another from the data of one property combination returns exactly n_i samples on the i-th request as long as that many are left, then the remainder once, then reports exhaustion for ever; the concatenation of everything returned is a prefix of that combination's data in (dataset, file, position) order: nothing lost, nothing duplicated.", "quantifier": "every set of datasets/files/ranges and every sequence of requested sizes (also 0 and sizes larger than the data)", "why_tests_cant": "A test fixes a few range layouts and sizes; the split arithmetic must be right for every alignment of range borders and request sizes, over an unbounded request history.", "anchors": ["mixtera/core/query/query_result.py: QueryResult._generate_per_mixture_component_chunks"]}
{"id": "C02", "title": "A strict mixture chunk has exactly the requested rows per key", "statement": "Every chunk obtained from a query result under a strict mixture contains, for every mixture key, exactly the number of samples mixture_in_rows() prescribes for it, and no key that is not in the mixture; the mixture reported with the chunk is the requested one.", "quantifier": "every chunker index, every strict mixture, every history of earlier chunks and mixture updates", "why_tests_cant": "The number of samples taken depends on how earlier chunks fragmented all components; only finitely many fragmentations can be tested.", "anchors": ["mixtera/core/query/query_result.py: QueryResult._chunk_generator", "mixtera/core/query/mixture/mixture.py: Mixture.mixture_in_rows"]}
{"id": "C03", "title": "A best-effort chunk keeps its size and reports its true composition", "statement": "Every chunk obtained under a best-effort mixture has the same total number of samples as the requested mixture, and the mixture attached to the chunk equals, key by key, the number of samples actually in the chunk; only keys of the requested mixture occur.", "quantifier": "every chunker index, every best-effort mixture with positive rows, every history", "why_tests_cant": "Redistribution cascades over any number of depleted keys and any rounding of ratios; tests can only sample cascades.", "anchors": ["mixtera/core/query/query_result.py: QueryResult._chunk_generator (412-475)", "mixtera/utils/utils.py: distribute_by_ratio"]}
{"id": "C04", "title": "No sample is delivered twice and every delivered sample was selected by the query", "statement": "Over the whole life of a query result, across all chunks and all mixture changes (strict, best-effort, arbitrary, failed attempts in between), no (dataset, file, sample) position is contained in two chunks or twice in one chunk, and every delivered position is in the query's result set.", "quantifier": "every chunker index with disjoint ranges, every sequence of mixtures/targets, every number of chunks", "why_tests_cant": "At-most-once delivery is a property of unbounded histories; a test only observes one history.", "anchors": ["mixtera/core/query/query_result.py: QueryResult._chunk_generator", "mixtera/core/query/query_result.py: QueryResult.__next__"]}
{"id": "C05", "title": "Samples listed under a mixture key match that key", "statement": "Every sample that a chunk lists under mixture key K belongs to a property combination that matches K (every property of K is present and shares a value).", "quantifier": "every chunker index, mixture and history", "why_tests_cant": "Matching is asymmetric and several components may match one key; all overlaps cannot be enumerated by tests.", "anchors": ["mixtera/core/query/query_result.py: QueryResult._chunk_generator (360-407)", "mixtera/core/query/mixture/mixture_key.py: MixtureKey.__eq__"]}
{"id": "C06", "title": "Ranges of a file inside a chunk are sorted and non-overlapping", "statement": "For every mixture key, dataset and file in a delivered chunk the list of ranges is sorted and pairwise disjoint, as the file readers require (JSONL and WebDataset readers raise otherwise, the Parquet reader silently drops rows).", "quantifier": "every chunker index whose per-file ranges are sorted and pairwise disjoint across components, every mixture and history", "why_tests_cant": "The ranges are merged from several components in data dependent order.", "anchors": ["mixtera/core/query/query_result.py: QueryResult._chunk_generator (388-401)", "mixtera/utils/utils.py: merge_sorted_lists"]}
{"id": "C07", "title": "Without a mixture, iteration delivers everything and ends", "statement": "Iterating a query result with ArbitraryMixture yields chunks of at most chunk_size samples of one property combination and ends after finitely many chunks, having delivered every selected sample exactly once.", "quantifier": "every chunker index, every positive chunk size, every key order produced by the shuffle", "why_tests_cant": "Termination for all indices cannot be tested; the key rotation depends on which keys are exhausted when.", "anchors": ["mixtera/core/query/query_result.py: QueryResult._chunk_generator (504-544)", "mixtera/core/query/mixture/arbitrary_mixture.py"]}
{"id": "C08", "title": "Chunk i does not depend on which consumer asks for it", "statement": "When several processes hold copies of the same query result and each asks only for some chunk indices (the shared counter hands out indices), the chunk obtained for index i is the same as the i-th chunk of one sequential iteration, so the processes together see each chunk exactly once.", "quantifier": "every chunker index, fixed mixture, every increasing sequence of target indices per process, every interleaving", "why_tests_cant": "The number of ways of splitting indices among processes is unbounded.", "anchors": ["mixtera/core/query/query_result.py: QueryResult._chunk_generator (481-498,532)", "mixtera/core/query/query_result.py: QueryResult.__next__"]}
{"id": "C09", "title": "Semantically equal mixtures give equal chunks", "statement": "Two mixtures with the same rows per key, listed in different dictionary order, lead to the same chunk contents from the same state.", "quantifier": "every pair of row dictionaries that are permutations of each other, every generator state", "why_tests_cant": "All permutations of all mixtures cannot be tried.", "anchors": ["mixtera/core/query/query_result.py: QueryResult._chunk_generator (360,446)", "mixtera/core/query/mixture/mixture_key.py: MixtureKey.__lt__"]}
{"id": "C10", "title": "A mixture update applies to the next chunk", "statement": "After update_mixture(m), the next chunk handed out by the query result is composed according to m.", "quantifier": "every history of chunk requests (including requests that could not be served) and updates", "why_tests_cant": "Depends on the coroutine's suspension point, i.e. on the whole history of successful and failed requests.", "anchors": ["mixtera/core/query/query_result.py: QueryResult.update_mixture", "mixtera/core/query/query_result.py: QueryResult._chunk_generator (484,503)"]}
{"id": "C11", "title": "Best effort gives up only when all requested data is used up", "statement": "A best-effort request fails (None / StopIteration) only if every property combination matching any key of the mixture is exhausted.", "quantifier": "every chunker index, best-effort mixture with positive rows, every state", "why_tests_cant": "Needs the argument that the retry loop always terminates and visits every matching component; only sampled by tests.", "anchors": ["mixtera/core/query/query_result.py: QueryResult._chunk_generator (356-503)"]}
{"id": "C12", "title": "Strict mode gives up only when some requested data is used up", "statement": "A strict request fails only if for some key of the mixture all matching property combinations are exhausted; otherwise it delivers the chunk.", "quantifier": "every chunker index, strict mixture, every state", "why_tests_cant": "As above: quantifies over all fragmentations of all components.", "anchors": ["mixtera/core/query/query_result.py: QueryResult._chunk_generator (356-503)"]}
{"id": "C13", "title": "Restoring a cached query result continues where it stopped", "statement": "A query result that is stored with to_cache after some chunks and loaded with from_cache delivers from then on exactly the chunks the original would have delivered, for the same later mixture updates.", "quantifier": "every chunker index, every history of chunks and mixture updates before the store, every continuation", "why_tests_cant": "Replay must agree after every possible history; tests check two or three.", "anchors": ["mixtera/core/query/query_result.py: QueryResult.to_cache", "mixtera/core/query/query_result.py: QueryResult.replay", "mixtera/core/query/query_result.py: QueryResult.from_cache"]}
{"id": "C14", "title": "Key ids are unique, dense and never change", "statement": "The key-to-id map shipped with chunks assigns ids 0..n-1 without gaps or duplicates, every key of the current mixture has an id, and an id once assigned to a key never changes over any sequence of mixture updates; it does not depend on dictionary order.", "quantifier": "every chunker index and every sequence of mixture updates", "why_tests_cant": "Unbounded histories of updates.", "anchors": ["mixtera/core/query/query_result.py: QueryResult._update_key_id_map", "mixtera/core/query/query_result.py: QueryResult.update_mixture"]}
{"id": "C15", "title": "Nodes of one data parallel group see the same chunks", "statement": "For every data parallel group and worker id, all nodes of the group receive the same sequence of chunks (one node's sequence is a prefix of the other's).", "quantifier": "every interleaving of next_chunk_for calls of all groups, nodes and workers, every chunk source", "why_tests_cant": "All interleavings of an unbounded number of requests.", "anchors": ["mixtera/core/query/chunk_distributor.py: ChunkDistributor.next_chunk_for"]}
{"id": "C16", "title": "Different groups and workers get different chunks and none is skipped", "statement": "Every chunk taken from the query result is delivered to exactly one (group, worker) pair, each query result chunk is delivered first in fetch order and no chunk fetched is dropped.", "quantifier": "every interleaving of next_chunk_for calls", "why_tests_cant": "All interleavings of an unbounded number of requests.", "anchors": ["mixtera/core/query/chunk_distributor.py: ChunkDistributor.next_chunk_for"]}
{"id": "C17", "title": "A chunk needed by a slower node stays available, and the cache stays bounded", "statement": "The distributor's cache holds every chunk that some node of the group still has to read, next_chunk_for never fails on a missing cache entry, and with one node per group at most one chunk per worker is kept; in general at most (fastest - slowest)/W + 1 chunks per worker.", "quantifier": "every interleaving of next_chunk_for calls", "why_tests_cant": "Eviction correctness must hold for every relative speed of the nodes.", "anchors": ["mixtera/core/query/chunk_distributor.py: ChunkDistributor.next_chunk_for (140-189)"]}
{"id": "C18", "title": "Running out of data leaves the distributor unchanged", "statement": "If the query result is exhausted, next_chunk_for raises StopIteration and no counter, cache or usage entry changes, so the same request can be repeated and the other nodes are unaffected.", "quantifier": "every reachable distributor state and request", "why_tests_cant": "Every reachable state.", "anchors": ["mixtera/core/query/chunk_distributor.py: ChunkDistributor.next_chunk_for", "mixtera/core/query/chunk_distributor.py: ChunkDistributor._get_next_chunk"]}
{"id": "C19", "title": "A checkpoint is started exactly when every node has reported once", "statement": "checkpoint() accepts each (group, node) exactly once per round, starts persisting exactly when the last one reports, gives every checkpoint a fresh id, and afterwards accepts the next round.", "quantifier": "every sequence of checkpoint reports in any order", "why_tests_cant": "All orders and repetitions of reports.", "anchors": ["mixtera/core/query/chunk_distributor.py: ChunkDistributor.checkpoint", "mixtera/core/query/chunk_distributor.py: ChunkDistributor._validate_checkpoint_state"]}
{"id": "C20", "title": "Resuming from a checkpoint repeats only the current chunk from the reported sample", "statement": "After restoring a distributor checkpoint every worker first receives again the chunk it was working on, with the first max-reported-index samples skipped, and from then on the chunks it would have received without the interruption, for the same order of requests.", "quantifier": "every reachable distributor state at which a checkpoint validates, every continuation", "why_tests_cant": "All checkpoint points and continuations.", "anchors": ["mixtera/core/query/chunk_distributor.py: ChunkDistributor._persist_checkpoint_process", "mixtera/core/query/chunk_distributor.py: ChunkDistributor.from_checkpoint", "mixtera/core/query/chunk_distributor.py: ChunkDistributor.next_chunk_for (160-180)"]}
{"id": "C21", "title": "Static mixtures are rounded to exactly the chunk size", "statement": "For weights that sum to 1, StaticMixture(chunk_size, weights).mixture_in_rows() sums to exactly chunk_size and every key gets the floor or the floor plus one of weight*chunk_size; keys with larger fractional parts are preferred.", "quantifier": "every chunk size and every finite weight vector (real arithmetic)", "why_tests_cant": "All sizes and weights.", "anchors": ["mixtera/core/query/mixture/static_mixture.py: StaticMixture.__init__, parse_user_mixture"]}
{"id": "C22", "title": "Hierarchical mixtures multiply weights along the tree and fill the chunk", "statement": "A HierarchicalStaticMixture assigns each leaf the product of the weights on its path; for weights that sum to 1 at every node the rows sum to exactly chunk_size.", "quantifier": "every finite tree with distinct leaves, every chunk size", "why_tests_cant": "All trees of all depths.", "anchors": ["mixtera/core/query/mixture/hierarchical_static_mixture.py"]}
{"id": "C23", "title": "Inferring mixtures reproduce the data distribution", "statement": "For a non-empty chunker index InferringMixture's rows sum to chunk_size and each key's rows differ by less than one from chunk_size * (share of the key in the data).", "quantifier": "every non-empty chunker index and chunk size", "why_tests_cant": "All indices.", "anchors": ["mixtera/core/query/mixture/inferring_mixture.py", "mixtera/core/datacollection/index/index_utils.py: infer_mixture_from_chunkerindex"]}
{"id": "C24", "title": "A mixture schedule uses the latest entry that has started and never goes back", "statement": "At every point the schedule's rows are those of the entry with the largest start_step not exceeding the largest training step reported so far (the first entry if none has started); reports arriving late never move it back.", "quantifier": "every schedule, every sequence of reported training steps", "why_tests_cant": "All schedules and report orders.", "anchors": ["mixtera/core/query/mixture/mixture_schedule.py", "mixtera/core/query/mixture/mixture.py: _update_training_step"]}
{"id": "C25", "title": "A dynamic mixture only ever holds valid mixtures", "statement": "After any sequence of loss reports a DynamicMixture's rows sum to chunk_size, contain only keys known to the query result, and keys with weight zero do not occur.", "quantifier": "every mixing algorithm output that is a distribution, every sequence of reports", "why_tests_cant": "All report histories.", "anchors": ["mixtera/core/query/mixture/dynamic_mixture.py"]}
{"id": "C26", "title": "The order on mixture keys is a strict total order on key contents", "statement": "MixtureKey's < is irreflexive, transitive and total on keys with different contents, and does not depend on the order in which properties and values were listed.", "quantifier": "all triples of mixture keys over string values", "why_tests_cant": "All keys; an inconsistent comparator makes sorting, and hence chunks, nondeterministic.", "anchors": ["mixtera/core/query/mixture/mixture_key.py: MixtureKey.__lt__"]}
{"id": "C27", "title": "Mixture keys with different contents hash differently before mixing", "statement": "The text hashed for a mixture key is the same for two keys iff they have the same properties with the same values (up to order), so dictionaries keyed by mixture keys behave like maps over key contents.", "quantifier": "all pairs of mixture keys", "why_tests_cant": "Injectivity over all strings.", "anchors": ["mixtera/utils/utils.py: hash_dict", "mixtera/core/query/mixture/mixture_key.py: MixtureKey.__hash__"]}
{"id": "C28", "title": "Mixture key matching means: all my properties, a common value each", "statement": "a == b holds iff every property of a occurs in b and the two value lists share a value (or are both empty); equal contents always match; adding properties to b or values to b never breaks a match with a non-empty key.", "quantifier": "all pairs of mixture keys", "why_tests_cant": "All keys.", "anchors": ["mixtera/core/query/mixture/mixture_key.py: MixtureKey.__eq__"]}
{"id": "C29", "title": "Merging sorted range lists is a sorted permutation", "statement": "merge_sorted_lists of two lists sorted by start is sorted by start and contains exactly the elements of both, with multiplicity, keeping ties in order.", "quantifier": "all pairs of lists", "why_tests_cant": "All lengths.", "anchors": ["mixtera/utils/utils.py: merge_sorted_lists"]}
{"id": "C30", "title": "distribute_by_ratio hands out exactly n, fairly", "statement": "For ratios summing to 1, distribute_by_ratio(n, ratios) has one entry per ratio, sums to n, and each entry is the floor or floor plus one of n*ratio; an empty ratio list gives an empty list and other sums are rejected.", "quantifier": "all n and all ratio lists (real arithmetic)", "why_tests_cant": "All lengths and values.", "anchors": ["mixtera/utils/utils.py: distribute_by_ratio"]}
{"id": "C31", "title": "Storing and loading the chunker index is lossless", "statement": "deserialize_chunker_index(serialize_chunker_index(x)) contains exactly the same ranges under the same keys, datasets and files as x, in the same key order.", "quantifier": "every chunker index", "why_tests_cant": "All indices.", "anchors": ["mixtera/utils/utils.py: serialize_chunker_index, deserialize_chunker_index"]}
{"id": "C32", "title": "Query intervals cover exactly the selected samples", "statement": "Grouping the selected sample ids of one (file, property combination) into intervals yields sorted, disjoint, maximal half-open intervals whose union is exactly the set of selected ids.", "quantifier": "every finite set of sample ids", "why_tests_cant": "All sets.", "anchors": ["mixtera/core/query/query.py: Query.execute (122-151)"]}
{"id": "C33", "title": "The chunker index contains every selected interval under its own properties, whatever the thread count", "statement": "Building the chunker index from a query result table with any number of threads and any batch layout gives the same index; it contains exactly the table's intervals, each under the combination of its non-null property values, sorted per file.", "quantifier": "every table, every split into record batches, every thread count", "why_tests_cant": "All batch splits and thread counts.", "anchors": ["mixtera/core/query/chunker/src/chunker.cpp"]}
{"id": "C34", "title": "Property combination keys survive the text form used by the chunker", "statement": "Parsing the key text the chunker builds gives back the same properties and values.", "quantifier": "all property dictionaries whose names and values avoid the separators", "why_tests_cant": "All strings.", "anchors": ["mixtera/core/query/chunker/src/chunker.cpp: string_key_to_property_dict"]}
{"id": "C35", "title": "Chained selects mean OR of ANDs", "statement": "A query built from chained select() calls selects exactly the samples that satisfy all conditions of at least one select; every placeholder of the generated statement is bound to its own value.", "quantifier": "every metadata schema, every list of conditions, every sample", "why_tests_cant": "All condition lists and samples.", "anchors": ["mixtera/core/query/operators/select.py: Select.generate_sql, insert", "mixtera/core/query/query.py"]}
{"id": "C36", "title": "A cached query result is reused only if nothing changed", "statement": "A cached result is returned only for the same query text and the data version it was computed on; after any registration or removal that completed, older results are never returned.", "quantifier": "every sequence of dataset mutations and query executions, and every crash point between the database steps", "why_tests_cant": "All histories and crash points.", "anchors": ["mixtera/core/query/query_cache.py", "mixtera/core/datacollection/mixtera_data_collection.py"]}
{"id": "C37", "title": "Dataset registration and removal touch only that dataset", "statement": "register_dataset adds exactly the new dataset's files and samples under a fresh name, fails without effect for a taken name, and remove_dataset removes exactly that dataset's data.", "quantifier": "every sequence of register/remove calls", "why_tests_cant": "All histories.", "anchors": ["mixtera/core/datacollection/mixtera_data_collection.py: register_dataset, remove_dataset"]}
{"id": "C38", "title": "Reading a chunk without window returns every sample once", "statement": "Iterating a chunk in overall-mixture mode yields every sample of every key exactly once, interleaving the keys round robin and preserving each key's order.", "quantifier": "every assignment of sample streams to keys", "why_tests_cant": "All stream lengths.", "anchors": ["mixtera/core/query/result_chunk.py: ResultChunk._iterate_overall_mixture"]}
{"id": "C39", "title": "Windows reflect the mixture", "statement": "In window mode each full window contains exactly the number of samples per key given by the rounded mixture, windows sizes sum to window_size, no sample is repeated, and in best-effort mode all samples are delivered.", "quantifier": "every assignment of streams to keys, every mixture and window size", "why_tests_cant": "All stream lengths and mixtures.", "anchors": ["mixtera/core/query/result_chunk.py: ResultChunk._iterate_window_mixture, _get_element_counts"]}
{"id": "C40", "title": "Skipping already consumed samples is exactly dropping a prefix", "statement": "A chunk opened with samples_to_skip = k yields the same (index, key id, sample) triples as an unskipped iteration from index k on.", "quantifier": "every chunk and every k", "why_tests_cant": "All chunks and positions.", "anchors": ["mixtera/core/query/result_chunk.py: ResultChunk.__iter__/_init_iterator (259-274)"]}
{"id": "C41", "title": "Reading with many processes delivers the same samples", "statement": "With any number of reader processes and any scheduling of them, iterating a chunk yields each sample of each key exactly once, and terminates.", "quantifier": "every workload, reader count and interleaving of readers with the consumer", "why_tests_cant": "All interleavings.", "anchors": ["mixtera/core/query/result_chunk.py: ResultChunk._spin_up_readers, _get_iterator_for_workload_mt"]}
{"id": "C42", "title": "Tokenized sequences are consecutive windows of the token stream", "statement": "For any samples the tokenizing iterator yields exactly the consecutive windows of seq_len+1 tokens (with or without one token overlap) of the concatenated token stream, independent of the batch size.", "quantifier": "every sample stream, tokenizer, sequence length and batch size", "why_tests_cant": "All streams and sizes.", "anchors": ["mixtera/utils/tokenizing_iterator.py"]}
{"id": "C43", "title": "Threaded tokenization equals sequential tokenization", "statement": "The threaded tokenizing iterator yields the same sequence as the sequential one for every schedule of its worker thread.", "quantifier": "every stream and every thread interleaving", "why_tests_cant": "All schedules.", "anchors": ["mixtera/utils/tokenizing_iterator.py: ThreadedTokenizingIterator"]}
{"id": "C44", "title": "Prefetching does not change the stream", "statement": "PrefetchFirstItemIterator yields the same items as the wrapped iterator.", "quantifier": "every iterator", "why_tests_cant": "All streams, including ones that raise or start with None.", "anchors": ["mixtera/utils/prefetch_iterator.py"]}
{"id": "C45", "title": "The JSONL reader returns exactly the requested lines", "statement": "Reading ranges from a JSONL file yields exactly the lines whose number is in one of the ranges, in order, and rejects unsorted or overlapping ranges.", "quantifier": "every file and range list", "why_tests_cant": "All files and range lists.", "anchors": ["mixtera/core/datacollection/datasets/jsonl_dataset.py"]}
{"id": "C46", "title": "The Parquet reader returns exactly the requested rows", "statement": "Reading sorted disjoint ranges from a Parquet file yields exactly the rows in the ranges, in order, whatever the row group layout and read batch size.", "quantifier": "every row group layout, batch size and sorted disjoint range list", "why_tests_cant": "All layouts.", "anchors": ["mixtera/core/datacollection/datasets/parquet_dataset.py"]}
{"id": "C47", "title": "Network frames round trip", "statement": "Whatever byte string, text, object or integer is written with the write helpers is read back unchanged by the matching read helper, for sizes within the header's range.", "quantifier": "all byte strings below the size limit and all integers in range", "why_tests_cant": "All sizes, including those at the sign bit of the header.", "anchors": ["mixtera/network/network_utils.py"]}
{"id": "C48", "title": "Reading is independent of how the transport fragments the data", "statement": "read_bytes/read_bytes_obj return the same result for every fragmentation of the incoming bytes; a connection closed before the first byte gives None and one closed in the middle an error.", "quantifier": "every fragmentation and cut point", "why_tests_cant": "All fragmentations.", "anchors": ["mixtera/network/network_utils.py: read_bytes, read_bytes_obj"]}
{"id": "C49", "title": "Loss accumulation of dynamic mixing is exact", "statement": "Between two mixture updates, DynamicMixingAlgorithm accumulates for every key id exactly the sum of all reported losses and counts, whatever their lengths.", "quantifier": "every sequence of loss reports", "why_tests_cant": "All histories.", "anchors": ["mixtera/core/algo/dynamic_mixing/dynamic_mixing.py", "mixtera/core/algo/loss_avg/loss_avg.py"]}
{"id": "C50", "title": "ADO always produces a distribution with a floor on every domain", "statement": "Every mixture computed by ADO's update is non-negative, sums to one, and gives every active domain at least the configured minimum probability (when that is feasible).", "quantifier": "every non-negative weight vector (real arithmetic)", "why_tests_cant": "All vectors.", "anchors": ["mixtera/core/algo/ado/ado.py"]}
{"id": "C51", "title": "Metadata parsing accepts exactly what the property schema allows", "statement": "add_metadata accepts a property value iff it is declared, non-null unless nullable, in the enumeration if one is given, and a single value unless multiple is set; every accepted sample has a value for all required properties.", "quantifier": "every schema and metadata record", "why_tests_cant": "All schemas and records.", "anchors": ["mixtera/core/datacollection/index/parser/metadata_parser.py"]}
{"id": "C52", "title": "A job id is executed once", "statement": "Registering a query for a job id that already exists at the server is refused and leaves the first job untouched: all chunk and metadata requests of a job are answered by one chunk distributor until a restore of it is requested; at most one registration of a job ever succeeds; two jobs are never served by the same distributor; a status of success means the job is being served; the registration lock never deadlocks.", "quantifier": "every history of register, restore, chunk, metadata and status requests for any jobs, and every interleaving of the background tasks", "why_tests_cant": "All histories.", "anchors": ["mixtera/core/client/local/local_stub.py", "mixtera/network/server/server.py"]}
{"id": "C53", "title": "Property calculation covers each sample once and in order", "statement": "Applying a property function through the executor calls it on every selected sample exactly once and stores each result at its own sample, for every batch size and degree of parallelism.", "quantifier": "every sample set, batch size and partitioning", "why_tests_cant": "All sizes.", "anchors": ["mixtera/core/processing/property_calculation/local_executor.py"]}
{"id": "C54", "title": "Loss averaging returns the normalised average losses", "statement": "SimpleAveragingAlgorithm returns no mixture while no domain has samples, and otherwise a probability distribution that is zero on domains without samples and proportional to the average loss on the others (uniform when all their losses are zero).", "quantifier": "every sequence of reports without negative losses, of any lengths (exact arithmetic)", "why_tests_cant": "All report histories.", "anchors": ["mixtera/core/algo/loss_avg/loss_avg.py: SimpleAveragingAlgorithm.calc_mixture"]}
{"id": "C55", "title": "The number under which a sample is registered is the number under which it is read", "statement": "When a file is registered without an error there is exactly one metadata record per sample, the i-th sample of the file under the number i; and reading row i of the file later gives that very sample, for JSONL, web and Parquet files, whatever the row groups and batches.", "quantifier": "every file content, parser, row-group layout and batching", "why_tests_cant": "All layouts and contents.", "anchors": ["mixtera/core/datacollection/datasets/jsonl_dataset.py: inform_metadata_parser", "mixtera/core/datacollection/datasets/parquet_dataset.py: inform_metadata_parser", "mixtera/core/datacollection/datasets/web_dataset.py: inform_metadata_parser", "mixtera/core/datacollection/index/parser/metadata_parser.py: add_metadata"]}
{"id": "C56", "title": "A restore switches the job over completely", "statement": "Once a restore of a job has finished, chunk requests, metadata requests, feedback and checkpoints of the job all refer to the restored chunk distributor, until the next restore; a failed restore leaves the job as it was and reports failure.", "quantifier": "every history of requests and every interleaving of background tasks after the restore", "why_tests_cant": "Depends on the interleaving of background tasks with requests of other clients.", "anchors": ["mixtera/network/server/server.py: _restore_checkpoint, _background_restore_checkpoint, _return_next_result_chunk", "mixtera/core/client/local/local_stub.py: restore_checkpoint, _get_query_chunk_distributor"]}
{"id": "C60", "title": "Client and server understand each other", "statement": "For every request of the client API, when nothing is lost the server's handler runs exactly once, on exactly the arguments of the caller, and the caller gets exactly the handler's reply; whatever the network does, the server never takes a cut request for a complete one, and whatever the caller gets back is exactly what the handler replied.", "quantifier": "every request, argument value that fits its encoding, fragmentation, delay and cut point of request and reply, and every handler", "why_tests_cant": "All argument values, fragmentations and cut points; tests mock the network helpers.", "anchors": ["mixtera/network/connection/server_connection.py: ServerConnection", "mixtera/network/server/server.py: _dispatch_client and handlers", "mixtera/network/network_utils.py"]}
{"id": "C61", "title": "The mixing algorithm starts from the mixture in force", "statement": "When a dynamic mixture first learns the key ids without an error, its mixing algorithm is told, at the position of every key's id, that key's share of the rows of the current mixture, zero everywhere else, summing to 1; it is told once and nothing later changes it; and an algorithm that answers a loss report with exactly this vector leaves every key's number of rows unchanged.", "quantifier": "every initial mixture, key-id map with distinct ids, and every later sequence of index, id-map and loss reports", "why_tests_cant": "Ranges over all mixtures, id assignments and histories.", "anchors": ["mixtera/core/query/mixture/dynamic_mixture.py: process_id_map, _process_losses", "mixtera/core/algo/dynamic_mixing/dynamic_mixing.py: initial_mixture"]}
{"id": "C57", "title": "Remote workers get the distributor's chunks", "statement": "When no message is lost, the chunks a worker streams from the server are exactly the answers the distributor of its job gives to the same requests in the same order, whatever other jobs and workers do in between. Whatever the network loses, the distributor of a job sees a subsequence of the requests sent, every chunk a worker receives is the distributor's answer to the matching request, in order, and a worker's stream is a prefix of the answers given to it with at most one answer (the last) lost.", "quantifier": "every interleaving of requests of all workers and jobs, every fragmentation, cut point and unreachable period, and every distributor state", "why_tests_cant": "All interleavings and all loss patterns; the tests mock the connection and one worker.", "anchors": ["mixtera/network/server/server.py: _return_next_result_chunk", "mixtera/network/connection/server_connection.py: _get_next_result, _stream_result_chunks", "mixtera/core/query/chunk_distributor.py: next_chunk_for"]}
{"id": "C58", "title": "Files read through the server give the same samples", "statement": "Reading sorted in-range row ranges of a JSONL file through the server gives exactly the samples that reading the file locally gives, for every file content with and without a final line break; whatever the network loses, the reader gets either all samples or none.", "quantifier": "every file content, sorted list of ranges, line parser that ignores the line break, fragmentation and cut point", "why_tests_cant": "All contents, ranges and loss patterns; tests mock the connection.", "anchors": ["mixtera/network/server/server.py: _read_file", "mixtera/network/connection/server_connection.py: get_file_iterable", "mixtera/core/datacollection/datasets/jsonl_dataset.py: _read_ranges_from_file", "mixtera/core/filesystem/filesystem.py: open_file"]}
{"id": "C59", "title": "The mixture id reported with feedback", "statement": "At any time the mixture id a node's client reports is the largest mixture id of the chunks its loader processes received since the last end of one of its streams, and there is none if they received none; while no stream of the node ends it never decreases; feedback is sent with exactly this id, by the first data/tensor parallel rank only.", "quantifier": "every interleaving of chunk requests, samples and stream ends of all loader processes of all nodes", "why_tests_cant": "All interleavings of processes; tests use one stream.", "anchors": ["mixtera/core/client/mixtera_client.py: stream_results, current_mixture_id", "mixtera/utils/feedback.py: handle_mixtera_feedback"]}
{"id": "C62", "title": "A training job resumes at the right sample", "statement": "After a checkpoint and a restart every loader process delivers exactly what it would have delivered without the interruption, starting with the last sample it had handed over before the checkpoint: no sample is left out and only that one is delivered again.", "quantifier": "every query result, number of groups, nodes and workers, history of requests, samples and mixture updates, any number of earlier restarts, and every later history", "why_tests_cant": "All interleavings of loader processes and all points at which the status array can be read; tests use fixed statuses.", "anchors": ["mixtera/torch/mixtera_torch_dataset.py: __iter__, worker_status", "mixtera/utils/checkpoint.py: handle_mixtera_checkpoint", "mixtera/core/query/chunk_distributor.py: checkpoint, _persist_checkpoint_process, from_checkpoint", "mixtera/core/query/result_chunk.py: _iterate_samples"]}
{"id": "C63", "title": "From query to training samples, end to end", "statement": "For any registered data, query and sequence of chunk requests: executing the query succeeds; the samples that chunks can contain are exactly the registered samples that satisfy the query; no sample is delivered twice; a sample listed under a mixture key has, for each property of that key, one of the key's values; and iterating without a mixture to the end delivers exactly the samples that satisfy the query.", "quantifier": "all database contents, all chains of selects, all orders of the query result, cuts into batches, thread counts, hash map orders, and all histories of chunk requests with changing mixtures", "why_tests_cant": "The claim spans SQL generation, interval grouping, the C++ chunker and chunk generation; tests exercise each stage on a few samples.", "anchors": ["mixtera/core/query/query.py:Query.execute", "mixtera/core/query/operators/select.py:Select.generate_sql", "mixtera/core/query/chunker/src/chunker.cpp:create_chunker_index", "mixtera/core/query/query_result.py:QueryResult"]}
{"id": "C64", "title": "ADO fits its scaling laws on schedule, to everything reported, and the variants react when they should", "statement": "After any sequence of reports with never fewer domains (and whatever exceptions were raised while mixtures were computed), the recorded histories hold, for every report and every domain known now, the loss per sample and the number of samples that the report adds (all samples of the step for every domain seen so far with use_same_step_size). The scaling laws are fitted to exactly these tables at the report number start_step and then after every scaling_law_update_interval reports, and stay unchanged in between. With adjusted_v1 and adjusted_v2 the credit of the domains changes only when the client reports with a newer mixture; adjusted_v2 then credits as much as one vanilla credit per elapsed step would. With adjusted_v3, after the first mixture, another one is returned only when the laws were just fitted or exactly 15 reports after the first report with a newer mixture.", "quantifier": "every configuration, sequence of reports, outcome of the fitting (including exceptions), and ordered field", "why_tests_cant": "The tables and the schedule depend on the whole history of reports, including growth of the set of domains and exceptions in earlier steps.", "anchors": ["mixtera/core/algo/ado/ado.py:_update_state", "mixtera/core/algo/ado/ado.py:calc_mixture", "mixtera/core/algo/ado/ado.py:fit_scaling_laws", "mixtera/core/algo/ado/ado.py:update_h_t"]}
{"id": "C65", "title": "The data loader workers' positions are always visible, and their shared memory is released by the last one out", "statement": "With data loader worker processes, worker_status of the training process holds, for every worker, the index within its chunk of the last sample it yielded since it was last started, whoever has ended, failed or been killed meanwhile. The shared memory is gone when every worker has come to its end, when one has left early, and when the main process has ended; in an undisturbed epoch it exists exactly until the last worker ends and is unlinked once without errors. Forked workers can start further epochs. Deviations: spawned workers and loading in the main process allow a single epoch per dataset object; with fewer workers than declared the memory stays until the main process ends; a worker with an id beyond the declared number raises and unlinks the memory of the others.", "quantifier": "every declared number of workers, way of starting processes, and interleaving of starts, samples, ends, failures and kills over any number of epochs", "why_tests_cant": "Whether the memory leaks or is released too early depends on the interleaving of processes, on where they die, and on the number of epochs.", "anchors": ["mixtera/torch/mixtera_torch_dataset.py:_init_status_shm", "mixtera/torch/mixtera_torch_dataset.py:__iter__", "mixtera/torch/mixtera_torch_dataset.py:_cleanup_shared_memory", "mixtera/torch/mixtera_torch_dataset.py:worker_status"]}
{"id": "C66", "title": "A HuggingFace iteration streams as the loader worker it runs in", "statement": "If an iteration of a MixteraHFDataset (or of what the datasets library makes of it) starts at all, it streams from Mixtera with the id of the data loader worker it runs in, 0 without workers, and this id is below the number of workers the query was executed with; two loader workers never stream under the same id. Exactly the setups described by Accepted start; in particular every iteration starts and ends without an exception after split_dataset_by_node with the query's dp groups and with as many loader workers as declared. Deviations: an unsplit MixteraHFDataset always raises, at the start without loader workers and otherwise at the end of its stream; as many loader workers as there are dp groups are accepted although the query was executed with more workers.", "quantifier": "every number of declared workers, dp groups, ranks, loader workers and initial streaming arguments", "why_tests_cant": "The assertions interact with two independent numbers (dp groups, workers), and tests fix both.", "anchors": ["mixtera/hf/mixtera_hf_dataset.py:shard_data_sources", "mixtera/hf/mixtera_hf_dataset.py:validate_state", "mixtera/hf/mixtera_hf_dataset.py:MixteraHFDataset.__iter__"]}
{"id": "C67", "title": "What a client learns about a registration or a query at the server is true", "statement": "register_dataset of a remote client returns True only if the server has started a registration for this very call and it has succeeded. If the call's exchanges are delivered, it never raises, False means that this registration has failed, and, while the server is not restarted, a poll ends the call exactly if the registration has finished, with its result. wait_for_execution returns True iff one of the first 1802 status requests is answered with success and all before were pending or could not be sent. Deviations: an unanswered poll gives False (an unanswered request raises) although the registration succeeds; after a restart of the server a waiting call never ends.", "quantifier": "every interleaving of calls, background tasks, restarts and connection failures", "why_tests_cant": "The answer depends on the interleaving of polls with background tasks of several calls, and on which exchange fails.", "anchors": ["mixtera/network/server/server.py:_register_dataset", "mixtera/network/server/server.py:_background_register_dataset", "mixtera/network/server/server.py:_check_dataset_registration", "mixtera/network/connection/server_connection.py:_register_dataset", "mixtera/core/client/server/server_stub.py:wait_for_execution"]}
{"id": "C69", "title": "The mixture ids of chunks count the changes of the mixture", "statement": "The mixture id of a chunk is the number of times the mixture in use has changed up to and including the chunk's request; the first id is 0, ids never decrease, and two chunks carry the same id exactly if the mixture in use did not change between their requests.", "quantifier": "every query result, history of requests, and mixtures exchanged or mutated in place between requests", "why_tests_cant": "All histories, including requests that were not served, skipped chunk indices, and changes between mixtures and no mixture.", "anchors": ["mixtera/core/query/query_result.py:_chunk_generator"]}
{"id": "C68", "title": "The dataset a checkpoint is taken of", "statement": "handle_mixtera_checkpoint finds the Mixtera dataset behind the data loader, dataset or generator it is given: what it finds is a Mixtera dataset and belongs to the argument; a Mixtera dataset given directly, in a data loader or in a generator over a data loader is always found; a search that ends without result means there is none behind the argument; behind HuggingFace wrappers the search always ends and decides, also if the wrappers refer to each other in circles.", "quantifier": "for every object graph (cyclic, shared, infinite), every argument, every recursion limit", "why_tests_cant": "object graphs are unbounded and may be cyclic; tests use a handful of wrappers", "anchors": ["mixtera/utils/dataset_utils.py:_find_mixtera_torch_dataset_in_attrs", "mixtera/utils/dataset_utils.py:_get_mixtera_hf_dataset_or_client_from_iterabledataset", "mixtera/utils/dataset_utils.py:_recover_mixtera_dataset"]}
{"id": "C70", "title": "A checkpoint that has been waited for can be restored", "statement": "When handle_mixtera_checkpoint returns on a node, every node has reported for this checkpoint; on node 0 the file mixtera.id then names it; if it waited for the disk, the state in which the last node reported is completely on disk and is never changed or overwritten afterwards; and restoring it, at any later time and after any crashes, gives the job's query result and that state.", "quantifier": "for every number of groups and nodes, every interleaving of nodes, persisting processes, server and crashes, every continuation, every sequence of checkpoints, restores and executions", "why_tests_cant": "depends on the interleaving of many processes and on where a crash hits; tests run one process in one order", "anchors": ["mixtera/utils/checkpoint.py:handle_mixtera_checkpoint", "mixtera/core/query/chunk_distributor.py:_start_checkpointing", "mixtera/core/query/chunk_distributor.py:_persist_checkpoint_process", "mixtera/core/query/chunk_distributor.py:checkpoint_completed", "mixtera/core/query/chunk_distributor.py:from_checkpoint", "mixtera/core/client/local/local_stub.py:restore_checkpoint"]}
{"id": "C71", "title": "Registering a location finds each of its files exactly once", "statement": "For a directory given by an absolute path (in any spelling) a dataset consists of exactly the direct entries with one of the type's endings, each once, and registering it under a free name with a parser that accepts them adds one file row per entry; for a single file it consists of that file, which must be valid JSON lines or Parquet for those types; anything that does not exist or is relative is refused. A file:// location means the path after the scheme.", "quantifier": "for every disk contents, every listing order, every spelling of the path, every dataset type and every database state", "why_tests_cant": "the space of directory contents, listing orders and path spellings is unbounded; tests use one small directory", "anchors": ["mixtera/core/filesystem/filesystem.py:FileSystem", "mixtera/core/filesystem/local_filesystem.py:LocalFileSystem", "mixtera/core/datacollection/datasets/jsonl_dataset.py:iterate_files", "mixtera/core/datacollection/datasets/web_dataset.py:iterate_files", "mixtera/core/datacollection/datasets/parquet_dataset.py:iterate_files", "mixtera/core/datacollection/mixtera_data_collection.py:register_dataset"]}
{"id": "C72", "title": "A web dataset sample contains exactly its tar members, decoded", "statement": "The samples of a tar file, one after the other, consist of exactly the members with an extension, in order, none twice; all members of a sample have its key, neighbouring samples have different keys, and the consistency assertion never fails. Sample i holds its key and, for every extension of its members, the decoded contents (or the unread stream for unknown extensions), also for compressed members. The metadata parser and the reader see the same sample i, apart from undecoded images; an index past the end raises.", "quantifier": "for every tar file, every splitting of names, all decoders (also raising ones), every index", "why_tests_cant": "tests cover a few tar files with one kind of member; the claim is about all member sequences, extensions and decoders", "anchors": ["mixtera/utils/webdataset_utils.py:IndexedTarSamples", "mixtera/utils/webdataset_utils.py:decode", "mixtera/core/datacollection/datasets/web_dataset.py:inform_metadata_parser"]}
{"id": "C73", "title": "The built-in metadata parsers record exactly the documented fields", "statement": "Each built-in parser accepts a payload exactly if the required fields are there and have allowed values, and then records exactly these and the sample number: SlimPajama and The Pile the enumerated set name, FineWeb dump and language, RedPajama the optional names of languages and publication date, MS COCO the number modulo three. The factory creates the parser registered last under a name; add_parser succeeds iff the name was free or overwriting was asked for.", "quantifier": "for every JSON payload, every sample number, every history of add_parser and remove_parser", "why_tests_cant": "payloads are arbitrary JSON; tests parse a handful of lines", "anchors": ["mixtera/core/datacollection/index/parser/parser_collection.py:RedPajamaMetadataParser", "mixtera/core/datacollection/index/parser/parser_collection.py:SlimPajamaMetadataParser", "mixtera/core/datacollection/index/parser/parser_collection.py:FineWebMetadataParser", "mixtera/core/datacollection/index/parser/parser_collection.py:MsCocoParser", "mixtera/core/datacollection/index/parser/parser_collection.py:PileaMetadataParser", "mixtera/core/datacollection/index/parser/parser_collection.py:MetadataParserFactory", "mixtera/core/datacollection/index/parser/metadata_parser.py:add_metadata"]}
{"id": "C74", "title": "Which mixture ADO returns", "statement": "After the warm-up every report (in the variant adjusted_v3: exactly those at which new scaling laws are fitted and those 15 after a newer mixture came into use) is answered with the mixture that the algorithm's description gives: the preference for a domain is its prior probability times a power of its credit times the speed at which its fitted scaling law falls at its present size, normalised; it is averaged with the time-average preference so far, and the minimum probability is enforced on domains with samples. Prior, credit, averages and sizes are functions of the list of reports alone. The speed is the true derivative of the fitted law, a domain whose law does not fall gets no preference, and faster-falling laws get more.", "quantifier": "for every list of reports about the same domains, every outcome of the fits, every sane configuration of every variant", "why_tests_cant": "the result depends on the whole history of losses, counts and fits over ordered-field arithmetic; tests check single hand-computed steps", "anchors": ["mixtera/core/algo/ado/ado.py:201-357", "mixtera/core/algo/ado/ado.py:470-586"]}
{"id": "C75", "title": "Scaling laws are fitted to the right data and the best fit is chosen", "statement": "At a fitting step every domain gets the law with the lowest loss among all minima the optimiser finds from the 384 initial guesses, on exactly these data points: the steps after the ignored ones in which the domain has had samples, thinned to every subsampling_interval-th, each with the cumulative number of samples (in units of count_normalizer) and the loss per sample: with a common step size the latest known loss, otherwise only steps with a loss; optionally smoothed. The worker processes share the tables and fill gaps in place, but no schedule of them changes any result. The fit fails only if the optimiser raises or never succeeds for some domain. If losses are positive, no logarithm is undefined. A loss of zero means that the law goes through all points with parameters in range, and parameters leave the range by at most a thousandth of the loss. A domain without data gets a law that gives it no preference. The first ignore_initial_steps steps are ignored.", "quantifier": "for every growing list of reports, every behaviour of the optimiser and the filter, every configuration, every interleaving of the worker processes", "why_tests_cant": "the data depends on the whole history, the result on all schedules of processes writing to shared memory, and the loss is a real function", "anchors": ["mixtera/core/algo/ado/ado.py:fit_scaling_laws", "mixtera/core/algo/ado/ado.py:scaling_law_loss", "mixtera/core/algo/ado/ado.py:fit_scaling_law_for_domain"]}
{"id": "C76", "title": "A delivered chunk can be configured and read completely", "statement": "For every chunk that a query result hands out and every valid set of streaming arguments, configuring the chunk succeeds, keeps the mixture the chunk truly has (inferring it when the chunk was made without one), and iterating it then yields exactly the samples the chunk lists, each once; invalid arguments are rejected, out-of-range degrees of parallelism and window sizes are replaced as documented.", "quantifier": "all query results, request histories (any mixtures, strict or best effort or none), streaming arguments, shuffles and reader interleavings", "why_tests_cant": "Whether the client's key check accepts a chunk depends on the whole history of chunk generation (which components are exhausted, which keys best effort has dropped); tests configure a few hand-made chunks whose keys match by construction.", "anchors": ["mixtera/core/query/result_chunk.py:ResultChunk.configure_result_streaming", "mixtera/core/query/result_chunk.py:ResultChunk._infer_mixture", "mixtera/core/query/result_chunk.py:ResultChunk._iterate_samples", "mixtera/core/query/result_chunk.py:ResultChunk._init_active_iterators", "mixtera/core/query/query_result.py:QueryResult._chunk_generator"]}
{"id": "C77", "title": "A remote call reaches the server at most once and never reports success without it", "statement": "Every method of a client connected to a server tries to connect at most ten times and then sends its request exactly once, over the first connection it gets, and closes that connection; a method that answers 'yes' or returns something (a status, a file, metadata, a chunk, a checkpoint id, a list) returns exactly what the server's handler replied to it; if no attempt succeeds, the server's state is unchanged and the method returns its documented failure value; an exception during the exchange reaches the caller and no request is repeated.", "quantifier": "all methods and arguments, all outcomes of the attempts to connect, all network behaviours on every connection, all server handlers and states", "why_tests_cant": "Tests mock the connection; the interplay of the retry loop, the context manager and an exception inside the body exists only for particular failure points (which attempt succeeds, where the exchange breaks) that no test enumerates.", "anchors": ["mixtera/network/connection/server_connection.py:ServerConnection._connect_to_server", "mixtera/network/connection/server_connection.py:ServerConnection._execute_query", "mixtera/network/connection/server_connection.py:ServerConnection._restore_checkpoint", "mixtera/network/connection/server_connection.py:ServerConnection._checkpoint", "mixtera/network/server/server.py:MixteraServer._dispatch_client"]}
{"id": "C78", "title": "The same query gives the same chunks and the same order of samples", "statement": "Two runs of a query that finds the same intervals hand out the same sequence of chunks for the same sequence of requests, mixture updates and feedback - whatever the number of threads and batches, the iteration order of the native hash maps and the state of the process's random number generator - and reading a given chunk with given settings yields the same samples in the same order in every process, node and run.", "quantifier": "all tables of intervals and all orders of their rows that keep each file's intervals in order, all batch partitions, thread counts and hash-map orders, all states of the random number generator, all operation sequences, all chunks and settings", "why_tests_cant": "Reproducibility compares every pair of runs; a test repeats one run on one machine, with one thread schedule and a generator that happens to be in the same state.", "anchors": ["mixtera/utils/utils.py:hash_list", "mixtera/utils/utils.py:seed_everything_from_list", "mixtera/utils/utils.py:seed_everything", "mixtera/core/query/query_result.py:QueryResult._chunk_generator", "mixtera/core/query/result_chunk.py:ResultChunk._iterate_window_mixture", "mixtera/core/query/result_chunk.py:ResultChunk._iterate_overall_mixture", "mixtera/core/query/result_chunk.py:ResultChunk._prepare_workloads"]}
{"id": "C79", "title": "A whole training run hands over every sample of the query at most once, and all of them with ArbitraryMixture", "statement": "Run a query, start a job with any number of data parallel groups, nodes per group and loader workers, and let the loaders iterate (query_result -> chunk distributor -> chunk -> samples), with update_mixture and feedback at any time. Then no loader hands over a sample twice; loaders of different groups or of different worker numbers never hand over the same sample; loaders with the same worker number on the nodes of one group hand over the same sequence; every sample handed over is registered and satisfies the query; and the key id that comes with it is the id of exactly one key in the query result's key table, which describes the sample's properties. With ArbitraryMixture, once the stream is over and everything received was handed over, every sample that satisfies the query has been handed over. Every chunk received after the last mixture change is composed by the mixture then in force, as long as no loader was told before that the stream is over, and a loader sees no failure the query result did not raise. The same holds over all lives of a job that is interrupted and continued from checkpoints any number of times, except that the very last sample before a checkpoint may be handed over again.", "quantifier": "all database contents and queries, all mixtures, updates and feedback, all numbers of groups, nodes and workers, all interleavings of the actions of all loaders, all interruptions", "why_tests_cant": "the claim is about every interleaving of many processes and every mixture history; it composes five components, each of which has an unbounded state", "anchors": ["mixtera/core/query/query_result.py: QueryResult", "mixtera/core/query/chunk_distributor.py: ChunkDistributor.next_chunk_for", "mixtera/core/query/result_chunk.py: ResultChunk", "mixtera/core/client/mixtera_client.py: stream_results", "mixtera/torch/mixtera_torch_dataset.py: MixteraTorchDataset.__iter__", "mixtera/core/query/chunk_distributor.py: ChunkDistributor.from_checkpoint"]}
{"id": "C80", "title": "The mixture log says which mixture every chunk was made with", "statement": "A query result with a log directory keeps mixture.log and chunk.idx there. At any time after chunk number i was delivered, whatever requests, mixture updates and feedback came before and after, the entry of mixture.log with the greatest chunk index up to i is, key by key, the mixture chunk i was composed by; the mixture id of the chunk is the position of that mixture in the log stored with checkpoints and cached results; chunk.idx holds the number of the last chunk delivered and does not exist before the first one; curr_chunk_idx is one more than the greatest index in the log, which never exceeds the number of chunks delivered.", "quantifier": "all indexes, mixtures and sequences of requests, mixture updates and in-place changes by feedback, including requests that fail", "why_tests_cant": "the attribution must hold for every chunk of every history, also when later events rewrite the file; the code keeps references to some mixtures and copies of others", "anchors": ["mixtera/core/query/query_result.py: _persist_mixture_log, _persist_chunk_idx, _chunk_generator, __next__", "mixtera/core/query/mixture/mixture.py: stringified_mixture"]}
{"id": "C81", "title": "The jobs of one server do not influence each other", "statement": "What a job sees - whether its query is executed, its chunks, the outcome of its feedback, checkpoints and restores - does not depend on the other jobs of the server: it is what would be seen if the other jobs did not exist. In particular it makes no difference whether the job's query result came from the cache filled by another job, and once a job is running, registering and removing datasets does not change what it sees.", "quantifier": "for every number of jobs, every interleaving of executions, chunk requests, feedback, checkpoints, restores and dataset changes, every mixture, every query", "why_tests_cant": "tests run one job at a time; the property compares a history with all histories in which other jobs do something in between, through shared cache, files and objects", "anchors": ["mixtera/core/client/local/local_stub.py:LocalStub.execute_query", "mixtera/core/client/local/local_stub.py:LocalStub.process_feedback", "mixtera/core/client/local/local_stub.py:LocalStub.restore_checkpoint", "mixtera/core/query/query_cache.py:QueryCache", "mixtera/core/query/chunk_distributor.py:_start_checkpointing"]}
{"id": "C82", "title": "A job that finds its query in the cache is served as if the query had been executed", "statement": "When execute_query finds the result of the query in the cache, the job gets to every sequence of chunk requests, mixture updates and feedback the same chunks, key ids and mixture log as a job for which the query is executed anew on the present content of the database. It does not matter with which mixture the cached result was first created, in which order the stored files are loaded, in which order a new execution would list keys, datasets and files, or what the state of the random number generator is.", "quantifier": "every database content and query, every history of registrations, removals and queries before, every first and every later mixture, every loading order, every continuation of the job", "why_tests_cant": "Equality of two whole behaviours for all histories and continuations; tests compare a few chunks.", "anchors": ["mixtera/core/client/local/local_stub.py: LocalStub.execute_query", "mixtera/core/query/query_cache.py: QueryCache.get_queryresults_if_cached", "mixtera/core/query/query_result.py: QueryResult.to_cache", "mixtera/core/query/query_result.py: QueryResult.from_cache", "mixtera/core/query/query_result.py: QueryResult.update_mixture"]}
{"id": "C83", "title": "A model is trained on the registered records", "statement": "After any sequence of register_dataset and remove_dataset calls - each possibly cut off by a crash - executing a query succeeds, and whatever chunk is then delivered, reading the ranges it lists for a file succeeds and yields one item per row number, in order: the parsing function of the dataset, applied to the record of the registered file with this number. The record's metadata, as the parser extracted it when the dataset was registered, satisfies the query and has the properties of the mixture key under which the chunk lists it. No sample can be selected whose dataset, parsing function or file cannot be looked up.", "quantifier": "every sequence of registrations and removals and every crash point in them, every file content, dataset class, row group layout and batch cut, every metadata parser, query, mixture, and history of chunk requests", "why_tests_cant": "It ties the whole chain together - parsing, tables, query, chunks, metadata of the result, readers - for all contents, histories and crash points; tests check single links on small files.", "anchors": ["mixtera/core/datacollection/mixtera_data_collection.py: MixteraDataCollection.register_dataset", "mixtera/core/datacollection/mixtera_data_collection.py: MixteraDataCollection.remove_dataset", "mixtera/core/datacollection/mixtera_data_collection.py: process_file_for_metadata", "mixtera/core/query/query_result.py: QueryResult._parse_meta", "mixtera/core/query/result_chunk.py: ResultChunk._get_iterator_for_workload_st", "mixtera/core/datacollection/datasets: read_ranges_from_files, inform_metadata_parser"]}
{"id": "C84", "title": "What is stored of a dataset does not depend on the datasets registered before", "statement": "register_dataset succeeds whenever the name is free, the files exist and the metadata parser accepts them, and stores every property value exactly as the parser returned it, whatever other datasets with properties of the same names are or were registered. (In the code: the first declaration of a property fixes the type of its column for ever, later values are cast to it, and a value that cannot be cast makes the registration raise half-way.)", "quantifier": "every history of registrations and removals with arbitrary property declarations, every crash point, every parsed value", "why_tests_cant": "The outcome depends on the whole history of declarations; tests register one or two datasets with agreeing parsers.", "anchors": ["mixtera/core/datacollection/mixtera_data_collection.py: _add_columns_to_samples_table, _insert_samples_with_metadata, register_dataset", "mixtera/core/datacollection/index/parser/parser_collection.py: RedPajamaMetadataParser, FineWebMetadataParser"]}
{"id": "C85", "title": "A directory can be reopened at any time", "statement": "Opening a data directory creates the database if there is none and otherwise changes nothing and shows exactly what the completed operations and the completed statements of interrupted operations have stored. This holds wherever earlier operations and earlier openings were cut off by a crash: opening a directory after a crash gives a data collection in which datasets can be registered, removed and queried as in one that never crashed. A directory that does not exist is refused.", "quantifier": "all histories of openings, registrations and removals, with all arguments, each completed or cut off after any of its statements; all crash points of the first opening", "why_tests_cant": "The tests open fresh directories and never die between two of the statements that create the tables; the claim is about every crash point and everything done to the directory afterwards.", "anchors": ["mixtera/core/datacollection/mixtera_data_collection.py: MixteraDataCollection.__init__, _init_database, _load_db_from_disk, get_db_version, _insert_dataset_into_table, check_dataset_exists, list_datasets, remove_dataset", "mixtera/core/client/local/local_stub.py: LocalStub.__init__, execute_query"]}
{"id": "C86", "title": "Row counts are right although they are computed with floats", "statement": "With every float operation rounded to binary64: a static mixture whose weights pass the check of their sum, and an inferring mixture, never fail to construct, give exactly chunk-size rows in total, nothing to a key of weight zero, each key its amount up to one row, and exactly its amount if all amounts are whole numbers. Redistributing missing samples never raises, hands out exactly the missing samples, proportionally to the rows. The check of the sum accepts weights within 0.0009 of 1 and refuses weights off by 0.0011. A hierarchical mixture gives exactly chunk-size rows in total and each leaf at least its amount rounded down.", "quantifier": "all finite sets of non-negative weights, all chunk sizes up to 2^50 divided by the number of keys, all indices, all numbers of missing samples below 2^50, all trees with weights between 0 and 1", "why_tests_cant": "Rounding errors show only for particular combinations of weights and chunk size (0.29 * 100 < 29); tests pick a few round numbers.", "anchors": ["mixtera/core/query/mixture/static_mixture.py: StaticMixture.__init__, parse_user_mixture", "mixtera/core/query/mixture/inferring_mixture.py: process_index", "mixtera/core/datacollection/index/index_utils.py: infer_mixture_from_chunkerindex", "mixtera/core/query/mixture/hierarchical_static_mixture.py", "mixtera/utils/utils.py: distribute_by_ratio", "mixtera/core/query/query_result.py: _chunk_generator (redistribution)"]}
{"id": "C87", "title": "Windows and inferred chunk mixtures with float shares", "statement": "With every float operation rounded to binary64: the counts of a window have the mixture's keys, add up to exactly the window size and are never negative, and every count but the first is the key's share of the window rounded down (the first gets the rest), at most one sample less if that share is a whole number. Strict windows end and have exactly these counts; best-effort windows end and deliver every sample exactly once if every key has at least one sample per window. The numbers of reader processes add up to the number of readers. The mixture inferred from a chunk's contents is exactly the number of samples of each key.", "quantifier": "all mixtures whose counts sum to at most the chunk size, all window and chunk sizes with product up to 2^50, all orders of the counts, all contents of a chunk, all implementations of sum with a bounded error", "why_tests_cant": "The rounding is wrong only for particular pairs of window and chunk size (49 * (1/49) < 1).", "anchors": ["mixtera/core/query/result_chunk.py: _get_element_counts, _iterate_window_mixture, _get_process_counts, _infer_mixture", "mixtera/core/datacollection/index/index_utils.py: infer_mixture_from_chunkerindex"]}
{"id": "C88", "title": "The mixture log on disk over crashes and restores", "statement": "At every crash point of a run, mixture.log is either torn, which happens only while a request is adding a mixture to the log, or says with which mixture each delivered chunk was made; chunk.idx holds the number of the last chunk delivered, or is torn or holds the next number while the next chunk is on its way, and then mixture.log is complete. Restoring a checkpoint writes both files so that they are, whatever the directory contained (files of a later time, torn files), the files as they were when the checkpoint was taken; a restore cut off by a crash leaves each file as it was, torn, or complete with all entries of the checkpoint; and after a restore the answers and the files of any continuation are those of a run without a crash.", "quantifier": "all histories of requests, mixture updates and feedback before and after the checkpoint, all crash points during requests and during the restore, all contents of the log directory at the time of the restore, all indexes and mixtures", "why_tests_cant": "The crash point, the contents of the directory and the history are unbounded; a test restores one directory after one run.", "anchors": ["mixtera/core/query/query_result.py: _persist_mixture_log, _persist_chunk_idx, replay, from_cache", "mixtera/core/query/chunk_distributor.py: from_checkpoint"]}
{"id": "C89", "title": "Mixtures of a dynamic algorithm in float arithmetic", "statement": "With every float operation rounded to binary64: whatever non-negative policy a dynamic mixing algorithm has computed and whatever domains have been sampled, enforcing the minimum probability gives a vector that the dynamic mixture accepts; the rows of the new mixture add up to exactly the chunk size, only domains with a positive share have rows, and every domain's number of rows is its share of the policy (raised to the minimum for sampled domains) of the chunk, up to one sample and a rounding error. If the chunks are large enough for the minimum probability, every chunk contains every domain sampled before.", "quantifier": "all policies of any length, all counts, minimum probabilities, chunk sizes and key ids, all implementations of np.sum right up to a millionth and of sum right up to a bounded error", "why_tests_cant": "Whether a sum of rounded quotients passes the checks, and a share falls on the right side of a whole number, depends on the particular numbers.", "anchors": ["mixtera/core/algo/ado/ado.py: enforce_min_probability", "mixtera/core/query/mixture/dynamic_mixture.py: _process_losses", "mixtera/core/query/mixture/static_mixture.py: __init__, parse_user_mixture"]}
{"id": "C90", "title": "The mixture in force follows the losses reported", "statement": "Whatever ranks report to a dynamic mixture, in whatever order, with key ids and the index announced in between: the mixture's step is the largest one the first rank has reported; calls of other ranks, calls without losses or counts and calls before the client has a mixture never change the mixture. With the averaging algorithm no report raises, and the mixture in force is always the exact apportionment of the chunk size to the average losses over all reports so far (the initial mixture as long as no samples are reported). With ADO, whatever raises, the mixture in force is the initial one or one with the full chunk size in which every domain that had samples when it was made has its guaranteed number of rows.", "quantifier": "all histories of calls of handle_mixtera_feedback by all ranks, id map announcements and index announcements, all losses and counts of any lengths, all configurations of ADO, all chunk sizes", "why_tests_cant": "The mixture depends on the whole history of reports and its interleaving with new keys.", "anchors": ["mixtera/utils/feedback.py: handle_mixtera_feedback", "mixtera/core/client/local/local_stub.py: process_feedback", "mixtera/core/query/mixture/mixture.py: process_client_feedback", "mixtera/core/query/mixture/dynamic_mixture.py: process_id_map, _process_losses", "mixtera/core/algo/dynamic_mixing/dynamic_mixing.py: process_losses"]}
{"id": "C91", "title": "Storing and loading a query result keeps what a dynamic mixture has learnt", "statement": "After a query result has been stored and loaded again, its dynamic mixture goes on as if there had been no restart: the mixture in force, the training step and everything its algorithm has learnt from the reported losses are those of the moment when the checkpoint was written, so that the same later reports give the same later mixtures.", "quantifier": "all dynamic mixtures and mixing algorithms, all histories of reports, key ids and chunk requests before the checkpoint, all later feedback", "why_tests_cant": "What comes back depends on how reports, mixture changes and chunk requests interleave before the checkpoint.", "anchors": ["mixtera/core/query/query_result.py: _chunk_generator, update_mixture, replay, to_cache, from_cache", "mixtera/core/query/mixture/dynamic_mixture.py: process_index, _process_losses", "mixtera/core/query/mixture/mixture.py: process_client_feedback"]}
{"id": "C92", "title": "Average losses in single precision", "statement": "The averaging algorithm, which keeps losses, averages and weights as single-precision floats, gives every domain a weight proportional to its exact average loss (equal weights to the reported domains if all losses are zero), up to a relative error of a few roundings per report, and the dynamic mixture accepts the weights as summing to one - for any history of reports.", "quantifier": "all histories of reports of losses and counts, all numbers of domains, every order in which numpy adds", "why_tests_cant": "The error grows with the number of reports and depends on every loss in them.", "anchors": ["mixtera/core/algo/dynamic_mixing/dynamic_mixing.py: DynamicMixingAlgorithm._update_state, calc_mixture", "mixtera/core/algo/loss_avg/loss_avg.py: SimpleAveragingAlgorithm.calc_mixture", "mixtera/core/query/mixture/dynamic_mixture.py: _process_losses"]}
{"id": "C93", "title": "Chunks follow the reported losses", "statement": "With a dynamic mixture, every chunk is made by the mixture that all feedback given before its request leads to, also when the previous request could not be answered: with loss averaging, once a sample has been reported, the chunk has exactly the chunk size, contains samples only of domains with a weight, each matching the key it is listed under, and (strict) of every domain the rounded share that its average loss has of all average losses; before that, it is made by the initial mixture. Requests and feedback never change a key id.", "quantifier": "all query results, all interleavings of feedback calls of all ranks with chunk requests (answered or not), all mixing algorithms for the first part, all losses and counts", "why_tests_cant": "The content of a chunk depends on the complete history of reports and of the requests in between, and on what the generator remembers of them.", "anchors": ["mixtera/core/query/query_result.py: __init__, __next__, _chunk_generator, _update_key_id_map", "mixtera/core/query/mixture/dynamic_mixture.py: process_index, process_id_map, _process_losses, mixture_in_rows", "mixtera/core/client/local/local_stub.py: process_feedback", "mixtera/core/algo/loss_avg/loss_avg.py: calc_mixture"]}
{"id": "C94", "title": "However often a job restarts, every report that a checkpoint includes counts exactly once", "statement": "A job with a dynamic mixture that is checkpointed, interrupted and resumed from its latest checkpoint, any number of times and at any points, has at every moment exactly the mixture, the mixing algorithm and the training step that it would have if it had never been interrupted and had made only the feedback calls that no crash took back: no report before a checkpoint is lost by it, none counts twice.", "quantifier": "all mixing algorithms, all interleavings of feedback calls of all ranks, chunk requests, checkpoints and crashes, of any length", "why_tests_cant": "Each restart replays the mixture history that earlier restarts have left behind, with an algorithm that comes from the checkpoint; errors accumulate over arbitrarily many of them.", "anchors": ["mixtera/core/query/chunk_distributor.py: _start_checkpointing, _persist_checkpoint_process, from_checkpoint", "mixtera/core/query/query_result.py: _chunk_generator, replay, from_cache", "mixtera/core/client/local/local_stub.py: execute_query, checkpoint, restore_checkpoint, process_feedback", "mixtera/core/query/mixture/dynamic_mixture.py"]}
{"id": "C95", "title": "Domain ids after restoring a job's checkpoint", "statement": "While a job runs, every domain of its data and mixture keeps the id it had at the start, and no other domain has one. After a checkpoint of the job is restored, the domains still have these ids, and the job gets the chunks and writes the mixture log it would have without the interruption, however often it is restored - also if its query result came from the cache, where another job with another mixture had put it.", "quantifier": "all indices, key orders, first and own mixtures, histories of chunk requests and feedback, numbers of restores, checkpoint positions, continuations", "why_tests_cant": "The ids after a restore depend on the job that first executed the query, possibly with another mixture, on the job's own mixture, and on everything logged since.", "anchors": ["mixtera/core/client/local/local_stub.py: execute_query", "mixtera/core/query/chunk_distributor.py: __init__, _start_checkpointing, from_checkpoint", "mixtera/core/query/query_result.py: _update_key_id_map, update_mixture, to_cache, from_cache, replay"]}
