{"id": "C01", "title": "Replay memory accounting", "statement": "After any history of successful add_sequence calls with distinct identities, size() equals the sum of the lengths of the sequences that are currently stored, and size() never exceeds maxlen, provided no single sequence is longer than maxlen.", "quantifier": "every history of adds (any identities, lengths, contents), every ejection strategy and every random draw the ejection strategy makes", "why_tests_cant": "the accounting is incremental (add/subtract per call) and ejection is random; a test sees a handful of histories and draws", "anchors": ["emote/memory/table.py: ArrayMemoryTable.add_sequence, _add_sequence_internal, _eject_count, size", "emote/memory/fifo_strategy.py: FifoEjectionStrategy.sample", "emote/memory/uniform_strategy.py: UniformEjectionStrategy.sample"]}
{"id": "C02", "title": "FIFO replay memory is a bounded queue of episodes", "statement": "With FIFO ejection the stored sequences, in order, are exactly what a queue bounded by total length would hold: each add drops the oldest sequences, one at a time and only as long as the new one does not fit, then appends the new one. In particular the stored set is always a suffix of the added history and contains the latest add.", "quantifier": "every history of adds with distinct identities and lengths at most maxlen", "why_tests_cant": "a refinement claim over all histories; eviction order bugs show up only for particular length patterns", "anchors": ["emote/memory/table.py: _add_sequence_internal, _eject_count", "emote/memory/fifo_strategy.py: FifoEjectionStrategy.sample, track, forget"]}
{"id": "C03", "title": "Stored experience is immutable until ejected", "statement": "A sequence added to the memory reads back column by column exactly as it was given, for as long as its identity is still stored; adding or ejecting other sequences never changes it.", "quantifier": "every history of adds with distinct identities, every stored identity and column", "why_tests_cant": "cross-talk between identities needs specific interleavings of adds and ejections", "anchors": ["emote/memory/table.py: _add_sequence_internal, _eject_count", "emote/memory/storage.py: BaseStorage"]}
{"id": "C04", "title": "Sampler, ejector and storage agree", "statement": "After any history of successful adds, the identities known to the sampler, to the ejector, to the length index and to every physical column are the same; so sampling never selects a sequence that is gone and never misses a stored one, and ejection never fails on a missing entry.", "quantifier": "every history of adds with distinct identities, every combination of provided sampling and ejection strategy, every random draw", "why_tests_cant": "the four indices are updated separately; a mismatch only surfaces as a KeyError in a later random sample", "anchors": ["emote/memory/table.py: _add_sequence_internal, _eject_count", "emote/memory/fifo_strategy.py", "emote/memory/uniform_strategy.py", "emote/memory/coverage_based_strategy.py"]}
{"id": "C05", "title": "full() means experience has been dropped", "statement": "full() is false exactly as long as no add has had to make room; while it is false every sequence added since the last clear is still stored, and once it is true it stays true until clear/restore.", "quantifier": "every history of adds", "why_tests_cant": "a history invariant; a test checks two or three points of one history", "anchors": ["emote/memory/table.py: full, _eject_count, _clear"]}
{"id": "C06", "title": "resize only grows, and never loses data", "statement": "resize(n) with n smaller than the current capacity raises and changes nothing; otherwise the contents are unchanged and the capacity bound n holds for all later adds.", "quantifier": "every table state reachable by adds and resizes, every n", "why_tests_cant": "needs all later histories, not one call", "anchors": ["emote/memory/table.py: ArrayMemoryTable.resize"]}
{"id": "C07", "title": "A rejected add leaves the memory unchanged", "statement": "If add_sequence raises because the sequence cannot fit (longer than maxlen), the memory is exactly as before.", "quantifier": "every reachable table state and every sequence longer than maxlen", "why_tests_cant": "exception paths from every reachable state", "anchors": ["emote/memory/table.py: _add_sequence_internal, _eject_count", "emote/memory/fifo_strategy.py: FifoEjectionStrategy.sample"]}
{"id": "C08", "title": "Re-using an identity cannot corrupt the memory", "statement": "If an identity that is still stored is added again, then either the call raises and the memory is unchanged, or the old sequence is replaced; in both cases size() still equals the total stored length.", "quantifier": "every reachable table state, every stored identity and every new sequence", "why_tests_cant": "the comment in track says it occurs in practice when a data generator restarts; a test would have to know what to compare", "anchors": ["emote/memory/table.py: _add_sequence_internal", "emote/memory/fifo_strategy.py: FifoStrategyBase.track", "emote/memory/uniform_strategy.py: UniformStrategyBase.track"]}
{"id": "C09", "title": "Sampled windows are genuine", "statement": "When every stored sequence is at least as long as the requested length, sample(count, n) returns for each column count*n rows, which are count windows of n consecutive rows, each window taken from a single stored sequence, and all physical columns use the same windows.", "quantifier": "every reachable table, every count and n, every random draw of the sampler, any previous contents of the reusable workspace buffers", "why_tests_cant": "sampling is random and the buffers are reused; off-by-one windows at the end of an episode are rare draws", "anchors": ["emote/memory/table.py: sample, _execute_gather", "emote/memory/uniform_strategy.py: UniformSampleStrategy.sample", "emote/memory/storage.py: get_empty_storage"]}
{"id": "C10", "title": "One-step next observation", "statement": "In a sampled batch, row j of next_observation is the row following row j of observation in the same stored sequence.", "quantifier": "every sequence whose observation column has one more row than its actions, every window of it", "why_tests_cant": "index alignment at the last transition only matters for draws that touch it", "anchors": ["emote/memory/storage.py: NextElementMapper.Wrapper", "emote/memory/builder.py: DictObsMemoryTable"]}
{"id": "C11", "title": "N-step next observation", "statement": "In the n-step table there is exactly one next_observation row per window, and it is the observation that follows the window's last transition.", "quantifier": "every window of every stored sequence, every n", "why_tests_cant": "as above; only the last window of an episode exposes an off-by-one", "anchors": ["emote/memory/storage.py: NextElementMapper.LastWrapper, with_only_last", "emote/memory/builder.py: DictObsNStepMemoryTable"]}
{"id": "C12", "title": "done and mask mark exactly the final transition", "statement": "In a sampled window, done is true and mask is 0 for the transition that is the last of its stored sequence, and done is false and mask is 1 for all others.", "quantifier": "every stored sequence and every window", "why_tests_cant": "boundary property for all lengths and offsets", "anchors": ["emote/memory/storage.py: SyntheticDones"]}
{"id": "C13", "title": "Bootstrap mask distinguishes terminal from interrupted", "statement": "With the terminal column in use, the value delivered for a sampled window is 0 exactly if the window ends at the last transition of an episode that ended TERMINAL, and 1 otherwise (episode ended INTERRUPTED, or the window stops earlier).", "quantifier": "every episode, every ending, every window", "why_tests_cant": "combines three components (proxy tag, synthetic mask, adaptor) over all windows", "anchors": ["emote/memory/adaptors.py: TerminalAdaptor", "emote/memory/storage.py: TagStorage, SyntheticDones", "emote/memory/memory.py: MemoryTableProxy.add"]}
{"id": "C14", "title": "Short episodes are never sampled as if they were long", "statement": "Asking for windows longer than a stored sequence never silently produces rows that are not consecutive rows of that sequence.", "quantifier": "every stored sequence length and requested window length, every draw", "why_tests_cant": "needs numpy broadcasting corner cases; unit tests only sample well-formed tables", "anchors": ["emote/memory/table.py: _execute_gather", "emote/memory/uniform_strategy.py: UniformSampleStrategy.sample", "emote/memory/fifo_strategy.py: FifoSampleStrategy.sample"]}
{"id": "C15", "title": "Per-episode FIFO sampling is round-robin", "statement": "Per-episode FIFO sampling of k windows visits the stored sequences oldest first, cyclically, so the number of windows taken from any two sequences differs by at most one, and with k at most the number of sequences all are distinct.", "quantifier": "every tracked set, every k, every random offset", "why_tests_cant": "fairness over all counts", "anchors": ["emote/memory/fifo_strategy.py: FifoSampleStrategy.sample"]}
{"id": "C16", "title": "Sequential FIFO sampling tiles the data", "statement": "Non-random, non-per-episode FIFO sampling enumerates adjacent, non-overlapping windows of each sequence from its start, moving to the next sequence when no full window is left, in FIFO order and cyclically.", "quantifier": "every tracked set of sequences at least one window long, every count and window length", "why_tests_cant": "tiling is a statement about all prefixes of an unbounded enumeration", "anchors": ["emote/memory/fifo_strategy.py: FifoSampleStrategy.sample"]}
{"id": "C17", "title": "Uniform sampling weights every transition equally", "statement": "The uniform sampler's selection weights are non-negative, sum to one and give each sequence probability length/total, so with windows of one transition each stored transition is equally likely.", "quantifier": "every tracked set of sequences", "why_tests_cant": "a distribution statement; a test can only check frequencies", "anchors": ["emote/memory/uniform_strategy.py: _rebalance, UniformSampleStrategy.sample"]}
{"id": "C18", "title": "Coverage sampling is a fair, visit-averse distribution", "statement": "Coverage-based sampling weights are non-negative and sum to one; among sequences of equal length a less visited one never has lower weight; and every sample call increases the visit counters by exactly the number of windows drawn from each sequence.", "quantifier": "every history of track/forget/sample and every alpha >= 0", "why_tests_cant": "distribution and history statement", "anchors": ["emote/memory/coverage_based_strategy.py: _rebalance, CoverageBasedSampleStrategy.sample"]}
{"id": "C19", "title": "Random ejection frees enough and no more than needed", "statement": "Uniform (and coverage) ejection returns pairwise distinct stored identities whose total length is at least the requested amount, and without the last one picked it would be less; it fails to return only if the tracked total is too small or it is not given enough draws.", "quantifier": "every tracked set, every requested amount and every random draw sequence", "why_tests_cant": "rejection loop over random draws", "anchors": ["emote/memory/uniform_strategy.py: UniformEjectionStrategy.sample", "emote/memory/coverage_based_strategy.py: CoverageBasedEjectionStrategy.sample"]}
{"id": "C20", "title": "FIFO ejection is the shortest oldest-first prefix", "statement": "FIFO ejection for an amount c returns the shortest oldest-first prefix of the stored sequences whose total length is at least c, and raises exactly if all of them together are not enough.", "quantifier": "every tracked set and amount", "why_tests_cant": "minimality for all length patterns", "anchors": ["emote/memory/fifo_strategy.py: FifoEjectionStrategy.sample"]}
{"id": "C21", "title": "store / restore round trip", "statement": "Storing a non-empty memory and restoring it into a fresh memory of the same configuration gives the same sequences under the same identities in the same order with the same size(), and from then on the same ejection behaviour.", "quantifier": "every reachable table and all later histories", "why_tests_cant": "round trip over all contents; ejection order after restore is only visible much later", "anchors": ["emote/memory/table.py: _serialize, _deserialize", "emote/memory/fifo_strategy.py: state, load_state"]}
{"id": "C22", "title": "restore replaces whatever was there", "statement": "After restoring an export into a memory that already held data, no sequence from before the restore can be sampled or ejected.", "quantifier": "every pair of a prior state and an export", "why_tests_cant": "the stale entries are only hit by random draws", "anchors": ["emote/memory/table.py: _deserialize, _clear", "emote/memory/uniform_strategy.py", "emote/memory/fifo_strategy.py"]}
{"id": "C23", "title": "An export is never half written", "statement": "If the process stops at any point during store(path), the file at path is either the complete previous export or the complete new one.", "quantifier": "every crash point", "why_tests_cant": "crash points cannot be enumerated by running the function", "anchors": ["emote/memory/table.py: _serialize (atomic_write), _store_legacy"]}
{"id": "C24", "title": "Legacy import cannot collide with live agents", "statement": "Restoring a legacy export renames every imported identity to a distinct negative one, drops previously imported (negative) ones, keeps the lengths, and size() is their total; identities added later never equal an imported one.", "quantifier": "every exported identity map, every later identity", "why_tests_cant": "injectivity and disjointness over all integers", "anchors": ["emote/memory/table.py: _restore_legacy, _add_sequence_internal", "emote/memory/storage.py: post_import", "emote/memory/uniform_strategy.py: post_import", "emote/memory/fifo_strategy.py: post_import"]}
{"id": "C25", "title": "Segment tree reduction", "statement": "After any sequence of assignments, reduce(start, end) equals the operation folded over the current array elements start..end-1, for every associative operation.", "quantifier": "every power-of-two capacity, every sequence of writes, every non-empty range, every associative operation", "why_tests_cant": "trees are recursive; tests use a few ranges", "anchors": ["emote/memory/segment_tree.py: SegmentTree"]}
{"id": "C26", "title": "Prefix-sum search", "statement": "For non-negative entries and 0 <= p < sum(), find_prefixsum_idx(p) is the unique index i with sum(arr[:i]) <= p < sum(arr[:i+1]); so an index with zero weight is never selected.", "quantifier": "every capacity, every array, every p", "why_tests_cant": "for-all over reals; boundaries are measure zero for random tests", "anchors": ["emote/memory/segment_tree.py: SumSegmentTree.find_prefixsum_idx"]}
{"id": "C27", "title": "Episodes are assembled per agent", "statement": "For any stream of add calls that never raises, the sequence handed to the memory when an agent terminates holds, column by column and in order, exactly the values that this agent's own observations and responses carried since its initial observation, regardless of how other agents' steps are interleaved.", "quantifier": "every stream of add calls, every number of agents, every interleaving", "why_tests_cant": "isolation between interleaved agents is a hyperproperty of all streams", "anchors": ["emote/memory/memory.py: MemoryTableProxy.add, Episode"]}
{"id": "C28", "title": "Complete episodes only, each exactly once", "statement": "Every termination of an agent with an ongoing episode delivers at most one sequence (exactly one if it passes the minimum length), nothing is delivered for unfinished episodes, and a termination of an agent without an ongoing episode delivers nothing and leaves all ongoing episodes alone.", "quantifier": "every stream of add calls", "why_tests_cant": "exactly-once over all histories", "anchors": ["emote/memory/memory.py: MemoryTableProxy.add"]}
{"id": "C29", "title": "Aligned episode columns", "statement": "If every observation carries the observation features, every response carries an action, the delivered episode with n actions has n rewards and n+1 observations.", "quantifier": "every well-formed stream of add calls", "why_tests_cant": "needed by the next-observation columns for every window; off-by-one depends on protocol history", "anchors": ["emote/memory/memory.py: MemoryTableProxy.add"]}
{"id": "C30", "title": "No finished episode is lost", "statement": "If an add call raises because of one agent's protocol violation, finished episodes of the other agents in that call still reach the memory (now or when the call is repeated).", "quantifier": "every add call that raises, at every position", "why_tests_cant": "exception in the middle of a batch, at each position", "anchors": ["emote/memory/memory.py: MemoryTableProxy.add"]}
{"id": "C31", "title": "Logging wrapper is transparent and counts correctly", "statement": "The logging wrapper forwards every add unchanged and in order; after any number of calls its inference count is the number of observations seen, and the episode count is the number of times an agent got an observation but no response (responses being for observed agents only).", "quantifier": "every stream of add calls", "why_tests_cant": "history invariant", "anchors": ["emote/memory/memory.py: LoggingProxyWrapper.add"]}
{"id": "C32", "title": "Memory exports respect both spacings", "statement": "Consecutive automatic exports are more than inf_steps_per_memory_export add calls and more than min_time_per_export seconds apart, exports happen only after the batch was added, and an export does happen once both limits are passed.", "quantifier": "every sequence of add calls and clock readings (monotone)", "why_tests_cant": "timing dependent over all schedules", "anchors": ["emote/memory/memory.py: MemoryExporterProxyWrapper.add"]}
{"id": "C33", "title": "Loader batches are consistent", "statement": "A memory loader yields only when the table has at least count*length transitions at start, every batch it yields reports exactly count*length samples, and a joint loader reports the sum of its loaders' sizes with one entry per data group, rejecting duplicate groups (data groups and size keys having different names).", "quantifier": "every list of loaders and table sizes", "why_tests_cant": "all combinations of loaders", "anchors": ["emote/memory/memory.py: MemoryLoader, JointMemoryLoader"]}
{"id": "C34", "title": "A joint loader with a data group keeps yielding", "statement": "Iterating a JointMemoryLoaderWithDataGroup yields batches for as long as they are asked for, like the loaders it combines.", "quantifier": "every number of requested batches", "why_tests_cant": "liveness over unbounded iteration", "anchors": ["emote/memory/memory.py: JointMemoryLoaderWithDataGroup.__iter__"]}
{"id": "C35", "title": "Training loop hook protocol", "statement": "For any callbacks and any data, the hooks run in the documented order: restore_state and begin_training for all callbacks once, then for each batch begin_cycle (of the callbacks whose cycle starts), begin_batch, backward, end_batch, end_cycle (of those whose cycle ends), each over callbacks in ascending order value with ties in list order.", "quantifier": "every list of callbacks (order values, cycle lengths, behaviours including raising), every data stream", "why_tests_cant": "a trace language over all callback behaviours", "anchors": ["emote/trainer.py: Trainer.train"]}
{"id": "C36", "title": "Step and sample counters", "statement": "During the k-th processed batch of a fresh run, every hook sees bp_step = k and bp_samples = the total size of batches 1..k, unless a callback itself overwrites them.", "quantifier": "every data stream and batch sizes, every k", "why_tests_cant": "history invariant with arbitrary callbacks", "anchors": ["emote/trainer.py: Trainer.train"]}
{"id": "C37", "title": "Cycle hooks fire once per cycle", "statement": "A callback with cycle n gets begin_cycle before batch k exactly when n divides k-1 and end_cycle after batch k exactly when n divides k; after N completed batches of a fresh run it has had floor(N/n) end_cycles and ceil(N/n) begin_cycles; callbacks without a positive cycle get none.", "quantifier": "every cycle length and every number of batches", "why_tests_cant": "arithmetic over unbounded runs", "anchors": ["emote/trainer.py: _begin_cycle, _end_cycle"]}
{"id": "C38", "title": "Step-limited training", "statement": "With a terminator of N steps, a fresh run on a data source with at least N batches performs exactly N batches (unless something else stops it), then calls end_training on every callback once and returns normally.", "quantifier": "every N > 0, every data source, every set of well-behaved callbacks", "why_tests_cant": "all N and callback sets", "anchors": ["emote/callbacks/generic.py: BackPropStepsTerminator", "emote/trainer.py: train"]}
{"id": "C39", "title": "end_training runs on shutdown and on errors", "statement": "If a hook raises the shutdown exception during the loop, or the shutdown signal is set, train() calls end_training on every callback exactly once and returns; if any other exception is raised, it does the same and then re-raises that exception; no further batch hook runs after the raise. (end_training hooks that raise themselves are excepted.)", "quantifier": "every callback list, every raise position (batch, phase, callback)", "why_tests_cant": "raise position is unbounded", "anchors": ["emote/trainer.py: train, _end_training"]}
{"id": "C40", "title": "end_training runs at the end of training", "statement": "Whenever begin_training completed for all callbacks and train() returns normally, end_training has been called on every callback.", "quantifier": "every data source, including ones that are exhausted", "why_tests_cant": "all ways of leaving the loop", "anchors": ["emote/trainer.py: train"]}
{"id": "C41", "title": "State flows forward between callbacks", "statement": "Values returned by a callback's hook are visible to every later hook call (later callbacks in the same phase and all later phases) until overwritten by a batch or another callback; hooks cannot otherwise see each other's results.", "quantifier": "every callback list and data", "why_tests_cant": "data-flow statement over all runs", "anchors": ["emote/trainer.py: _begin_batch etc."]}
{"id": "C42", "title": "Callback arguments: plain routing", "statement": "A callback without a data group receives exactly those of its declared arguments that are present in the shared state, with the state's value, and nothing else; a declared argument without default that the state lacks is a TypeError. (States with a key named self are excluded: they make every such hook raise.)", "quantifier": "every signature and every state", "why_tests_cant": "signature space is unbounded", "anchors": ["emote/callback.py: _make_no_group, _wrap_callback_function"]}
{"id": "C43", "title": "Callback arguments: data group routing", "statement": "A callback with a data group receives each declared argument from its group if the group has it, else from the shared state; results returned under the group name are merged into that group only, and the remaining results go to the shared state.", "quantifier": "every signature, group and state", "why_tests_cant": "signature/state space is unbounded", "anchors": ["emote/callback.py: _make_group_unpack"]}
{"id": "C44", "title": "Renamed arguments inside a data group", "statement": "An argument bound with keys_from_member to a key that exists in the callback's data group receives the group's value for that key.", "quantifier": "every group and key", "why_tests_cant": "depends on whether the key also exists outside the group", "anchors": ["emote/callback.py: _make_group_unpack (line 59), keys_from_member"]}
{"id": "C45", "title": "Checkpoint round trip", "statement": "Loading checkpoint i restores for every listed restoree exactly the state dict it had when checkpoint i was written, and (with load_hparams) the training state bp_step, bp_samples, latest_checkpoint and checkpoint_index of that moment.", "quantifier": "every set of restorees and states, every number of checkpoints written before and after", "why_tests_cant": "all histories of checkpoints", "anchors": ["emote/callbacks/checkpointing.py: Checkpointer, CheckpointLoader"]}
{"id": "C46", "title": "Checkpoints never overwrite one another", "statement": "Checkpoints written by a training run all have different names, also when the run resumes from an earlier checkpoint.", "quantifier": "every number of checkpoints, every resume point", "why_tests_cant": "needs multi-run histories", "anchors": ["emote/callbacks/checkpointing.py: Checkpointer.end_cycle"]}
{"id": "C47", "title": "Windowed metrics", "statement": "After any sequence of log_windowed_scalar calls for a key, the stored window is exactly the last L logged values (L fixed by the first call) and the cumulative value is the sum of all values ever logged.", "quantifier": "every sequence of calls with scalars and lists, every window length", "why_tests_cant": "history invariant", "anchors": ["emote/mixins/logging.py: log_windowed_scalar"]}
{"id": "C48", "title": "Logged metrics survive a checkpoint", "statement": "Saving a logging object's state and loading it into a fresh object restores all its logs, including windowed values.", "quantifier": "every log content", "why_tests_cant": "all contents; the existing test only looks at a counter", "anchors": ["emote/mixins/logging.py: state_dict, load_state_dict"]}
{"id": "C49", "title": "Deprecation warnings are limited", "statement": "A deprecated function warns at most max_warn_count times and always calls through.", "quantifier": "every number of calls", "why_tests_cant": "unbounded call counts", "anchors": ["emote/utils/deprecated.py: deprecated"]}
{"id": "C50", "title": "AtomicInt is linearizable", "statement": "Under every interleaving of threads calling increment, each call returns a distinct value, the returned values are exactly the partial sums, and the final value is the initial plus the sum of all increments.", "quantifier": "every number of threads and calls, every interleaving of their lock/read/write steps", "why_tests_cant": "schedules cannot be enumerated by tests", "anchors": ["emote/utils/threading.py: AtomicInt"]}
{"id": "C51", "title": "AtomicContainer hands a value out once", "statement": "Under every interleaving, each value that is set is returned by at most one take, and a take returns the most recent untaken set value or None.", "quantifier": "every interleaving of set/take/read", "why_tests_cant": "schedules", "anchors": ["emote/utils/threading.py: AtomicContainer"]}
{"id": "C52", "title": "LockedResource gives exclusive access", "statement": "Under every interleaving, at most one thread is inside the with-block at a time, and updates made inside are never lost.", "quantifier": "every number of threads and every interleaving", "why_tests_cant": "schedules", "anchors": ["emote/utils/threading.py: LockedResource"]}
{"id": "C53", "title": "Storage handles are unique and stable", "statement": "In any history of creates, updates and deletes on a CRUD storage (from any threads), no two creates return the same handle or file path, get(h) returns the item created with h until it is deleted and None afterwards, items() lists live items in creation order, latest() is the last of them, and delete returns true exactly for live items.", "quantifier": "every history and every interleaving of creates, any pre-existing files", "why_tests_cant": "all histories; race on file names", "anchors": ["emote/extra/crud_storage.py: CRUDStorage"]}
{"id": "C54", "title": "Exports are processed in order with the right metadata", "statement": "Queued policy exports are processed in the order they were requested, each exactly once, with strictly increasing model version, and with metadata = exporter metadata overridden by the call's metadata; export() returns only after its own request is done.", "quantifier": "every history of add_metadata/export/export_threadsafe/process calls", "why_tests_cant": "queue histories", "anchors": ["emote/extra/onnx_exporter.py: OnnxExporter"]}
{"id": "C55", "title": "Discounted returns", "statement": "discount(rewards, values, make_gamma_matrix(g, n)) yields for each rollout and step t the n-step return sum_{k>=t} g^(k-t) r_k + g^(n-t) v, i.e. it satisfies G_t = r_t + g G_{t+1} with G_n = v, in rollout-major order.", "quantifier": "every gamma, rollout length and number of rollouts", "why_tests_cant": "for all sizes and values", "anchors": ["emote/utils/gamma_matrix.py"]}
{"id": "C56", "title": "Running statistics", "statement": "After any sequence of samples, the Welford accumulator reports exactly the arithmetic mean and population variance of all samples, and the moving-window one those of the last 100.", "quantifier": "every sequence of samples", "why_tests_cant": "algebraic identity for all sequences", "anchors": ["emote/utils/timed_call.py: WelfordAccumulator, MovingWindowAccumulator"]}
{"id": "C57", "title": "Truncated linear schedule", "statement": "truncated_linear equals min_y up to min_x, max_y from max_x on, is linear in between, is monotone in x and always lies between min_y and max_y (constant max_y if the x-range is degenerate).", "quantifier": "every parameter set and x", "why_tests_cant": "for all reals", "anchors": ["emote/utils/math.py: truncated_linear", "emote/extra/schedules.py: BPStepScheduler"]}
{"id": "C58", "title": "Linear schedule", "statement": "After k+1 steps a linear schedule has value initial + min(k/steps,1)*(final-initial) (with the staircase variant rounding the fraction down to a multiple of 1/staircase_steps), so it starts at initial, ends at final, is monotone and stays between them.", "quantifier": "every parameter set and number of steps", "why_tests_cant": "for all k", "anchors": ["emote/extra/schedules.py: LinearSchedule"]}
{"id": "C59", "title": "Cyclic schedule", "statement": "A cyclic schedule stays between initial and final, returns to initial every 2*half_period steps, and in triangular2 mode the peak of the n-th cycle is initial + (final-initial)/2^(n-1).", "quantifier": "every parameter set and number of steps", "why_tests_cant": "for all k", "anchors": ["emote/extra/schedules.py: CyclicSchedule"]}
{"id": "C60", "title": "Cosine schedules", "statement": "The recursively updated cosine annealing value equals final + (initial-final)(1+cos(pi t/steps))/2 after t+1 steps for every t (also across the turning points), and the warm restart variant equals the same with t mod steps; both stay between initial and final.", "quantifier": "every parameter set and number of steps", "why_tests_cant": "recurrence vs closed form for all t, with a division that hits zero at the turning points", "anchors": ["emote/extra/schedules.py: CosineAnnealing, CosineAnnealingWarmRestarts"]}
{"id": "C61", "title": "Target networks converge to the online network", "statement": "A soft update makes each target parameter a convex combination of old target and source; k updates towards a fixed source shrink the distance by exactly (1-tau)^k. While the networks are trained, a target network follows with a lag of at most (1-tau)/tau times the largest step, and to the same limit if training comes to rest.", "quantifier": "every network, tau in [0,1] and k", "why_tests_cant": "for all k", "anchors": ["emote/algorithms/sac.py: soft_update_from_to"]}
{"id": "C62", "title": "Policy temperature is bounded", "statement": "After every batch, alpha = exp(ln_alpha) is at most max_alpha, whatever the optimiser did, and a value already below the limit is not changed.", "quantifier": "every optimiser update", "why_tests_cant": "for all values", "anchors": ["emote/algorithms/sac.py: AlphaLoss.end_batch"]}
{"id": "C63", "title": "Soft Q target", "statement": "The Q target for the rollout is the discounted scaled reward plus discounted bootstrap value min(q1,q2) - alpha*logp, where with terminal masking the bootstrap is dropped exactly for rollouts whose last mask is 0, and there is one target per transition in input order.", "quantifier": "every batch, rollout length and mask", "why_tests_cant": "for all shapes and values", "anchors": ["emote/algorithms/sac.py: QTarget.begin_batch", "emote/algorithms/dqn.py: QTarget.begin_batch"]}
{"id": "C64", "title": "HL-Gauss targets are distributions", "statement": "For a strictly increasing CDF the transformed target is a probability distribution over bins (non-negative, sums to 1), and the value decoded from any logits lies between the first and last bin centre, inside [min_value, max_value].", "quantifier": "every target, logits, number of bins and range", "why_tests_cant": "for all reals", "anchors": ["emote/algorithms/hlgauss.py: HLGaussLoss.transform_to_probs, QNet.q_from_logit"]}
{"id": "C65", "title": "Observation normaliser", "statement": "denormalize inverts normalize, the tracked standard deviation never goes below eps, and the update rate stays in [0.01, 0.5] and is non-increasing.", "quantifier": "every sequence of batches", "why_tests_cant": "history invariant", "anchors": ["emote/models/model.py: Normalizer"]}
{"id": "C66", "title": "Dynamics model targets and predictions are inverse", "statement": "If the underlying model predicts exactly the training target built from a transition, then sampling from the dynamics model at that observation and action returns that transition's next observation and reward, for any set of no-delta dimensions.", "quantifier": "every transition, every no-delta list, with or without learned rewards, any normaliser state", "why_tests_cant": "for all no-delta sets", "anchors": ["emote/models/model.py: DynamicModel.process_batch, sample"]}
{"id": "C67", "title": "Model environment agent protocol", "statement": "Across any sequence of resets and steps, every agent id appears with exactly one INITIAL observation first, then RUNNING ones, then at most one TERMINAL/INTERRUPTED one and never again; ids are never reused, and there are always exactly num_envs live agents.", "quantifier": "every sequence of dict_reset/dict_step, every done/timeout pattern", "why_tests_cant": "protocol over all histories; the memory proxy relies on it", "anchors": ["emote/models/model_env.py: ModelEnv.dict_step, dict_reset"]}
{"id": "C68", "title": "Policy outputs go to the right agent", "statement": "The agent proxy answers exactly the agents whose episode has not ended, and agent a's response is the policy's output row for agent a's own observation.", "quantifier": "every set of observations, every subset of ended agents, every row-wise policy", "why_tests_cant": "all subsets and orders", "anchors": ["emote/proxies.py: GenericAgentProxy.__call__"]}
{"id": "C69", "title": "Weight decay groups partition the parameters", "statement": "Every parameter of the network is put in exactly one of the decay / no-decay groups, so the optimiser updates each parameter once.", "quantifier": "every module tree and every white/blacklist", "why_tests_cant": "all module trees", "anchors": ["emote/optimizers.py: separate_modules_for_weight_decay, ModifiedAdamW"]}
{"id": "C70", "title": "Frame stacking", "statement": "After reset and any number of steps, the stacked observation is exactly the last n_frames frames in order, with the reset frame repeated to fill the front.", "quantifier": "every number of steps and frames", "why_tests_cant": "history invariant", "anchors": ["emote/env/wrappers.py: FrameStack"]}
{"id": "C71", "title": "Key cast adaptor casts", "statement": "After a KeyCastAdaptor the sampled data under its key has the requested type.", "quantifier": "every batch and requested type", "why_tests_cant": "values are unchanged by a cast in most tests, so only a claim about all batches and types notices a cast that is dropped", "anchors": ["emote/memory/adaptors.py: KeyCastAdaptor"]}
{"id": "C72", "title": "Observation adaptor repacks without loss", "statement": "The dictionary-observation adaptor moves each configured key and its next_ counterpart into observation/next_observation unchanged and leaves all other columns alone.", "quantifier": "every batch and key list", "why_tests_cant": "all key sets", "anchors": ["emote/memory/adaptors.py: DictObsAdaptor"]}
{"id": "C73", "title": "clear() empties the memory and leaves it usable", "statement": "After clear() the memory has size 0 and is not full, and it behaves like a new one: any sequence can be added again and sampling only ever returns what was added after the clear.", "quantifier": "every reachable memory, every strategy, every later add and sample", "why_tests_cant": "the sampler and ejector keep their own bookkeeping; whether it is consistent with the table afterwards depends on the history before the clear", "anchors": ["emote/memory/table.py: ArrayMemoryTable.clear, _clear", "emote/memory/fifo_strategy.py: FifoStrategyBase.track", "emote/memory/uniform_strategy.py: UniformStrategyBase"]}
{"id": "C74", "title": "Masks of interrupted episodes permit bootstrapping", "statement": "In a table built with the terminal column, the mask delivered for the last window of an episode that was INTERRUPTED is 1, so that algorithms which read the masks bootstrap there.", "quantifier": "every episode, every ending, every window", "why_tests_cant": "needs the combination of proxy, table, adaptor and algorithm over all windows", "anchors": ["emote/memory/builder.py: DictMemoryTable", "emote/memory/adaptors.py: TerminalAdaptor", "emote/algorithms/sac.py: QTarget.begin_batch"]}
{"id": "C75", "title": "full() survives storing and restoring", "statement": "A memory that was full when it was exported says so after the export is restored.", "quantifier": "every full memory", "why_tests_cant": "full() depends on the whole history before the export, of which the restored memory only sees the contents", "anchors": ["emote/memory/table.py: full, _serialize, _deserialize"]}
{"id": "C76", "title": "Imported memories can be exported again", "statement": "A memory that holds sequences imported from a legacy export can be stored and restored in the current format like any other: same contents, and it can be used afterwards.", "quantifier": "every memory with imported sequences", "why_tests_cant": "needs a chain of import, export, restore and further use", "anchors": ["emote/memory/table.py: _restore_legacy, _serialize, _deserialize, _add_sequence_internal"]}
{"id": "C78", "title": "Reported metrics are those of the agents", "statement": "After any number of add calls through the logging wrapper, get_report for a metric returns the last L values that the agents reported for it in order (L is the window length of its key), their mean, and the total of all values ever reported; inf_step returns the number of observations seen.", "quantifier": "every stream of add calls with metadata, every key and window length", "why_tests_cant": "all histories across any number of agents and log cycles", "anchors": ["emote/memory/memory.py: LoggingProxyWrapper.add, report, get_report", "emote/mixins/logging.py: log_windowed_scalar"]}
{"id": "C81", "title": "A step limit that is a multiple of a cycle completes all cycles", "statement": "With a terminator of N steps, a callback with cycle n gets exactly floor(N/n) end_cycle calls in a fresh run on enough data, in particular the one at the last step (the final checkpoint, the final log).", "quantifier": "every N, every n, every position of the callback relative to the terminator, every data source with enough batches", "why_tests_cant": "depends on the combination of order, cycle and terminator over whole runs", "anchors": ["emote/callbacks/generic.py: BackPropStepsTerminator.end_cycle", "emote/trainer.py: _end_cycle"]}
{"id": "C79", "title": "Resuming goes on with the next step", "statement": "A run that restores a checkpoint of step k with m samples goes on with step k + 1: hooks in its n-th batch see bp_step = k + n and bp_samples = m plus the sizes of the batches since. No step is done twice, and every cycle that ends has begun.", "quantifier": "every trainer, every set of other callbacks, every checkpoint step k, every run length and interval", "why_tests_cant": "needs a whole second run on top of a first one, for every step and interval; a test that checks that loading works does not look at the numbering", "anchors": ["emote/trainer.py: train", "emote/callbacks/checkpointing.py: Checkpointer.end_cycle, CheckpointLoader.restore_state"]}
{"id": "C82", "title": "A loss restored from its own saved state continues as the original", "statement": "A loss callback that loads (with all flags) the state dict of another one of the same configuration has the same network, optimizer, learning rate schedule position and logged values as the original, and (temperature loss) the same temperature and target entropy.", "quantifier": "every state of the original, every state of the restored object", "why_tests_cant": "a test sees single states; what is missing in a state dict shows only for histories that changed that part", "anchors": ["emote/callbacks/loss.py: state_dict, load_state_dict", "emote/algorithms/sac.py: AlphaLoss.state_dict, load_state_dict"]}
{"id": "C83", "title": "Load flags are respected", "statement": "Loading a state dict without load_weights leaves the weights as they were, without load_optimizers the optimizer, without load_hparams everything else, for every loss including the temperature loss, also when loading fails.", "quantifier": "every combination of flags, every saved state, every current state", "why_tests_cant": "all combinations of flags with all states and failures", "anchors": ["emote/callbacks/loss.py: load_state_dict", "emote/algorithms/sac.py: AlphaLoss.load_state_dict"]}
{"id": "C84", "title": "A traced lock accounts for all time", "statement": "After any use of one traced lock by any threads, once all blocks have ended, the recorded waiting time is the sum of the times each block waited for the lock and the recorded execution time is the sum of the times each block held it.", "quantifier": "every number of threads, blocks, and interleavings, any passage of time", "why_tests_cant": "lost updates appear only in particular interleavings of two exits", "anchors": ["emote/utils/threading.py:118-135"]}
{"id": "C85", "title": "Block timers attribute each block's duration to its own name", "statement": "For any sequence of timed blocks entered through one block-timer object, the statistics reported for a name are those of the durations of exactly the blocks entered under that name, each from its own entry to its own exit.", "quantifier": "every nesting and order of blocks and names, every passage of time", "why_tests_cant": "nested and recursive use with arbitrary names and durations", "anchors": ["emote/utils/timed_call.py: TimedBlock, BlockTimers"]}
{"id": "C86", "title": "A model rollout follows the model from each agent's own observation", "statement": "In the model environment an agent's next observation and reward are what the dynamics model predicts from the observation last reported for this agent and its action.", "quantifier": "every model, every sequence of resets and steps, every agent including those started inside a step", "why_tests_cant": "only shows after an episode ended inside a batch of environments, for particular models", "anchors": ["emote/models/model_env.py: dict_step, dict_reset, step, reset"]}
{"id": "C87", "title": "Scaled frames lie in the declared observation space", "statement": "The observations of the frame-scaling wrapper lie in the observation space that it declares, keep the order of the pixel values and lose no information.", "quantifier": "every pixel value", "why_tests_cant": "a range over all values of all frames", "anchors": ["emote/env/wrappers.py: ScaledFloatFrame"]}
{"id": "C88", "title": "Encoders report the size they produce", "statement": "Whenever a convolutional encoder accepts an input of the shape it was made for, get_encoder_output_size returns the shape of its output (or its number of elements with flatten).", "quantifier": "every input shape, every list of channels, kernels, strides and paddings, both channel orders", "why_tests_cant": "rounding depends on the combination of all sizes and strides; a test sees a few", "anchors": ["emote/nn/layers.py: Conv2dEncoder, Conv1dEncoder"]}
{"id": "C89", "title": "The AMP reward judges each step by its own transition", "statement": "With the AMP reward callback, the reward of each row of a batch of rollouts is increased by the weighted style reward of the transition from the row's own state to the state that followed it in the same rollout (after the last row: the final observation of that rollout); batches that are not made of whole rollouts are refused.", "quantifier": "every rollout length, number of rollouts, weight, state mapping, row-wise discriminator, batch", "why_tests_cant": "index arithmetic over all rollout lengths and rows", "anchors": ["emote/algorithms/amp.py: AMPReward.begin_batch"]}
{"id": "C90", "title": "Adversarial rewards are bounded by their weight", "statement": "The reward added by the AMP reward lies between 0 and its weight, the one added by the action symmetry reward between 0 and twice its weight; it is largest exactly when the discriminator is fooled and zero when it is not.", "quantifier": "every discriminator, every prediction, every batch", "why_tests_cant": "holds or fails for ranges of real numbers that a discriminator reaches only in some training runs", "anchors": ["emote/algorithms/amp.py: AMPReward.begin_batch", "emote/algorithms/action_symmetry.py: ActionSymmetryAMPReward.begin_batch"]}
{"id": "C91", "title": "The policy's log-probability is that of its action", "statement": "In training the Gaussian policy head returns actions in (-1, 1) together with the logarithm of the probability density of exactly this action under the policy; in evaluation the same noise gives the same action.", "quantifier": "every output of the network, every number of action dimensions, every noise", "why_tests_cant": "a statement about a probability density over a continuum; sampling can only give statistical evidence", "anchors": ["emote/nn/gaussian_policy.py: GaussianPolicyHead.forward"]}
{"id": "C92", "title": "The auto-encoder's KL loss is the KL divergence", "statement": "The kl_loss that the variational auto-encoder reports and trains with is the Kullback-Leibler divergence of the distribution its latent values are drawn from to the standard normal distribution.", "quantifier": "every mean and log standard deviation, every latent size", "why_tests_cant": "a wrong formula gives plausible numbers that vanish in the right place; only the identity for all values tells", "anchors": ["emote/algorithms/genrl/vae.py: VariationalAutoencoder.loss, forward"]}
{"id": "C103", "title": "The dynamics ensemble's variance is bounded", "statement": "The log variance that the ensemble of Gaussians predicts lies between its lower and upper bound whatever the network outputs, grows with the network's output, and samples are drawn from the normal distribution with the averaged mean and log variance.", "quantifier": "every network output, every bounds, every number of members", "why_tests_cant": "a statement over all real network outputs", "anchors": ["emote/models/ensemble.py: EnsembleOfGaussian.default_forward, forward, sample"]}
{"id": "C104", "title": "The ensemble's loss is the negative log-likelihood", "statement": "Minimising the ensemble's loss maximises the likelihood of the targets: the loss is the sum over members of the average negative log-likelihood of the targets under the predicted normal distributions, up to a constant, plus the weighted distance of the log variance bounds.", "quantifier": "every prediction and target, every number of members, rows and outputs, bounds above the threshold of torch's loss", "why_tests_cant": "an identity over all real numbers", "anchors": ["emote/models/ensemble.py: EnsembleOfGaussian.loss"]}
{"id": "C77", "title": "What is sampled is what the agents experienced", "statement": "A memory proxy in front of a one-step replay table (DictObsMemoryTable), fed by any environment with any number of agents whose calls interleave with samples and resizes: every window of every delivered batch is a run of consecutive transitions that one agent made in one episode. Its observations are what the agent saw, its actions are what it answered to them, its rewards and next observations are those of the agent's next step, and its done flags and masks tell whether that step ended the episode. With FIFO ejection the table holds exactly the most recently ended episodes that fit, and no call of the environment is refused.", "quantifier": "every environment and number of agents, every interleaving of calls with samples and resizes, every sampler, ejector and draw, every window length up to the minimum episode length", "why_tests_cant": "the path goes through proxy, table, columns and adaptors; unit tests exercise each with a few hand-written rows, and a shift by one row or a mix of two agents only shows for particular interleavings and draws", "anchors": ["emote/memory/memory.py: MemoryTableProxy.add", "emote/memory/table.py: ArrayMemoryTable.add_sequence, ArrayMemoryTable.sample", "emote/memory/builder.py: DictObsMemoryTable", "emote/memory/adaptors.py: DictObsAdaptor, TerminalAdaptor"]}
{"id": "C94", "title": "Synthetic transitions are predictions of the model", "statement": "Every transition that the model-based collector puts into its memory, and so every row sampled from that memory, is one that the dynamics model predicted: the next observation and the reward are the model's answer for the row's observation and action.", "quantifier": "every model, policy and reward and termination function (which may change with every step), every number of environments, rollout schedule, number of batches, interleaving with samples of the memory", "why_tests_cant": "the mismatch only appears when the termination function fires in the middle of a rollout, for one row among many", "anchors": ["emote/models/callbacks.py: ModelBasedCollector", "emote/models/model_env.py: dict_step, dict_reset"]}
{"id": "C106", "title": "A batch brings rollout length times environments transitions", "statement": "Each batch of the model-based collector delivers exactly (rollout length) times (number of environments) transitions to its memory, whenever episodes end inside the rollouts; with FIFO ejection it never fails, provided that the memory is large enough for an episode and the schedule does not shrink it.", "quantifier": "every schedule, model, policy, termination function, number of environments and batches", "why_tests_cant": "a count over all ways in which episodes can end inside rollouts, through environment, proxy and table", "anchors": ["emote/models/callbacks.py: ModelBasedCollector.begin_batch, collect_sample, update_rollout_size"]}
{"id": "C107", "title": "The collector's memory proxy does not grow without bound", "statement": "The number of unfinished episodes that the memory behind the model-based collector keeps is bounded over the whole training.", "quantifier": "every number of batches", "why_tests_cant": "a leak of a few entries per batch is not visible in a short test", "anchors": ["emote/models/callbacks.py: ModelBasedCollector.begin_batch", "emote/memory/memory.py: MemoryTableProxy.add"]}
{"id": "C80", "title": "Training waits for data, and only for data", "statement": "Before training starts, the warmup blocks until the memory holds enough transitions for one batch of its loader, and returns at the first look that finds them. While it waits, pending model exports are processed once per round. A shutdown request during the wait ends the training with a shutdown, and nothing else ends the wait except an exception from an export or from the signal itself.", "quantifier": "every loader, every sequence of table sizes, export outcomes and shutdown signals, of any length", "why_tests_cant": "the wait depends on what other threads do at each look; a test sees one timing", "anchors": ["emote/memory/memory.py: MemoryWarmup.begin_training, MemoryLoader.is_ready"]}
{"id": "C108", "title": "A memory that is ready stays ready", "statement": "Once the memory has held enough transitions for a batch, the loader never again fails for lack of data, whatever is added, ejected or sampled afterwards.", "quantifier": "every history of adds, resizes and samples, every ejection strategy and its draws, every batch size", "why_tests_cant": "it fails only for particular combinations of capacity, episode lengths and ejection order", "anchors": ["emote/memory/memory.py: MemoryWarmup, MemoryLoader", "emote/memory/table.py: ArrayMemoryTable.add_sequence, ArrayMemoryTable._eject_count"]}
{"id": "C93", "title": "Batches are mixed with the scheduled probability", "statement": "In every training step the batch sampler provides a batch for the RL callbacks: with the probability that its schedule has for that step a new batch from the model buffer, otherwise the batch that the trainer got; nothing else in the trainer's state changes. The choices of different steps are independent, so in the long run the share of batches from the model buffer is the last value of the schedule. A step that fails because the model buffer has not enough data does not spoil later steps.", "quantifier": "every schedule, random number, state of the trainer and of the buffer, every number and outcome of earlier steps", "why_tests_cant": "the choice is random, and recovery needs a particular order of failures", "anchors": ["emote/models/callbacks.py: BatchSampler"]}
{"id": "C99", "title": "A final check passes only if the result is good", "statement": "A run that ends quietly at a final loss (or reward) check has the losses of all its callbacks at or below their cutoffs (the reward at or above).", "quantifier": "every list of callbacks and cutoffs, every logged value", "why_tests_cant": "the check is itself a test; what it lets through depends on values no test enumerates, such as NaN", "anchors": ["emote/callbacks/testing.py: FinalLossTestCheck, FinalRewardTestCheck"]}
{"id": "C105", "title": "The progress check passes only if the model improved", "statement": "A run that ends quietly at the loss progress check has a model whose prediction errors did not grow in the course of the run; it ends with an error exactly if an average over a tenth of the run is larger than four tenths before.", "quantifier": "every length of the run and every sequence of errors", "why_tests_cant": "a statement over all sequences of errors", "anchors": ["emote/models/callbacks.py: LossProgressCheck"]}
{"id": "C98", "title": "Reports contain what was logged", "statement": "Each report to Tensorboard or Weights & Biases contains every number that the callbacks have logged, under a tag made of its key, and different keys never share a tag: the last value of a scalar, the mean of the last numbers of a windowed scalar and their total; and the training rates. A report fails only if a window is empty or no time has passed.", "quantifier": "every set of callbacks, keys and logged values", "why_tests_cant": "the tags are made by string operations; a collision needs particular keys", "anchors": ["emote/callbacks/logging.py: TensorboardLogger", "emote/callbacks/wb_logger.py: WBLogger", "emote/mixins/logging.py: LoggingMixin"]}
{"id": "C100", "title": "The target encoder follows the encoder", "statement": "With a projection layer, the target's projection weights equal the encoder's when CURL training begins, and after every batch each has moved by the fraction tau towards the encoder's current weight; no other weight is changed by this.", "quantifier": "every pair of layers, tau, every number of batches and whatever the optimizer does to the encoder in between", "why_tests_cant": "a test of the update function does not see that the callback hands it used-up generators", "anchors": ["emote/nn/curl.py: CurlLoss.__init__, CurlLoss.end_batch, soft_update_from_to"]}
{"id": "C101", "title": "Cutout removes one rectangle of the requested size", "statement": "For relative sizes 0 <= min <= max < 1 the augmentation never fails; each image of the batch has one axis-parallel rectangle inside it set to zero, whose sides are a common fraction between min and max of the image's sides (rounded down), and is unchanged elsewhere. Every place of the image can be cut.", "quantifier": "every image size and content, batch size, mode and random draw", "why_tests_cant": "positions and sizes are random; borders are hit rarely", "anchors": ["emote/nn/curl.py: ImageAugmentor"]}
{"id": "C109", "title": "The CURL loss is the contrastive loss", "statement": "The loss of a batch is the mean over the anchors of the negative log of the softmax weight of their own positive among all positives, with bilinear similarity, divided by the temperature in the temperature variant. Subtracting the maxima for stability does not change it.", "quantifier": "every batch, latent size, encoding, matrix W and temperature", "why_tests_cant": "a numeric test compares one batch; the failing variant is right for a batch of one and for symmetric maxima", "anchors": ["emote/nn/curl.py: CurlLoss._loss"]}
{"id": "C95", "title": "Loading a state into a generative model", "statement": "Loading a state into a wrapped encoder or decoder sets every parameter that the state names to the state's value and keeps the others; if it names none, loading fails and nothing changes. A strict load (the default) reports parameters that the state does not name.", "quantifier": "every set of parameters and every state", "why_tests_cant": "tests load a complete state; partial ones are accepted silently", "anchors": ["emote/algorithms/genrl/wrappers.py: DecoderWrapper.load_state_dict, EncoderWrapper.load_state_dict"]}
{"id": "C96", "title": "The memory behind an encoder holds codes", "statement": "A memory proxy with an encoder stores the same episodes as without it, with every action replaced by the encoder's code of this action in this observation; nothing else changes. So in a sampled batch the action of each row is the code of the action taken in the observation of the same row.", "quantifier": "every encoder, any number of agents and interleaving, every length of the history, every sampled batch", "why_tests_cant": "the pairing of action and observation across agents, episodes and windows needs all interleavings", "anchors": ["emote/algorithms/genrl/proxies.py: MemoryProxyWithEncoder.add"]}
{"id": "C97", "title": "A legacy dump is loaded completely and correctly", "statement": "Loading a legacy memory dump gives the memory every ended episode of the dump with more than ten steps, in order, each under its own identity, with exactly its observations, actions and rewards and with the observation seen after its last step; the memory can be sampled afterwards.", "quantifier": "every dump and every memory", "why_tests_cant": "a test loads one file; slices and identities go wrong at episode and file ends", "anchors": ["emote/memory/loading.py: fill_table_from_legacy_file", "emote/memory/table.py: ArrayMemoryTable.add_sequence"]}
{"id": "C102", "title": "Truncated normal numbers", "statement": "The initialiser ends with probability one; afterwards every entry is within two standard deviations of the mean, entries are independent, and each has the normal law conditioned to these bounds.", "quantifier": "every tensor size, mean and positive standard deviation; all random draws", "why_tests_cant": "the law of the result is not observable in finitely many samples", "anchors": ["emote/utils/math.py: truncated_normal_"]}
{"id": "C110", "title": "A loss updates its own parameters, from its own gradient", "statement": "On each batch, the parameters of a loss move by one optimizer step on the gradient of that loss alone, scaled down to norm max_grad_norm if it is longer and not touched otherwise. Gradients left behind by other losses or earlier batches have no effect; other parameters and the state of other losses do not change, even when the losses share parameters in their computation.", "quantifier": "any number of losses, any order of batches and losses, any optimizer, any left-over gradients", "why_tests_cant": "tests run one loss on one network; left-over gradients only arise in combinations", "anchors": ["emote/callbacks/loss.py: LossCallback.backward"]}
{"id": "C111", "title": "Logged values of a loss step", "statement": "After each batch the logs hold the value of the loss, the norm of its gradient before clipping, and the learning rate that this step used.", "quantifier": "every loss, optimizer, schedule and batch", "why_tests_cant": "a constant learning rate, as in tests, hides which step the logged one belongs to", "anchors": ["emote/callbacks/loss.py: LossCallback.backward"]}
{"id": "C112", "title": "The temperature follows the entropy", "statement": "The temperature is multiplied each batch by the exponential of learning rate times (target entropy minus mean entropy), clipped as gradients are, and capped at the maximum: it rises exactly when the policy's entropy is below the target and it is below the cap, and falls exactly when it is above. It is always positive and at most the maximum; scheduled targets take effect one batch after the other.", "quantifier": "every batch of log probabilities, target schedule, rate and maximum; plain gradient descent", "why_tests_cant": "the sign of the update and the cap interact over long runs", "anchors": ["emote/algorithms/sac.py: AlphaLoss.loss, AlphaLoss.end_batch"]}
{"id": "C113", "title": "The discriminator's objective", "statement": "The discriminator loss is the mean squared error to +1 on positive and -1 on negative samples plus the weighted mean squared norm of the gradient of its output at the positive samples. It is zero exactly for a discriminator that is flat and right on the batch, and without penalty the best output at a sample is (p - q) / (p + q) for its frequencies p and q.", "quantifier": "every network, batch of positive and of negative samples, weight and number of features", "why_tests_cant": "tests use one network that treats rows separately", "anchors": ["emote/algorithms/amp.py: gradient_loss_function, DiscriminatorLoss.loss", "emote/algorithms/action_symmetry.py: ActionSymmetryDiscriminatorLoss.loss"]}
{"id": "C114", "title": "A run goes on from the last export", "statement": "If exports of memories are made one after the other and the process is killed or the power fails at any point of one of them, the importer with the same directory and name restores the memory of its last complete export, or of the one being made: same contents and same behaviour from then on. Memories with other names never interfere. Only if nothing was exported under its name does the importer raise FileNotFoundError.", "quantifier": "any number of memories and exports, any point of interruption, any lost writes, every later use of the memory", "why_tests_cant": "crashes at every point, together with every history of the memory, cannot be enumerated", "anchors": ["emote/memory/callbacks.py: MemoryImporterCallback.restore_state", "emote/memory/memory.py: MemoryExporterProxyWrapper.add", "emote/memory/table.py: ArrayMemoryTable.store, ArrayMemoryTable.restore"]}
{"id": "C115", "title": "The loss of Q-learning", "statement": "The DQN loss of a batch is the mean squared difference between the targets and the network's values of the actions taken; values of other actions do not matter. It is least exactly if the value of each observation and action is the mean of the targets of the rows with both. Actions that are no valid index raise.", "quantifier": "every batch, number of actions, network output and targets", "why_tests_cant": "a test compares one batch; which outputs matter and what the minimum is are statements about all of them", "anchors": ["emote/algorithms/dqn.py: QLoss.loss"]}
{"id": "C116", "title": "Q-learning finds the best behaviour", "statement": "With one-step targets, if every batch holds each action in each observation and the network is fitted exactly, the target network converges to the best discounted return obtainable in the (deterministic) environment, with distance shrinking by the factor 1 - tau (1 - gamma) per batch; after finitely many batches every action that looks best is best.", "quantifier": "every finite deterministic environment, start, tau in (0, 1], gamma in [0, 1), reward scale, and sequence of complete batches", "why_tests_cant": "convergence is a statement about infinite runs", "anchors": ["emote/algorithms/dqn.py: QTarget.begin_batch, QTarget.end_batch, QLoss.loss", "emote/algorithms/sac.py: soft_update_from_to", "emote/utils/gamma_matrix.py: discount"]}
{"id": "C117", "title": "What the policy of soft actor-critic is trained towards", "statement": "The expected policy loss is the mean over the batch of alpha times the Kullback-Leibler divergence of the law of the policy's actions from the law with density proportional to exp(Q / alpha), minus a term that does not depend on the policy; Q is the smaller one of the critics' values if there are two. So the loss is least exactly when the policy acts with that law in every observation.", "quantifier": "every batch, number of action dimensions, network state, temperature, and measurable bounded critics", "why_tests_cant": "the expectation is over continuous noise and the critics are arbitrary functions", "anchors": ["emote/algorithms/sac.py: PolicyLoss.loss", "emote/nn/gaussian_policy.py: GaussianPolicyHead.forward"]}
{"id": "C118", "title": "A saved dynamics model predicts as before", "statement": "A dynamics model that is saved and loaded into a newly made one (by its own file, or through its state dict in a checkpoint) gives the same predictions for the same inputs and random numbers.", "quantifier": "every network, data seen in training, inputs and random numbers", "why_tests_cant": "the numbers lost by saving depend on all the batches that were seen; a test would have to train first and compare every output", "anchors": ["emote/models/model.py: DynamicModel.save, load, sample", "emote/models/ensemble.py: EnsembleOfGaussian.save, load", "emote/callbacks/loss.py: LossCallback.state_dict"]}
{"id": "C119", "title": "The members of an ensemble are networks of their own", "statement": "What an ensemble predicts for a row is the average of what its members predict for that row, each with its own parameters only; the other rows of the batch do not matter. Its loss is the sum of the losses of the members on their own plus the penalty for the bounds, so the derivatives by the parameters of a member are those of that member's own loss.", "quantifier": "every number of members, layers and rows, all sizes, weights, inputs and targets", "why_tests_cant": "the sizes and weights are unbounded and an indexing mistake may only show for some shapes", "anchors": ["emote/models/ensemble.py: EnsembleLinearLayer.forward, EnsembleOfGaussian.default_forward, forward, loss, sample"]}
{"id": "C120", "title": "Members of an ensemble are trained independently", "statement": "Training an ensemble on a sequence of batches changes each member as if this member were trained alone on these batches.", "quantifier": "every ensemble, sequence of batches, limit on the gradient and learning rates", "why_tests_cant": "the members interact only in some states, which depend on the lengths of all gradients", "anchors": ["emote/models/callbacks.py: ModelLoss", "emote/callbacks/loss.py: LossCallback.backward", "emote/models/ensemble.py: EnsembleOfGaussian.loss"]}
{"id": "C121", "title": "Predictions of the deterministic model", "statement": "The deterministic dynamics model gives a prediction for every batch, the prediction for a row does not depend on the other rows, and predicting does not change the model.", "quantifier": "every model, batch size and batch", "why_tests_cant": "independence of the other rows is a statement about all batches", "anchors": ["emote/models/model.py: DeterministicModel.forward, sample"]}
{"id": "C122", "title": "A memory may be shared by threads", "statement": "Several threads use one memory at the same time, with any of its calls: adding episodes, sampling, asking for its size or whether it is full, resizing, clearing, exporting and importing. However their steps are interleaved: all answers are those of some order of the calls, one after the other, that respects which call was over before which began; every thread can always finish its calls. With ordinary clients (complete episodes that fit, distinct identities, windows no longer than the shortest episode) every add succeeds, every size is within the capacity and every batch consists of windows of episodes that were added, never of a mixture of an old and a new episode.", "quantifier": "all numbers of threads, all lists of calls per thread, all interleavings of the single reads and writes of the memory, all tables and adaptors", "why_tests_cant": "an error needs a switch of threads between two particular reads or writes; a test sees only the interleavings that happen on one machine", "anchors": ["emote/memory/table.py:100-125", "emote/memory/table.py:196-260", "emote/memory/table.py:280-449"]}
{"id": "C123", "title": "A value network trained with HL-Gauss returns the target", "statement": "If the logits have the smallest HL-Gauss loss for a target, then the value read from them is the target: exactly in the middle of the range, elsewhere up to a distance that depends on the width of the bins and on the smoothing ratio only; a target outside of the range is replaced by the nearest value of the range.", "quantifier": "all ranges, numbers of bins, smoothing ratios, targets and logits of smallest loss", "why_tests_cant": "that the value is right for all targets and numbers of bins is a statement about real functions; tests read a few values with a tolerance", "anchors": ["emote/algorithms/hlgauss.py: QNet.q_from_logit", "emote/algorithms/hlgauss.py: HLGaussLoss", "emote/algorithms/hlgauss.py: QLoss.loss"]}
{"id": "C124", "title": "The built-in networks treat each row for itself", "statement": "The Gaussian policy gives, for each row of a batch, the action (and in training mode its log-probability) for that row's observation and that row's noise only, the same function in training and in evaluation mode; the action value network gives one value for each row from its own observation and action. So an agent's action does not depend on which other agents are in the batch. Sizes that do not fit are refused, and a network without hidden layers cannot be made.", "quantifier": "all sizes, all parameters, all batches, all drawn numbers, all sets of agents", "why_tests_cant": "independence of rows is a statement about all other rows; tests compare a few batches", "anchors": ["emote/nn/gaussian_policy.py: GaussianMlpPolicy", "emote/nn/gaussian_policy.py: GaussianPolicyHead", "emote/nn/action_value_mlp.py: ActionValueMlp", "emote/proxies.py: GenericAgentProxy.__call__"]}
{"id": "C125", "title": "A wrapped agent proxy answers as the one inside", "statement": "An agent proxy behind AgentProxyWrapper can take the place of the one inside: it has the same input and output names, and calling it returns what the one inside returns.", "quantifier": "all proxies, all observations", "why_tests_cant": "a wrapper must be transparent for every proxy and every call", "anchors": ["emote/algorithms/sac.py: AgentProxyWrapper"]}
{"id": "C126", "title": "An exported file computes what the policy computed when it was exported, and exporting disturbs nothing", "statement": "A file has the agent proxy's inputs in their order with the shapes of the spaces (and epsilon last, if wanted). Run on arguments given by name it computes what the live policy computed, in evaluation mode, at the moment of the export; later training and later exports do not change it. For the built-in Gaussian policy with epsilon in place of its drawn noise it returns the live policy's training actions. An export leaves the live policy, its mode included, as it is, and has no influence on what is trained afterwards.", "quantifier": "all networks, all spaces, all sequences of training steps and exports, successful or not, all arguments", "why_tests_cant": "tests compare one export of one network with one input; that later training is unaffected is a statement about all later steps", "anchors": ["emote/callbacks/onnx_exporter.py: OnnxExporter.__init__", "emote/callbacks/onnx_exporter.py: OnnxExporter._trace", "emote/callbacks/onnx_exporter.py: OnnxExporter._export_onnx", "emote/nn/gaussian_policy.py: GaussianPolicyHead.forward"]}
{"id": "C127", "title": "The system logger reports memory growth per step", "statement": "Each report of the system logger gives the resident memory in megabytes, the processor load, and the growth of the memory since the report before (for the first report: since the start) divided by the number of steps in between. A report without a new step leaves the growth as it was.", "quantifier": "all sequences of readings, all beginnings", "why_tests_cant": "needs all sequences of readings, resumed runs included", "anchors": ["emote/callbacks/system_logger.py: SystemLogger.end_cycle"]}
{"id": "C128", "title": "The actor-critic losses of SAC are those of soft policy iteration", "statement": "A critic has the least expected loss on every batch exactly if its value for each observation and action is the expected target: the scaled reward and, unless the episode ended and ends are masked, the discounted expectation of the smaller of the target networks' values for the policy's next action with the entropy bonus. For a policy that stays as it is, both target networks come closer to one and the same soft value with each round of fitting and soft updating, at least by the factor 1 - tau (1 - gamma). A policy whose expected loss with this value as critic is nowhere larger has a soft value that is nowhere smaller, and one that cannot be improved has the largest soft value of all.", "quantifier": "all environments with finitely many observations and bounded rewards and continuous actions, all built-in policies, all discounts below 1, all tau in [0, 1], all temperatures, all numbers of rounds", "why_tests_cant": "a statement about expectations over continuous actions and about limits of training; tests run a few steps", "anchors": ["emote/algorithms/sac.py: QTarget.loss", "emote/algorithms/sac.py: QTarget.end_batch", "emote/algorithms/sac.py: QLoss.loss", "emote/algorithms/sac.py: PolicyLoss.loss"]}
{"id": "C129", "title": "The logging wrapper writes what was reported, when it is due", "statement": "Of the calls that hand observations to a logging wrapper, those whose number is a multiple of the interval write, and the others write nothing. What is written is exactly: for each metric that any observation has reported so far the mean of the last values (1000, or as many as its name asks for) and the total of all values; rewards of episodes also by the number of episodes; for each histogram the last values; the observations per second since the last time and since the start; the episodes that ended; and the timings; each with the number of observations (or of episodes) so far, those before a resumption counted too, under the name of the metric.", "quantifier": "all sequences of observations with any metadata, all intervals, all saved counts, all wrapped proxies", "why_tests_cant": "needs all sequences of reports, of any length, with any names and window lengths; tests look at one or two metrics after a few calls", "anchors": ["emote/memory/memory.py: LoggingProxyWrapper.add", "emote/memory/memory.py: LoggingProxyWrapper._end_cycle", "emote/memory/memory.py: LoggingProxyWrapper.load_state_dict", "emote/mixins/logging.py: LoggingMixin.log_windowed_scalar"]}
{"id": "C130", "title": "A resumed run of soft actor-critic learns what the uninterrupted run would have learned", "statement": "A process that loads the last checkpoint of a run of soft actor-critic and goes on with the batches that follow has, after any number of them, the networks, target networks, temperature, optimizers and logs that the first process would have had, whatever random parameters it was made with.", "quantifier": "all networks, losses and optimizers, all orders of the losses, all initial parameters, all sequences of batches, all checkpoint intervals and all numbers of batches before and after", "why_tests_cant": "equality of two runs for all lengths and all parameters; a test would compare a few numbers after a few steps, and the parts that are not restored show only there", "anchors": ["emote/algorithms/sac.py: QTarget.__init__", "emote/algorithms/sac.py: AlphaLoss.load_state_dict", "emote/callbacks/checkpointing.py: Checkpointer.end_cycle", "emote/callbacks/checkpointing.py: CheckpointLoader.restore_state", "emote/callbacks/loss.py: LossCallback.load_state_dict", "emote/trainer.py: Trainer.train"]}
{"id": "C131", "title": "Which parameters each update of soft actor-critic uses", "statement": "In every batch the target is made from the policy, the temperature and the target networks as they were before the batch, and both critics are moved towards that target. The policy is updated with the critics and the temperature of this batch as far as their losses were given to the trainer before it, otherwise with those from before, and the temperature with the new policy if that loss was given first. The temperature is clamped and the target networks are mixed with the new critics only when all losses have been computed.", "quantifier": "all networks, losses and optimizers, all orders of the four losses, all batches of all runs", "why_tests_cant": "it is about every batch and all 24 orders of the callbacks; a test with one order and fixed networks cannot tell which version of the parameters was used", "anchors": ["emote/algorithms/sac.py: QTarget.begin_batch", "emote/algorithms/sac.py: QTarget.end_batch", "emote/algorithms/sac.py: AlphaLoss.end_batch", "emote/algorithms/sac.py: PolicyLoss.loss", "emote/trainer.py: Trainer.train"]}
{"id": "C132", "title": "The target of a sampled transition is the n-step return of what its agent experienced", "statement": "For every batch of windows of n transitions drawn from a table of the builder (the n-step one, or either with n = 1) that is filled by agents through the proxy, the targets of soft actor-critic and of deep Q-learning are computed for every row, in the order of the observations and actions: window by window there is a run of n+1 consecutive steps of one agent in one episode, and the target of row j is the sum of the scaled rewards the agent got after its steps j to n-1, discounted by their distance, plus the discounted value (soft value of the policy's action, smaller of the two target networks; or best action) of what the agent saw at the end of the run. That value is dropped exactly if the episode ended there (with soft actor-critic only if terminal masking is asked for).", "quantifier": "all environments, agents, interleavings with samples and resizes, samplers, ejectors, draws, batch sizes, window lengths, networks, discounts and scales", "why_tests_cant": "it joins proxy, table, sampling, virtual columns, adaptors, rollout splitting and the gamma matrix: an off-by-one between any two of them (the next observation of the wrong row, the mask of the wrong step) gives targets of the right shape, and a test sees only few windows", "anchors": ["emote/algorithms/sac.py: QTarget.begin_batch", "emote/algorithms/dqn.py: QTarget.begin_batch", "emote/memory/builder.py: DictObsNStepMemoryTable", "emote/memory/storage.py: NextElementMapper", "emote/utils/gamma_matrix.py: discount"]}
{"id": "C133", "title": "A batch of CURL leaves the images of the batch alone and trains on two augmented copies", "statement": "A CURL loss never changes the images it is given, whether it succeeds or raises, so losses that run after it see the images of the memory. It makes one optimizer step on the contrastive loss between an augmented copy and a second copy (independently augmented, or plain): noise is added to all images of a copy or to none, and one rectangle of the allowed size is cut out of each. The target encoder does not change in the step. The images that are logged are the first of the batch and the first of both copies as they were used.", "quantifier": "all batches, image sizes, modes of augmentation, random draws, networks and optimizers", "why_tests_cant": "cutting out works in place on tensors that are shared with the other losses; whether a copy is missing on one of the paths (noise makes one, otherwise not) shows only in the interplay with losses that come later", "anchors": ["emote/nn/curl.py: CurlLoss.backward, ImageAugmentor.__call__, ImageAugmentor._maybe_add_noise"]}
{"id": "C134", "title": "CURL ignores desired_zdim if there is no projection layer", "statement": "As documented, without a projection layer the result of a batch does not depend on desired_zdim.", "quantifier": "all sizes of encoders and values of desired_zdim", "why_tests_cant": "the combination of the flag with all sizes of encoders is not covered by any run", "anchors": ["emote/nn/curl.py: CurlLoss.__init__, CurlLoss._loss"]}
{"id": "C135", "title": "A CURL loss comes back from a checkpoint", "statement": "A CURL loss that is built again with the same encoders and loaded from the state of another one computes the same losses.", "quantifier": "all weights, optimizer states and logs", "why_tests_cant": "the state dict of a loss looks complete and loads without complaint; only a comparison of all that the loss computes with shows what is not in it", "anchors": ["emote/nn/curl.py: CurlLoss.__init__", "emote/callbacks/loss.py: LossCallback.state_dict, LossCallback.load_state_dict"]}
{"id": "C136", "title": "Hooks get the arguments they declare in every subclass", "statement": "However many classes (and mixins) lie between a callback and Callback or LossCallback, the loop runs the most derived definition of each hook with the arguments it declares, data group included; hooks that no class defines do nothing; and a loss that only defines loss() gets its arguments in the backward phase. What the classes are called does not matter.", "quantifier": "all class hierarchies over Callback and LossCallback, all hooks, signatures, states and data groups", "why_tests_cant": "wrapping happens when an instance is constructed and compares qualified names along the hierarchy; tests define a handful of direct subclasses", "anchors": ["emote/callback.py: CallbackMeta.__init__, CallbackMeta.__call__, CallbackMeta.extend", "emote/callbacks/loss.py: LossCallback.backward, LossCallback.loss"]}
{"id": "C137", "title": "Batches hold what the gym environments went through", "statement": "With a GymCollector on top of a vector environment, whatever is sampled from the memory is a stretch of what one of the environment's slots really went through: observation, action, reward and next observation belong together and follow each other, the next observation at the end of an episode is its final observation and not the first one of the episode after it, and dones and masks tell whether the episode ended there. No round is refused by the memory.", "quantifier": "all vector environments, agents, numbers of slots, tables, interleavings of rounds, resets, resizes and samples, window lengths and random draws", "why_tests_cant": "slots reset themselves inside a step and agent ids are renewed on the way; a mix-up of rows only shows in the values of particular transitions", "anchors": ["tests/gym/dict_gym_wrapper.py: DictGymWrapper.dict_step, DictGymWrapper.dict_reset", "tests/gym/collector.py: GymCollector.collect_data, GymCollector.begin_training", "emote/memory/memory.py: MemoryTableProxy.add", "emote/memory/table.py: ArrayMemoryTable.sample"]}
{"id": "C138", "title": "No finished gym episode is lost", "statement": "When the episode of a slot ends after the last reset of the environment, the next round of collect_data puts it into the memory: all of it, from its first observation to its final one, every transition in order and once, as one sequence.", "quantifier": "all vector environments, agents and numbers of slots, all interleavings of rounds, resets, resizes and samples", "why_tests_cant": "requires following one slot over unboundedly many rounds while others end and start", "anchors": ["tests/gym/dict_gym_wrapper.py: DictGymWrapper.dict_step", "tests/gym/collector.py: GymCollector.collect_data", "emote/memory/memory.py: MemoryTableProxy.add"]}
{"id": "C139", "title": "The episode reward that is logged is that of the episodes that ended", "statement": "The value logged as episode/reward in a round is the mean, over the episodes that end in that round, of the sum of the rewards of each of them; nothing is logged if none ends.", "quantifier": "all vector environments, agents, numbers of slots and lengths of episodes, all interleavings of rounds and resets", "why_tests_cant": "sums are carried across rounds and slots, and cleared in one of two places; a test with one environment and one start does not see what is carried over a reset", "anchors": ["tests/gym/dict_gym_wrapper.py: DictGymWrapper.dict_step, DictGymWrapper.dict_reset", "tests/gym/collector.py: GymCollector.collect_data"]}
{"id": "C140", "title": "Truncated and terminated episodes are told apart", "statement": "An episode that the environment terminated goes to the memory with its last observation marked as terminal, and one that was cut off by a time limit with its last observation marked as interrupted.", "quantifier": "all vector environments, agents and numbers of slots, all interleavings of rounds and resets", "why_tests_cant": "the mark only matters for bootstrapping from the last value, and no test ends an episode by truncation", "anchors": ["tests/gym/dict_gym_wrapper.py: DictGymWrapper.dict_step", "emote/typing.py: EpisodeState", "emote/memory/memory.py: MemoryTableProxy.add"]}
{"id": "C141", "title": "inf_step counts the collected steps", "statement": "With a SimpleGymCollector, inf_step is at all times the number of environment steps that were collected since the start of training, warm-up included.", "quantifier": "all environments, numbers of slots, warm-up lengths, intervals between collections and sequences of batches", "why_tests_cant": "requires comparing two counters over all combinations of warm-up, interval and number of environments", "anchors": ["tests/gym/collector.py: SimpleGymCollector.begin_training, SimpleGymCollector.begin_batch"]}
{"id": "C142", "title": "Collecting in a thread is safe for sampling", "statement": "With a ThreadedGymCollector, a batch that is sampled at any moment, also in the middle of a round of the collecting thread, consists of stretches of what one of the environment's slots really went through, exactly as with a collector in the main thread. Between two rounds everything that ended is in the memory, in full and once, and the memory refuses nothing that fits.", "quantifier": "all vector environments, agents, numbers of slots and tables, all interleavings of the turns of the collecting thread with samples, resizes and the start and end of any number of trainings, all window lengths and random draws", "why_tests_cant": "the effect depends on the moment at which another thread samples", "anchors": ["tests/gym/collector.py: ThreadedGymCollector.collect_forever, ThreadedGymCollector.begin_training, ThreadedGymCollector.end_training", "tests/gym/dict_gym_wrapper.py: DictGymWrapper.dict_step", "emote/memory/memory.py: MemoryTableProxy.add", "emote/memory/table.py: ArrayMemoryTable.sample"]}
{"id": "C143", "title": "Ending the training ends the collection", "statement": "After end_training was called the environment is not stepped any more until the next begin_training, whatever else happens, and end_training returns: the thread ends after adding the episodes that it still has at hand.", "quantifier": "all states in which training can end, all environments, all interleavings with samples and resizes", "why_tests_cant": "termination of a thread at an arbitrary moment of its round", "anchors": ["tests/gym/collector.py: ThreadedGymCollector.collect_forever, ThreadedGymCollector.end_training"]}
{"id": "C144", "title": "The collector collects in every training", "statement": "From begin_training until end_training is called, the collecting thread goes on to step the environment: it does so again after a bounded number of its turns, whatever else happens.", "quantifier": "all lives of a collector, with any number of trainings, environments and interleavings", "why_tests_cant": "needs the same collector in more than one training", "anchors": ["tests/gym/collector.py: ThreadedGymCollector.begin_training, ThreadedGymCollector.collect_forever, ThreadedGymCollector.end_training"]}
{"id": "C145", "title": "Targets from environments to the loss", "statement": "When gym environments are collected into a memory, in a thread or in the main thread, every row of every sampled batch gets as its target, from DQN's and from SAC's target callback, the discounted return that one slot of the environment really had from that step to the end of the window, with the rewards it returned, plus the discounted value of what it showed after the window, or plus nothing if its episode ended there. The row itself has the observation that the slot showed and the action it was given at that step.", "quantifier": "all vector environments, agents, numbers of slots, tables and networks, all interleavings of the collecting thread with the samples, all window lengths, discount factors, reward scales and random draws", "why_tests_cant": "relates the loss to what happened in the environment through five components", "anchors": ["emote/algorithms/dqn.py: QTarget.begin_batch", "emote/algorithms/sac.py: QTarget.begin_batch", "tests/gym/collector.py: GymCollector.collect_data, ThreadedGymCollector.collect_forever", "tests/gym/dict_gym_wrapper.py: DictGymWrapper.dict_step", "emote/memory/memory.py: MemoryTableProxy.add", "emote/memory/table.py: ArrayMemoryTable.sample"]}
{"id": "C146", "title": "The Q-learning example explores as often as its rate says", "statement": "In every sequence of calls of the epsilon-greedy policy, whatever the environments do with the actions and however the network is trained between the calls, the actions have the probability that they should have: each row of each call gets a best action with probability 1 - e and on top of that each of the d actions with e / d, independent of all others, where e is the exploration rate after the calls made before. Each call gives one action for each row.", "quantifier": "all networks, environments and ways of training (values in a call are any function of the earlier actions), all numbers of calls and rows, all rates in [0, 1]", "why_tests_cant": "a law of probability over all sequences of calls, with generators that are read only when exploring", "anchors": ["experiments/gym/train_dqn_cartpole.py: DQNPolicy.forward"]}
{"id": "C147", "title": "The exploration rate decays within its duration", "statement": "After epsilon_decay_duration calls the exploration rate has gone from its initial value to its target.", "quantifier": "all initial and target rates and durations, all networks and environments, all calls after that many", "why_tests_cant": "needs the value after arbitrarily many calls", "anchors": ["experiments/gym/train_dqn_cartpole.py: DQNPolicy.__init__, DQNPolicy.forward"]}
{"id": "C148", "title": "With random ejection an episode that fits is stored with probability one", "statement": "Whatever the memory went through before and whichever ejection strategy it has, a call that adds a new episode no longer than the capacity returns normally with probability one after finitely many random draws, even though sequences to eject are drawn until there is room.", "quantifier": "all columns, capacities, histories of a table, strategies, episodes that fit, all laws of independent draws that give each stored non-empty sequence a chance", "why_tests_cant": "a loop that draws until it has enough ends only almost surely", "anchors": ["emote/memory/uniform_strategy.py: UniformEjectionStrategy.sample", "emote/memory/coverage_based_strategy.py: CoverageBasedEjectionStrategy.sample", "emote/memory/table.py: ArrayMemoryTable.add_sequence"]}
{"id": "C149", "title": "Random ejection picks without replacement in proportion to the weights", "statement": "The probability that random ejection picks given sequences in a given order is that of picking them one by one without putting any back, each with a probability proportional to its weight among what is left, until enough is freed; with uniform ejection the weight is the number of transitions. Nothing else is ever picked.", "quantifier": "all tracked sequences, requested amounts, weights, answers, independent draws", "why_tests_cant": "the law of the outcome of a rejection loop of unbounded length", "anchors": ["emote/memory/uniform_strategy.py: UniformEjectionStrategy.sample", "emote/memory/coverage_based_strategy.py: CoverageBasedEjectionStrategy.sample"]}
{"id": "C150", "title": "Uniformly sampled batches are independent and every transition is equally likely", "statement": "If the numbers that the random generators give are independent and uniform in [0, 1), then the probability of what any number of calls of the uniform sampler in a row return, with nothing added or ejected in between, is the product of the probabilities of the windows in it, each of which is that of its sequence (length over total) times one over the number of windows in the sequence. With single transitions, every stored transition is equally likely at every place of every batch, independent of all others. Whatever the numbers are, sampling succeeds and returns windows that the sampler is known to return.", "quantifier": "all tracked sequences, window lengths that no sequence is shorter than, batch sizes, numbers of batches, amounts of random numbers used before", "why_tests_cant": "a joint law of all windows of all batches", "anchors": ["emote/memory/uniform_strategy.py: _rebalance, UniformSampleStrategy.sample"]}
{"id": "C151", "title": "What is averaged over a uniformly sampled batch is an unbiased and consistent estimate of its average over the memory", "statement": "If the numbers that the random generators give are independent and uniform in [0, 1), then for any quantity that depends on a window of transitions (a loss, a component of a gradient), its average over a uniformly sampled batch has as expectation the average over the memory, and as variance the variance over the memory divided by the batch size; and over more and more batches the average tends to that over the memory with probability one. With single transitions, all stored transitions count the same in the average over the memory.", "quantifier": "all tracked sequences, window lengths that no sequence is shorter than, positive batch sizes, real functions of a window, amounts of random numbers used before", "why_tests_cant": "expectation, variance and almost sure limit over all sequences of random numbers", "anchors": ["emote/memory/uniform_strategy.py: _rebalance, UniformSampleStrategy.sample"]}
{"id": "C152", "title": "The rows of sampled batches estimate averages over the episodes that were added", "statement": "For a table with uniform sampling, let g be any quantity that depends on what all columns of a batch (with the next observations and masks that are computed) show for one window. If the generators' numbers are independent and uniform, then the expectation of the average of g over a sampled batch, and with probability one the limit of its average over more and more batches, is the average of g over the stored episodes as they were added. With first-in-first-out ejection these are the latest episodes that fit. For single transitions each stored transition counts the same.", "quantifier": "all tables, column layouts, histories of adds, resizes and samples, batch sizes, window lengths that no stored episode is shorter than, real functions of what the columns show", "why_tests_cant": "expectations and almost sure limits over all sequences of random numbers, after all histories of the memory", "anchors": ["emote/memory/table.py: ArrayTable.sample", "emote/memory/table.py: _execute_gather", "emote/memory/uniform_strategy.py: UniformSampleStrategy.sample", "emote/memory/fifo_strategy.py: FifoEjectionStrategy.sample"]}
{"id": "C153", "title": "A crash does not cost a finished checkpoint", "statement": "If a training run with a Checkpointer stops at any moment, because the process is killed or the machine loses power, every checkpoint that was finished before can be loaded, with the states and the training state of its moment; every other file on the disk, with older checkpoints of other indices, is as it was; and each checkpoint file that is found is complete.", "quantifier": "all histories of changes and checkpoints, all moments at which the run may stop (any beginning of a file may have been written), both kinds of crash, all objects that are saved, all file formats that refuse incomplete files", "why_tests_cant": "every moment of every run has to be considered as the moment of the crash, and every order in which the disk may have been written", "anchors": ["emote/callbacks/checkpointing.py: Checkpointer.end_cycle", "emote/callbacks/checkpointing.py: CheckpointLoader.restore_state"]}
{"id": "C154", "title": "What the coverage-based sampler returns, over any history", "statement": "Over any history of sequences being stored and ejected and batches being drawn, a coverage-based sampler draws every window independently of all others given the past: first a sequence, with a probability proportional to its length divided by (n + 1) to the power of alpha, n being how often it had been drawn up to the last change of what is stored; then one of the windows in it, each equally likely. A sequence that is ejected and stored again starts with no visits, one that is stored again while it is there keeps them. No draw fails.", "quantifier": "all histories, all real alpha, all lengths of sequences and windows, all outcomes, all numbers that the generators may give", "why_tests_cant": "a probability over the infinite stream of the generators' numbers, for every history and every possible outcome; frequencies can only suggest it", "anchors": ["emote/memory/coverage_based_strategy.py: CoverageBasedSampleStrategy.sample", "emote/memory/coverage_based_strategy.py: CoverageBasedStrategy._rebalance", "emote/memory/coverage_based_strategy.py: CoverageBasedStrategy.track", "emote/memory/coverage_based_strategy.py: CoverageBasedStrategy.forget"]}
{"id": "C155", "title": "A memory that samples and ejects at random, over any history", "statement": "Over any history of sequences being added to a bounded memory and batches being drawn from it, with sampling and ejection both at random from one generator, what is ejected and drawn has exactly the probability that it has if every step is a fresh random draw that depends on the past only through what is stored: to make room, stored sequences go one by one, each picked among those that are left with a probability proportional to its length, until enough is free and not longer; a batch picks every window independently, its sequence in proportion to length and then each window in it equally likely. Almost surely nothing fails and no ejection goes on forever, and what is stored then is what was added and not ejected, never more than the capacity.", "quantifier": "all histories of added sequences (new identities, not longer than the capacity, not shorter than the windows) and batches, all capacities, all outcomes, all numbers that the generators may give", "why_tests_cant": "how many numbers an ejection takes from the generator depends on these numbers, and the batches that follow read the same generator; the claim is about the joint law over the infinite stream, for every history", "anchors": ["emote/memory/uniform_strategy.py: UniformEjectionStrategy.sample", "emote/memory/uniform_strategy.py: UniformSampleStrategy.sample", "emote/memory/table.py: ArrayTable.add_sequence", "emote/memory/table.py: ArrayTable._eject_count"]}
{"id": "C156", "title": "Drawing with a sum segment tree follows the weights", "statement": "Indices drawn from a sum segment tree with `find_prefixsum_idx(x * sum())` for random numbers x in [0, 1) are what the documentation promises: each index is drawn with a probability proportional to the weight it has at that time, however weights are assigned between the draws, also depending on what was drawn before, and apart from that the draws are independent. No draw fails, an index without weight is never drawn, and while the weights stay the share of draws that each index gets tends to its share of the weights.", "quantifier": "all capacities that are powers of two, all numbers of draws, all ways of assigning non-negative weights between the draws such that not all are zero at a draw, all random numbers in [0, 1)", "why_tests_cant": "the claim is about probabilities, of every sequence of draws and for all adaptive changes of the weights; a test can draw many times from some trees", "anchors": ["emote/memory/segment_tree.py: SumSegmentTree.find_prefixsum_idx", "emote/memory/segment_tree.py: SumSegmentTree.sum", "emote/memory/segment_tree.py: SegmentTree.__setitem__"]}
{"id": "C157", "title": "Q-learning with gradient steps finds the best behaviour", "statement": "Training a DQN with `QTarget` and `QLoss` on transitions of a deterministic environment moves the network and the target network to the best discounted returns, whatever both networks hold at first, as long as each action keeps being tried in each observation; in the end the action with the highest value is a best action. Gradient clipping and the soft update of the target network slow this down but do not change where it ends. When the batches come from a memory with the uniform sampler that holds each action for each observation, this happens with probability one, however the memory was filled.", "quantifier": "all deterministic environments with finitely many observations and actions, all discount factors in [0, 1), reward scales, soft update rates in (0, 1], clipping norms, learning rates between a positive number and 1/2, all sequences of non-empty batches of bounded size, all networks to start with; for the memory all histories of additions and ejections and almost all random numbers", "why_tests_cant": "the claim is about the limit of infinitely many training steps, for all environments; a test can train on some environment for a while", "anchors": ["emote/algorithms/dqn.py: QTarget", "emote/algorithms/dqn.py: QLoss", "emote/callbacks/loss.py: LossCallback.backward", "emote/memory/table.py: ArrayTable.sample"]}
{"id": "C158", "title": "Scaling adaptors scale exactly their columns", "statement": "Adaptors that scale sampled data change the columns they are made for and nothing else: each row of a column is scaled once by each adaptor with its key, in the order of the adaptors, and no column is added, lost or moved. An adaptor whose column is not in the batch raises a KeyError instead of being skipped.", "quantifier": "all lists of scaling adaptors, also several with one key, and all batches", "why_tests_cant": "all combinations of adaptors and columns; a test runs one adaptor on one batch", "anchors": ["emote/memory/adaptors.py: KeyScaleAdaptor", "emote/memory/table.py: ArrayTable.sample"]}
{"id": "C159", "title": "A resumed run of Q-learning learns what the uninterrupted run would have learned", "statement": "A process that loads the last checkpoint of a run of Q-learning and goes on with the batches that follow has the network that the first process would have had, whatever parameters it was made with.", "quantifier": "all deterministic environments with finitely many observations and actions, all setups, all initial parameters of both processes, all batches before and after the checkpoint", "why_tests_cant": "equality of two runs for all parameters and numbers of batches; the part that is not restored shows only in later updates", "anchors": ["emote/algorithms/dqn.py: QTarget.__init__", "emote/algorithms/dqn.py: QTarget.end_batch", "emote/callbacks/loss.py: LossCallback.state_dict", "emote/callbacks/loss.py: LossCallback.load_state_dict", "emote/callback.py: Callback.state_dict"]}
{"id": "C160", "title": "What Q-learning makes of data that does not change", "statement": "A table of action values that is trained with deep Q-learning again and again on the same rows tends, whatever it starts with, to the only table in which the value of each action that occurs in the data is the average, over its occurrences, of the scaled reward plus the discounted value of the best action in the next observation (nothing if the episode ended). Actions that do not occur keep their initial value for ever, and the values of others are built on it. If the data comes from a deterministic environment and holds every action for every observation, the limit is the best discounted return.", "quantifier": "all data sets with finitely many observations and actions, including random outcomes and missing actions, all initial tables and target tables, all discounts below 1, all mixing rates, clipping norms and learning rate schedules between a positive number and 1/2", "why_tests_cant": "it is a limit of infinitely many updates and holds for all data sets; a test compares numbers after a few steps on one of them", "anchors": ["emote/algorithms/dqn.py: QTarget.begin_batch", "emote/algorithms/dqn.py: QTarget.end_batch", "emote/algorithms/dqn.py: QLoss.loss", "emote/callbacks/loss.py: LossCallback.backward", "emote/utils/gamma_matrix.py: discount"]}
{"id": "C161", "title": "A small loss of the dynamics model means good predictions", "statement": "With a wrapped network that treats each row for itself, the loss of a batch of two transitions or more is the mean squared error of the next observations and rewards that the model predicts for them from then on, each column in units of the scale the model keeps for it. So no prediction for the batch is further off than that scale times the root of the loss times the number of entries, and the loss is 0 exactly if all of them are exact. The loss of a single transition is nan.", "quantifier": "all models, with or without learned rewards, with any columns predicted absolutely, all histories of batches of two rows or more, all batches and all such networks", "why_tests_cant": "the predictions go through the other normaliser and the changes of the observation; that the loss bounds their error must hold for all histories of the normalisers", "anchors": ["emote/models/model.py: DynamicModel.loss", "emote/models/model.py: DeterministicModel.loss", "emote/models/model.py: DynamicModel.process_batch", "emote/models/model.py: DynamicModel.sample"]}
{"id": "C162", "title": "Files of a storage hold what was written to them", "statement": "While nobody else changes its directory, a CRUD storage never changes a file it did not make, and the file of an item made by create_with_data holds that data, or the data of an update of that item, from the moment the create returns until a delete of the item; when the delete has returned the file is gone, whatever threads create, update and delete at the same time.", "quantifier": "every number of threads, all lists of calls of each, all schedules, any pre-existing files", "why_tests_cant": "the calls take their steps one by one without a lock over the whole; all interleavings matter", "anchors": ["emote/extra/crud_storage.py: CRUDStorage.create_with_data", "emote/extra/crud_storage.py: CRUDStorage.update", "emote/extra/crud_storage.py: CRUDStorage.delete", "emote/extra/crud_storage.py: CRUDStorage.create_with_saver"]}
{"id": "C163", "title": "What the critics of SAC make of data that does not change", "statement": "Two critics that have one value for each of finitely many cells of observations and actions, trained with soft actor-critic again and again on the same rollouts with a policy and a temperature that stay as they are, tend, whatever they and their target networks start with, to the only pair in which the value of each cell that occurs in the data is the average, over the steps in it, of the return of the step: its discounted scaled rewards up to the end of the rollout and then the smaller of both critics' values for the policy's action with the entropy bonus (nothing if the episode ended and ends are masked). Cells that do not occur keep their initial value. Critics with the same cells come to agree wherever there is data.", "quantifier": "all kinds of observations and actions, all ways to cut them into cells, one for each critic, all rollouts of all lengths, all policies that give one action for each observation, all initial values, all discounts below 1, all mixing rates, clipping norms and learning rate schedules between a positive number and 1/2", "why_tests_cant": "it is a limit of infinitely many updates of four networks that depend on each other, for all data sets; a test compares numbers after a few steps on one of them", "anchors": ["emote/algorithms/sac.py: QTarget.begin_batch", "emote/algorithms/sac.py: QTarget.end_batch", "emote/algorithms/sac.py: QLoss.loss", "emote/callbacks/loss.py: LossCallback.backward", "emote/utils/gamma_matrix.py: discount"]}
{"id": "C164", "title": "The critics of SAC learn the soft value of the policy from batches", "statement": "In a deterministic environment with finitely many observations and actions, two critics that tell all of them apart, trained with soft actor-critic (rollouts of one step) on batches of bounded size while policy and temperature stay as they are, are never refused a batch, and if each action is tried in each observation again and again, both critics and both target networks tend to the soft value of the policy, whatever they start with: the discounted sum of scaled rewards with the entropy bonus of each further action, up to an end if ends are masked. So they do almost surely when the batches are drawn by the uniform sampler of a memory that holds each action for each observation, however the memory was filled.", "quantifier": "all deterministic environments, all policies that give one action for each observation, all orders and sizes of batches, all initial values, all discounts below 1, all mixing rates, clipping norms and learning rate schedules between a positive number and 1/2", "why_tests_cant": "it is a limit of infinitely many batches of any composition; a test compares numbers after a few steps", "anchors": ["emote/algorithms/sac.py: QTarget.begin_batch", "emote/algorithms/sac.py: QTarget.end_batch", "emote/algorithms/sac.py: QLoss.loss", "emote/callbacks/loss.py: LossCallback.backward", "emote/memory/table.py: ArrayMemoryTable.sample"]}
{"id": "C165", "title": "Training with HL-Gauss reaches the smallest loss", "statement": "A table of logits that is trained with the HL-Gauss loss by gradient descent is never refused a batch. If every input has a target that does not change and is trained with again and again, its value tends to the value with the smallest loss for that target. On data that does not change, with any targets, the loss tends to the smallest that any logits have, the values tend to numbers that depend on the data only, at most half a bin and the smoothing width times sqrt(2/pi) from the average of the targets (limited to the range), and the logged prediction tends to the average of the values.", "quantifier": "all ranges, numbers of bins, smoothing ratios, clipping norms, learning rate schedules between a positive number and 1/2, all initial logits, all data, all orders and sizes of batches", "why_tests_cant": "it is a limit of infinitely many steps for all initial logits; a test sees some steps from some logits", "anchors": ["emote/algorithms/hlgauss.py: QLoss.loss", "emote/algorithms/hlgauss.py: HLGaussLoss.forward", "emote/algorithms/hlgauss.py: QNet.forward", "emote/callbacks/loss.py: LossCallback.backward"]}
{"id": "C166", "title": "The exploring policy tries everything for ever, and so learns", "statement": "With initial and target exploration rates that are not zero, however the network is trained and whatever the environments do, with probability one the exploring policy chooses every action again and again for every observation that is met again and again. So in deterministic environments where every observation can be reached from every other one, it meets all of them again and again, and a table of action values that is trained after each call on the steps just made, and by which the actions are chosen, tends with probability one to the best discounted returns. With the target rate zero, exploration ends instead: with probability one there is a call after which every action has the largest value.", "quantifier": "all exploration rates, durations and numbers of environments, all worlds and networks (depending in any way on the past), all initial tables; almost all random numbers", "why_tests_cant": "it is about infinitely many calls and holds with probability one; a test sees finitely many calls with some random numbers", "anchors": ["experiments/gym/train_dqn_cartpole.py: DQNPolicy.forward", "experiments/gym/train_dqn_cartpole.py: DQNPolicy.__init__", "emote/algorithms/dqn.py: QTarget.begin_batch", "emote/algorithms/dqn.py: QLoss.loss"]}
{"id": "C167", "title": "A coverage-based sampler starves nothing", "statement": "Take any history without end of a coverage-based sampler: sequences come and go, with the total length of what is stored bounded, and batches are drawn again and again, with any non-negative exponent alpha. With probability one, every window of every sequence that stays from some time on is drawn again and again, however long it was neglected and however many draws were made before.", "quantifier": "all exponents alpha >= 0, all window lengths, all infinite histories of tracking, forgetting and drawing with a bounded total length; almost all random numbers", "why_tests_cant": "it is about infinitely many batches and holds with probability one; a test sees finitely many batches with some random numbers", "anchors": ["emote/memory/coverage_based_strategy.py: CoverageBasedSampleStrategy.sample", "emote/memory/coverage_based_strategy.py: CoverageBasedStrategy._rebalance", "emote/memory/coverage_based_strategy.py: CoverageBasedStrategy.track", "emote/memory/coverage_based_strategy.py: CoverageBasedStrategy.forget"]}
{"id": "C168", "title": "The normaliser forgets data that is out of date", "statement": "If from some batch on the columns of the batches have means within delta of m and standard deviations within delta of s (with s at least 1e-5), then whatever the normaliser was given before, the distance of its mean from m and of its standard deviation from s is at most delta plus the distance at that time times 0.99 to the power of the number of batches since.", "quantifier": "all histories of batches with two rows or more, all columns, all m, s and delta", "why_tests_cant": "it is about histories of any length and any data; a test tries some", "anchors": ["emote/models/model.py: Normalizer.update_stats"]}
{"id": "C169", "title": "With random ejection old episodes go", "statement": "In a memory that ejects at random, whatever is added and sampled before and after, an episode of length len is still stored after n later additions for which something had to be ejected with a probability of at most (1 - len/capacity)^n. After n later additions of any kind the probability is at most (1 - len/capacity)^floor(n/(capacity + 1)). So what is stored does not stay for ever, and long episodes go sooner.", "quantifier": "all capacities, contents and histories of adding and sampling, all episodes and all n; the probability is over the numbers of both generators", "why_tests_cant": "it is a bound for a probability that decreases below anything, over histories of any length", "anchors": ["emote/memory/uniform_strategy.py: UniformEjectionStrategy.sample", "emote/memory/table.py: ArrayTable._eject_count", "emote/memory/table.py: ArrayTable.add_sequence"]}
{"id": "C170", "title": "Uniform sampling leaves nothing out", "statement": "In a memory that samples and ejects at random, whatever is added and sampled before and after, the probability that an episode of length len is still stored after M later draws while one of its windows of tc transitions was not drawn in them is at most (1 - len/(capacity * (len - tc + 1)))^M; for single transitions that is (1 - 1/capacity)^M.", "quantifier": "all capacities, contents and histories of adding and sampling, all episodes, all their windows and all M; the probability is over the numbers of both generators", "why_tests_cant": "it is a bound for a probability that decreases below anything, over histories of any length", "anchors": ["emote/memory/uniform_strategy.py: UniformSampleStrategy.sample", "emote/memory/table.py: ArrayTable.sample", "emote/memory/table.py: ArrayTable.add_sequence"]}
{"id": "C171", "title": "Q-learning from a changing memory with coverage-based batches", "statement": "Sequences of steps made in a deterministic environment come and go in a bounded memory, and batches of single transitions of bounded, positive size are drawn by the coverage-based sampler again and again. If every pair of an observation and an action occurs in some sequence that stays from some time on, then with probability one training the Q-loss with a target network on these batches, in the order in which they are drawn, never fails, and the values of the table and of its target network tend to the best values of the environment; likewise the critics of soft actor-critic and their targets tend to the soft value of the policy.", "quantifier": "all deterministic finite environments, all exponents alpha >= 0, all infinite histories of a bounded memory, all starting tables, discounts and targets' rates as in C157; almost all random numbers", "why_tests_cant": "it is a statement about a limit with probability one; a test sees finitely many steps of one run", "anchors": ["emote/memory/coverage_based_strategy.py: CoverageBasedSampleStrategy.sample", "emote/algorithms/dqn.py: QLoss", "emote/algorithms/dqn.py: QTarget", "emote/algorithms/sac.py: QLoss", "emote/algorithms/sac.py: QTarget"]}
{"id": "C172", "title": "Uniform batches from a changing memory reach whatever keeps coming back", "statement": "Sequences come and go in a bounded memory, none of them needs to stay, and the uniform sampler draws batches from it again and again. Fix beforehand which windows are wanted in which batch. If at infinitely many batches some wanted window is stored, then with probability one sampling never fails and infinitely many batches contain a wanted window. Hence training the Q-loss with a target network (or the critics of soft actor-critic) on these batches tends with probability one to the best values (to the soft values of the policy) if every pair of an observation and an action is stored at infinitely many batches.", "quantifier": "all infinite histories of a bounded memory with the uniform sampler, all window lengths, all wishes; all deterministic finite environments, starting tables, discounts and targets' rates as in C157 and C164; almost all random numbers", "why_tests_cant": "it is a statement about infinitely many draws with probability one; a test sees finitely many of one run", "anchors": ["emote/memory/uniform_strategy.py: UniformSampleStrategy.sample", "emote/algorithms/dqn.py: QLoss", "emote/algorithms/sac.py: QTarget"]}
{"id": "C173", "title": "A memory that is used without end reaches whatever keeps coming back", "statement": "A replay memory of bounded size, with a uniform sampler, drops its oldest episodes when new ones need the space. Episodes are added and batches are drawn without end, in any order; no episode needs to stay, and identities may be used again once they are gone. With probability one no call ever fails, every window of every batch is a window of an episode that is stored at that time, with the rows of that episode in all columns, and whatever rows are wanted at infinitely many batches where they are stored are shown in infinitely many batches. Hence Q-learning from these batches tends with probability one to the best values, and the critics of soft actor-critic tend to the soft values of the policy, if what is stored was made in the environment and every pair of an observation and an action is stored at infinitely many batches.", "quantifier": "all infinite sequences of add_sequence and sample on a table with uniform sampler and FIFO ejector, all column layouts, window lengths and wishes; for learning all deterministic finite environments, starting tables, discounts and target rates as in C157 and C164; almost all random numbers", "why_tests_cant": "it is a statement about infinitely many calls with probability one; a test sees finitely many of one run", "anchors": ["emote/memory/table.py: ArrayTable.add_sequence", "emote/memory/table.py: ArrayTable.sample", "emote/memory/uniform_strategy.py: UniformSampleStrategy.sample", "emote/memory/fifo_strategy.py: FifoEjectionStrategy.eject", "emote/algorithms/dqn.py: QLoss"]}
{"id": "C174", "title": "The law of everything a memory shows while it is being filled", "statement": "A replay memory of bounded size, with a uniform sampler, drops its oldest episodes when new ones need the space. Episodes are added and batches are drawn in any order. Then all windows that were shown, over all batches, are independent of each other, and each follows the law of what was stored when it was drawn: an episode in proportion to its length, then a start uniformly. In particular a transition that was stored at M of the draws has been shown by none of them with probability at most (1 - 1/capacity) to the power M.", "quantifier": "all sequences of add_sequence and sample on a table with uniform sampler and FIFO ejector, all column layouts and window lengths, all numbers of calls, all properties of windows, which may differ from draw to draw", "why_tests_cant": "it is an exact probability over all sequences of random numbers; a test sees some runs", "anchors": ["emote/memory/table.py: ArrayTable.add_sequence", "emote/memory/table.py: ArrayTable.sample", "emote/memory/uniform_strategy.py: UniformSampleStrategy.sample", "emote/memory/fifo_strategy.py: FifoEjectionStrategy.eject"]}
{"id": "C175", "title": "How often a memory shows what it stores, on average", "statement": "A replay memory of bounded size, with a uniform sampler, drops its oldest episodes when new ones need the space. Episodes are added and batches are drawn in any order. Then the expected number of times that wanted transitions have been shown, over all batches, is the sum, over all draws, of their part of the transitions that were stored at that draw; each transition counts the same, whatever the length of its episode. More generally the expected sum of any number that windows are given is the sum of the averages over what was stored. Variances of single draws add up too, so after N draws the number of times differs by c or more from its expected value with probability at most N/(4c^2).", "quantifier": "all sequences of add_sequence and sample on a table with uniform sampler and FIFO ejector, all column layouts and window lengths, all numbers of calls, all numbers given to windows", "why_tests_cant": "it is an expected value over all sequences of random numbers; a test sees some runs", "anchors": ["emote/memory/table.py: ArrayTable.add_sequence", "emote/memory/table.py: ArrayTable.sample", "emote/memory/uniform_strategy.py: UniformSampleStrategy.sample", "emote/memory/fifo_strategy.py: FifoEjectionStrategy.eject"]}
