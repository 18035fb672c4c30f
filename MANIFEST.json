{
 "claims": [
  {
   "property": "C01",
   "status": "proved",
   "theorems": [
    "Verif.Props.C01_size_is_stored_total",
    "Verif.Props.C01_size_le_capacity"
   ],
   "note": "all histories, all three ejectors, all draws"
  },
  {
   "property": "C02",
   "status": "proved",
   "theorems": [
    "Verif.Props.C02_fifo_is_bounded_queue",
    "Verif.Props.C02_suffix_of_history",
    "Verif.Props.C02_drops_only_what_is_needed",
    "Verif.Props.C02_add_succeeds"
   ],
   "note": "refinement to a bounded queue, plus liveness of add"
  },
  {
   "property": "C03",
   "status": "proved",
   "theorems": [
    "Verif.Props.C03_stored_as_given",
    "Verif.Props.C03_unchanged_while_stored"
   ],
   "note": ""
  },
  {
   "property": "C04",
   "status": "proved",
   "theorems": [
    "Verif.Props.C04_indices_agree",
    "Verif.Props.C04_sample_fails_only",
    "Verif.Props.C04_add_fails_only",
    "Verif.Props.C04_every_stored_can_be_sampled"
   ],
   "note": "membership agreement, the only possible failures of sample and add, and reachability of every stored transition"
  },
  {
   "property": "C05",
   "status": "proved",
   "theorems": [
    "Verif.Props.C05_full_iff",
    "Verif.Props.C05_not_full_keeps_all",
    "Verif.Props.C05_full_stays",
    "Verif.Props.C05_clear_resets"
   ],
   "note": ""
  },
  {
   "property": "C06",
   "status": "proved",
   "theorems": [
    "Verif.Props.C06_resize",
    "Verif.Props.C06_new_bound"
   ],
   "note": ""
  },
  {
   "property": "C07",
   "status": "partial",
   "theorems": [
    "Verif.Props.C07_false",
    "Verif.Props.C07_oversize_add_keeps_contents_partial"
   ],
   "note": "false for the code: a rejected oversize add flips full() (C07_false). Partial: the stored contents and size survive a rejected oversize add."
  },
  {
   "property": "C08",
   "status": "partial",
   "theorems": [
    "Verif.Props.C08_reuse_random_partial",
    "Verif.Props.C08_reuse_fifo_raises_partial",
    "Verif.Props.C08_false",
    "Verif.Props.C08_false_uniform"
   ],
   "note": "false for the code: re-adding a stored identity makes size() drift (C08_false, C08_false_uniform). Partial: what the random strategies and FIFO do in that case."
  },
  {
   "property": "C09",
   "status": "proved",
   "theorems": [
    "Verif.Props.C09_windows_are_genuine",
    "Verif.Props.C09_rows",
    "Verif.Props.C09_sample_succeeds"
   ],
   "note": "every delivered row is a row of one stored sequence at consecutive positions; the only failures are listed"
  },
  {
   "property": "C10",
   "status": "proved",
   "theorems": [
    "Verif.Props.C10_next_is_following_row"
   ],
   "note": ""
  },
  {
   "property": "C11",
   "status": "proved",
   "theorems": [
    "Verif.Props.C11_nstep_next"
   ],
   "note": ""
  },
  {
   "property": "C12",
   "status": "proved",
   "theorems": [
    "Verif.Props.C12_done_mask_final"
   ],
   "note": ""
  },
  {
   "property": "C13",
   "status": "proved",
   "theorems": [
    "Verif.Props.C13_terminal_value"
   ],
   "note": "for the dict-obs builders with the terminal column, any window not longer than the stored sequences"
  },
  {
   "property": "C14",
   "status": "partial",
   "theorems": [
    "Verif.Props.C14_false",
    "Verif.Props.C14_consecutive_or_repeated_partial",
    "Verif.Props.C14_chance",
    "Verif.Props.C14_fifo_rejects"
   ],
   "note": "false for the code: a too short sequence can be broadcast (C14_false). Partial: what can be delivered at worst is the last row repeated; which of the two happens is left to chance (C14_chance); FIFO rejects."
  },
  {
   "property": "C15",
   "status": "proved",
   "theorems": [
    "Verif.Props.C15_round_robin",
    "Verif.Props.C15_balanced",
    "Verif.Props.C15_distinct"
   ],
   "note": ""
  },
  {
   "property": "C16",
   "status": "proved",
   "theorems": [
    "Verif.Props.C16_sequential_tiles"
   ],
   "note": "random_offset off, as the property states"
  },
  {
   "property": "C17",
   "status": "proved",
   "theorems": [
    "Verif.Props.C17_weights",
    "Verif.Props.C17_transitions_equally_likely",
    "Verif.Props.C17_windows",
    "Verif.Props.C17_short",
    "Verif.Props.C17_short_by_one",
    "Verif.Props.C17_support",
    "Verif.Props.C17_outcomes"
   ],
   "note": "weights, probability of each transition for n=1, windows, support; draws are Lebesgue measure on [0,1)"
  },
  {
   "property": "C18",
   "status": "partial",
   "theorems": [
    "Verif.Props.C18_weights",
    "Verif.Props.C18_visit_averse_partial",
    "Verif.Props.C18_counters",
    "Verif.Props.C18_false"
   ],
   "note": "false for the code w.r.t. current counters: drawing does not trigger a rebalance (C18_false). Partial: weights right after a rebalance, counters always."
  },
  {
   "property": "C19",
   "status": "proved",
   "theorems": [
    "Verif.Props.C19_eject_frees",
    "Verif.Props.C19_eject_keeps_tracked",
    "Verif.Props.C19_eject_fails_only",
    "Verif.Props.C19_random_eject_succeeds",
    "Verif.Props.C19_draws_exist",
    "Verif.Props.C19_too_much"
   ],
   "note": "including which failures exist and that a sufficient draw sequence exists"
  },
  {
   "property": "C20",
   "status": "proved",
   "theorems": [
    "Verif.Props.C20_fifo_raises_iff",
    "Verif.Props.C20_fifo_shortest_prefix"
   ],
   "note": ""
  },
  {
   "property": "C21",
   "status": "proved",
   "theorems": [
    "Verif.Props.C21_store_succeeds",
    "Verif.Props.C21_round_trip"
   ],
   "note": "for identities in [0,2^63) (others are not representable in the file), the length key being a stored column"
  },
  {
   "property": "C22",
   "status": "partial",
   "theorems": [
    "Verif.Props.C22_restore_replaces_partial",
    "Verif.Props.C22_false"
   ],
   "note": "false for the code with uniform or coverage strategies (C22_false). Partial: FIFO strategies, any previous contents, any later history."
  },
  {
   "property": "C23",
   "status": "proved",
   "theorems": [
    "Verif.Props.C23_never_half_written",
    "Verif.Props.C23_other_files_untouched",
    "Verif.Props.C23_complete_is_durable",
    "Verif.Props.C23_failed_leaves_nothing"
   ],
   "note": "all crash points, kill and power loss, successful and raising store; atomicwrites and the file system semantics are trusted and stated"
  },
  {
   "property": "C24",
   "status": "partial",
   "theorems": [
    "Verif.Props.C24_import_renames_partial",
    "Verif.Props.C24_no_collision_partial",
    "Verif.Props.C24_false"
   ],
   "note": "false for the code with coverage strategies (C24_false). Partial: FIFO and uniform strategies, any number of import generations."
  },
  {
   "property": "C25",
   "status": "proved",
   "theorems": [
    "Verif.Props.MinTree.C25_min",
    "Verif.Props.C25_reduce",
    "Verif.Props.C25_outside",
    "Verif.Props.C25_negative_index_corrupts"
   ],
   "note": "any associative operation, any power of two; a negative index is outside the statement and corrupts the tree (C25_negative_index_corrupts)"
  },
  {
   "property": "C26",
   "status": "proved",
   "theorems": [
    "Verif.Props.C26_prefix_sum",
    "Verif.Props.C26_at_the_end"
   ],
   "note": "numbers in any ordered field; C26_at_the_end describes the accepted p >= sum()"
  },
  {
   "property": "C27",
   "status": "proved",
   "theorems": [
    "Verif.Props.C27_episodes_per_agent",
    "Verif.Props.C27_own_steps"
   ],
   "note": "every stream of calls with the protocol INITIAL first; the memory gets, per agent, exactly that agent's own steps in order"
  },
  {
   "property": "C28",
   "status": "proved",
   "theorems": [
    "Verif.Props.C28_is_initial",
    "Verif.Props.C28_exactly_once",
    "Verif.Props.C28_stray_termination",
    "Verif.Props.C28_accepts"
   ],
   "note": "a complete episode is handed over exactly once, never before its end; a termination of an unknown agent is reported as an error and delivers nothing"
  },
  {
   "property": "C29",
   "status": "proved",
   "theorems": [
    "Verif.Props.C29_aligned",
    "Verif.Props.C29_running_start_misaligns"
   ],
   "note": "well-formed streams: every agent starts with INITIAL; C29_running_start_misaligns shows what happens otherwise"
  },
  {
   "property": "C30",
   "status": "partial",
   "theorems": [
    "Verif.Props.C30_later_agents_unharmed_partial",
    "Verif.Props.C30_false",
    "Verif.Props.C30_false_memory_raises"
   ],
   "note": "false for the code: C30_false, C30_false_memory_raises. Partial: what is not lost."
  },
  {
   "property": "C31",
   "status": "partial",
   "theorems": [
    "Verif.Props.C31_inferences",
    "Verif.Props.C31_episodes",
    "Verif.Props.C31_forwards_partial",
    "Verif.Props.C31_not_forwarded",
    "Verif.Props.C31_false"
   ],
   "note": "false for the code: C31_false (an exception while logging keeps the call from the wrapped proxy). The counts hold for every stream; partial: forwarding for metadata that can be logged."
  },
  {
   "property": "C32",
   "status": "proved",
   "theorems": [
    "Verif.Props.C32_spacing",
    "Verif.Props.C32_first",
    "Verif.Props.C32_happens",
    "Verif.Props.C32_happens_first",
    "Verif.Props.C32_after_add",
    "Verif.Props.C32_rejected"
   ],
   "note": "any clock (it need not be monotone), any wrapped memory that accepts the data, storing may raise; C32_rejected for data that is not accepted"
  },
  {
   "property": "C33",
   "status": "proved",
   "theorems": [
    "Verif.Props.C33_batches",
    "Verif.Props.C33_not_ready",
    "Verif.Props.C33_yields",
    "Verif.Props.C33_duplicates",
    "Verif.Props.C33_joint",
    "Verif.Props.C33_joint_not_ready"
   ],
   "note": "tables may change at any time between batches"
  },
  {
   "property": "C34",
   "status": "partial",
   "theorems": [
    "Verif.Props.C34_false",
    "Verif.Props.C34_first_partial"
   ],
   "note": "false for the code for every configuration: C34_false. Partial: the first batch."
  },
  {
   "property": "C35",
   "status": "proved",
   "theorems": [
    "Verif.C35_watching",
    "Verif.C35_protocol",
    "Verif.C35_genuine",
    "Verif.C35_continues",
    "Verif.C35_order"
   ],
   "note": "the trainer is run with an observer (which changes nothing: C35_watching) and every run is one of a small grammar; C35_order for the sorting, C35_genuine that the events are what the callbacks, loader and signal did, C35_continues for the cut-off"
  },
  {
   "property": "C36",
   "status": "proved",
   "theorems": [
    "Verif.C36_counters"
   ],
   "note": "no callback and no batch writes bp_step, bp_samples; batches carry their size"
  },
  {
   "property": "C37",
   "status": "proved",
   "theorems": [
    "Verif.C37_counts",
    "Verif.C37_when",
    "Verif.C37_none"
   ],
   "note": "counts, when, and none without a cycle; callbacks have different identities"
  },
  {
   "property": "C38",
   "status": "proved",
   "theorems": [
    "Verif.C38_steps"
   ],
   "note": "or else the data is exhausted before; the exact events of the run"
  },
  {
   "property": "C39",
   "status": "proved",
   "theorems": [
    "Verif.C39_end_training",
    "Verif.C39_signal"
   ],
   "note": "any raise position; the end_training hooks do not raise"
  },
  {
   "property": "C40",
   "status": "partial",
   "theorems": [
    "Verif.C40_exhausted",
    "Verif.C40_partial",
    "Verif.C40_false"
   ],
   "note": "false when the data is exhausted: C40_false, C40_exhausted (always). Partial: returns that are not due to exhausted data."
  },
  {
   "property": "C41",
   "status": "proved",
   "theorems": [
    "Verif.C41_flows",
    "Verif.C41_visible",
    "Verif.C41_nothing_else"
   ],
   "note": "every callback and data; C41_visible, C41_nothing_else"
  },
  {
   "property": "C42",
   "status": "proved",
   "theorems": [
    "Verif.C42_plain",
    "Verif.C42_end_training",
    "Verif.C42_self_key",
    "Verif.C42_callback"
   ],
   "note": "hooks with declared parameters (no *args/**kwargs, which get everything); C42_end_training for the positional exception; C42_self_key for the excluded key"
  },
  {
   "property": "C43",
   "status": "proved",
   "theorems": [
    "Verif.C43_routing",
    "Verif.C43_end_training",
    "Verif.C43_missing",
    "Verif.C43_no_arguments",
    "Verif.C43_callback"
   ],
   "note": "C43_routing, C43_end_training; C43_missing and C43_no_arguments for the borders; results with a dict under the group name; arguments bound with keys_from_member are C44"
  },
  {
   "property": "C44",
   "status": "partial",
   "theorems": [
    "Verif.C44_partial",
    "Verif.C44_lost",
    "Verif.C44_wrong_value",
    "Verif.C44_false"
   ],
   "note": "false for the code: C44_false; C44_lost and C44_wrong_value say for every case what happens. Partial: the state has the same value."
  },
  {
   "property": "C45",
   "status": "proved",
   "theorems": [
    "Verif.C45_saved",
    "Verif.C45_callback",
    "Verif.C45_names",
    "Verif.C45_round_trip",
    "Verif.C45_missing"
   ],
   "note": "for restorees that obey the contract (load_state_dict gives back the saved state and leaves the others alone); C48 and C82 are about the losses of the library"
  },
  {
   "property": "C46",
   "status": "partial",
   "theorems": [
    "Verif.C46_partial",
    "Verif.C46_overwrites",
    "Verif.C46_false"
   ],
   "note": "false for the code: C46_false, C46_overwrites (a resumed run starts again with index 0); C46_partial: one checkpointer never overwrites its own files"
  },
  {
   "property": "C47",
   "status": "proved",
   "theorems": [
    "Verif.Props.C47_windows",
    "Verif.Props.C47_default_length",
    "Verif.Props.C47_declared_length",
    "Verif.Props.C47_colon_first",
    "Verif.Props.C47_never_fails"
   ],
   "note": ""
  },
  {
   "property": "C48",
   "status": "partial",
   "theorems": [
    "Verif.Props.C48_false",
    "Verif.Props.C48_false_used",
    "Verif.Props.C48_cumulative_lost",
    "Verif.Props.C48_restores_rest_partial"
   ],
   "note": "false for the code: C48_false, C48_false_used, C48_cumulative_lost. Partial: scalars, histograms and cumulative values."
  },
  {
   "property": "C49",
   "status": "partial",
   "theorems": [
    "Verif.C49_partial",
    "Verif.C49_false"
   ],
   "note": "False in the code: the warning count is never raised, so the warning is repeated for ever (C49_false). C49_partial proves the rest: arguments, results and exceptions pass through unchanged for all functions and calls."
  },
  {
   "property": "C50",
   "status": "proved",
   "theorems": [
    "Verif.C50_linearizable",
    "Verif.C50_distinct",
    "Verif.C50_sums",
    "Verif.C50_calls"
   ],
   "note": "All threads, calls and schedules: linearizable, increments distinct, sums exact; real-time order via the well-formed history."
  },
  {
   "property": "C51",
   "status": "proved",
   "theorems": [
    "Verif.C51_linearizable",
    "Verif.C51_once"
   ],
   "note": "All threads, calls and schedules: linearizable, each stored value is taken at most once."
  },
  {
   "property": "C52",
   "status": "proved",
   "theorems": [
    "Verif.C52_exclusive",
    "Verif.C52_atomic"
   ],
   "note": "All threads, blocks and schedules: blocks exclude each other and take effect at once, also across swaps."
  },
  {
   "property": "C53",
   "status": "partial",
   "theorems": [
    "Verif.Crud.C53_linearizable",
    "Verif.Crud.C53_unique",
    "Verif.Crud.C53_get_live",
    "Verif.Crud.C53_get_deleted",
    "Verif.Crud.C53_false"
   ],
   "note": "Linearizable to the promised behaviour for all threads, calls, schedules, savers and outside changes of files; handles unique, paths of new files unique, get finds until deleted and never after. Missing: path uniqueness for create_from_filepath, which is false (C53_false)."
  },
  {
   "property": "C54",
   "status": "partial",
   "theorems": [
    "Verif.Onnx.C54_order",
    "Verif.Onnx.C54_versions",
    "Verif.Onnx.C54_numbers",
    "Verif.Onnx.C54_added",
    "Verif.Onnx.C54_metadata",
    "Verif.Onnx.C54_returns",
    "Verif.Onnx.C54_served_partial",
    "Verif.Onnx.C54_false"
   ],
   "note": "Order, versions, metadata and \"returns only after its own request\" for all threads and schedules (export and process called by the main thread only). Missing: a request whose export fails is never answered, so its caller waits for ever (C54_false); C54_served_partial covers exports that succeed."
  },
  {
   "property": "C55",
   "status": "proved",
   "theorems": [
    "Verif.Returns.C55_discount",
    "Verif.Returns.C55_closed_form",
    "Verif.Returns.C55_split",
    "Verif.Returns.C55_refuses"
   ],
   "note": "every field; recursion, explicit sum, order and number of the results"
  },
  {
   "property": "C56",
   "status": "proved",
   "theorems": [
    "Verif.Stats.C56_welford",
    "Verif.Stats.C56_window",
    "Verif.Stats.C56_last"
   ],
   "note": "Welford mean and variance, windowed statistics and last value, every field and history."
  },
  {
   "property": "C57",
   "status": "proved",
   "theorems": [
    "Verif.Sched.C57_high",
    "Verif.Sched.C57_linear",
    "Verif.Sched.C57_low",
    "Verif.Sched.C57_degenerate",
    "Verif.Sched.C57_monotone",
    "Verif.Sched.C57_between",
    "Verif.Sched.C57_scheduler"
   ],
   "note": "every linearly ordered field; degenerate range is the 1e-10 test of the code"
  },
  {
   "property": "C58",
   "status": "proved",
   "theorems": [
    "Verif.Sched.C58_linear",
    "Verif.Sched.C58_staircase",
    "Verif.Sched.C58_shape"
   ],
   "note": "every linearly ordered field; linear and staircase"
  },
  {
   "property": "C59",
   "status": "partial",
   "theorems": [
    "Verif.Sched.C59_triangular",
    "Verif.Sched.C59_triangular2_partial",
    "Verif.Sched.C59_overflow",
    "Verif.Sched.C59_false"
   ],
   "note": "triangular mode for all steps. triangular2 for the first 1024 periods (C59_triangular2_partial); after that the code raises OverflowError (C59_overflow, C59_false)."
  },
  {
   "property": "C60",
   "status": "proved",
   "theorems": [
    "Verif.Sched.C60_annealing",
    "Verif.Sched.C60_restarts",
    "Verif.Sched.C60_between"
   ],
   "note": "over the reals, every number of steps; exact arithmetic"
  },
  {
   "property": "C61",
   "status": "proved",
   "theorems": [
    "Verif.Numerics.C61_distance",
    "Verif.Numerics.C61_shape",
    "Verif.Numerics.C61_others",
    "Verif.Numerics.C61_between",
    "Verif.Numerics.C61_converges",
    "Verif.Numerics.C61_sac",
    "Verif.Numerics.C61_dqn",
    "Verif.Numerics.C61_follows"
   ],
   "note": "exact arithmetic over every linearly ordered field; SAC and DQN target updates"
  },
  {
   "property": "C62",
   "status": "proved",
   "theorems": [
    "Verif.Numerics.C62_bound",
    "Verif.Numerics.C62_exact"
   ],
   "note": "after every end_batch the temperature is within its limit, every gradient"
  },
  {
   "property": "C63",
   "status": "proved",
   "theorems": [
    "Verif.Returns.C63_sac",
    "Verif.Returns.C63_dqn"
   ],
   "note": "SAC and DQN targets, every field, batch, rollout length and mask"
  },
  {
   "property": "C64",
   "status": "proved",
   "theorems": [
    "Verif.Numerics.C64_mass",
    "Verif.Numerics.C64_distribution",
    "Verif.Numerics.C64_decoded",
    "Verif.Numerics.C64_loss"
   ],
   "note": "over the reals, erf defined by its integral; mass, distribution, decoding and loss"
  },
  {
   "property": "C65",
   "status": "partial",
   "theorems": [
    "Verif.Dyn.C65_rate",
    "Verif.Dyn.C65_rate_bounds",
    "Verif.Dyn.C65_floor",
    "Verif.Dyn.C65_tracks",
    "Verif.Dyn.C65_inverse_partial",
    "Verif.Dyn.C65_floor_partial",
    "Verif.Dyn.C65_mean",
    "Verif.Dyn.C65_poisoned",
    "Verif.Dyn.C65_false"
   ],
   "note": "Proved for all histories of batches with at least two rows; a batch of one row makes the standard deviation NaN for ever (C65_false)."
  },
  {
   "property": "C66",
   "status": "partial",
   "theorems": [
    "Verif.Dyn.C66_targets_partial",
    "Verif.Dyn.C66_inverse_partial",
    "Verif.Dyn.C66_index",
    "Verif.Dyn.C66_reachable",
    "Verif.Dyn.C66_false"
   ],
   "note": "Targets and predictions are inverse for all histories of batches with at least two rows; false after a batch of one row (C66_false)."
  },
  {
   "property": "C67",
   "status": "proved",
   "theorems": [
    "Verif.MEnv.C67_life",
    "Verif.MEnv.C67_live",
    "Verif.MEnv.C67_succeeds",
    "Verif.MEnv.C67_step"
   ],
   "note": "every model, reset and step sequence: life cycle of agents, one live agent per environment, steps succeed, states and rewards"
  },
  {
   "property": "C68",
   "status": "proved",
   "theorems": [
    "Verif.Agent.C68_drawing",
    "Verif.Agent.C68",
    "Verif.Agent.C68_plain_drawing",
    "Verif.Agent.C68_plain",
    "Verif.Agent.C68_only"
   ],
   "note": "every set of observations, every row-wise policy, both kinds of outputs; input and output keys distinct (an input key given twice makes the policy get None, shown as an example)"
  },
  {
   "property": "C69",
   "status": "partial",
   "theorems": [
    "Verif.Optim.C69_contradiction",
    "Verif.Optim.C69_once",
    "Verif.Optim.C69_partial",
    "Verif.Optim.C69_false"
   ],
   "note": "C69_once for every network. Exactly one group is proved for networks without sharing whose listed modules are leaves and whose weights all belong to listed modules; in general false: unlisted weights are silently not optimised, excluded containers and tied weights raise (C69_false and examples)."
  },
  {
   "property": "C70",
   "status": "partial",
   "theorems": [
    "Verif.Frames.C70_partial",
    "Verif.Frames.C70_false",
    "Verif.Frames.C70_gymnasium"
   ],
   "note": "Proved for environments with the old four-value step; with gymnasium environments (the declared dependency) every step raises and reset observations cannot be read (C70_false, C70_gymnasium)."
  },
  {
   "property": "C71",
   "status": "partial",
   "theorems": [
    "Verif.Props.C71_false",
    "Verif.Props.C71_casts_only_if_nothing_to_do_partial"
   ],
   "note": "false for the code: KeyCastAdaptor never stores the cast value (C71_false). Partial: correct exactly when the cast is a no-op."
  },
  {
   "property": "C72",
   "status": "proved",
   "theorems": [
    "Verif.Props.C72_dict_obs",
    "Verif.Props.C72_missing_key"
   ],
   "note": ""
  },
  {
   "property": "C73",
   "status": "partial",
   "theorems": [
    "Verif.Props.C73_clear_empties_partial",
    "Verif.Props.C73_clear_succeeds",
    "Verif.Props.C73_false"
   ],
   "note": "false for the code: strategies keep the cleared identities (C73_false). Partial: what clear() does achieve, and that it never fails."
  },
  {
   "property": "C74",
   "status": "partial",
   "theorems": [
    "Verif.Props.C74_false"
   ],
   "note": "false for the code: C74_false shows for every window reaching the end of an episode that the mask is 0 whatever the tag."
  },
  {
   "property": "C75",
   "status": "partial",
   "theorems": [
    "Verif.Props.C75_restored_not_full",
    "Verif.Props.C75_false"
   ],
   "note": "false for the code (C75_false); C75_restored_not_full shows that it fails for every full memory."
  },
  {
   "property": "C76",
   "status": "partial",
   "theorems": [
    "Verif.Props.C76_false"
   ],
   "note": "false for the code: C76_false."
  },
  {
   "property": "C78",
   "status": "proved",
   "theorems": [
    "Verif.Props.C78_report",
    "Verif.Props.C78_inf_step"
   ],
   "note": "metadata that can be logged, see C31"
  },
  {
   "property": "C81",
   "status": "partial",
   "theorems": [
    "Verif.C81_partial",
    "Verif.C81_false"
   ],
   "note": "false for callbacks that come after the terminator: C81_false (for every such run). Partial: callbacks before it."
  },
  {
   "property": "C79",
   "status": "partial",
   "theorems": [
    "Verif.C79_repeats_step",
    "Verif.C79_cycle_unopened",
    "Verif.C79_false"
   ],
   "note": "false for the code: C79_false; C79_repeats_step says what happens in every resumed run (step k is done twice, samples go on), C79_cycle_unopened what this does to cycles"
  },
  {
   "property": "C82",
   "status": "partial",
   "theorems": [
    "Verif.C82_false",
    "Verif.C82_false_alpha",
    "Verif.C82_partial",
    "Verif.C82_alpha_partial"
   ],
   "note": "false for the code: C82_false, C82_false_alpha (schedules are not saved); the rest is C82_partial, C82_alpha_partial"
  },
  {
   "property": "C83",
   "status": "partial",
   "theorems": [
    "Verif.C83_loss_flags",
    "Verif.C83_false",
    "Verif.C83_alpha_partial"
   ],
   "note": "C83_loss_flags for losses; false for the temperature loss: C83_false; what holds for it is C83_alpha_partial"
  },
  {
   "property": "C84",
   "status": "partial",
   "theorems": [
    "Verif.C84_partial",
    "Verif.C84_false"
   ],
   "note": "Waiting time proved for all schedules and execution time for one thread at a time; in general the execution time is added after the lock is released, and an update can be lost (C84_false)."
  },
  {
   "property": "C85",
   "status": "partial",
   "theorems": [
    "Verif.Stats.C85_partial",
    "Verif.Stats.C85_false"
   ],
   "note": "Proved for all sequences without a block re-entered under its own name; nested blocks of the same name record a wrong time (C85_false)."
  },
  {
   "property": "C86",
   "status": "partial",
   "theorems": [
    "Verif.MEnv.C86_partial",
    "Verif.MEnv.C86_false"
   ],
   "note": "Proved for agents that run or that began in a reset; agents started inside a step go on from the observation where the previous agent ended (C86_false)."
  },
  {
   "property": "C87",
   "status": "partial",
   "theorems": [
    "Verif.Frames.C87_false",
    "Verif.Frames.C87_partial"
   ],
   "note": "Range is [-1, 1], order kept; the declared bounds [0, 1] are wrong for the darker half (C87_false)."
  },
  {
   "property": "C88",
   "status": "partial",
   "theorems": [
    "Verif.Conv.C88_partial",
    "Verif.Conv.C88_false"
   ],
   "note": "Proved when one of kernels, strides, padding is as long as channels and there is a layer; longer lists are accepted by the constructor but only ignored by the layers (C88_false)."
  },
  {
   "property": "C89",
   "status": "proved",
   "theorems": [
    "Verif.Amp.C89",
    "Verif.Amp.C89_refused"
   ],
   "note": "every rollout length, batch and row-wise discriminator"
  },
  {
   "property": "C90",
   "status": "partial",
   "theorems": [
    "Verif.Amp.C90_symmetry",
    "Verif.Amp.C90_false",
    "Verif.Amp.C90_partial",
    "Verif.Amp.C90_mapped"
   ],
   "note": "Proved for the action symmetry reward; the AMP reward does not clamp the prediction and is unbounded below (C90_false), C90_partial says what holds."
  },
  {
   "property": "C91",
   "status": "proved",
   "theorems": [
    "Verif.Policy.C91",
    "Verif.Policy.C91_range"
   ],
   "note": "exact real arithmetic; the law of the actions is computed from the standard normal noise in Mathlib's measure theory"
  },
  {
   "property": "C92",
   "status": "partial",
   "theorems": [
    "Verif.Policy.C92_false",
    "Verif.Policy.C92_partial"
   ],
   "note": "The reported number uses the standard deviation where half the variance belongs: C92_false; it is a lower bound with the same zero (C92_partial)."
  },
  {
   "property": "C103",
   "status": "partial",
   "theorems": [
    "Verif.Policy.C103_false",
    "Verif.Policy.C103_partial",
    "Verif.Policy.C103_order"
   ],
   "note": "Above the lower bound; the upper bound can be exceeded (C103_false), the variance stays below the sum of the exponentials of the bounds."
  },
  {
   "property": "C104",
   "status": "proved",
   "theorems": [
    "Verif.Policy.C104"
   ],
   "note": "exact real arithmetic; lower bounds at least log 1e-6 (the constructor sets -10)"
  },
  {
   "property": "C77",
   "status": "proved",
   "theorems": [
    "Verif.Props.C77_transitions",
    "Verif.Props.C77_contents",
    "Verif.Props.C77_accepts"
   ],
   "note": "Composition of the proxy, table, builder and adaptor models. Hypotheses: every observation has the features of the table, agents answer with their action until the episode ends, an agent identity (mod 2^64) delivers one episode, window length at most the minimum length of the proxy (or 1)."
  },
  {
   "property": "C94",
   "status": "partial",
   "theorems": [
    "Verif.Coll.C94_environment",
    "Verif.Coll.C94_partial",
    "Verif.Coll.C94_sampled_partial",
    "Verif.Coll.C94_false"
   ],
   "note": "False when the termination function ends an episode inside a rollout (C94_false). Proved for steps that continue an episode and for models whose termination function never fires, there up to the sampled rows (C94_sampled_partial)."
  },
  {
   "property": "C106",
   "status": "proved",
   "theorems": [
    "Verif.Coll.C106_batch",
    "Verif.Coll.C106_accepts"
   ],
   "note": "No minimum episode length. C106_accepts: FIFO ejection, capacity at least the rollout length, the capacity is not reduced."
  },
  {
   "property": "C107",
   "status": "partial",
   "theorems": [
    "Verif.Coll.C107_kept",
    "Verif.Coll.C107_false"
   ],
   "note": "False: C107_false; after k batches there are exactly n * k unfinished episodes (C107_kept)."
  },
  {
   "property": "C80",
   "status": "proved",
   "theorems": [
    "Verif.Warmup.C80_returns",
    "Verif.Warmup.C80_exports",
    "Verif.Warmup.C80_shutdown",
    "Verif.Warmup.C80_waits"
   ],
   "note": "The world is a list of rounds of any length; sleeping is left out."
  },
  {
   "property": "C108",
   "status": "partial",
   "theorems": [
    "Verif.Warmup.C108_partial",
    "Verif.Warmup.C108_loader_partial",
    "Verif.Warmup.C108_false"
   ],
   "note": "False: C108_false, an episode that does not fit pushes out a longer one. Proved for every ejector if the capacity has room for a batch and an episode (minus one); C108_loader_partial takes it from the warmup to the later batch."
  },
  {
   "property": "C93",
   "status": "partial",
   "theorems": [
    "Verif.Sampler.C93_pattern_partial",
    "Verif.Sampler.C93_share_partial",
    "Verif.Sampler.C93_model_partial",
    "Verif.Sampler.C93_real_partial",
    "Verif.Sampler.C93_probability_partial",
    "Verif.Sampler.C93_fails",
    "Verif.Sampler.C93_false"
   ],
   "note": "False: the class has no log_scalar, so every step raises AttributeError (C93_fails, C93_false). Proved for a subclass that has one."
  },
  {
   "property": "C99",
   "status": "partial",
   "theorems": [
    "Verif.Checks.C99_loss_partial",
    "Verif.Checks.C99_reward_partial",
    "Verif.Checks.C99_false",
    "Verif.Checks.C99_unchecked"
   ],
   "note": "False: C99_false; NaN and callbacks without a cutoff pass. Proved for as many cutoffs as callbacks and no NaN."
  },
  {
   "property": "C105",
   "status": "partial",
   "theorems": [
    "Verif.Checks.C105_partial",
    "Verif.Checks.C105_false",
    "Verif.Checks.C105_grows"
   ],
   "note": "fails: NaN passes (C105_false), and of the ten averages of a full run the last is compared with the sixth and that with the second, so it may exceed the first (C105_grows says for which numbers of averages this cannot be); which runs pass is proved exactly (C105_partial)"
  },
  {
   "property": "C98",
   "status": "partial",
   "theorems": [
    "Verif.Report.C98_tags",
    "Verif.Report.C98_succeeds",
    "Verif.Report.C98_tensorboard",
    "Verif.Report.C98_wandb_partial",
    "Verif.Report.C98_window_mean",
    "Verif.Report.C98_last_value",
    "Verif.Report.C98_mixed_window",
    "Verif.Report.C98_terminal",
    "Verif.Report.C98_false"
   ],
   "note": "False for Weights & Biases if two callbacks log the same key (C98_false). Proved: tags are unique per key (C98_tags); Tensorboard gets exactly what is logged (C98_tensorboard, C98_window_mean); Weights & Biases if the keys differ. Images and videos are not modelled."
  },
  {
   "property": "C100",
   "status": "partial",
   "theorems": [
    "Verif.Curl.C100_update",
    "Verif.Curl.C100_frozen",
    "Verif.Curl.C100_false"
   ],
   "note": "False: C100_false; the generators of the weights are used up in the constructor, so the target never moves (C100_frozen). Proved: what the update does when it has the weights (C100_update)."
  },
  {
   "property": "C101",
   "status": "partial",
   "theorems": [
    "Verif.Curl.C101_cutout",
    "Verif.Curl.C101_modes",
    "Verif.Curl.C101_last",
    "Verif.Curl.C101_false"
   ],
   "note": "C101_cutout is the whole claim except that every place can be cut: the last row and column never are (C101_last, C101_false). Exact reals; the noise augmentation is not modelled."
  },
  {
   "property": "C109",
   "status": "partial",
   "theorems": [
    "Verif.Curl.C109_partial",
    "Verif.Curl.C109_positive",
    "Verif.Curl.C109_equal_maxima_partial",
    "Verif.Curl.C109_false"
   ],
   "note": "Proved with a temperature (C109_partial), positive (C109_positive), and without a temperature if all images have the same largest similarity (C109_equal_maxima_partial); otherwise false: the row maxima are subtracted from the columns (C109_false). Exact reals."
  },
  {
   "property": "C95",
   "status": "partial",
   "theorems": [
    "Verif.Genrl.C95_partial",
    "Verif.Genrl.C95_false"
   ],
   "note": "Proved: what is loaded (C95_partial, equal shapes); strict is ignored: C95_false. torch load_state_dict itself is modelled from its documentation."
  },
  {
   "property": "C96",
   "status": "partial",
   "theorems": [
    "Verif.Genrl.C96_partial",
    "Verif.Genrl.C96_columns",
    "Verif.Genrl.C96_transitions",
    "Verif.Genrl.C96_false"
   ],
   "note": "Proved: the delivered episodes (C96_partial, C96_columns) and the sampled batches end to end (C96_transitions); other outputs of the agents are dropped: C96_false."
  },
  {
   "property": "C97",
   "status": "partial",
   "theorems": [
    "Verif.LegacyFill.C97_partial",
    "Verif.LegacyFill.C97_episodes",
    "Verif.LegacyFill.C97_last",
    "Verif.LegacyFill.C97_false",
    "Verif.LegacyFill.C97_unsampleable"
   ],
   "note": "False: C97_last, C97_false (the last observation is read one row too far, so a dump that ends with an episode raises), C97_unsampleable (negative identities overflow in the uniform sampler). Proved: exactly which calls the memory gets (C97_partial, C97_episodes). Reading the file is not modelled."
  },
  {
   "property": "C102",
   "status": "proved",
   "theorems": [
    "Verif.Trunc.C102_bounds",
    "Verif.Trunc.C102_first",
    "Verif.Trunc.C102_ends",
    "Verif.Trunc.C102_law"
   ],
   "note": "C102_bounds, C102_first, C102_ends for every source of numbers; C102_law in the infinite product of normal laws, where each entry has its own sequence of draws."
  },
  {
   "property": "C110",
   "status": "proved",
   "theorems": [
    "Verif.LossStep.C110_step",
    "Verif.LossStep.C110_isolated",
    "Verif.LossStep.C110_others",
    "Verif.LossStep.C110_loss"
   ],
   "note": "C110_step, C110_isolated, C110_others, C110_loss. The optimizer is any function of its own state, rate, values and gradients; exact reals; the logs of single parameters are left out."
  },
  {
   "property": "C111",
   "status": "partial",
   "theorems": [
    "Verif.LossStep.C111_partial",
    "Verif.LossStep.C111_rate",
    "Verif.LossStep.C111_false"
   ],
   "note": "The loss and the unclipped norm are right, and the rate if the schedule is constant there (C111_partial); in general the logged rate is that of the next step (C111_rate, C111_false)."
  },
  {
   "property": "C112",
   "status": "proved",
   "theorems": [
    "Verif.Temp.C112_gradient",
    "Verif.Temp.C112_batch",
    "Verif.Temp.C112_direction",
    "Verif.Temp.C112_schedules"
   ],
   "note": "C112_gradient, C112_batch, C112_direction, C112_schedules; for plain gradient descent and exact reals. (The default Adam is not modelled.)"
  },
  {
   "property": "C113",
   "status": "partial",
   "theorems": [
    "Verif.Disc.C113_partial",
    "Verif.Disc.C113_penalty_partial",
    "Verif.Disc.C113_zero",
    "Verif.Disc.C113_false",
    "Verif.Disc.C113_best"
   ],
   "note": "For networks that treat rows separately: C113_partial, C113_penalty_partial, C113_zero, C113_best. False for others, e.g. with batch normalisation: C113_false. Exact reals; automatic differentiation is the derivative."
  },
  {
   "property": "C114",
   "status": "proved",
   "theorems": [
    "Verif.Importer.C114_paths",
    "Verif.Importer.C114_where",
    "Verif.Importer.C114_import",
    "Verif.Importer.C114_resume"
   ],
   "note": "C114_import, C114_resume, C114_paths. Disk as in C23; an archive can be decoded from its bytes (hypothesis on the zip format); temporary names are unused, as tempfile gives them."
  },
  {
   "property": "C115",
   "status": "proved",
   "theorems": [
    "Verif.Dqn.C115_loss",
    "Verif.Dqn.C115_zero",
    "Verif.Dqn.C115_range",
    "Verif.Dqn.C115_sizes",
    "Verif.Dqn.C115_towards_zero",
    "Verif.Dqn.C115_least"
   ],
   "note": "C115_loss, C115_zero, C115_least, C115_range. Exact reals; action numbers are exact (float32 is up to 2^24)."
  },
  {
   "property": "C116",
   "status": "proved",
   "theorems": [
    "Verif.Dqn.C116_converges",
    "Verif.Dqn.C116_greedy"
   ],
   "note": "C116_converges, C116_greedy. The network is a table and the fit exact (loss zero): the optimizer is idealised, everything else is the code. Rollouts of length 1."
  },
  {
   "property": "C117",
   "status": "proved",
   "theorems": [
    "Verif.SacPolicy.C117_loss",
    "Verif.SacPolicy.C117_least"
   ],
   "note": "Numbers are exact and the noise is standard normal. The critics are measurable and bounded functions."
  },
  {
   "property": "C118",
   "status": "partial",
   "theorems": [
    "Verif.DynSave.C118_file_false",
    "Verif.DynSave.C118_checkpoint_false",
    "Verif.DynSave.C118_partial",
    "Verif.DynSave.C118_catches_up_partial"
   ],
   "note": "False: the running means and variances that normalise inputs and targets are in neither the file nor the state dict (C118_file_false, C118_checkpoint_false). Holds if they are carried over (C118_partial); with further training the difference fades by 1 % per batch (C118_catches_up_partial)."
  },
  {
   "property": "C119",
   "status": "proved",
   "theorems": [
    "Verif.Ens.C119_forward",
    "Verif.Ens.C119_rows",
    "Verif.Ens.C119_sample",
    "Verif.Ens.C119_loss",
    "Verif.Ens.C119_loss_own_data",
    "Verif.Ens.C119_gradient"
   ],
   "note": "C119_forward, C119_rows, C119_sample, C119_loss, C119_loss_own_data, C119_gradient. Exact reals."
  },
  {
   "property": "C120",
   "status": "partial",
   "theorems": [
    "Verif.Ens.C120_partial",
    "Verif.Ens.C120_false"
   ],
   "note": "False: gradients are clipped by their norm over all members (C120_false). Holds as long as that norm stays below the limit (C120_partial), for gradient descent."
  },
  {
   "property": "C121",
   "status": "partial",
   "theorems": [
    "Verif.DetNet.C121_partial",
    "Verif.DetNet.C121_order",
    "Verif.DetNet.C121_single_row",
    "Verif.DetNet.C121_training",
    "Verif.DetNet.C121_loss",
    "Verif.DetNet.C121_total_false",
    "Verif.DetNet.C121_rows_false",
    "Verif.DetNet.C121_same_false"
   ],
   "note": "All three parts are false in training mode, the only one that the library ever uses: C121_total_false, C121_rows_false, C121_same_false. In evaluation mode all hold: C121_partial. In both modes the order of rows does not matter: C121_order; C121_single_row says exactly when a batch is refused, C121_training what training mode does to a block, C121_loss what the loss is."
  },
  {
   "property": "C122",
   "status": "proved",
   "theorems": [
    "Verif.Shared.C122_one_at_a_time",
    "Verif.Shared.C122_no_deadlock",
    "Verif.Shared.C122_memory"
   ],
   "note": "The body of every method is a program of single reads and writes of the table between taking and releasing the lock; that such a program run alone is the sequential method is proved (run_addInternal, run_sample, ...). Linearizability, progress, and the consequences for ordinary clients. Calls into strategy objects and column stores are single steps: only the table uses them."
  },
  {
   "property": "C123",
   "status": "partial",
   "theorems": [
    "Verif.Numerics.C123_partial",
    "Verif.Numerics.C123_middle",
    "Verif.Numerics.C123_ends",
    "Verif.Numerics.C123_false"
   ],
   "note": "C123_partial: the distance is at most (1/2 + ratio sqrt(2/pi)) bins; C123_middle: none in the middle of the range; equality for all targets fails (C123_false): values stay half a bin away from the ends (C123_ends)"
  },
  {
   "property": "C124",
   "status": "proved",
   "theorems": [
    "Verif.Mlp.C124_made",
    "Verif.Mlp.C124_initial",
    "Verif.Mlp.C124_policy",
    "Verif.Mlp.C124_eval",
    "Verif.Mlp.C124_refuses",
    "Verif.Mlp.C124_values",
    "Verif.Mlp.C124_shared",
    "Verif.Mlp.C124_agents",
    "Verif.Mlp.C124_nobody"
   ],
   "note": "broadcasting of dimensions of size 1 is not modelled"
  },
  {
   "property": "C125",
   "status": "partial",
   "theorems": [
    "Verif.Agent.C125_false",
    "Verif.Agent.C125_none",
    "Verif.Agent.C125_partial",
    "Verif.Agent.C125_agent_partial"
   ],
   "note": "fails: the wrapper returns None (C125_false, C125_none); names and failures pass through (C125_partial, C125_agent_partial)"
  },
  {
   "property": "C126",
   "status": "partial",
   "theorems": [
    "Verif.Traced.C126_inputs",
    "Verif.Traced.C126_live",
    "Verif.Traced.C126_file",
    "Verif.Traced.C126_when",
    "Verif.Traced.C126_partial",
    "Verif.Traced.C126_false",
    "Verif.Traced.C126_versions",
    "Verif.Traced.C126_gauss",
    "Verif.Traced.C126_needs_epsilon"
   ],
   "note": "fails: the arguments for tracing are drawn from the generator that training uses, so exports change what is trained afterwards (C126_false); without draws in training it holds (C126_partial), as do inputs, file contents and the state of the live policy; torch.onnx.export itself is assumed to record the function that the network computes"
  },
  {
   "property": "C127",
   "status": "partial",
   "theorems": [
    "Verif.SysLog.C127_usage",
    "Verif.SysLog.C127_partial",
    "Verif.SysLog.C127_false"
   ],
   "note": "fails for the first report of a resumed run, which divides by all steps since 0 (C127_false)"
  },
  {
   "property": "C128",
   "status": "proved",
   "theorems": [
    "Verif.SoftIter.C128_fit",
    "Verif.SoftIter.C128_critics",
    "Verif.SoftIter.C128_improves",
    "Verif.SoftIter.C128_best",
    "Verif.SoftIter.C128_linear"
   ],
   "note": "exact minimisation of the expected loss stands for training; critics whose values mix as their parameters do (C128_linear)"
  },
  {
   "property": "C129",
   "status": "partial",
   "theorems": [
    "Verif.WrapLog.C129_quiet",
    "Verif.WrapLog.C129_partial",
    "Verif.WrapLog.C129_false",
    "Verif.WrapLog.C129_names_false",
    "Verif.WrapLog.C129_names_partial"
   ],
   "note": "fails for the rate of the first cycle of a resumed run, which counts all observations before it (C129_false), and metrics with window lengths may share a name (C129_names_false); everything else that is written is shown exactly (C129_partial); for reports that do not make the wrapper raise (see C31)"
  },
  {
   "property": "C130",
   "status": "partial",
   "theorems": [
    "Verif.SacRun.C130_runs",
    "Verif.SacRun.C130_loaded",
    "Verif.SacRun.C130_any_file",
    "Verif.SacRun.C130_partial",
    "Verif.SacRun.C130_false"
   ],
   "note": "fails: target networks are in no checkpoint, the new process has copies of its own initial critics (C130_false, C130_loaded says exactly what is and is not restored); holds if the new process is given the target networks of the moment of the checkpoint and its schedules cannot be told apart from those of the first one (C130_partial)"
  },
  {
   "property": "C131",
   "status": "proved",
   "theorems": [
    "Verif.SacRun.C131"
   ],
   "note": "for the four losses, each once"
  },
  {
   "property": "C132",
   "status": "proved",
   "theorems": [
    "Verif.Props.Targets.C132_sac",
    "Verif.Props.Targets.C132_dqn"
   ],
   "note": "networks work row by row; exact arithmetic; episodes are delivered once per agent as in C77"
  },
  {
   "property": "C133",
   "status": "proved",
   "theorems": [
    "Verif.CurlRun.C133_untouched",
    "Verif.CurlRun.C133_step"
   ],
   "note": "tensors in a store with in-place writes; networks, derivatives and optimizer are arbitrary functions; the value of the logged loss is given for the temperature variant (for the other see C109)"
  },
  {
   "property": "C134",
   "status": "partial",
   "theorems": [
    "Verif.CurlRun.C134_partial",
    "Verif.CurlRun.C134_mismatch",
    "Verif.CurlRun.C134_false"
   ],
   "note": "false: _W is made with desired_zdim, so without a projection layer every batch raises unless the encoder has that size"
  },
  {
   "property": "C135",
   "status": "partial",
   "theorems": [
    "Verif.CurlRun.C135_partial",
    "Verif.CurlRun.C135_lost",
    "Verif.CurlRun.C135_false"
   ],
   "note": "false: network=None, so _W and both projection layers are in no state dict; optimizer state comes back"
  },
  {
   "property": "C136",
   "status": "partial",
   "theorems": [
    "Verif.Meta.C136_partial",
    "Verif.Meta.C136_loop_partial",
    "Verif.Meta.C136_loss_partial",
    "Verif.Meta.C136_false"
   ],
   "note": "false as to names: a class that is itself called Callback (or a subclass of LossCallback called LossCallback) has its own hooks taken for the empty ones and left unwrapped; proved for all other hierarchies with one callback base per class"
  },
  {
   "property": "C137",
   "status": "proved",
   "theorems": [
    "Verif.GymRun.C137",
    "Verif.GymRun.C137_accepts"
   ],
   "note": "for rewards as exact numbers and environments whose answers have one row per slot; the answers of the agent are any that have an action for every agent that goes on"
  },
  {
   "property": "C138",
   "status": "proved",
   "theorems": [
    "Verif.GymRun.C138"
   ],
   "note": "episodes shorter than the minimum length of the proxy are dropped, as its documentation says"
  },
  {
   "property": "C139",
   "status": "partial",
   "theorems": [
    "Verif.GymRun.C139_partial",
    "Verif.GymRun.C139_false"
   ],
   "note": "false: dict_reset does not clear the sums, so the reward of the probe step of begin_training is counted to the first episode of each slot; proved for slots that finished an episode since the reset, or were not stepped before it"
  },
  {
   "property": "C140",
   "status": "partial",
   "theorems": [
    "Verif.GymRun.C140_partial",
    "Verif.GymRun.C140_false"
   ],
   "note": "false: a truncated episode is marked as terminal; proved for terminated episodes"
  },
  {
   "property": "C141",
   "status": "partial",
   "theorems": [
    "Verif.GymRun.C141_partial",
    "Verif.GymRun.C141_false"
   ],
   "note": "false: a warm-up round counts as one step whatever the number of slots, and batches without collection count too; proved if every batch collects and there is no warm-up or one slot"
  },
  {
   "property": "C142",
   "status": "proved",
   "theorems": [
    "Verif.GymThreads.C142",
    "Verif.GymThreads.C142_accepts",
    "Verif.GymThreads.C142_complete"
   ],
   "note": "interleavings of atomic turns: a step of the environment together with the bookkeeping of the proxy is one, each insertion into the table is one (it holds the lock); the observations that the agent sees are read at the start of its turn"
  },
  {
   "property": "C143",
   "status": "proved",
   "theorems": [
    "Verif.GymThreads.C143"
   ],
   "note": "turns are counted as in C142; that each turn takes finite time is up to the environment and the agent"
  },
  {
   "property": "C144",
   "status": "partial",
   "theorems": [
    "Verif.GymThreads.C144_partial",
    "Verif.GymThreads.C144_false"
   ],
   "note": "false: the flag that ends the thread is never cleared, so in a second training with the same collector (on an environment that can be reset after close, such as a synchronous one) the thread ends at once; proved until the first end_training"
  },
  {
   "property": "C145",
   "status": "proved",
   "theorems": [
    "Verif.GymTargets.C145_dqn",
    "Verif.GymTargets.C145_sac",
    "Verif.GymTargets.C145_simple_dqn",
    "Verif.GymTargets.C145_simple_sac"
   ],
   "note": "windows of more than one step need the n-step table and a minimum length of the proxy, as in C132; networks are functions of the observation, arithmetic is exact; episodes that are cut off count as ended (C140)"
  },
  {
   "property": "C146",
   "status": "proved",
   "theorems": [
    "Verif.Props.EpsGreedy.C146",
    "Verif.Props.EpsGreedy.C146_calls"
   ],
   "note": "the generators give independent numbers, uniform in [0, 1) and in 0..d-1 (infinite product measures); the stream for integers is read only in rows that explore; exact numbers"
  },
  {
   "property": "C147",
   "status": "partial",
   "theorems": [
    "Verif.Props.EpsGreedy.C147_false",
    "Verif.Props.EpsGreedy.C147_partial"
   ],
   "note": "false: the distance to the target is only divided by e (about 2.7) in epsilon_decay_duration calls and never gets zero; proved: the rate starts at the initial value, never increases, stays above the target, tends to it, and is divided by e in that many calls"
  },
  {
   "property": "C148",
   "status": "proved",
   "theorems": [
    "Verif.Props.EjectLaw.C148"
   ],
   "note": "draws are independent and of the same law (infinite product measure); identities of stored sequences are in the range of int64, which is what numpy needs"
  },
  {
   "property": "C149",
   "status": "proved",
   "theorems": [
    "Verif.Props.EjectLaw.C149",
    "Verif.Props.EjectLaw.C149_only",
    "Verif.Props.EjectLaw.C149_uniform",
    "Verif.Props.EjectLaw.C149_generator",
    "Verif.Props.EjectLaw.C149_coverage"
   ],
   "note": "C149_generator and C149_coverage: with np.random.choice as it is implemented and independent numbers uniform in [0, 1). In C149, C149_uniform and C149_only: draws are independent, each stored sequence has a probability proportional to its weight; identities in the range of int64; exact numbers; picked sequences are listed in the order in which they are picked (the code puts them in a set)"
  },
  {
   "property": "C150",
   "status": "proved",
   "theorems": [
    "Verif.Props.RealDraws.C150",
    "Verif.Props.RealDraws.C150_transitions",
    "Verif.Props.RealDraws.C150_possible"
   ],
   "note": "np.random.choice is modelled as it is implemented (cumulative sum and search), random.random() as a number in [0, 1); exact numbers; the two generators are independent"
  },
  {
   "property": "C151",
   "status": "proved",
   "theorems": [
    "Verif.Props.BatchMean.C151",
    "Verif.Props.BatchMean.C151_variance",
    "Verif.Props.BatchMean.C151_limit",
    "Verif.Props.BatchMean.C151_transitions"
   ],
   "note": "model of C150, exact numbers; nothing is added or ejected between the batches; for windows of more than one transition the average over the memory has the weights of C150, which are not the same for all windows"
  },
  {
   "property": "C152",
   "status": "proved",
   "theorems": [
    "Verif.Props.RowMean.C152",
    "Verif.Props.RowMean.C152_fifo",
    "Verif.Props.RowMean.C152_transitions"
   ],
   "note": "composes the history model (C07, C09) with the sampling law of C150 and C151; exact numbers; nothing is added or ejected between the batches; identities fit into int64; for longer windows an episode counts in proportion to its length and its windows count the same"
  },
  {
   "property": "C153",
   "status": "partial",
   "theorems": [
    "Verif.CkptWrite.C153_partial",
    "Verif.CkptWrite.C153_restore_partial",
    "Verif.CkptWrite.C153_others",
    "Verif.CkptWrite.C153_torn_partial",
    "Verif.CkptWrite.C153_false",
    "Verif.CkptWrite.C153_complete_false"
   ],
   "note": "holds if the process is killed: finished checkpoints are complete and load as in the original run, at most the one that is being written is not, and loading that one raises before any object is changed; other files survive a loss of power too. Fails for a loss of power (C153_false: nothing is synced, so a finished checkpoint may be found empty) and for incomplete files (C153_complete_false: the file is written in place under its final name, so a kill leaves one that cannot be loaded)"
  },
  {
   "property": "C154",
   "status": "proved",
   "theorems": [
    "Verif.Props.CoverageRun.C154",
    "Verif.Props.CoverageRun.C154_succeeds"
   ],
   "note": "generators as independent uniform numbers in [0, 1) and exact arithmetic; sequences at least as long as the windows. That visits since the last change do not count is what C18_false is about"
  },
  {
   "property": "C155",
   "status": "proved",
   "theorems": [
    "Verif.Props.UniformRun.C155",
    "Verif.Props.UniformRun.C155_ends",
    "Verif.Props.UniformRun.C155_stored",
    "Verif.Props.UniformRun.C155_total"
   ],
   "note": "generators as independent uniform numbers in [0, 1) and exact arithmetic"
  },
  {
   "property": "C156",
   "status": "proved",
   "theorems": [
    "Verif.Props.TreeDraws.C156",
    "Verif.Props.TreeDraws.C156_total",
    "Verif.Props.TreeDraws.C156_often"
   ],
   "note": "random numbers independent and uniform in [0, 1), exact arithmetic; Python recursing deeper than the logarithm of the capacity"
  },
  {
   "property": "C157",
   "status": "proved",
   "theorems": [
    "Verif.Props.DqnMemory.C157_memory",
    "Verif.Props.DqnMemory.C157_fifo",
    "Verif.DqnRun.C157",
    "Verif.DqnRun.C157_greedy"
   ],
   "note": "deterministic environment, one-step targets, the network is a table of action values, plain gradient descent with learning rates of at most 1/2, exact numbers; automatic differentiation is taken to be the derivative"
  },
  {
   "property": "C158",
   "status": "proved",
   "theorems": [
    "Verif.Props.C158",
    "Verif.Props.C158_missing"
   ],
   "note": "the multiplication itself is any function on rows, so that the type promotion of tensors is left out"
  },
  {
   "property": "C159",
   "status": "partial",
   "theorems": [
    "Verif.DqnRun.C159_false",
    "Verif.DqnRun.C159_partial"
   ],
   "note": "false for the code: the target network is not saved, the new process trains towards a copy of its own untrained network (C159_false). Partial: in a deterministic environment that goes on being explored the networks of both runs come arbitrarily close to each other. Table network, plain gradient descent, rates of at most 1/2, exact numbers."
  },
  {
   "property": "C160",
   "status": "proved",
   "theorems": [
    "Verif.DqnRun.C160_unique",
    "Verif.DqnRun.C160",
    "Verif.DqnRun.C160_environment"
   ],
   "note": "table network, rollouts of length 1, plain gradient descent, learning rates of at most 1/2, exact numbers; the whole data set is the batch"
  },
  {
   "property": "C161",
   "status": "proved",
   "theorems": [
    "Verif.Dyn.C161",
    "Verif.Dyn.C161_bound",
    "Verif.Dyn.C161_single"
   ],
   "note": "real numbers with nan; networks that treat each row for itself, as DeterministicModel in evaluation mode (C121)"
  },
  {
   "property": "C162",
   "status": "partial",
   "theorems": [
    "Verif.Crud.C162_partial",
    "Verif.Crud.C162_gone_partial",
    "Verif.Crud.C162_false"
   ],
   "note": "an update that has looked up its item before the item is deleted writes the file again afterwards, and it stays (C162_false); without updates of the item it is gone (C162_gone_partial), and all else is proved (C162_partial). Calls: create_with_data, update, delete, get, items, latest; create_with_saver with a saver of the caller and create_from_filepath are left out, they may write anywhere. Opening and writing a file is one step of the model, so a half-written file during an update is not seen"
  },
  {
   "property": "C163",
   "status": "proved",
   "theorems": [
    "Verif.SacCritics.C163_unique",
    "Verif.SacCritics.C163",
    "Verif.SacCritics.C163_agree"
   ],
   "note": "the policy gives one action for each observation (no noise) and does not change, nor does the temperature; critics with one number per cell; plain gradient descent; exact numbers"
  },
  {
   "property": "C164",
   "status": "proved",
   "theorems": [
    "Verif.SacCritics.C164",
    "Verif.Props.SacMemory.C164_memory",
    "Verif.Props.SacMemory.C164_fifo"
   ],
   "note": "the policy gives one action for each observation (no noise) and does not change, nor does the temperature; tables as critics; plain gradient descent; exact numbers"
  },
  {
   "property": "C165",
   "status": "proved",
   "theorems": [
    "Verif.HlGaussRun.C165",
    "Verif.HlGaussRun.C165_fixed",
    "Verif.HlGaussRun.C165_logged"
   ],
   "note": "the logits are a table (one row for each input that the network tells apart); plain gradient descent; exact numbers; targets are given and do not move (as in C123, which says how far the values are from the targets)"
  },
  {
   "property": "C166",
   "status": "proved",
   "theorems": [
    "Verif.Props.Explore.C166",
    "Verif.Props.Explore.C166_ends",
    "Verif.Props.Explore.C166_learns",
    "Verif.Props.Explore.C166_own"
   ],
   "note": "observations are countable; learning is shown for the table of C157, with batches of the steps of the last call instead of samples from a memory (see C157_memory for those), and plain gradient descent"
  },
  {
   "property": "C167",
   "status": "proved",
   "theorems": [
    "Verif.Props.Starve.C167"
   ],
   "note": "for histories whose sequences are at least as long as the windows and in which something is stored at each draw; numbers are real"
  },
  {
   "property": "C168",
   "status": "proved",
   "theorems": [
    "Verif.Dyn.C168"
   ],
   "note": "numbers are real; batches of two rows or more (a batch of one row makes the standard deviation nan for ever, see C65)"
  },
  {
   "property": "C169",
   "status": "proved",
   "theorems": [
    "Verif.Props.Gone.C169_additions",
    "Verif.Props.Survive.C169"
   ],
   "note": "both strategies uniform; sequences with new identities that fit into the memory and are not shorter than the windows, as in C155"
  },
  {
   "property": "C170",
   "status": "proved",
   "theorems": [
    "Verif.Props.LeftOut.C170",
    "Verif.Props.LeftOut.C170_transitions"
   ],
   "note": "both strategies uniform; sequences with new identities that fit into the memory and are not shorter than the windows, as in C155"
  },
  {
   "property": "C171",
   "status": "proved",
   "theorems": [
    "Verif.Props.DqnCoverage.C171",
    "Verif.Props.DqnCoverage.C171_sac"
   ],
   "note": "tabular network with plain gradient steps and deterministic environment as in C157; the content of a sequence is a function of its identity"
  },
  {
   "property": "C172",
   "status": "proved",
   "theorems": [
    "Verif.Props.UniformDraws.C172",
    "Verif.Props.UniformDraws.C172_dqn",
    "Verif.Props.UniformDraws.C172_sac"
   ],
   "note": "history of the sampler and its table only (tracking, forgetting, sampling); for learning, tabular networks with plain gradient steps and deterministic environment as in C157 and C164"
  },
  {
   "property": "C173",
   "status": "proved",
   "theorems": [
    "Verif.Props.MemoryDraws.C173",
    "Verif.Props.MemoryDraws.C173_dqn",
    "Verif.Props.MemoryDraws.C173_sac"
   ],
   "note": "uniform sampler and FIFO ejector; batches are drawn only when something is stored, added episodes fit the memory and are long enough; for learning, tabular networks with plain gradient steps and deterministic environment as in C157 and C164"
  },
  {
   "property": "C174",
   "status": "proved",
   "theorems": [
    "Verif.Props.MemoryDraws.C174",
    "Verif.Props.MemoryDraws.C174_unseen",
    "Verif.Props.MemoryDraws.C174_each"
   ],
   "note": "uniform sampler and FIFO ejector; batches are drawn only when something is stored, added episodes fit the memory and are long enough; the random numbers are independent and uniform; the bound for what is never shown is for windows of one transition"
  },
  {
   "property": "C175",
   "status": "proved",
   "theorems": [
    "Verif.Props.MemoryDraws.C175",
    "Verif.Props.MemoryDraws.C175_transitions",
    "Verif.Props.MemoryDraws.C175_variance",
    "Verif.Props.MemoryDraws.C175_near"
   ],
   "note": "uniform sampler and FIFO ejector; batches are drawn only when something is stored, added episodes fit the memory and are long enough; the random numbers are independent and uniform"
  }
 ]
}